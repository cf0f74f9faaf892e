/-
What a bridge does to the states: the three steps together.
-/
import Verif.Lemmas.Bridge
import Verif.Spec.Bridge
import Verif.Spec.Conserve

namespace Verif

open Spec Props

/-- the states after adding or dropping optical channels -/
noncomputable def VS.optical (c next : Circ) (s : VS) : List VS :=
  if next.g.C > c.g.C then [s.pad (next.g.C - c.g.C) 0] else if next.g.C < c.g.C then s.drop c.g (List.range next.g.C) (List.range c.m) else [s]

/-- other classical channels -/
def VS.setCls (m : ℕ) (s : VS) : VS := { s with classical := (List.range m).map (fun n => s.classical.getD n 0) }

theorem range_getD {l : List ℝ} {m : ℕ} (h : l.length = m) : (List.range m).map (fun n => l.getD n 0) = l := by
  apply List.ext_getElem
  · simp [h]
  · intro i hi hi'
    simp only [List.getElem_map, List.getElem_range]
    rw [List.getD_eq_getElem?_getD, List.getElem?_eq_getElem hi', Option.getD_some]

theorem VS.setCls_same {g : Cfg} {m : ℕ} {s : VS} (h : s.Good g m) : s.setCls m = s := by
  rw [VS.setCls, range_getD h.cls]

theorem getD_append_zero (l : List ℝ) (k n : ℕ) : (l ++ List.replicate k 0).getD n 0 = l.getD n 0 := by
  by_cases h : n < l.length
  · rw [List.getD_eq_getElem?_getD, List.getD_eq_getElem?_getD, List.getElem?_append_left h]
  · rw [List.getD_eq_getElem?_getD, List.getD_eq_getElem?_getD, List.getElem?_append_right (by omega), List.getElem?_eq_none (l := l) (by omega),
      List.getElem?_replicate]
    split <;> rfl

theorem VS.pad_classical {g : Cfg} {m : ℕ} {s : VS} (h : s.Good g m) (k : ℕ) : s.pad 0 k = s.setCls (m + k) := by
  have h1 : (List.range (m + k)).map (fun n => s.classical.getD n 0) = s.classical ++ List.replicate k 0 := by
    have := range_getD (l := s.classical ++ List.replicate k 0) (m := m + k) (by simp [h.cls])
    rw [← this]
    apply List.map_congr_left
    intro n _
    rw [getD_append_zero]
  rw [VS.pad, VS.setCls, h1]
  simp

theorem optical_good {c next : Circ} (hg : c.g.Ok) {s : VS} (h : s.Good c.g c.m) :
    ∀ s' ∈ s.optical c next, s'.Good ⟨c.g.L, next.g.C, c.g.left⟩ c.m := by
  intro s' hs'
  unfold VS.optical at hs'
  split at hs'
  · obtain rfl := List.mem_singleton.1 hs'
    have := h.pad hg.1 (next.g.C - c.g.C) 0
    rwa [show extCfg c.g (next.g.C - c.g.C) = ⟨c.g.L, next.g.C, c.g.left⟩ by rw [extCfg]; congr 1; omega, Nat.add_zero] at this
  · split at hs'
    · have := h.drop (ckeep := List.range c.m) (keep := List.range next.g.C) (by intro k hk; have := List.mem_range.1 hk; omega) s' hs'
      rwa [show keptCfg c.g (List.range next.g.C) = ⟨c.g.L, next.g.C, c.g.left⟩ by rw [keptCfg, List.length_range], List.length_range] at this
    · obtain rfl := List.mem_singleton.1 hs'
      rwa [show next.g.C = c.g.C by omega]

theorem setCls_good {g : Cfg} {m m' : ℕ} {s : VS} (h : s.Good g m) : (s.setCls m').Good g m' :=
  ⟨h.ok, h.total, h.probs, h.nz, h.cum0, h.cum1, by simp [VS.setCls]⟩

theorem optical_ne_nil {c next : Circ} {s : VS} (h : s.Good c.g c.m) : s.optical c next ≠ [] := by
  unfold VS.optical
  split
  · simp
  · split
    · obtain ⟨a, l', hal⟩ := List.exists_cons_of_ne_nil h.ne_nil
      have ha : a ∈ s.l := by rw [hal]; simp
      have := (mem_tracedKeys (g := c.g) (keep := List.range next.g.C)).2 ⟨a, ha, rfl⟩
      intro e
      rw [VS.drop, List.map_eq_nil_iff] at e
      rw [e] at this
      cases this
    · simp

theorem reshape_reps {c next : Circ} {coll : Coll} {vs : List VS} (hg : c.g.Ok) (hg' : next.g.Ok) (hthr : 0 < c.thr) (hm : 0 < next.m ∨ c.m = 0)
    (h : Reps ⟨c.g, c.m, c.thr, coll⟩ vs) (hne : coll ≠ []) (hfit : ∀ s ∈ vs, ∀ p ∈ s.l, ∀ x ∈ p.1, x < next.g.L)
    (hbig1 : next.g.C > c.g.C → ∀ s ∈ vs, c.thr ≤ s.cum) (hbig2 : next.m > c.m → ∀ s ∈ vs, ∀ s' ∈ s.optical c next, c.thr ≤ s'.cum) (r r' : ℕ → ℕ → ℕ) :
    ∃ out, reshape c next r r' coll = some out ∧ out.g = ⟨next.g.L, next.g.C, c.g.left⟩ ∧ out.m = next.m ∧ out.thr = c.thr ∧
      Reps out (vs.flatMap (fun s => (s.optical c next).map (VS.setCls next.m))) := by
  have hcopy : copyColl c.thr c.m coll = some coll := by
    refine (copyColl_iff h.ids).2 ⟨?_, rfl⟩
    intro p hp
    obtain ⟨s, hs, e⟩ := h.mem hp
    rw [e]; exact (h.good s hs).check hthr.le
  -- optical channels
  obtain ⟨b, hb, bg, bm, bt, hbr⟩ : ∃ b, (if next.g.C > c.g.C then extendColl ⟨c.g, c.m, c.thr, coll⟩ (next.g.C - c.g.C) 0 [] r
        else if next.g.C < c.g.C then reduceColl ⟨c.g, c.m, c.thr, coll⟩ (List.range next.g.C) [] else some ⟨c.g, c.m, c.thr, coll⟩) = some b ∧
      b.g = ⟨c.g.L, next.g.C, c.g.left⟩ ∧ b.m = c.m ∧ b.thr = c.thr ∧ Reps b (vs.flatMap (VS.optical c next)) := by
    by_cases h1 : next.g.C > c.g.C
    · rw [if_pos h1]
      obtain ⟨b, hb, bg, bm, bt, hbr⟩ := extend_reps hg hthr h (hbig1 h1) (next.g.C - c.g.C) 0 (by omega) r
      refine ⟨b, hb, ?_, bm, bt, ?_⟩
      · rw [bg, extCfg]
        congr 1
        show c.g.C + _ = _
        omega
      · have : vs.flatMap (VS.optical c next) = vs.map (VS.pad (next.g.C - c.g.C) 0) := by
          rw [List.map_eq_flatMap]
          congr 1
          funext s
          rw [VS.optical, if_pos h1]
        rw [this]; exact hbr
    · rw [if_neg h1]
      by_cases h2 : next.g.C < c.g.C
      · rw [if_pos h2]
        have hr : List.range next.g.C ≠ [] := by
          have := hg'.2
          simp; omega
        obtain ⟨b, hb, bg, bm, bt, hbr⟩ := reduce_reps (keep := List.range next.g.C) (ckeep := []) hthr.le h hne (by
            rw [orAll, if_neg hr]
            intro k hk; have := List.mem_range.1 hk; show k < c.g.C; omega) (by
            rw [orAll, if_pos rfl]
            intro k hk; exact List.mem_range.1 hk) (by
            rw [orAll, if_neg hr, keptCfg, List.length_range]
            exact ⟨hg.1, hg'.2⟩)
        refine ⟨b, hb, ?_, ?_, bt, ?_⟩
        · rw [bg, orAll, if_neg hr, keptCfg, List.length_range]
        · rw [bm, orAll, if_pos rfl, List.length_range]
        · have : vs.flatMap (VS.optical c next) = vs.flatMap (VS.drop c.g (orAll c.g.C (List.range next.g.C)) (orAll c.m [])) := by
            congr 1
            funext s
            rw [VS.optical, if_neg h1, if_pos h2, orAll, if_neg hr, orAll, if_pos rfl]
          rw [this]; exact hbr
      · rw [if_neg h2]
        have hC : next.g.C = c.g.C := by omega
        refine ⟨_, rfl, by rw [hC], rfl, rfl, ?_⟩
        have : vs.flatMap (VS.optical c next) = vs := by
          conv_rhs => rw [← List.map_id vs, List.map_eq_flatMap]
          congr 1
          funext s
          rw [VS.optical, if_neg h1, if_neg h2]; rfl
        rw [this]; exact h
  set vs1 := vs.flatMap (VS.optical c next) with hvs1
  have hbne : b.states ≠ [] := by
    intro e
    have := hbr.eq
    rw [e, List.map_nil] at this
    have h2 : vs1 = [] := by simpa using this.symm
    obtain ⟨s, vs', rfl⟩ : ∃ s vs', vs = s :: vs' := by
      cases vs with
      | nil =>
        have := h.eq
        simp at this
        exact absurd this hne
      | cons s vs' => exact ⟨s, vs', rfl⟩
    rw [hvs1, List.flatMap_cons, List.append_eq_nil_iff] at h2
    exact optical_ne_nil (h.good s (by simp)) h2.1
  have hbok : b.g.Ok := by rw [bg]; exact ⟨hg.1, hg'.2⟩
  -- classical channels
  obtain ⟨d, hd, dg, dm, dt, hdr⟩ : ∃ d, (if next.m > c.m then extendColl b 0 (next.m - c.m) [] r'
        else if next.m < c.m then reduceColl b [] (List.range next.m) else some b) = some d ∧
      d.g = b.g ∧ d.m = next.m ∧ d.thr = c.thr ∧ Reps d (vs1.map (VS.setCls next.m)) := by
    by_cases h1 : next.m > c.m
    · rw [if_pos h1]
      obtain ⟨d, hd, dg, dm, dt, hdr⟩ := extend_reps hbok (by rw [bt]; exact hthr) hbr (by
        intro s hs
        obtain ⟨s', hs', hs⟩ := List.mem_flatMap.1 hs
        rw [bt]
        exact hbig2 h1 s' hs' s hs) 0 (next.m - c.m) (by omega) r'
      refine ⟨d, hd, by rw [dg]; rfl, by rw [dm, bm]; omega, by rw [dt, bt], ?_⟩
      have : vs1.map (VS.setCls next.m) = vs1.map (VS.pad 0 (next.m - c.m)) := by
        apply List.map_congr_left
        intro s hs
        rw [VS.pad_classical (hbr.good s hs), bm, show c.m + (next.m - c.m) = next.m by omega]
      rw [this]; exact hdr
    · rw [if_neg h1]
      by_cases h2 : next.m < c.m
      · rw [if_pos h2]
        have hr : List.range next.m ≠ [] := by simp; omega
        have e1 : orAll b.g.C [] = List.range b.g.C := if_pos rfl
        have e2 : orAll b.m (List.range next.m) = List.range next.m := if_neg hr
        have e3 : keptCfg b.g (List.range b.g.C) = b.g := by rw [keptCfg, List.length_range]
        obtain ⟨d, hd, dg, dm, dt, hdr⟩ := reduce_reps (keep := []) (ckeep := List.range next.m) (by rw [bt]; exact hthr.le) hbr hbne (by
            rw [e1]
            intro k hk; exact List.mem_range.1 hk) (by
            rw [e2]
            intro k hk; have := List.mem_range.1 hk; omega) (by
            rw [e1, e3]
            exact hbok)
        refine ⟨d, hd, by rw [dg, e1, e3], by rw [dm, e2, List.length_range], by rw [dt, bt], ?_⟩
        have : vs1.map (VS.setCls next.m) = vs1.flatMap (VS.drop b.g (orAll b.g.C []) (orAll b.m (List.range next.m))) := by
          rw [List.map_eq_flatMap]
          apply List.flatMap_congr
          intro s hs
          rw [e1, e2, VS.drop_all (hbr.good s hs)]; rfl
        rw [this]; exact hdr
      · rw [if_neg h2]
        have hmm : next.m = c.m := by omega
        refine ⟨b, rfl, rfl, by rw [bm, hmm], bt, ?_⟩
        have : vs1.map (VS.setCls next.m) = vs1 := by
          conv_rhs => rw [← List.map_id vs1]
          apply List.map_congr_left
          intro s hs
          rw [hmm, ← bm, VS.setCls_same (hbr.good s hs)]; rfl
        rw [this]; exact hbr
  -- length
  obtain ⟨e, he, eg, em, et, her⟩ := adjust_reps (n := next.g.L) hg'.1 (by rw [dg]; exact hbok.2) (by rw [dt]; exact hthr.le) hdr (by
    intro s hs p hp x hx
    obtain ⟨s1, hs1, rfl⟩ := List.mem_map.1 hs
    obtain ⟨s0, hs0, hs1⟩ := List.mem_flatMap.1 hs1
    have hp : p ∈ s1.l := hp
    unfold VS.optical at hs1
    split at hs1
    · obtain rfl := List.mem_singleton.1 hs1
      obtain ⟨y, hy, rfl⟩ := List.mem_map.1 hp
      rcases List.mem_append.1 hx with hx | hx
      · exact hfit s0 hs0 y hy x hx
      · rw [List.eq_of_mem_replicate hx]; exact hg'.1
    · split at hs1
      · obtain ⟨t, ht, rfl⟩ := List.mem_map.1 hs1
        obtain ⟨y, hy, rfl⟩ := List.mem_map.1 hp
        obtain ⟨z, hz, rfl⟩ := List.mem_map.1 hy
        obtain ⟨k, hk, rfl⟩ := List.mem_map.1 hx
        have hz' := (List.mem_filter.1 hz).1
        have hlen := ((h.good s0 hs0).ok.valid z hz').1
        have hk' : k < z.1.length := by
          rw [hlen]; have := List.mem_range.1 hk; show k < c.g.C; omega
        rw [List.getD_eq_getElem?_getD, List.getElem?_eq_getElem hk', Option.getD_some]
        exact hfit s0 hs0 z hz' _ (List.getElem_mem hk')
      · obtain rfl := List.mem_singleton.1 hs1
        exact hfit s1 hs0 p hp x hx)
  refine ⟨e, reshape_parts.2 ⟨coll, b, d, hcopy, hb, hd, he⟩, by rw [eg, dg, bg]; rfl, by rw [em, dm], by rw [et, dt], ?_⟩
  have : vs.flatMap (fun s => (s.optical c next).map (VS.setCls next.m)) = vs1.map (VS.setCls next.m) := by
    rw [hvs1, List.map_flatMap]
  rw [this]
  exact her

/-! ### amplitudes and probabilities -/

theorem ampV_tracedState {g : Cfg} {keep : List ℕ} (hk : ∀ c ∈ keep, c < g.C) {l : VComps} (hl : VOk g l) {v w : Vals} (hv : Valid g v) (hw : Valid g w)
    (hs : SameOutside g keep v w) (P : ℝ) :
    ampV ((tracedComps g keep l (dropName g keep v)).map (scaleComp P)) (select keep w) = ampV l w * (Real.sqrt (1 / P) : ℝ) := by
  show ampV _ (keepVals keep w) = _
  rw [ampV_traced hk hl]
  congr 1
  rw [ampV_eq_sum hl.nodup, tracedItems]
  have hd := (sameOutside_iff hv hw).1 hs
  have key : ∀ m : VComps, (∀ p ∈ m, Valid g p.1) → ((m.filter (fun p => dropName g keep p.1 = dropName g keep v)).map
      (fun p => if keepVals keep p.1 = keepVals keep w then p.2.amp else 0)).sum
      = (m.map (fun p => if p.1 = w then p.2.amp else 0)).sum := by
    intro m
    induction m with
    | nil => intro _; rfl
    | cons x m ih =>
      intro hm
      have ih := ih (fun p hp => hm p (by simp [hp]))
      have hx := hm x (by simp)
      rw [List.map_cons, List.sum_cons, ← ih, List.filter_cons]
      by_cases hxw : x.1 = w
      · rw [if_pos (by simp [hxw, hd]), List.map_cons, List.sum_cons, if_pos (by rw [hxw]), if_pos hxw]
      · rw [if_neg hxw, zero_add]
        by_cases hx' : dropName g keep x.1 = dropName g keep v
        · rw [if_pos (by simp [hx']), List.map_cons, List.sum_cons, if_neg, zero_add]
          intro e
          exact hxw (keep_drop_inj hx hw e (hx'.trans hd))
        · rw [if_neg (by simp [hx'])]
  exact key l hl.valid

theorem outsideProb_all {g : Cfg} {n : ℕ} (hn : g.C ≤ n) {l : VComps} (hl : VOk g l) {v : Vals} (hv : Valid g v) :
    outsideProb g (List.range n) (enc g l) v = (l.map (fun p => ‖p.2.amp‖ ^ 2)).sum := by
  rw [outsideProb_enc hl hv, tracedProb, tracedItems, List.filter_eq_self.2]
  intro p hp
  have := (sameOutside_iff (keep := List.range n) (hl.valid p hp) hv).1 (by
    intro c hc hcn
    exact absurd (List.mem_range.2 (by omega)) hcn)
  simpa using this

theorem select_long {g : Cfg} {n : ℕ} (hn : g.C ≤ n) {w : Vals} (hw : Valid g w) : select (List.range n) w = w ++ List.replicate (n - g.C) 0 := by
  apply List.ext_getElem
  · simp [select, hw.1]; omega
  · intro i hi hi'
    simp only [select, List.getElem_map, List.getElem_range]
    by_cases h : i < w.length
    · rw [List.getD_eq_getElem?_getD, List.getElem?_eq_getElem h, List.getElem_append_left h, Option.getD_some]
    · rw [List.getD_eq_getElem?_getD, List.getElem?_eq_none (by omega), List.getElem_append_right (by omega), List.getElem_replicate, Option.getD_none]

/-- `s'` arrives from `s` with the lost photon numbers of `v` -/
structure ArrV (c next : Circ) (s : VS) (v : Vals) (s' : VS) : Prop where
  initial : s'.initial = s.initial
  results : s'.results = s.results
  classical : s'.classical = s.classical
  cum : s'.cum = s.cum * lostProb c next (s.toQ c.g) v
  amps : ∀ w, Valid c.g w → SameOutside c.g (List.range next.g.C) v w →
    ampV s'.l (select (List.range next.g.C) w) = ampV s.l w * (Real.sqrt (1 / lostProb c next (s.toQ c.g) v) : ℝ)

theorem arrV_long {c next : Circ} {s : VS} (hC : c.g.C ≤ next.g.C) (h : s.Good c.g c.m) {v : Vals} (hv : Valid c.g v) {s' : VS}
    (hs' : s' ∈ s.optical c next) : ArrV c next s v s' := by
  have hP : lostProb c next (s.toQ c.g) v = 1 := by
    rw [lostProb]
    exact (outsideProb_all hC h.ok hv).trans h.total
  have e : s' = s.pad (next.g.C - c.g.C) 0 := by
    unfold VS.optical at hs'
    split at hs'
    · exact List.mem_singleton.1 hs'
    · rw [if_neg (by omega)] at hs'
      have : next.g.C - c.g.C = 0 := by omega
      rw [List.mem_singleton.1 hs', this]
      simp [VS.pad]
  subst e
  refine ⟨rfl, rfl, by simp [VS.pad], by rw [hP, mul_one]; rfl, ?_⟩
  intro w hw _
  rw [hP, select_long hC hw]
  show ampV (s.l.map _) _ = _
  rw [ampV_ext h.ok hw, if_pos rfl]
  simp

theorem arrV_short {c next : Circ} {s : VS} (hC : next.g.C < c.g.C) (h : s.Good c.g c.m) {v : Vals} (hv : Valid c.g v) :
    ArrV c next s v ⟨s.initial, s.cum * tracedProb c.g (List.range next.g.C) s.l (dropName c.g (List.range next.g.C) v),
      (tracedComps c.g (List.range next.g.C) s.l (dropName c.g (List.range next.g.C) v)).map
        (scaleComp (tracedProb c.g (List.range next.g.C) s.l (dropName c.g (List.range next.g.C) v))), (List.range c.m).map (fun n => s.classical.getD n 0), s.results⟩ := by
  have hP : lostProb c next (s.toQ c.g) v = tracedProb c.g (List.range next.g.C) s.l (dropName c.g (List.range next.g.C) v) :=
    outsideProb_enc h.ok hv
  refine ⟨rfl, rfl, range_getD h.cls, by rw [hP], ?_⟩
  intro w hw hs
  rw [hP]
  exact ampV_tracedState (by intro k hk; have := List.mem_range.1 hk; omega) h.ok hv hw hs _

theorem arrV_source {c next : Circ} (hg : c.g.Ok) {s : VS} (h : s.Good c.g c.m) {s' : VS} (hs' : s' ∈ s.optical c next) :
    ∃ v, Valid c.g v ∧ lostProb c next (s.toQ c.g) v ≠ 0 ∧ ArrV c next s v s' := by
  by_cases hC : c.g.C ≤ next.g.C
  · have hv : Valid c.g (List.replicate c.g.C 0) := ⟨by simp, by intro x hx; rw [List.eq_of_mem_replicate hx]; exact hg.1⟩
    refine ⟨_, hv, ?_, arrV_long hC h hv hs'⟩
    rw [lostProb]
    have := (outsideProb_all hC h.ok hv).trans h.total
    rw [show (s.toQ c.g).comps = enc c.g s.l from rfl, this]
    exact one_ne_zero
  · unfold VS.optical at hs'
    rw [if_neg (by omega), if_pos (by omega)] at hs'
    obtain ⟨t, ht, rfl⟩ := List.mem_map.1 hs'
    have hpos := tracedProb_pos h _ ht
    obtain ⟨p, hp, rfl⟩ := mem_tracedKeys.1 ht
    have hv := h.ok.valid p hp
    refine ⟨p.1, hv, ?_, arrV_short (by omega) h hv⟩
    rw [lostProb, show (s.toQ c.g).comps = enc c.g s.l from rfl, outsideProb_enc h.ok hv]
    exact hpos.ne'

theorem arrV_target {c next : Circ} {s : VS} (h : s.Good c.g c.m) {v : Vals} (hv : Valid c.g v) (hP : lostProb c next (s.toQ c.g) v ≠ 0) :
    ∃ s' ∈ s.optical c next, ArrV c next s v s' := by
  by_cases hC : c.g.C ≤ next.g.C
  · obtain ⟨s', l', e⟩ := List.exists_cons_of_ne_nil (optical_ne_nil (next := next) h)
    have hm : s' ∈ s.optical c next := by rw [e]; simp
    exact ⟨s', hm, arrV_long hC h hv hm⟩
  · refine ⟨_, ?_, arrV_short (by omega) h hv⟩
    unfold VS.optical
    rw [if_neg (by omega), if_pos (by omega)]
    refine List.mem_map.2 ⟨dropName c.g (List.range next.g.C) v, ?_, rfl⟩
    have hP' : tracedProb c.g (List.range next.g.C) s.l (dropName c.g (List.range next.g.C) v) ≠ 0 := by
      rw [← outsideProb_enc h.ok hv]; exact hP
    by_contra hnot
    apply hP'
    rw [tracedProb, tracedItems, List.filter_eq_nil_iff.2]
    · rfl
    · intro p hp hd
      exact hnot (mem_tracedKeys.2 ⟨p, hp, by simpa using hd⟩)

theorem optical_sum {c next : Circ} {s : VS} (h : s.Good c.g c.m) : ((s.optical c next).map (fun s' => s'.cum)).sum = s.cum := by
  unfold VS.optical
  split
  · simp [VS.pad]
  · split
    · rw [VS.drop, List.map_map]
      have : ((fun s' : VS => s'.cum) ∘ fun t => (⟨s.initial, s.cum * tracedProb c.g (List.range next.g.C) s.l t,
          (tracedComps c.g (List.range next.g.C) s.l t).map (scaleComp (tracedProb c.g (List.range next.g.C) s.l t)),
          (List.range c.m).map (fun n => s.classical.getD n 0), s.results⟩ : VS)) = fun t => s.cum * tracedProb c.g (List.range next.g.C) s.l t := rfl
      rw [this, List.sum_map_mul_left, sum_tracedProb, h.total, mul_one]
    · simp

theorem optical_initial {c next : Circ} {s s' : VS} (h : s' ∈ s.optical c next) : s'.initial = s.initial := by
  unfold VS.optical at h
  split at h
  · rw [List.mem_singleton.1 h]; rfl
  · split at h
    · obtain ⟨t, _, rfl⟩ := List.mem_map.1 h; rfl
    · rw [List.mem_singleton.1 h]

/-- a collection of valid normalised states without zero amplitudes, in terms of photon numbers -/
theorem exists_reps {g : Cfg} {m : ℕ} {thr : ℝ} {coll : Coll} (hn : Normalised g m coll) (hz : NoZeros coll) :
    ∃ vs, Reps ⟨g, m, thr, coll⟩ vs := by
  have key : ∀ st : Coll, (∀ p ∈ st, (Measurable g m p.2 ∧ totalProb p.2.comps = 1) ∧ ∀ e ∈ p.2.comps, e.2.amp ≠ 0) →
      ∃ vs : List VS, st.map Prod.snd = vs.map (VS.toQ g) ∧ ∀ s ∈ vs, s.Good g m := by
    intro st
    induction st with
    | nil => intro _; exact ⟨[], rfl, by simp⟩
    | cons p st ih =>
      intro h
      obtain ⟨vs, h1, h2⟩ := ih (fun p hp => h p (by simp [hp]))
      obtain ⟨⟨hm, ht⟩, hz⟩ := h p (by simp)
      obtain ⟨l, hl, e⟩ := exists_enc hm.wf
      refine ⟨⟨p.2.initial, p.2.cum, l, p.2.classical, p.2.results⟩ :: vs, ?_, ?_⟩
      · rw [List.map_cons, List.map_cons, h1]
        congr 1
        rw [VS.toQ]
        rw [← e]
      · intro s hs
        rcases List.mem_cons.1 hs with rfl | hs
        · refine ⟨hl, ?_, ?_, ?_, hm.cum0, hm.cum1, hm.classical⟩
          · rw [e, totalProb_enc] at ht; exact ht
          · intro x hx
            exact hm.probs (g.stdName x.1, x.2) (by rw [e]; exact List.mem_map.2 ⟨x, hx, rfl⟩)
          · intro x hx
            exact hz (g.stdName x.1, x.2) (by rw [e]; exact List.mem_map.2 ⟨x, hx, rfl⟩)
        · exact h2 s hs
  obtain ⟨vs, h1, h2⟩ := key coll (fun p hp => ⟨hn.states p hp, hz p hp⟩)
  exact ⟨vs, hn.ids, h1, h2⟩

theorem Reps.normalised {cl : Collection} {vs : List VS} (h : Reps cl vs) : Normalised cl.g cl.m cl.states ∧ NoZeros cl.states := by
  refine ⟨⟨h.ids, ?_⟩, ?_⟩
  · intro p hp
    obtain ⟨s, hs, e⟩ := h.mem hp
    have hgd := h.good s hs
    have ht : totalProb (s.toQ cl.g).comps = 1 := by
      rw [show (s.toQ cl.g).comps = enc cl.g s.l from rfl, totalProb_enc, hgd.total]
    rw [e]
    refine ⟨⟨hgd.wf, ?_, ht.le, hgd.cum0, hgd.cum1, hgd.cls⟩, ht⟩
    intro x hx
    obtain ⟨y, hy, rfl⟩ := List.mem_map.1 hx
    exact hgd.probs y hy
  · intro p hp x hx
    obtain ⟨s, hs, e⟩ := h.mem hp
    rw [e] at hx
    obtain ⟨y, hy, rfl⟩ := List.mem_map.1 hx
    exact (h.good s hs).nz y hy

theorem Reps.of_mem {cl : Collection} {vs : List VS} (h : Reps cl vs) {s : VS} (hs : s ∈ vs) : ∃ p ∈ cl.states, p.2 = s.toQ cl.g := by
  have : s.toQ cl.g ∈ cl.states.map Prod.snd := by rw [h.eq]; exact List.mem_map.2 ⟨s, hs, rfl⟩
  obtain ⟨p, hp, e⟩ := List.mem_map.1 this
  exact ⟨p, hp, e⟩

theorem Reps.labelTotal {cl : Collection} {vs : List VS} (h : Reps cl vs) (label : List Char) :
    labelTotal label cl.states = (vs.map (fun s => if s.initial = label then s.cum else 0)).sum := by
  have h1 : Spec.labelTotal label cl.states = ((cl.states.map Prod.snd).map (fun q : QState => if q.initial = label then q.cum else 0)).sum := by
    rw [Spec.labelTotal, sum_filter_label, List.map_map]
    rfl
  rw [h1, h.eq, List.map_map]
  rfl

end Verif
