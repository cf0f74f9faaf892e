/-
What a bridge does to the states, in terms of photon numbers.
-/
import Verif.Lemmas.Compound
import Verif.Props.Extend
import Verif.Props.AdjustLength

namespace Verif

open Spec Props

/-- a state in terms of photon numbers -/
structure VS where
  initial : List Char
  cum : ℝ
  l : VComps
  classical : List ℝ
  results : List MRes

/-- the state with names -/
def VS.toQ (g : Cfg) (s : VS) : QState := ⟨s.initial, s.cum, enc g s.l, s.classical, s.results⟩

/-- valid normalised state without zero amplitudes -/
structure VS.Good (g : Cfg) (m : ℕ) (s : VS) : Prop where
  ok : VOk g s.l
  total : (s.l.map (fun p => ‖p.2.amp‖ ^ 2)).sum = 1
  probs : ∀ p ∈ s.l, p.2.prob = ‖p.2.amp‖ ^ 2
  nz : ∀ p ∈ s.l, p.2.amp ≠ 0
  cum0 : 0 ≤ s.cum
  cum1 : s.cum ≤ 1
  cls : s.classical.length = m

theorem VS.Good.ne_nil {g : Cfg} {m : ℕ} {s : VS} (h : s.Good g m) : s.l ≠ [] := by
  intro e
  have := h.total
  rw [e] at this
  simp at this

theorem VS.Good.check {g g' : Cfg} {m : ℕ} {s : VS} (h : s.Good g m) {thr : ℝ} (ht : 0 ≤ thr) : CheckValid thr m (s.toQ g') := by
  refine ⟨?_, ?_, ?_, h.cls⟩
  · have := h.cum0; show -thr ≤ s.cum; linarith
  · have := h.cum1; show s.cum - 1 ≤ thr; linarith
  · intro p hp
    obtain ⟨x, hx, rfl⟩ := List.mem_map.1 hp
    have h1 := h.probs x hx
    have h2 : ‖x.2.amp‖ ^ 2 ≤ 1 := by
      rw [← h.total]
      exact List.single_le_sum (by
        intro y hy
        obtain ⟨z, _, rfl⟩ := List.mem_map.1 hy
        positivity) _ (List.mem_map.2 ⟨x, hx, rfl⟩)
    have h3 : 0 ≤ ‖x.2.amp‖ ^ 2 := by positivity
    simp only [h1]
    constructor <;> linarith

theorem VS.Good.wf {g : Cfg} {m : ℕ} {s : VS} (h : s.Good g m) : WellFormed g (s.toQ g).comps := wf_enc h.ok

/-- the collection holds the given states -/
structure Reps (cl : Collection) (vs : List VS) : Prop where
  ids : (cl.states.map Prod.fst).Nodup
  eq : cl.states.map Prod.snd = vs.map (VS.toQ cl.g)
  good : ∀ s ∈ vs, s.Good cl.g cl.m

theorem Reps.mem {cl : Collection} {vs : List VS} (h : Reps cl vs) {p : List Char × QState} (hp : p ∈ cl.states) :
    ∃ s ∈ vs, p.2 = s.toQ cl.g := by
  have : p.2 ∈ vs.map (VS.toQ cl.g) := by rw [← h.eq]; exact List.mem_map.2 ⟨p, hp, rfl⟩
  obtain ⟨s, hs, e⟩ := List.mem_map.1 this
  exact ⟨s, hs, e.symm⟩

theorem Reps.forall₂ {cl : Collection} {vs : List VS} (h : Reps cl vs) : List.Forall₂ (fun p s => p.2 = VS.toQ cl.g s) cl.states vs := by
  have := h.eq
  rw [← List.forall₂_eq_eq_eq, List.forall₂_map_left_iff, List.forall₂_map_right_iff] at this
  exact this

/-- extra empty channels and extra classical values 0 -/
def VS.pad (eo ec : ℕ) (s : VS) : VS :=
  { s with l := s.l.map (fun p => (p.1 ++ List.replicate eo 0, p.2)), classical := s.classical ++ List.replicate ec 0 }

theorem VS.Good.pad {g : Cfg} (hL : 1 ≤ g.L) {m : ℕ} {s : VS} (h : s.Good g m) (eo ec : ℕ) : (s.pad eo ec).Good (extCfg g eo) (m + ec) := by
  have he : List.replicate eo 0 ∈ allLists g.L eo := mem_allLists.2 ⟨by simp, by
    intro x hx; rw [List.eq_of_mem_replicate hx]; exact hL⟩
  refine ⟨ext_ok he h.ok, ?_, ?_, ?_, h.cum0, h.cum1, ?_⟩
  · rw [← h.total]
    simp [VS.pad, Function.comp_def]
  · intro p hp
    obtain ⟨x, hx, rfl⟩ := List.mem_map.1 hp
    exact h.probs x hx
  · intro p hp
    obtain ⟨x, hx, rfl⟩ := List.mem_map.1 hp
    exact h.nz x hx
  · simp [VS.pad, h.cls]

theorem extend_reps {cl : Collection} {vs : List VS} (hg : cl.g.Ok) (hthr : 0 < cl.thr) (h : Reps cl vs) (hbig : ∀ s ∈ vs, cl.thr ≤ s.cum)
    (eo ec : ℕ) (h0 : ¬ (eo = 0 ∧ ec = 0)) (r : ℕ → ℕ → ℕ) :
    ∃ b, extendColl cl eo ec [] r = some b ∧ b.g = extCfg cl.g eo ∧ b.m = cl.m + ec ∧ b.thr = cl.thr ∧ Reps b (vs.map (VS.pad eo ec)) := by
  classical
  have hlen : (orVacuum cl.g.L []).length = cl.g.L := by
    have := hg.1
    simp [orVacuum]; omega
  have hs : ∀ p ∈ cl.states, WellFormed cl.g p.2.comps ∧ CheckValid cl.thr cl.m p.2 := by
    intro p hp
    obtain ⟨s, hs, e⟩ := h.mem hp
    rw [e]
    exact ⟨(h.good s hs).wf, (h.good s hs).check hthr.le⟩
  obtain ⟨new, h1, h2, h3, h4⟩ := extendColl_spec (r := r) (eo := eo) (ec := ec) hg hthr.le hlen (by simp) hs h0
  set e0 : Vals := List.replicate eo 0 with he0
  have he0m : e0 ∈ allLists cl.g.L eo := mem_allLists.2 ⟨by simp [he0], by
    intro x hx; rw [List.eq_of_mem_replicate hx]; exact hg.1⟩
  have hw0 : weight (orVacuum cl.g.L []) e0 = 1 := by
    rw [weight_vacuum, if_pos]
    intro x hx; exact List.eq_of_mem_replicate hx
  have hpairs : extPairs cl (orVacuum cl.g.L []) eo = cl.states.map (fun p => (p, e0)) := by
    rw [extPairs, flatMap_single (nodup_allLists _ _) he0m]
    · rw [hw0]
      congr 1
      rw [List.filter_eq_self]
      intro p hp
      obtain ⟨s, hs, e⟩ := h.mem hp
      simpa [e, VS.toQ] using hbig s hs
    · intro e he hee
      rw [weight_vacuum, if_neg]
      · rw [List.map_eq_nil_iff, List.filter_eq_nil_iff]
        intro p _
        simpa using hthr
      · intro hall
        apply hee
        rw [he0]
        exact List.eq_replicate_iff.2 ⟨(mem_allLists.1 he).1, hall⟩
  rw [hpairs] at h3
  refine ⟨_, h1, rfl, rfl, rfl, h2, ?_, ?_⟩
  · have key : ∀ (st : Coll) (vs : List VS) (new : Coll), List.Forall₂ (fun p s => p.2 = VS.toQ cl.g s) st vs → (∀ s ∈ vs, s.Good cl.g cl.m) →
        List.Forall₂ (ExtendedTo cl.g eo ec (orVacuum cl.g.L [])) (st.map (fun p => (p, e0))) new →
        new.map Prod.snd = (vs.map (VS.pad eo ec)).map (VS.toQ (extCfg cl.g eo)) := by
      intro st vs new hf
      induction hf generalizing new with
      | nil => intro _ hn; rw [List.map_nil] at hn; cases hn; rfl
      | @cons p s st vs hps hrest ih =>
        intro hgood hn
        rw [List.map_cons] at hn
        cases hn with
        | cons hx hrest' =>
          obtain ⟨l, hl, hle, -, ex⟩ := hx
          simp only at hle ex
          have hll : l = s.l := enc_inj hl (hgood s (by simp)).ok (by rw [← hle, hps]; rfl)
          rw [List.map_cons, List.map_cons, List.map_cons, ih _ (fun s hs => hgood s (by simp [hs])) hrest', ex, hll, hps, hw0]
          congr 1
          simp only [extState, VS.toQ, VS.pad, mul_one, he0]
    exact key cl.states vs new h.forall₂ h.good h3
  · intro s hs
    obtain ⟨s', hs', rfl⟩ := List.mem_map.1 hs
    exact (h.good s' hs').pad hg.1 eo ec

/-- the states for the different photon numbers in the channels that are dropped -/
noncomputable def VS.drop (g : Cfg) (keep ckeep : List ℕ) (s : VS) : List VS :=
  (tracedKeys g keep s.l).map (fun t => ⟨s.initial, s.cum * tracedProb g keep s.l t,
    (tracedComps g keep s.l t).map (scaleComp (tracedProb g keep s.l t)), ckeep.map (fun n => s.classical.getD n 0), s.results⟩)

theorem tracedProb_pos {g : Cfg} {m : ℕ} {s : VS} (h : s.Good g m) (keep : List ℕ) {t : List Char} (ht : t ∈ tracedKeys g keep s.l) :
    0 < tracedProb g keep s.l t := by
  obtain ⟨p, hp, e⟩ := mem_tracedKeys.1 ht
  have hm : p ∈ tracedItems g keep s.l t := List.mem_filter.2 ⟨hp, by simp [e]⟩
  have h1 : ‖p.2.amp‖ ^ 2 ≤ tracedProb g keep s.l t := List.single_le_sum (by
    intro y hy
    obtain ⟨z, _, rfl⟩ := List.mem_map.1 hy
    positivity) _ (List.mem_map.2 ⟨p, hm, rfl⟩)
  have h2 : 0 < ‖p.2.amp‖ := norm_pos_iff.2 (h.nz p hp)
  have h3 : 0 < ‖p.2.amp‖ ^ 2 := by positivity
  linarith

theorem tracedProb_le_one {g : Cfg} {m : ℕ} {s : VS} (h : s.Good g m) (keep : List ℕ) (t : List Char) : tracedProb g keep s.l t ≤ 1 := by
  rw [← h.total]; exact tracedProb_le g keep s.l t

theorem VS.Good.drop {g : Cfg} {m : ℕ} {s : VS} (h : s.Good g m) {keep ckeep : List ℕ} (hk : ∀ c ∈ keep, c < g.C) :
    ∀ s' ∈ s.drop g keep ckeep, s'.Good (keptCfg g keep) ckeep.length := by
  intro s' hs'
  obtain ⟨t, ht, rfl⟩ := List.mem_map.1 hs'
  have hpos := tracedProb_pos h keep ht
  have hle := tracedProb_le_one h keep t
  refine ⟨scaleComp_ok (tracedComps_ok hk h.ok t) _, ?_, ?_, ?_, mul_nonneg h.cum0 hpos.le, ?_, by simp⟩
  · have := traced_total (g := g) (keep := keep) (cl := []) (q := s.toQ g) (l := s.l) (t := t) hpos.ne'
    rwa [tracedState, totalProb_enc] at this
  · intro p hp
    obtain ⟨x, _, rfl⟩ := List.mem_map.1 hp
    rfl
  · intro p hp
    obtain ⟨x, hx, rfl⟩ := List.mem_map.1 hp
    obtain ⟨y, hy, rfl⟩ := List.mem_map.1 hx
    refine mul_ne_zero (h.nz y (List.mem_filter.1 hy).1) ?_
    have : 0 < Real.sqrt (1 / tracedProb g keep s.l t) := Real.sqrt_pos.2 (by positivity)
    exact_mod_cast this.ne'
  · calc s.cum * tracedProb g keep s.l t ≤ 1 * 1 := mul_le_mul h.cum1 hle hpos.le zero_le_one
      _ = 1 := one_mul 1

theorem reduce_reps {cl : Collection} {vs : List VS} (hthr : 0 ≤ cl.thr) (h : Reps cl vs) (hne : cl.states ≠ []) {keep ckeep : List ℕ}
    (hk : ∀ c ∈ orAll cl.g.C keep, c < cl.g.C) (hck : ∀ c ∈ orAll cl.m ckeep, c < cl.m) (hok : (keptCfg cl.g (orAll cl.g.C keep)).Ok) :
    ∃ b, reduceColl cl keep ckeep = some b ∧ b.g = keptCfg cl.g (orAll cl.g.C keep) ∧ b.m = (orAll cl.m ckeep).length ∧ b.thr = cl.thr ∧
      Reps b (vs.flatMap (VS.drop cl.g (orAll cl.g.C keep) (orAll cl.m ckeep))) := by
  set K := orAll cl.g.C keep with hK
  set CK := orAll cl.m ckeep with hCK
  have key : ∀ (st : Coll) (vs : List VS), List.Forall₂ (fun p s => p.2 = VS.toQ cl.g s) st vs → (∀ s ∈ vs, s.Good cl.g cl.m) →
      ∃ lss, List.Forall₂ (ReducedTo cl.g cl.thr K CK) st lss ∧
        lss.flatten.map Prod.snd = (vs.flatMap (VS.drop cl.g K CK)).map (VS.toQ (keptCfg cl.g K)) := by
    intro st vs hf
    induction hf with
    | nil => intro _; exact ⟨[], List.Forall₂.nil, rfl⟩
    | @cons p s st vs hps hrest ih =>
      intro hgood
      obtain ⟨lss, k1, k2⟩ := ih (fun s hs => hgood s (by simp [hs]))
      have hs := hgood s (by simp)
      have hcl : CK.mapM (fun n => s.classical[n]?) = some (CK.map (fun n => s.classical.getD n 0)) := by
        apply mapM_some_of
        intro n hn
        have hn' : n < s.classical.length := by rw [hs.cls]; exact hck n hn
        rw [List.getElem?_eq_getElem hn', List.getD_eq_getElem?_getD, List.getElem?_eq_getElem hn', Option.getD_some]
      refine ⟨(tracedKeys cl.g K s.l).map (fun t => (p.1 ++ t, tracedState cl.g K (CK.map (fun n => s.classical.getD n 0)) p.2 s.l t)) :: lss,
        List.Forall₂.cons ⟨s.l, CK.map (fun n => s.classical.getD n 0), hs.ok, by rw [hps]; rfl, fun _ => by rw [hps]; exact hcl, ?_, rfl⟩ k1, ?_⟩
      · intro t ht
        refine ⟨(tracedProb_pos hs K ht).ne', ?_⟩
        have hgd := (hs.drop (ckeep := CK) hk) _ (List.mem_map.2 ⟨t, ht, rfl⟩)
        have := hgd.check (g' := keptCfg cl.g K) hthr
        rw [hps]
        exact this
      · rw [List.flatten_cons, List.map_append, k2, List.flatMap_cons, List.map_append]
        congr 1
        rw [List.map_map, VS.drop, List.map_map]
        apply List.map_congr_left
        intro t _
        simp only [Function.comp_def, hps, tracedState, VS.toQ]
  obtain ⟨lss, k1, k2⟩ := key cl.states vs h.forall₂ h.good
  have hw : ∀ p ∈ cl.states, WellFormed cl.g p.2.comps := by
    intro p hp
    obtain ⟨s, hs, e⟩ := h.mem hp
    rw [e]; exact (h.good s hs).wf
  refine ⟨⟨keptCfg cl.g K, CK.length, cl.thr, lss.flatten⟩, (reduceColl_iff hne h.ids hw).2 ⟨hk, hck, hok, lss, k1, rfl⟩, rfl, rfl, rfl,
    reduced_keys_nodup h.ids k1, k2, ?_⟩
  intro s hs
  obtain ⟨s', hs', hs⟩ := List.mem_flatMap.1 hs
  exact (h.good s' hs').drop hk s hs

theorem keepVals_all {g : Cfg} {v : Vals} (hv : Valid g v) : keepVals (List.range g.C) v = v := by
  apply List.ext_getElem
  · simp [keepVals, hv.1]
  · intro i hi hi'
    simp only [keepVals, List.getElem_map, List.getElem_range]
    rw [List.getD_eq_getElem?_getD, List.getElem?_eq_getElem hi', Option.getD_some]

/-- dropping nothing but classical channels -/
theorem VS.drop_all {g : Cfg} {m : ℕ} {s : VS} (h : s.Good g m) (ckeep : List ℕ) :
    s.drop g (List.range g.C) ckeep = [{ s with classical := ckeep.map (fun n => s.classical.getD n 0) }] := by
  have hdrop : ∀ v, dropName g (List.range g.C) v = dropName g (List.range g.C) [] := by
    intro v
    rw [dropName_eq, dropName_eq]
    have : dropVals g (List.range g.C) v = dropVals g (List.range g.C) [] := by
      have hnil : (List.range g.C).filter (fun c => c ∉ List.range g.C) = [] := by
        rw [List.filter_eq_nil_iff]
        intro c hc
        simpa using hc
      simp only [dropVals, hnil, List.map_nil]
    rw [this]
  set t := dropName g (List.range g.C) [] with ht
  obtain ⟨a, l', hal⟩ := List.exists_cons_of_ne_nil h.ne_nil
  have ha : a ∈ s.l := by rw [hal]; simp
  have hkeys : tracedKeys g (List.range g.C) s.l = [t] := by
    apply eq_singleton_of_nodup (tracedKeys_nodup _ _ _)
    · exact mem_tracedKeys.2 ⟨a, ha, hdrop _⟩
    · intro b hb
      obtain ⟨y, hy, rfl⟩ := mem_tracedKeys.1 hb
      exact hdrop _
  have hitems : tracedItems g (List.range g.C) s.l t = s.l := by
    rw [tracedItems, List.filter_eq_self]
    intro y _
    simpa using hdrop y.1
  have hcomps : tracedComps g (List.range g.C) s.l t = s.l := by
    rw [tracedComps, hitems]
    conv_rhs => rw [← List.map_id s.l]
    apply List.map_congr_left
    intro z hz
    rw [keepVals_all (h.ok.valid z hz)]; rfl
  have hP : tracedProb g (List.range g.C) s.l t = 1 := by rw [tracedProb, hitems, h.total]
  have hsc : s.l.map (scaleComp 1) = s.l := by
    conv_rhs => rw [← List.map_id s.l]
    apply List.map_congr_left
    intro z hz
    have hz2 := h.probs z hz
    simp only [scaleComp, id]
    rw [show Real.sqrt (1 / 1) = 1 by simp, Complex.ofReal_one, mul_one, ← hz2]
  rw [VS.drop, hkeys, List.map_cons, List.map_nil, hP, hcomps, hsc, mul_one]

theorem adjust_reps {cl : Collection} {vs : List VS} {n : ℕ} (hn : 1 ≤ n) (hC : 2 ≤ cl.g.C) (hthr : 0 ≤ cl.thr) (h : Reps cl vs)
    (hfit : ∀ s ∈ vs, ∀ p ∈ s.l, ∀ x ∈ p.1, x < n) :
    ∃ b, adjustLength cl n = some b ∧ b.g = lenCfg cl.g n ∧ b.m = cl.m ∧ b.thr = cl.thr ∧ Reps b vs := by
  have hmod : ∀ v : Vals, (∀ x ∈ v, x < n) → v.map (· % n) = v := by
    intro v hv
    conv_rhs => rw [← List.map_id v]
    apply List.map_congr_left
    intro x hx
    exact Nat.mod_eq_of_lt (hv x hx)
  have hwrap : ∀ l : VComps, VOk cl.g l → (∀ p ∈ l, ∀ x ∈ p.1, x < n) → wrapComps n l = l := by
    intro l hl hx
    have h1 : wrapComps n l = l.foldl (fun (d : VComps) p => d.set p.1 p.2) [] := by
      unfold wrapComps
      apply List.foldl_ext
      intro d p hp
      rw [hmod p.1 (hx p hp)]
    rw [h1]
    exact Dict.ofList_of_nodup l hl.nodup
  have hgood : ∀ s ∈ vs, s.Good (lenCfg cl.g n) cl.m := by
    intro s hs
    have h1 := h.good s hs
    exact ⟨⟨h1.ok.nodup, fun p hp => ⟨(h1.ok.valid p hp).1, hfit s hs p hp⟩⟩, h1.total, h1.probs, h1.nz, h1.cum0, h1.cum1, h1.cls⟩
  have key : ∀ (st : Coll) (vs : List VS), List.Forall₂ (fun p s => p.2 = VS.toQ cl.g s) st vs → (∀ s ∈ vs, s.Good cl.g cl.m) →
      (∀ s ∈ vs, s.Good (lenCfg cl.g n) cl.m) → (∀ s ∈ vs, ∀ p ∈ s.l, ∀ x ∈ p.1, x < n) →
      ∃ new, List.Forall₂ (AdjustedTo cl.g cl.thr cl.m n) st new ∧ new.map Prod.fst = st.map Prod.fst ∧ new.map Prod.snd = vs.map (VS.toQ (lenCfg cl.g n)) := by
    intro st vs hf
    induction hf with
    | nil => intro _ _ _; exact ⟨[], List.Forall₂.nil, rfl, rfl⟩
    | @cons p s st vs hps hrest ih =>
      intro g1 g2 g3
      obtain ⟨new, k1, k2, k3⟩ := ih (fun s hs => g1 s (by simp [hs])) (fun s hs => g2 s (by simp [hs])) (fun s hs => g3 s (by simp [hs]))
      refine ⟨(p.1, s.toQ (lenCfg cl.g n)) :: new, List.Forall₂.cons ⟨s.l, (g1 s (by simp)).ok, by rw [hps]; rfl, rfl, ?_, (g2 s (by simp)).check hthr⟩ k1,
        by rw [List.map_cons, List.map_cons, k2], by rw [List.map_cons, List.map_cons, k3]⟩
      rw [hwrap s.l (g1 s (by simp)).ok (g3 s (by simp)), hps]
      rfl
  obtain ⟨new, k1, k2, k3⟩ := key cl.states vs h.forall₂ h.good hgood hfit
  have hw : ∀ p ∈ cl.states, WellFormed cl.g p.2.comps := by
    intro p hp
    obtain ⟨s, hs, e⟩ := h.mem hp
    rw [e]; exact (h.good s hs).wf
  exact ⟨⟨lenCfg cl.g n, cl.m, cl.thr, new⟩, (adjustLength_iff hn hC h.ids hw).2 ⟨new, k1, rfl⟩, rfl, rfl, rfl, by rw [k2]; exact h.ids, k3, hgood⟩

end Verif
