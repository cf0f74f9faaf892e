/-
Helper lemmas: reshaping for a bridge conserves probability.
-/
import Verif.Lemmas.Bridge2
import Verif.Lemmas.Progress
import Verif.Props.AdjustLength
import Verif.Lemmas.Compound

namespace Verif
open Spec Props

/-- a step into a circuit with settings `g'`, `m'`: like `Conserves`, where the lower bound holds if `P` does -/
structure Hands (P : Prop) (g' : Cfg) (m' : ℕ) (loss : ℝ) (coll out : Coll) : Prop where
  sound : Sound g' m' out
  le : ∀ label, carried label out ≤ carried label coll
  ge : P → ∀ label, carried label coll - loss * listed label coll ≤ carried label out
  listed : ∀ label, listed label out ≤ listed label coll

theorem Conserves.hands {P : Prop} {g : Cfg} {m : ℕ} {loss : ℝ} {coll out : Coll} (h : Conserves g m loss coll out) : Hands P g m loss coll out :=
  ⟨h.sound, h.le, fun _ => h.ge, h.listed⟩

theorem Hands.trans {P Q R : Prop} {g m g' m'} {a b : ℝ} (hb : 0 ≤ b) {coll mid out : Coll} (h : Hands P g m a coll mid) (h' : Hands Q g' m' b mid out)
    (hPQ : R → P ∧ Q) : Hands R g' m' (a + b) coll out := by
  refine ⟨h'.sound, fun label => (h'.le label).trans (h.le label), fun hr label => ?_, fun label => (h'.listed label).trans (h.listed label)⟩
  have h1 := h.ge (hPQ hr).1 label
  have h2 := h'.ge (hPQ hr).2 label
  have h3 := h.listed label
  nlinarith

theorem Hands.mono {P : Prop} {g : Cfg} {m : ℕ} {g' : Cfg} {m' : ℕ} {a b : ℝ} {coll out : Coll} (hc : Sound g m coll) (h : Hands P g' m' a coll out) (hab : a ≤ b) :
    Hands P g' m' b coll out := by
  refine ⟨h.sound, h.le, fun hp label => ?_, h.listed⟩
  have := h.ge hp label
  have := listed_nonneg hc label
  nlinarith

theorem hands_nil {P : Prop} {g : Cfg} {m : ℕ} : Hands P g m 0 [] [] :=
  ⟨⟨by simp, by simp⟩, fun _ => le_rfl, fun _ _ => by simp, fun _ => le_rfl⟩

theorem totalProb_nonneg' (c : Comps) : 0 ≤ totalProb c := by
  unfold totalProb
  exact List.sum_nonneg (by
    intro y hy
    obtain ⟨z, _, rfl⟩ := List.mem_map.1 hy
    positivity)

/-- sums over states of a label -/
theorem sumFrom_eq_of_forall₂ {R : List Char × QState → List Char × QState → Prop} {a b : Coll} (h : List.Forall₂ R a b) (label : List Char) (f f' : QState → ℝ)
    (hR : ∀ p p', p ∈ a → R p p' → p'.2.initial = p.2.initial ∧ f' p'.2 = f p.2) : sumFrom label f' b = sumFrom label f a := by
  unfold sumFrom
  refine sum_forall₂ h _ _ ?_
  intro p p' hp hr
  obtain ⟨h1, h2⟩ := hR p p' hp hr
  rw [h1, h2]

theorem wrap_fits {g : Cfg} {n : ℕ} {l : VComps} (hl : VOk g l) (hx : g.L ≤ n) : wrapComps n l = l := by
  have h1 : wrapComps n l = l.foldl (fun (d : VComps) p => d.set p.1 p.2) [] := by
    unfold wrapComps
    apply List.foldl_ext
    intro d p hp
    congr 1
    conv_rhs => rw [← List.map_id p.1]
    apply List.map_congr_left
    intro x hx'
    exact Nat.mod_eq_of_lt (lt_of_lt_of_le ((hl.valid p hp).2 x hx') hx)
  rw [h1]
  exact Dict.ofList_of_nodup l hl.nodup

theorem VOk.longer {g : Cfg} {n : ℕ} {l : VComps} (hl : VOk g l) (hx : g.L ≤ n) : VOk (lenCfg g n) l :=
  ⟨hl.nodup, fun p hp => ⟨(hl.valid p hp).1, fun x hx' => lt_of_lt_of_le ((hl.valid p hp).2 x hx') hx⟩⟩

theorem probsAgree_enc {g g' : Cfg} {l : VComps} (h : ProbsAgree (enc g l)) : ProbsAgree (enc g' l) := by
  intro p hp
  obtain ⟨x, hx, rfl⟩ := List.mem_map.1 hp
  exact h (g.stdName x.1, x.2) (List.mem_map.2 ⟨x, hx, rfl⟩)

/-- the state with the names of a longer photon number basis -/
theorem adjust_state {g : Cfg} {m n : ℕ} (hL : g.L ≤ n) {q : QState} (hq : Measurable g m q) {l : VComps} (hl : VOk g l) (he : q.comps = enc g l) :
    Measurable (lenCfg g n) m { q with comps := enc (lenCfg g n) (wrapComps n l) } ∧ totalProb (enc (lenCfg g n) (wrapComps n l)) = totalProb q.comps := by
  rw [wrap_fits hl hL]
  have ht : totalProb (enc (lenCfg g n) l) = totalProb q.comps := by rw [he, totalProb_enc, totalProb_enc]
  refine ⟨⟨wf_enc (hl.longer hL), probsAgree_enc (by rw [← he]; exact hq.probs), ?_, hq.cum0, hq.cum1, hq.classical⟩, ht⟩
  show totalProb (enc (lenCfg g n) l) ≤ 1
  rw [ht]; exact hq.total

theorem hands_adjust {P : Prop} {g : Cfg} {m n : ℕ} {thr : ℝ} (hn : 1 ≤ n) (hC : 2 ≤ g.C) (hL : g.L ≤ n) {coll : Coll} (hc : Sound g m coll) {out : Collection}
    (h : adjustLength ⟨g, m, thr, coll⟩ n = some out) : out.g = lenCfg g n ∧ out.m = m ∧ out.thr = thr ∧ Hands P (lenCfg g n) m 0 coll out.states := by
  obtain ⟨new, hf, rfl⟩ := (adjustLength_iff (cl := ⟨g, m, thr, coll⟩) hn hC hc.ids (fun p hp => (hc.states p hp).wf)).1 h
  refine ⟨rfl, rfl, rfl, ?_⟩
  have hids : new.map Prod.fst = coll.map Prod.fst := by
    have : List.Forall₂ (fun (p p' : List Char × QState) => p'.1 = p.1) coll new := hf.imp (fun _ _ ⟨_, _, _, h, _⟩ => h)
    clear * - this
    induction this with
    | nil => rfl
    | cons h _ ih => rw [List.map_cons, List.map_cons, h, ih]
  have h1 : ∀ label, carried label new = carried label coll := fun label => by
    refine sumFrom_eq_of_forall₂ hf label _ _ ?_
    rintro p p' hp ⟨l, hl, he, -, h2, -⟩
    rw [h2]
    refine ⟨rfl, ?_⟩
    simp only [(adjust_state hL (hc.states p hp) hl he).2]
  have h2 : ∀ label, Spec.listed label new = Spec.listed label coll := fun label => by
    refine sumFrom_eq_of_forall₂ hf label _ _ ?_
    rintro p p' hp ⟨l, hl, he, -, h2, -⟩
    rw [h2]
    exact ⟨rfl, rfl⟩
  refine ⟨⟨by show (new.map Prod.fst).Nodup; rw [hids]; exact hc.ids, ?_⟩, fun label => (h1 label).le, fun _ label => by show _ ≤ carried label new; rw [h1]; simp, fun label => (h2 label).le⟩
  intro p' hp'
  obtain ⟨p, hp, l, hl, he, -, e, -⟩ := forall₂_mem_right hf hp'
  rw [e]
  exact (adjust_state hL (hc.states p hp) hl he).1

/-- the state for one choice of photon numbers in the dropped channels -/
theorem traced_measurable {g : Cfg} {m k : ℕ} {keep : List ℕ} (hk : ∀ c ∈ keep, c < g.C) {q : QState} (hm : Measurable g m q) {l : VComps} (hl : VOk g l)
    (he : q.comps = enc g l) {cl : List ℝ} (hcl : cl.length = k) {t : List Char} (h0 : tracedProb g keep l t ≠ 0) :
    Measurable (keptCfg g keep) k (tracedState g keep cl q l t) := by
  have hP0 := tracedProb_nonneg g keep l t
  have hP1 : tracedProb g keep l t ≤ 1 := by
    refine le_trans (tracedProb_le g keep l t) ?_
    have := hm.total
    rwa [he, totalProb_enc] at this
  refine ⟨wf_enc (scaleComp_ok (tracedComps_ok hk hl t) _), ?_, (traced_total h0).le, mul_nonneg hm.cum0 hP0, ?_, hcl⟩
  · intro c hcc
    obtain ⟨x, hx, rfl⟩ := List.mem_map.1 hcc
    obtain ⟨y, _, rfl⟩ := List.mem_map.1 hx
    rfl
  · calc q.cum * tracedProb g keep l t ≤ 1 * 1 := mul_le_mul hm.cum1 hP1 hP0 zero_le_one
      _ = 1 := one_mul 1

theorem hands_reduce {P : Prop} {g : Cfg} {m : ℕ} {thr : ℝ} {keep ckeep : List ℕ} {coll : Coll} (hc : Sound g m coll) (hne : coll ≠ []) {out : Collection}
    (h : reduceColl ⟨g, m, thr, coll⟩ keep ckeep = some out) :
    Hands P (keptCfg g (orAll g.C keep)) (orAll m ckeep).length 0 coll out.states := by
  obtain ⟨hk, hck, hok, lss, hf, rfl⟩ := (reduceColl_iff (cl := ⟨g, m, thr, coll⟩) hne hc.ids (fun p hp => (hc.states p hp).wf)).1 h
  have hs : ∀ (ls : List (List Char × QState)) (p : List Char × QState), p ∈ coll → ReducedTo g thr (orAll g.C keep) (orAll m ckeep) p ls →
      (∀ e ∈ ls, Measurable (keptCfg g (orAll g.C keep)) (orAll m ckeep).length e.2 ∧ totalProb e.2.comps = 1 ∧ e.2.initial = p.2.initial) ∧
      (ls.map (fun e => e.2.cum)).sum = p.2.cum * totalProb p.2.comps := by
    rintro ls p hp ⟨l, cl, hl, he, -, h2, rfl⟩
    have hm := hc.states p hp
    constructor
    · intro e hee
      obtain ⟨t, ht, rfl⟩ := List.mem_map.1 hee
      obtain ⟨h0, hv⟩ := h2 t ht
      exact ⟨traced_measurable hk hm hl he hv.2.2.2 h0, traced_total h0, rfl⟩
    · rw [List.map_map, he, totalProb_enc, ← sum_tracedProb g (orAll g.C keep) l, ← List.sum_map_mul_left]
      rfl
  have hsum : ∀ label, sumFrom label QState.cum lss.flatten = carried label coll := by
    intro label
    unfold carried sumFrom
    refine sum_flatten_forall₂ hf _ _ ?_
    intro p hp ls hls
    obtain ⟨k1, k2⟩ := hs ls p hp hls
    have : ls.map (fun p => if p.2.initial = label then p.2.cum else 0) = ls.map (fun e => if p.2.initial = label then e.2.cum else 0) := by
      apply List.map_congr_left
      intro e he
      rw [(k1 e he).2.2]
    rw [this]
    by_cases hl : p.2.initial = label
    · simp only [if_pos hl]; exact k2
    · simp only [if_neg hl]; simp
  have hall : ∀ e ∈ lss.flatten, Measurable (keptCfg g (orAll g.C keep)) (orAll m ckeep).length e.2 ∧ totalProb e.2.comps = 1 := by
    intro e he
    obtain ⟨ls, hls, hm⟩ := List.mem_flatten.1 he
    obtain ⟨p, hp, hr⟩ := forall₂_mem_right hf hls
    have := (hs ls p hp hr).1 e hm
    exact ⟨this.1, this.2.1⟩
  have hcar : ∀ label, carried label lss.flatten = carried label coll := by
    intro label
    rw [← hsum label]
    unfold carried sumFrom
    congr 1
    apply List.map_congr_left
    intro e he
    simp only [(hall e he).2, mul_one]
  refine ⟨⟨reduced_keys_nodup hc.ids hf, fun e he => (hall e he).1⟩, fun label => (hcar label).le, fun _ label => by show _ ≤ carried label lss.flatten; rw [hcar]; simp, ?_⟩
  intro label
  show sumFrom label QState.cum lss.flatten ≤ _
  rw [hsum label]
  unfold carried Spec.listed sumFrom
  apply List.sum_le_sum
  intro p hp
  have hm := hc.states p hp
  split
  · exact mul_le_of_le_one_right hm.cum0 hm.total
  · exact le_rfl

theorem hands_extend {g : Cfg} {m eo ec : ℕ} {thr : ℝ} (hg : g.Ok) (hthr : 0 ≤ thr) (h0 : ¬ (eo = 0 ∧ ec = 0)) {coll : Coll} (hc : Sound g m coll) {r : ℕ → ℕ → ℕ} {out : Collection}
    (h : extendColl ⟨g, m, thr, coll⟩ eo ec [] r = some out) :
    out.g = extCfg g eo ∧ out.m = m + ec ∧ out.thr = thr ∧ Hands (thr = 0) (extCfg g eo) (m + ec) 0 coll out.states := by
  classical
  have hlen : (orVacuum g.L []).length = g.L := by
    have := hg.1
    simp [orVacuum]; omega
  obtain ⟨new, h1, h2, h3, h4⟩ := extendColl_spec (cl := ⟨g, m, thr, coll⟩) (r := r) (eo := eo) (ec := ec) hg hthr hlen (by simp)
    (fun p hp => ⟨(hc.states p hp).wf, measurable_check (hc.states p hp) hthr⟩) h0
  rw [h] at h1
  obtain rfl := Option.some.inj h1
  refine ⟨rfl, rfl, rfl, ?_⟩
  set e0 : Vals := List.replicate eo 0 with he0
  have he0m : e0 ∈ allLists g.L eo := mem_allLists.2 ⟨by simp [he0], by
    intro x hx; rw [List.eq_of_mem_replicate hx]; exact hg.1⟩
  have hw0 : weight (orVacuum g.L []) e0 = 1 := by
    rw [weight_vacuum, if_pos]
    intro x hx; exact List.eq_of_mem_replicate hx
  have hw : ∀ e ∈ allLists g.L eo, e ≠ e0 → weight (orVacuum g.L []) e = 0 := by
    intro e he hee
    rw [weight_vacuum, if_neg]
    intro hall
    exact hee (List.eq_replicate_iff.2 ⟨(mem_allLists.1 he).1, hall⟩)
  have hb := fun e : Vals => weight_bounds (dist := orVacuum g.L []) (by
      intro x hx
      unfold orVacuum at hx
      rw [if_pos rfl] at hx
      rcases List.mem_cons.1 hx with rfl | hx
      · simp
      · rw [List.eq_of_mem_replicate hx]; simp) e
  have hpe : ∀ pe ∈ extPairs ⟨g, m, thr, coll⟩ (orVacuum g.L []) eo, pe.1 ∈ coll := by
    intro pe hpe
    obtain ⟨e, _, hm⟩ := List.mem_flatMap.1 hpe
    obtain ⟨p, hp, rfl⟩ := List.mem_map.1 hm
    exact (List.mem_filter.1 hp).1
  have hsound : ∀ x ∈ new, Measurable (extCfg g eo) (m + ec) x.2 := by
    intro x hx
    obtain ⟨pe, hpm, l, hl, hle, he, e⟩ := forall₂_mem_right h3 hx
    have hm := hc.states pe.1 (hpe pe hpm)
    have ht : totalProb (enc (extCfg g eo) (l.map (fun p => (p.1 ++ pe.2, p.2)))) = totalProb pe.1.2.comps := by
      rw [hle, totalProb_enc, totalProb_enc, List.map_map]; rfl
    rw [e]
    refine ⟨wf_enc (ext_ok he hl), ?_, ?_, mul_nonneg hm.cum0 (hb _).1, mul_le_one₀ hm.cum1 (hb _).1 (hb _).2, ?_⟩
    · intro c hcc
      obtain ⟨y, hy, rfl⟩ := List.mem_map.1 hcc
      obtain ⟨z, hz, rfl⟩ := List.mem_map.1 hy
      have := hm.probs (g.stdName z.1, z.2) (by rw [hle]; exact List.mem_map.2 ⟨z, hz, rfl⟩)
      exact this
    · show totalProb (enc _ _) ≤ 1
      rw [ht]; exact hm.total
    · simp [extState, hm.classical]
  -- sums
  have hsum : ∀ (label : List Char) (f : QState → ℝ) (k : QState → ℝ), (∀ q w l e, VOk g l → q.comps = enc g l → f (extState g eo ec q l w e) = w * k q) →
      sumFrom label f new = ((coll.filter (fun p => thr ≤ p.2.cum)).map (fun p => if p.2.initial = label then k p.2 else 0)).sum := by
    intro label f k hf
    unfold sumFrom
    rw [sum_forall₂ h3 _ (fun pe => if pe.1.2.initial = label then weight (orVacuum g.L []) pe.2 * k pe.1.2 else 0)]
    · rw [extPairs, List.map_flatMap, List.flatMap_def, List.sum_flatten, List.map_map]
      rw [sum_one_label (nodup_allLists _ _) he0m]
      · simp only [Function.comp_def, List.map_map, hw0, one_mul, mul_one]
      · intro e he hee
        simp only [Function.comp_def, List.map_map, hw e he hee, zero_mul, ite_self]
        simp
    · rintro pe x - ⟨l, hl, hle, -, e⟩
      rw [e, hf _ _ _ _ hl hle]
      rfl
  have hcar : ∀ label, carried label new = ((coll.filter (fun p => thr ≤ p.2.cum)).map (fun p => if p.2.initial = label then p.2.cum * totalProb p.2.comps else 0)).sum := by
    intro label
    refine hsum label _ (fun q => q.cum * totalProb q.comps) ?_
    intro q w l e hl hle
    have ht : totalProb (enc (extCfg g eo) (l.map (fun p => (p.1 ++ e, p.2)))) = totalProb q.comps := by
      rw [hle, totalProb_enc, totalProb_enc, List.map_map]; rfl
    simp only [extState, ht]
    ring
  have hlis : ∀ label, Spec.listed label new = ((coll.filter (fun p => thr ≤ p.2.cum)).map (fun p => if p.2.initial = label then p.2.cum else 0)).sum := by
    intro label
    refine hsum label _ QState.cum ?_
    intro q w l e hl hle
    simp only [extState]
    ring
  have sub : ∀ (k : List Char × QState → ℝ) (st : Coll), (∀ p ∈ st, 0 ≤ k p) → ((st.filter (fun p => thr ≤ p.2.cum)).map k).sum ≤ (st.map k).sum := by
    intro k st
    induction st with
    | nil => intro _; simp
    | cons p st ih =>
      intro hk
      have h1 := ih (fun p hp => hk p (by simp [hp]))
      have h2 := hk p (by simp)
      rw [List.filter_cons]
      split
      · rw [List.map_cons, List.map_cons, List.sum_cons, List.sum_cons]; linarith
      · rw [List.map_cons, List.sum_cons]; linarith
  refine ⟨⟨h2, hsound⟩, ?_, ?_, ?_⟩
  · intro label
    rw [hcar]
    refine sub _ coll ?_
    intro p hp
    have := (hc.states p hp).cum0
    have := totalProb_nonneg' p.2.comps
    split
    · positivity
    · exact le_rfl
  · intro ht label
    show _ ≤ carried label new
    rw [hcar, List.filter_eq_self.2]
    · simp [carried, sumFrom]
    · intro p hp
      have := (hc.states p hp).cum0
      simpa [ht] using this
  · intro label
    rw [hlis]
    refine sub _ coll ?_
    intro p hp
    have := (hc.states p hp).cum0
    split
    · exact this
    · exact le_rfl

theorem _root_.Verif.Spec.Sound.check {g : Cfg} {m : ℕ} {coll : Coll} (hc : Sound g m coll) {thr : ℝ} (ht : 0 ≤ thr) : ∀ p ∈ coll, CheckValid thr m p.2 :=
  fun p hp => measurable_check (hc.states p hp) ht

/-- the channels that are kept -/
theorem orAll_range (n k : ℕ) (h : 0 < k ∨ n = 0) : orAll n (List.range k) = List.range k := by
  unfold orAll
  split
  · rename_i he
    have : k = 0 := by
      have := congrArg List.length he
      simpa using this
    rcases h with h | h
    · omega
    · rw [this, h]
  · rfl

theorem hands_reshape {c next : Circ} (hg : c.g.Ok) (hg' : next.g.Ok) (hleft : next.g.left = c.g.left) (hL : c.g.L ≤ next.g.L) (hm : 0 < next.m ∨ c.m = 0)
    (ht : 0 ≤ c.thr) {coll : Coll} (hc : Sound c.g c.m coll) {r r' : ℕ → ℕ → ℕ} {out : Collection} (h : reshape c next r r' coll = some out) :
    Hands (c.thr = 0 ∨ (next.g.C ≤ c.g.C ∧ next.m ≤ c.m)) next.g next.m 0 coll out.states := by
  set P := c.thr = 0 ∨ (next.g.C ≤ c.g.C ∧ next.m ≤ c.m)
  have hL0 : next.g.L ≠ 0 := by have := hg'.1; omega
  obtain ⟨states, b, d, h1, h2, h3, h4⟩ := reshape_parts.1 h
  obtain ⟨-, hst⟩ := (copyColl_iff hc.ids).1 h1
  rw [hst] at h2
  clear h1 hst states
  by_cases hne : coll = []
  · subst hne
    have hb : b.states = [] := by
      split at h2
      · exact (extendColl_shape h2).2.2.2 rfl
      · split at h2
        · rw [(reduceColl_shape h2).2.1 rfl]
        · obtain rfl := Option.some.inj h2; rfl
    have hd : d.states = [] := by
      split at h3
      · exact (extendColl_shape h3).2.2.2 hb
      · split at h3
        · rw [(reduceColl_shape h3).2.1 hb]; exact hb
        · obtain rfl := Option.some.inj h3; exact hb
    rw [(adjustLength_shape hL0 h4).2.2.2 hd]
    exact hands_nil
  -- optical channels
  have s1 : b.g = ⟨c.g.L, next.g.C, c.g.left⟩ ∧ b.m = c.m ∧ b.thr = c.thr ∧ Hands P ⟨c.g.L, next.g.C, c.g.left⟩ c.m 0 coll b.states := by
    split at h2
    · rename_i hC
      obtain ⟨e1, e2, e3, e4⟩ := hands_extend hg ht (by omega) hc h2
      have hcfg : extCfg c.g (next.g.C - c.g.C) = ⟨c.g.L, next.g.C, c.g.left⟩ := by
        have : c.g.C + (next.g.C - c.g.C) = next.g.C := by omega
        simp only [extCfg, this]
      rw [hcfg] at e1 e4
      refine ⟨e1, by simpa using e2, e3, ⟨by simpa using e4.sound, e4.le, fun hp => e4.ge ?_, e4.listed⟩⟩
      rcases hp with hp | hp
      · exact hp
      · omega
    · split at h2
      · rename_i hC
        have e4 : Hands P _ _ 0 coll b.states := hands_reduce hc hne h2
        obtain ⟨e3, -, e5⟩ := reduceColl_shape h2
        have hC2 : 2 ≤ next.g.C := hg'.2
        have ho : orAll c.g.C (List.range next.g.C) = List.range next.g.C := orAll_range _ _ (Or.inl (by omega))
        have hr : List.range next.g.C ≠ [] := by
          intro he
          have := congrArg List.length he
          simp at this
          omega
        obtain ⟨e6, e7⟩ := e5 hne
        rw [if_neg hr] at e6
        simp only [List.length_range] at e6
        refine ⟨e6, by simpa using e7, e3, ?_⟩
        rw [ho] at e4
        simpa [keptCfg, orAll] using e4
      · rename_i h5 h6
        obtain rfl := Option.some.inj h2
        have hC : next.g.C = c.g.C := by omega
        have hcfg : (⟨c.g.L, next.g.C, c.g.left⟩ : Cfg) = c.g := by rw [hC]
        rw [hcfg]
        exact ⟨rfl, rfl, rfl, (Conserves.refl hc).hands⟩
  obtain ⟨bg, bm, bt, bh⟩ := s1
  obtain ⟨g1, m1, t1, st1⟩ := b
  obtain rfl : g1 = _ := bg
  obtain rfl : m1 = _ := bm
  obtain rfl : t1 = _ := bt
  simp only at bh h3
  -- classical channels
  have s2 : (d.states = [] ∨ d.g = ⟨c.g.L, next.g.C, c.g.left⟩ ∧ d.m = next.m) ∧ d.thr = c.thr ∧ Hands P ⟨c.g.L, next.g.C, c.g.left⟩ next.m 0 coll d.states := by
    split at h3
    · rename_i hM
      obtain ⟨e1, e2, e3, e4⟩ := hands_extend (g := ⟨c.g.L, next.g.C, c.g.left⟩) ⟨hg.1, hg'.2⟩ ht (by omega) bh.sound h3
      have hM' : c.m + (next.m - c.m) = next.m := by omega
      rw [hM'] at e2 e4
      have e5 : Hands P (extCfg ⟨c.g.L, next.g.C, c.g.left⟩ 0) next.m (0 + 0) coll d.states := bh.trans le_rfl e4 (fun hp => ⟨hp, by
        rcases hp with hp | hp
        · exact hp
        · omega⟩)
      rw [add_zero] at e5
      exact ⟨Or.inr ⟨e1, e2⟩, e3, e5⟩
    · split at h3
      · rename_i hM
        by_cases hst : st1 = []
        · subst hst
          have : d = _ := (reduceColl_shape h3).2.1 rfl
          subst this
          refine ⟨Or.inl rfl, rfl, ⟨⟨by simp, by simp⟩, bh.le, bh.ge, bh.listed⟩⟩
        · have e4 : Hands True _ _ 0 st1 d.states := hands_reduce bh.sound hst h3
          obtain ⟨e3, -, e5⟩ := reduceColl_shape h3
          have ho : orAll c.m (List.range next.m) = List.range next.m := orAll_range _ _ hm
          have hr : List.range next.m ≠ [] := by
            intro he
            have := congrArg List.length he
            simp at this
            omega
          obtain ⟨e6, e7⟩ := e5 hst
          rw [if_neg hr] at e7
          simp only [if_true, List.length_range] at e6 e7
          refine ⟨Or.inr ⟨e6, e7⟩, e3, ?_⟩
          have e8 := bh.trans (R := P) le_rfl e4 (fun hp => ⟨hp, trivial⟩)
          rw [ho, add_zero] at e8
          simpa [keptCfg, orAll] using e8
      · rename_i h5 h6
        obtain rfl := Option.some.inj h3
        have hM : next.m = c.m := by omega
        rw [hM]
        exact ⟨Or.inr ⟨rfl, rfl⟩, rfl, bh⟩
  obtain ⟨ds, dt, dh⟩ := s2
  by_cases hst : d.states = []
  · rw [(adjustLength_shape hL0 h4).2.2.2 hst]
    rw [hst] at dh
    exact ⟨⟨by simp, by simp⟩, dh.le, dh.ge, dh.listed⟩
  obtain ⟨dg, dm⟩ := ds.resolve_left hst
  obtain ⟨g2, m2, t2, st2⟩ := d
  obtain rfl : g2 = _ := dg
  obtain rfl : m2 = _ := dm
  obtain ⟨-, -, -, e1⟩ := hands_adjust (P := True) (g := ⟨c.g.L, next.g.C, c.g.left⟩) hg'.1 hg'.2 hL dh.sound h4
  have e2 := dh.trans (R := P) le_rfl e1 (fun hp => ⟨hp, trivial⟩)
  rw [add_zero] at e2
  have hcfg : lenCfg ⟨c.g.L, next.g.C, c.g.left⟩ next.g.L = next.g := by simp only [lenCfg, ← hleft]
  rwa [hcfg] at e2

end Verif
