/-
Helper lemmas for the conservation of probability by circuits.
-/
import Verif.Spec.Conserve
import Verif.Props.Evaluate
import Verif.Props.Classical
import Verif.Props.Collection
import Verif.Props.OpticalNodes

namespace Verif
open Spec Props

/-- one step: the collection stays sound, at most the fraction `loss` of the probability is lost and none is gained -/
structure Conserves (g : Cfg) (m : ℕ) (loss : ℝ) (coll out : Coll) : Prop where
  sound : Sound g m out
  le : ∀ label, carried label out ≤ carried label coll
  ge : ∀ label, carried label coll - loss * listed label coll ≤ carried label out
  listed : ∀ label, listed label out ≤ listed label coll

/-- the same for one state that stays one state -/
structure KeepsState (g : Cfg) (m : ℕ) (loss : ℝ) (q q' : QState) : Prop where
  initial : q'.initial = q.initial
  cum : q'.cum = q.cum
  meas : Measurable g m q'
  le : totalProb q'.comps ≤ totalProb q.comps
  ge : totalProb q.comps - loss ≤ totalProb q'.comps

theorem conserves_of_forall₂ {g : Cfg} {m : ℕ} {loss : ℝ} {coll out : Coll} (hc : Sound g m coll) (hn : (out.map Prod.fst).Nodup)
    (h : List.Forall₂ (fun p p' => KeepsState g m loss p.2 p'.2) coll out) : Conserves g m loss coll out := by
  refine ⟨⟨hn, ?_⟩, ?_, ?_, ?_⟩
  · intro p' hp'
    obtain ⟨p, -, hk⟩ := forall₂_mem_right h hp'
    exact hk.meas
  all_goals
    intro label
    have hm := hc.states
    clear hn hc
    simp only [carried, Spec.listed, sumFrom]
    induction h with
    | nil => simp
    | @cons p p' coll out h1 h2 ih =>
      have ih := ih (fun q hq => hm q (by simp [hq]))
      have hp := hm p (by simp)
      have := hp.cum0
      simp only [List.map_cons, List.sum_cons, h1.initial, h1.cum]
      have := h1.le
      have := h1.ge
      by_cases hl : p.2.initial = label
      · simp only [hl, if_true]
        nlinarith
      · simp only [hl, if_false]
        linarith

theorem Conserves.refl {g : Cfg} {m : ℕ} {coll : Coll} (h : Sound g m coll) : Conserves g m 0 coll coll :=
  ⟨h, fun _ => le_rfl, fun _ => by simp, fun _ => le_rfl⟩

theorem listed_nonneg {g : Cfg} {m : ℕ} {coll : Coll} (h : Sound g m coll) (label : List Char) : 0 ≤ listed label coll := by
  unfold listed sumFrom
  apply List.sum_nonneg
  intro x hx
  obtain ⟨p, hp, rfl⟩ := List.mem_map.1 hx
  split
  · exact (h.states p hp).cum0
  · exact le_rfl

theorem Conserves.mono {g : Cfg} {m : ℕ} {a b : ℝ} {coll out : Coll} (hc : Sound g m coll) (h : Conserves g m a coll out) (hab : a ≤ b) :
    Conserves g m b coll out := by
  refine ⟨h.sound, h.le, fun label => ?_, h.listed⟩
  have := h.ge label
  have := listed_nonneg hc label
  nlinarith

theorem Conserves.trans {g : Cfg} {m : ℕ} {a b : ℝ} (hb : 0 ≤ b) {coll mid out : Coll} (h : Conserves g m a coll mid)
    (h' : Conserves g m b mid out) : Conserves g m (a + b) coll out := by
  refine ⟨h'.sound, fun label => (h'.le label).trans (h.le label), fun label => ?_, fun label => (h'.listed label).trans (h.listed label)⟩
  have h1 := h.ge label
  have h2 := h'.ge label
  have h3 := h.listed label
  nlinarith

/-- writing a vector back loses at most `size * thr` -/
theorem fromVector_total {g : Cfg} (hL : 1 ≤ g.L) {thr : ℝ} (ht : 0 ≤ thr) {y : ℕ → ℂ} {c : Comps} (h : fromVector g thr y = some c) :
    WellFormed g c ∧ ProbsAgree c ∧ totalProb c ≤ ∑ i ∈ Finset.range g.size, ‖y i‖ ^ 2 ∧
      ∑ i ∈ Finset.range g.size, ‖y i‖ ^ 2 - g.size * thr ≤ totalProb c := by
  obtain ⟨c', hc', hw, hp, -⟩ := fromVector_spec hL thr y
  rw [h] at hc'
  obtain rfl := Option.some.inj hc'
  refine ⟨hw, hp, ?_, ?_⟩
  · rw [totalProb_eq hL hw]
    refine Finset.sum_le_sum fun i hi => ?_
    rw [vec_fromVector hL h (Finset.mem_range.1 hi)]
    split
    · simp
    · exact le_rfl
  · rw [totalProb_eq hL hw, sub_le_iff_le_add]
    have : (g.size : ℝ) * thr = ∑ _i ∈ Finset.range g.size, thr := by simp
    rw [this, ← Finset.sum_add_distrib]
    refine Finset.sum_le_sum fun i hi => ?_
    rw [vec_fromVector hL h (Finset.mem_range.1 hi)]
    split
    · rename_i hlt; simp; exact hlt.le
    · linarith

theorem oneByOne_norm {g : Cfg} (hg : g.Ok) : ∀ (nodes : List (Opt × List ℕ)) (y : ℕ → ℂ),
    (∀ m ∈ nodes, OnChannels g m ∧ m.1 ∈ Matrix.unitaryGroup (Fin 2) ℂ) →
      ∑ i ∈ Finset.range g.size, ‖oneByOne g nodes y i‖ ^ 2 = ∑ i ∈ Finset.range g.size, ‖y i‖ ^ 2 := by
  intro nodes
  induction nodes with
  | nil => intros; rfl
  | cons m nodes ih =>
    intro y hm
    have e : oneByOne g (m :: nodes) y
        = oneByOne g nodes ((fockNode g (standardKeys g) m.1 m.2 .all).1.mulVec y) := rfl
    rw [e, ih _ (fun m' hm' => hm m' (by simp [hm']))]
    have hs := fockNode_all_size g (standardKeys g) m.1 m.2
    have huu : IsUnitary (fockNode g (standardKeys g) m.1 m.2 .all).1 :=
      toMatrix_unitary_iff _ g.size hs (nodeMat_unitary hg (hm m (by simp)).2 (hm m (by simp)).1.perm)
    have := unitary_mulVec_norm huu y
    rwa [hs] at this

theorem keeps_optical {c : Circ} (hg : c.g.Ok) (ht : 0 ≤ c.thr) {n : Opt × List ℕ} {l : List (Opt × List ℕ)}
    (hn : ∀ m ∈ n :: l, OnChannels c.g m ∧ m.1 ∈ Matrix.unitaryGroup (Fin 2) ℂ) {q : QState} (hq : Measurable c.g c.m q) {comps : Comps}
    (h : applyOptical c.g c.thr c.full (basisKeys c.g) n l q.comps = some comps) :
    KeepsState c.g c.m (c.g.size * c.thr) q { q with comps := comps } := by
  have key : ∃ y, fromVector c.g c.thr y = some comps ∧ ∑ i ∈ Finset.range c.g.size, ‖y i‖ ^ 2 = totalProb q.comps := by
    by_cases hne : q.comps = []
    · have hf : c.full = true := by
        by_contra hf
        rw [applyOptical, if_neg hf, hne] at h
        simp [photonNumber, Dict.keys] at h
      rw [hne] at h
      rw [applyOptical, if_pos hf] at h
      simp only [Option.bind_eq_bind, Option.bind_some] at h
      obtain ⟨x, hx, h⟩ := Option.bind_eq_some_iff.1 h
      refine ⟨_, h, ?_⟩
      have hx0 : x = fun _ => 0 := by simpa [toVector] using hx.symm
      rw [hne, hx0]
      simp [totalProb, applyReduced]
      apply Finset.sum_eq_zero
      intro i _
      simp only [SqArr.mulVec, mul_zero, Finset.sum_const_zero]
      have : ∀ l : List (ℕ × ℕ), l.foldl (fun (acc : ℕ → ℂ) p => Function.update acc p.1 0) (fun _ => 0) = fun _ => 0 := by
        intro l
        induction l with
        | nil => rfl
        | cons p l ih =>
          rw [List.foldl_cons, show Function.update (fun _ : ℕ => (0 : ℂ)) p.1 0 = fun _ => 0 from Function.update_eq_self p.1 (fun _ => (0 : ℂ))]
          exact ih
      rw [this]; simp
    · refine ⟨_, (applyOptical_eq hg c.thr c.full n l (hn n (by simp)).1 (fun m hm => (hn m (by simp [hm])).1) hq.wf hne).symm.trans h, ?_⟩
      rw [oneByOne_norm hg _ _ hn, totalProb_eq hg.1 hq.wf]
  obtain ⟨y, hy, hs⟩ := key
  obtain ⟨hw, hp, h1, h2⟩ := fromVector_total hg.1 ht hy
  rw [hs] at h1 h2
  exact ⟨rfl, rfl, ⟨hw, hp, h1.trans hq.total, hq.cum0, hq.cum1, hq.classical⟩, h1, h2⟩

theorem conserves_optical {c : Circ} (hg : c.g.Ok) (ht : 0 ≤ c.thr) {n : Opt × List ℕ} {l : List (Opt × List ℕ)}
    (hn : ∀ m ∈ n :: l, OnChannels c.g m ∧ m.1 ∈ Matrix.unitaryGroup (Fin 2) ℂ) {coll out : Coll} (hc : Sound c.g c.m coll)
    (h : opticalColl c n l coll = some out) : Conserves c.g c.m (c.g.size * c.thr) coll out := by
  obtain ⟨-, hf⟩ := (opticalColl_iff c n l coll hc.ids out).1 h
  refine conserves_of_forall₂ hc ?_ ?_
  · have : out.map Prod.fst = coll.map Prod.fst := by
      clear h hc
      induction hf with
      | nil => rfl
      | cons h1 _ ih => obtain ⟨comps, -, rfl⟩ := h1; simp [ih]
    rw [this]; exact hc.ids
  · refine (forall₂_mem_congr (fun p p' hp => ?_)).1 (hf.imp (S := fun p p' => p ∈ coll → KeepsState c.g c.m (c.g.size * c.thr) p.2 p'.2) ?_)
    · exact ⟨fun h => h hp, fun h _ => h⟩
    · rintro p p' ⟨comps, h1, rfl⟩ hp
      exact keeps_optical hg ht hn (hc.states p hp) h1

theorem conserves_custom {c : Circ} (hg : c.g.Ok) (ht : 0 ≤ c.thr) {F : SqArr} (hF : IsUnitary F) (r : ℕ → ℕ → ℕ)
    {coll out : Coll} (hc : Sound c.g c.m coll) (h : customColl c F r coll = some out) : Conserves c.g c.m (c.g.size * c.thr) coll out := by
  have key : ∀ (coll acc out : Coll), (∀ p ∈ coll, Measurable c.g c.m p.2) → (acc.map Prod.fst).Nodup →
      coll.foldlM (fun (out : Coll) p => do
        let q ← copyState c.thr c.m p.2
        if F.size ≠ c.g.size then none
        let comps ← applyCustom c.g c.thr F p.2.comps
        some (addState out { q with comps := comps } none (r out.length))) acc = some out →
      ∃ tail, out = acc ++ tail ∧ (out.map Prod.fst).Nodup ∧
        List.Forall₂ (fun p p' => KeepsState c.g c.m (c.g.size * c.thr) p.2 p'.2) coll tail := by
    intro coll
    induction coll with
    | nil =>
      intro acc out _ hn h
      obtain rfl := Option.some.inj h
      exact ⟨[], by simp, hn, List.Forall₂.nil⟩
    | cons p coll ih =>
      intro acc out hm hn h
      rw [List.foldlM_cons, Option.bind_eq_bind] at h
      obtain ⟨acc', h1, h2⟩ := Option.bind_eq_some_iff.1 h
      simp only [Option.bind_eq_bind] at h1
      obtain ⟨q, hq, h1⟩ := Option.bind_eq_some_iff.1 h1
      obtain rfl : p.2 = q := by
        unfold copyState at hq
        split at hq
        · exact Option.some.inj hq
        · cases hq
      by_cases hs : F.size ≠ c.g.size
      · simp [hs] at h1
      rw [if_neg hs] at h1
      have hs := not_not.1 hs
      obtain ⟨comps, hcomps, h1⟩ := Option.bind_eq_some_iff.1 h1
      obtain ⟨i, hi, hadd⟩ := C33_random_identifier acc { p.2 with comps := comps } (r acc.length)
      rw [hadd] at h1
      obtain rfl := Option.some.inj h1
      obtain ⟨tail, rfl, hnd, hf⟩ := ih (acc ++ [(i, { p.2 with comps := comps })]) out (fun q hq => hm q (by simp [hq])) (by
        rw [List.map_append, List.nodup_append]
        refine ⟨hn, by simp, ?_⟩
        intro a ha b hb
        rw [List.map_cons, List.map_nil, List.mem_singleton] at hb
        subst hb
        rintro rfl
        exact hi ha) h2
      refine ⟨_, by rw [List.append_assoc]; rfl, hnd, List.Forall₂.cons ?_ hf⟩
      have hp := hm p (by simp)
      unfold applyCustom at hcomps
      simp only [Option.bind_eq_bind] at hcomps
      obtain ⟨x, hx, hcomps⟩ := Option.bind_eq_some_iff.1 hcomps
      obtain ⟨x', hx', hxi⟩ := toVector_spec hg.1 hp.wf
      rw [hx] at hx'
      obtain rfl := Option.some.inj hx'
      obtain ⟨hw, hpa, e1, e2⟩ := fromVector_total hg.1 ht hcomps
      have hnorm : ∑ i ∈ Finset.range c.g.size, ‖F.mulVec x i‖ ^ 2 = totalProb p.2.comps := by
        have := unitary_mulVec_norm hF x
        rw [hs] at this
        rw [this, totalProb_eq hg.1 hp.wf]
        exact Finset.sum_congr rfl fun i hi => by rw [hxi i (Finset.mem_range.1 hi)]
      rw [hnorm] at e1 e2
      exact ⟨rfl, rfl, ⟨hw, hpa, e1.trans hp.total, hp.cum0, hp.cum1, hp.classical⟩, e1, e2⟩
  obtain ⟨tail, rfl, hn, hf⟩ := key coll [] out hc.states (by simp) h
  exact conserves_of_forall₂ hc hn hf

theorem conserves_classical {c : Circ} {f : List ℝ → List ℝ → List ℤ → Option (List ℝ)} {v : List ℝ} {a : List ℤ}
    {coll out : Coll} (hc : Sound c.g c.m coll) (h : classicalColl c f v a coll = some out) : Conserves c.g c.m 0 coll out := by
  unfold classicalColl at h
  have hf := mapM_some_iff.1 h
  have hf' : List.Forall₂ (fun (p p' : List Char × QState) => p'.1 = p.1 ∧ ∃ vals, vals.length = c.m ∧ p'.2 = { p.2 with classical := vals }) coll out := by
    refine hf.imp ?_
    intro p p' h
    simp only [Option.bind_eq_bind] at h
    obtain ⟨vals, -, h⟩ := Option.bind_eq_some_iff.1 h
    split at h
    · rename_i hl
      obtain rfl := Option.some.inj h
      exact ⟨rfl, vals, hl, rfl⟩
    · cases h
  refine conserves_of_forall₂ hc ?_ ?_
  · have : out.map Prod.fst = coll.map Prod.fst := by
      clear h hc hf
      induction hf' with
      | nil => rfl
      | cons h1 _ ih => simp [ih, h1.1]
    rw [this]; exact hc.ids
  · refine (forall₂_mem_congr (fun p p' hp => ?_)).1 (hf'.imp (S := fun p p' => p ∈ coll → KeepsState c.g c.m 0 p.2 p'.2) ?_)
    · exact ⟨fun h => h hp, fun h _ => h⟩
    · rintro p p' ⟨-, vals, hl, e⟩ hp
      have hm := hc.states p hp
      rw [e]
      exact ⟨rfl, rfl, ⟨hm.wf, hm.probs, hm.total, hm.cum0, hm.cum1, hl⟩, le_rfl, by simp⟩

theorem conserves_measure {c : Circ} {kinds : List Bool} {idx : ℕ} {opt cls : List ℕ} (hlen : cls.length = opt.length)
    {coll out : Coll} (hc : Sound c.g c.m coll)
    (h : measureColl c.g c.thr c.m (measurementId kinds idx) opt cls coll = some out) : Conserves c.g c.m 0 coll out := by
  obtain ⟨hno, qss, hf, e⟩ := C29_no_state_lost c.g c.thr c.m kinds idx opt cls coll out hc.ids h
  have hsum : ∀ label (F : QState → ℝ), sumFrom label F out = (qss.map (fun qs => (qs.map (fun q => if q.initial = label then F q else 0)).sum)).sum := by
    intro label F
    have : out.map (fun p => if p.2.initial = label then F p.2 else 0) = qss.flatten.map (fun q => if q.initial = label then F q else 0) := by
      rw [← e, List.map_map]; rfl
    have e2 : sumFrom label F out = (out.map (fun p => if p.2.initial = label then F p.2 else 0)).sum := by
      unfold sumFrom
      congr 1
    rw [e2, this, List.map_flatten, List.sum_flatten, List.map_map]
    rfl
  have hst : ∀ (p : List Char × QState) (qs : List QState), p ∈ coll → measure c.g c.thr c.m p.2 opt cls = some qs → ∀ q ∈ qs,
      q.initial = p.2.initial ∧ Measurable c.g c.m q ∧ totalProb q.comps = 1 := by
    intro p qs hp hm q hq
    have hme := hc.states p hp
    obtain ⟨outs, -, -, hP⟩ := C26_outcomes c.g c.thr c.m p.2 opt cls hme hlen qs hm
    obtain ⟨o, -, hPo⟩ := forall₂_mem_right hP hq
    refine ⟨hPo.initial, ⟨hPo.wf, hPo.probs, hPo.norm.le, ?_, ?_, ?_⟩, hPo.norm⟩
    · rw [hPo.cum]
      refine mul_nonneg hme.cum0 ?_
      obtain ⟨l, hl, e⟩ := exists_enc hme.wf
      rw [e, outcomeProb_eq hl]; exact probAt_nonneg _ _ _
    · rw [hPo.cum]
      obtain ⟨l, hl, e⟩ := exists_enc hme.wf
      rw [e, outcomeProb_eq hl]
      have h1 := probAt_le opt l o
      have h2 := hme.total
      rw [e, totalProb_enc] at h2
      have h3 := probAt_nonneg opt l o
      have h4 := hme.cum0
      have h5 := hme.cum1
      nlinarith
    · obtain ⟨l, hl, e⟩ := exists_enc hme.wf
      have h' := (measure_enc hl e).1 hm
      rw [if_neg (by omega)] at h'
      obtain ⟨o, -, hco⟩ := forall₂_mem_right h' hq
      obtain ⟨-, -, cum, cl, -, h2, rfl⟩ := (collapse_iff (itemsAt_nodup hl o) (itemsAt_valid hl o)
            (rfl : probAt opt l o = _)).1 hco
      show cl.length = c.m
      rw [(writeClassical_spec h2).1, hme.classical]
  have hsound : Sound c.g c.m out := by
    refine ⟨hno, ?_⟩
    intro p' hp'
    have : p'.2 ∈ qss.flatten := e ▸ List.mem_map.2 ⟨p', hp', rfl⟩
    obtain ⟨qs, hqs, hq⟩ := List.mem_flatten.1 this
    obtain ⟨p, hp, hm⟩ := forall₂_mem_right hf hqs
    exact (hst p qs hp hm p'.2 hq).2.1
  have key : ∀ label, sumFrom label (fun q => q.cum) out = carried label coll ∧ carried label out = sumFrom label (fun q => q.cum) out := by
    intro label
    constructor
    · rw [hsum, carried, sumFrom]
      have hm := hc.states
      clear hsum hsound e hno h
      induction hf with
      | nil => rfl
      | @cons p qs coll qss h1 h2 ih =>
        rw [List.map_cons, List.sum_cons, List.map_cons, List.sum_cons,
          ih ⟨(List.nodup_cons.1 hc.ids).2, fun q hq => hm q (by simp [hq])⟩ (fun p' qs' hp' => hst p' qs' (by simp [hp']))
            (fun q hq => hm q (by simp [hq]))]
        congr 1
        have hcp := (C25_probability_conserved c.g c.thr c.m p.2 opt cls (hm p (by simp)) hlen qs h1).1
        by_cases hl : p.2.initial = label
        · rw [if_pos hl, ← hcp]
          congr 1
          apply List.map_congr_left
          intro q hq
          rw [if_pos ((hst p qs (by simp) h1 q hq).1.trans hl)]
        · rw [if_neg hl]
          apply List.sum_eq_zero
          intro x hx
          obtain ⟨q, hq, rfl⟩ := List.mem_map.1 hx
          rw [if_neg (fun hh => hl ((hst p qs (by simp) h1 q hq).1.symm.trans hh))]
    · unfold carried sumFrom
      congr 1
      apply List.map_congr_left
      intro p' hp'
      have : p'.2 ∈ qss.flatten := e ▸ List.mem_map.2 ⟨p', hp', rfl⟩
      obtain ⟨qs, hqs, hq⟩ := List.mem_flatten.1 this
      obtain ⟨p, hp, hm⟩ := forall₂_mem_right hf hqs
      simp only [(hst p qs hp hm p'.2 hq).2.2, mul_one]
  refine ⟨hsound, fun label => ?_, fun label => ?_, fun label => ?_⟩
  · rw [(key label).2, (key label).1]
  · rw [(key label).2, (key label).1]; simp
  · rw [show Spec.listed label out = sumFrom label (fun q => q.cum) out from rfl, (key label).1]
    unfold carried Spec.listed sumFrom
    apply List.sum_le_sum
    intro p hp
    have hm := hc.states p hp
    split
    · have := hm.cum0
      have := hm.total
      nlinarith
    · exact le_rfl

theorem conserves_controlled {c : Circ} (hg : c.g.Ok) (ht : 0 ≤ c.thr) {vars : List Angle} {channels : List ℤ}
    {defaults : List (Angle × ℝ)} {tl : List ℕ} (htl : TwoChannels c.g tl) {coll out : Coll} (hc : Sound c.g c.m coll)
    (h : controlledColl c vars channels defaults tl coll = some out) : Conserves c.g c.m (c.g.size * c.thr) coll out := by
  unfold controlledColl at h
  simp only [Option.bind_eq_bind] at h
  by_cases hlen : vars.length ≠ channels.length
  · simp [hlen] at h
  rw [if_neg hlen] at h
  have key : ∀ (coll acc : Coll) (tp : Option ℝ × Option ℝ) (r : Coll × (Option ℝ × Option ℝ)), (coll.map Prod.fst).Nodup →
      (∀ p ∈ coll, Measurable c.g c.m p.2) → (∀ p ∈ coll, p.1 ∉ acc.map Prod.fst) →
      coll.foldlM (fun (s : Coll × (Option ℝ × Option ℝ)) p =>
          ((vars.zip channels).mapM (m := Option) (fun vc => (pyGet p.2.classical vc.2).map (fun x => (vc.1, x)))).bind (fun read =>
          (setAngles read s.2).1.bind (fun th => (setAngles read s.2).2.bind (fun ph =>
          (opticalColl c (genericMatrix th ph, tl) [] [p]).bind (fun single =>
          some (single.foldl (fun (out : Coll) e => out.set e.1 e.2) s.1, setAngles read s.2)))))) (acc, tp) = some r →
      ∃ tail, r.1 = acc ++ tail ∧ tail.map Prod.fst = coll.map Prod.fst ∧
        List.Forall₂ (fun p p' => KeepsState c.g c.m (c.g.size * c.thr) p.2 p'.2) coll tail := by
    intro coll
    induction coll with
    | nil =>
      intro acc tp r _ _ _ h
      obtain rfl := Option.some.inj h
      exact ⟨[], by simp, rfl, List.Forall₂.nil⟩
    | cons p coll ih =>
      intro acc tp r hn hm hno h
      rw [List.map_cons, List.nodup_cons] at hn
      rw [List.foldlM_cons, Option.bind_eq_bind] at h
      obtain ⟨s, h1, h2⟩ := Option.bind_eq_some_iff.1 h
      obtain ⟨read, -, h1⟩ := Option.bind_eq_some_iff.1 h1
      obtain ⟨th, -, h1⟩ := Option.bind_eq_some_iff.1 h1
      obtain ⟨ph, -, h1⟩ := Option.bind_eq_some_iff.1 h1
      obtain ⟨single, hs, h1⟩ := Option.bind_eq_some_iff.1 h1
      obtain rfl := Option.some.inj h1
      obtain ⟨-, hf⟩ := (opticalColl_iff c _ [] [p] (by simp) single).1 hs
      cases hf with
      | cons h3 h4 =>
        cases h4
        obtain ⟨comps, hco, rfl⟩ := h3
        have hset := foldl_set_append acc (p.1, { p.2 with comps := comps }) (hno p (by simp))
        simp only at h2 hset
        rw [hset] at h2
        obtain ⟨tail, e1, e2, hf⟩ := ih _ _ r hn.2 (fun q hq => hm q (by simp [hq])) (by
          intro q hq
          rw [List.map_append, List.mem_append, not_or]
          refine ⟨hno q (by simp [hq]), ?_⟩
          simp only [List.map_cons, List.map_nil, List.mem_singleton]
          intro e
          exact hn.1 (e ▸ List.mem_map.2 ⟨q, hq, rfl⟩)) h2
        refine ⟨_, by rw [e1, List.append_assoc]; rfl, by simp [e2], List.Forall₂.cons ?_ hf⟩
        refine keeps_optical hg ht ?_ (hm p (by simp)) hco
        intro m' hm'
        obtain rfl : m' = (genericMatrix th ph, tl) := by simpa using hm'
        exact ⟨htl, (C17_wave_plate th ph 0).1⟩
  obtain ⟨r, hr, e⟩ := Option.bind_eq_some_iff.1 h
  obtain rfl := Option.some.inj e
  obtain ⟨tail, e1, e2, hf⟩ := key coll [] _ r hc.ids hc.states (by simp) hr
  rw [List.nil_append] at e1
  rw [e1]
  exact conserves_of_forall₂ hc (by rw [e2]; exact hc.ids) hf

end Verif
