/-
Lemmas for circuits with optical elements and time delays: optical elements act on single photons as unitary matrices.
-/
import Verif.Lemmas.Pipeline
import Verif.Props.Creation

namespace Verif
open Spec Props MvPolynomial

theorem sum_two {C h c : ℕ} {R : Type*} [AddCommMonoid R] (hh : h < C) (hc : c < C) (hne : h ≠ c) (f f' : Fin C → R) :
    ∑ j : Fin C, (if (j : ℕ) = h then f j else if (j : ℕ) = c then f' j else 0) = f ⟨h, hh⟩ + f' ⟨c, hc⟩ := by
  rw [Finset.sum_eq_add (⟨h, hh⟩ : Fin C) ⟨c, hc⟩]
  · simp [hne.symm]
  · intro e; exact hne (congrArg Fin.val e)
  · intro j _ hj
    rw [if_neg, if_neg]
    · intro e; exact hj.2 (Fin.ext e)
    · intro e; exact hj.1 (Fin.ext e)
  · intro h; exact absurd (Finset.mem_univ _) h
  · intro h; exact absurd (Finset.mem_univ _) h

/-- The matrix of an optical element for one photon. -/
noncomputable def chGate (g : Cfg) (e : Gate) : ChMat g := fun j i =>
  if (i : ℕ) = e.h then (if (j : ℕ) = e.h then e.M 0 0 else if (j : ℕ) = e.c then e.M 0 1 else 0)
  else if (i : ℕ) = e.c then (if (j : ℕ) = e.h then e.M 1 0 else if (j : ℕ) = e.c then e.M 1 1 else 0)
  else if j = i then 1 else 0

/-- The polynomial of one photon. -/
noncomputable def framePoly (g : Cfg) (W : ChMat g) (κ : Fin g.C) (info : Option PInfo) : MvPolynomial Mode ℂ := ∑ j : Fin g.C, C (W j κ) * X ((j : ℕ), info)

theorem gateSubst_X {g : Cfg} {e : Gate} (hh : e.h < g.C) (hc : e.c < g.C) (hne : e.h ≠ e.c) (i : Fin g.C) (info : Option PInfo) :
    gateSubst e.M e.h e.c (X ((i : ℕ), info)) = ∑ j : Fin g.C, C (chGate g e j i) * X ((j : ℕ), info) := by
  unfold gateSubst
  rw [aeval_X]
  simp only
  unfold chGate
  by_cases h1 : (i : ℕ) = e.h
  · simp only [h1, if_true]
    have := sum_two hh hc hne (fun j : Fin g.C => (C (e.M 0 0) * X ((j : ℕ), info) : MvPolynomial Mode ℂ)) (fun j => C (e.M 0 1) * X ((j : ℕ), info))
    simp only at this
    rw [← this]
    refine Finset.sum_congr rfl (fun j _ => ?_)
    split
    · rfl
    · split
      · rfl
      · simp
  · rw [if_neg h1]
    by_cases h2 : (i : ℕ) = e.c
    · simp only [h2, hne.symm, if_true, if_false]
      have := sum_two hh hc hne (fun j : Fin g.C => (C (e.M 1 0) * X ((j : ℕ), info) : MvPolynomial Mode ℂ)) (fun j => C (e.M 1 1) * X ((j : ℕ), info))
      simp only at this
      rw [← this]
      refine Finset.sum_congr rfl (fun j _ => ?_)
      split
      · rfl
      · split
        · rfl
        · simp
    · simp only [h1, h2, if_false]
      rw [Finset.sum_eq_single i]
      · simp
      · intro j _ hj; simp [hj]
      · intro h; exact absurd (Finset.mem_univ _) h

theorem gateSubst_frame {g : Cfg} {e : Gate} (hh : e.h < g.C) (hc : e.c < g.C) (hne : e.h ≠ e.c) (W : ChMat g) (κ : Fin g.C) (info : Option PInfo) :
    gateSubst e.M e.h e.c (framePoly g W κ info) = framePoly g (chGate g e * W) κ info := by
  unfold framePoly
  rw [map_sum]
  simp only [map_mul, gateSubst_C, gateSubst_X hh hc hne, Finset.mul_sum, Matrix.mul_apply, map_sum, Finset.sum_mul]
  rw [Finset.sum_comm]
  refine Finset.sum_congr rfl (fun j _ => Finset.sum_congr rfl (fun i _ => ?_))
  ring

theorem chGate_unitary {g : Cfg} {e : Gate} (hh : e.h < g.C) (hc : e.c < g.C) (hne : e.h ≠ e.c) (hM : e.M ∈ Matrix.unitaryGroup (Fin 2) ℂ) :
    chGate g e ∈ Matrix.unitaryGroup (Fin g.C) ℂ := by
  rw [Matrix.mem_unitaryGroup_iff']
  have hM' := Matrix.mem_unitaryGroup_iff.1 hM
  have m : ∀ a b : Fin 2, e.M a 0 * starRingEnd ℂ (e.M b 0) + e.M a 1 * starRingEnd ℂ (e.M b 1) = if a = b then 1 else 0 := by
    intro a b
    have := congrFun (congrFun hM' a) b
    rw [Matrix.mul_apply, Fin.sum_univ_two, Matrix.one_apply] at this
    simpa [Matrix.star_apply] using this
  have m00 := m 0 0
  have m01 := m 0 1
  have m10 := m 1 0
  have m11 := m 1 1
  simp only [if_true] at m00 m11
  rw [if_neg (by decide)] at m01 m10
  ext i i'
  rw [Matrix.mul_apply, Matrix.one_apply]
  simp only [Matrix.star_apply, RCLike.star_def]
  have two : ∀ (a b : ℂ), (∀ j : Fin g.C, chGate g e j i = if (j : ℕ) = e.h then a else if (j : ℕ) = e.c then b else 0) →
      ∑ j, starRingEnd ℂ (chGate g e j i) * chGate g e j i' = starRingEnd ℂ a * chGate g e ⟨e.h, hh⟩ i' + starRingEnd ℂ b * chGate g e ⟨e.c, hc⟩ i' := by
    intro a b hab
    rw [← sum_two hh hc hne (fun j => starRingEnd ℂ a * chGate g e j i') (fun j => starRingEnd ℂ b * chGate g e j i')]
    refine Finset.sum_congr rfl (fun j _ => ?_)
    rw [hab j]
    split
    · rfl
    · split
      · rfl
      · simp
  by_cases h1 : (i : ℕ) = e.h
  · rw [two (e.M 0 0) (e.M 0 1) (fun j => by unfold chGate; rw [if_pos h1])]
    unfold chGate
    by_cases k1 : (i' : ℕ) = e.h
    · simp only [k1, if_true, hne.symm, if_false]
      rw [if_pos (Fin.ext (h1.trans k1.symm))]
      linear_combination m00
    · by_cases k2 : (i' : ℕ) = e.c
      · simp only [k2, if_true, hne.symm, if_false]
        rw [if_neg (fun e' => k1 (by rw [← e', h1]))]
        linear_combination m10
      · simp only [k1, k2, if_false]
        rw [if_neg (fun e' => k1 (by rw [← e'])), if_neg (fun e' => k2 (by rw [← e'])), if_neg (fun e' => k1 (by rw [← e', h1]))]
        simp
  · by_cases h2 : (i : ℕ) = e.c
    · rw [two (e.M 1 0) (e.M 1 1) (fun j => by unfold chGate; rw [if_neg h1, if_pos h2])]
      unfold chGate
      by_cases k1 : (i' : ℕ) = e.h
      · simp only [k1, if_true, hne.symm, if_false]
        rw [if_neg (fun e' => h1 (by rw [e', k1]))]
        linear_combination m01
      · by_cases k2 : (i' : ℕ) = e.c
        · simp only [k2, if_true, hne.symm, if_false]
          rw [if_pos (Fin.ext (h2.trans k2.symm))]
          linear_combination m11
        · simp only [k1, k2, if_false]
          rw [if_neg (fun e' => k1 (by rw [← e'])), if_neg (fun e' => k2 (by rw [← e'])), if_neg (fun e' => k2 (by rw [← e', h2]))]
          simp
    · have hi : ∀ j : Fin g.C, chGate g e j i = if j = i then 1 else 0 := fun j => by unfold chGate; rw [if_neg h1, if_neg h2]
      rw [Finset.sum_eq_single i]
      · rw [hi i, if_pos rfl, map_one, one_mul]
        unfold chGate
        by_cases k1 : (i' : ℕ) = e.h
        · rw [if_pos k1, if_neg h1, if_neg h2, if_neg (fun e' => h1 (by rw [e', k1]))]
        · by_cases k2 : (i' : ℕ) = e.c
          · rw [if_neg k1, if_pos k2, if_neg h1, if_neg h2, if_neg (fun e' => h2 (by rw [e', k2]))]
          · rw [if_neg k1, if_neg k2]
      · intro j _ hj
        rw [hi j, if_neg hj, map_zero, zero_mul]
      · intro h; exact absurd (Finset.mem_univ _) h

theorem gates_frame {g : Cfg} {gates : List Gate} {nodes : List (Opt × List ℕ)} (hg : List.Forall₂ (GateNode g) gates nodes) (hu : ∀ e ∈ gates, e.M ∈ Matrix.unitaryGroup (Fin 2) ℂ) :
    ∃ U : ChMat g, U ∈ Matrix.unitaryGroup (Fin g.C) ℂ ∧ ∀ (W : ChMat g) (κ : Fin g.C) (info : Option PInfo), opticsSubst gates (framePoly g W κ info) = framePoly g (U * W) κ info := by
  induction hg with
  | nil => exact ⟨1, one_mem _, fun W κ info => by rw [one_mul]; rfl⟩
  | @cons e n gates nodes h1 _ ih =>
    obtain ⟨U, hU, h⟩ := ih (fun e he => hu e (List.mem_cons_of_mem _ he))
    refine ⟨U * chGate g e, mul_mem hU (chGate_unitary h1.h h1.c h1.ne (hu e List.mem_cons_self)), fun W κ info => ?_⟩
    have e2 : ∀ P, opticsSubst (e :: gates) P = opticsSubst gates (gateSubst e.M e.h e.c P) := fun P => rfl
    rw [e2, gateSubst_frame h1.h h1.c h1.ne, h, mul_assoc]

theorem opticsSubst_C (gates : List Gate) (a : ℂ) (P : MvPolynomial Mode ℂ) : opticsSubst gates (C a * P) = C a * opticsSubst gates P := by
  induction gates generalizing P with
  | nil => rfl
  | cons e gates ih =>
    have e2 : ∀ P, opticsSubst (e :: gates) P = opticsSubst gates (gateSubst e.M e.h e.c P) := fun P => rfl
    rw [e2, e2, map_mul, gateSubst_C, ih]

theorem opticsSubst_mul (gates : List Gate) (P Q : MvPolynomial Mode ℂ) : opticsSubst gates (P * Q) = opticsSubst gates P * opticsSubst gates Q := by
  induction gates generalizing P Q with
  | nil => rfl
  | cons e gates ih =>
    have e2 : ∀ P, opticsSubst (e :: gates) P = opticsSubst gates (gateSubst e.M e.h e.c P) := fun P => rfl
    rw [e2, e2, e2, map_mul, ih]

theorem opticsSubst_add (gates : List Gate) (P Q : MvPolynomial Mode ℂ) : opticsSubst gates (P + Q) = opticsSubst gates P + opticsSubst gates Q := by
  induction gates generalizing P Q with
  | nil => rfl
  | cons e gates ih =>
    have e2 : ∀ P, opticsSubst (e :: gates) P = opticsSubst gates (gateSubst e.M e.h e.c P) := fun P => rfl
    rw [e2, e2, e2, map_add, ih]

theorem opticsSubst_one (gates : List Gate) : opticsSubst gates 1 = 1 := by
  induction gates with
  | nil => rfl
  | cons e gates ih =>
    have e2 : ∀ P, opticsSubst (e :: gates) P = opticsSubst gates (gateSubst e.M e.h e.c P) := fun P => rfl
    rw [e2, map_one, ih]

theorem opticsSubst_zero (gates : List Gate) : opticsSubst gates 0 = 0 := by
  induction gates with
  | nil => rfl
  | cons e gates ih =>
    have e2 : ∀ P, opticsSubst (e :: gates) P = opticsSubst gates (gateSubst e.M e.h e.c P) := fun P => rfl
    rw [e2, map_zero, ih]

/-! ### Amplitudes and polynomials -/

theorem ketPoly_oneHot (info : Option PInfo) {C j : ℕ} (hj : j < C) : ketPoly info (oneHot C j) = X (j, info) := by
  rw [ketPoly_range, Finset.prod_eq_single j]
  · rw [oneHot_at hj, if_pos rfl]; simp
  · intro i _ hi
    rw [oneHot_at hj, if_neg hi]; simp
  · intro h
    exact absurd (Finset.mem_range.2 (by simpa [oneHot] using hj)) h

theorem ketPoly_zeros (info : Option PInfo) (C : ℕ) : ketPoly info (List.replicate C 0) = 1 := by
  rw [ketPoly_range]
  refine Finset.prod_eq_one (fun i _ => ?_)
  simp

theorem framePoly_vec {g : Cfg} (hg : g.Ok) (hL : 2 ≤ g.L) (W : ChMat g) (κ : Fin g.C) (info : Option PInfo) :
    framePoly g W κ info = vecPoly g info (fun i => photonVec g W κ (g.valuesFromIndex i)) := by
  unfold framePoly vecPoly photonVec
  simp only [map_sum, Finset.sum_mul]
  rw [Finset.sum_comm]
  refine Finset.sum_congr rfl (fun j _ => ?_)
  rw [Finset.sum_eq_single (g.indexOf (oneHot g.C j))]
  · rw [g.valuesFromIndex_indexOf (oneHot_valid hL), if_pos rfl, ketPoly_oneHot info j.2]
  · intro i hi hne
    rw [if_neg, C_0, zero_mul]
    intro e
    rw [← e, g.indexOf_valuesFromIndex (Finset.mem_range.1 hi)] at hne
    exact hne rfl
  · intro h
    exact absurd (Finset.mem_range.2 (g.indexOf_lt (oneHot_valid hL))) h

theorem one_vec {g : Cfg} (hg : g.Ok) (info : Option PInfo) :
    (1 : MvPolynomial Mode ℂ) = vecPoly g info (fun i => if g.valuesFromIndex i = List.replicate g.C 0 then 1 else 0) := by
  have hz := zeros_valid hg.1
  unfold vecPoly
  beta_reduce
  rw [Finset.sum_eq_single (g.indexOf (List.replicate g.C 0))]
  · rw [g.valuesFromIndex_indexOf hz, if_pos rfl, ketPoly_zeros, C_1, one_mul]
  · intro i hi hne
    rw [if_neg, C_0, zero_mul]
    intro e
    rw [← e, g.indexOf_valuesFromIndex (Finset.mem_range.1 hi)] at hne
    exact hne rfl
  · intro h
    exact absurd (Finset.mem_range.2 (g.indexOf_lt hz)) h

/-- Two vectors with the same polynomial are the same. -/
theorem ampOf_poly {g : Cfg} (hg : g.Ok) {s : PState} (hw : WellFormed g s.q.comps) {x : ℕ → ℂ} (h : statePoly g s = vecPoly g s.info x) {v : Vals} (hv : Valid g v) :
    ampOf s.q.comps (g.stdName v) = x (g.indexOf v) := by
  rw [statePoly_vec hg.1 s hw] at h
  have := congrArg (fun P => amplitudeIn P s.info v) h
  simp only [amplitudeIn_vec hg s.info _ hv] at this
  rw [← this, vec_index hv]

theorem InFrame.poly {g : Cfg} (hg : g.Ok) {W : ChMat g} {n : ℕ} {s : PState} (h : InFrame g W n s) :
    (n = 0 ∧ statePoly g s = 1) ∨ (n = 1 ∧ 2 ≤ g.L ∧ ∃ κ, statePoly g s = framePoly g W κ s.info) := by
  have hv : ∀ i < g.size, vec g s.q.comps i = ampOf s.q.comps (g.stdName (g.valuesFromIndex i)) := by
    intro i hi
    rw [← vec_index (g.valid_valuesFromIndex hg.1 i), g.indexOf_valuesFromIndex hi]
  rcases h.amps with ⟨h0, h1⟩ | ⟨h0, hL, κ, h1⟩
  · refine Or.inl ⟨h0, ?_⟩
    rw [statePoly_vec hg.1 s h.wf, one_vec hg s.info]
    refine vecPoly_congr (fun i hi => ?_)
    rw [hv i hi, h1 _ (g.valid_valuesFromIndex hg.1 i)]
  · refine Or.inr ⟨h0, hL, κ, ?_⟩
    rw [statePoly_vec hg.1 s h.wf, framePoly_vec hg hL]
    refine vecPoly_congr (fun i hi => ?_)
    rw [hv i hi, h1 _ (g.valid_valuesFromIndex hg.1 i)]

theorem InFrame.of_poly {g : Cfg} (hg : g.Ok) {W : ChMat g} {n : ℕ} {s : PState} (wf : WellFormed g s.q.comps) (probs : ProbsAgree s.q.comps) (nonzero : ∀ p ∈ s.q.comps, p.2.amp ≠ 0)
    (h : (n = 0 ∧ statePoly g s = 1) ∨ (n = 1 ∧ 2 ≤ g.L ∧ ∃ κ, statePoly g s = framePoly g W κ s.info)) : InFrame g W n s := by
  refine ⟨wf, probs, nonzero, ?_⟩
  rcases h with ⟨h0, h1⟩ | ⟨h0, hL, κ, h1⟩
  · refine Or.inl ⟨h0, fun v hv => ?_⟩
    rw [one_vec hg s.info] at h1
    rw [ampOf_poly hg wf h1 hv, g.valuesFromIndex_indexOf hv]
  · refine Or.inr ⟨h0, hL, κ, fun v hv => ?_⟩
    rw [framePoly_vec hg hL] at h1
    rw [ampOf_poly hg wf h1 hv, g.valuesFromIndex_indexOf hv]

/-! ### Optical elements on one state -/

theorem applied_nonzero {g : Cfg} (hg : g.Ok) {thr : ℝ} (ht : 0 < thr) {useFull : Bool} {n : Opt × List ℕ} {l : List (Opt × List ℕ)} (hn : ∀ m ∈ n :: l, OnChannels g m)
    {c c' : Comps} (h : WellFormed g c) (hne : c ≠ []) (hc : applyOptical g thr useFull (standardKeys g) n l c = some c') : ∀ p ∈ c', p.2.amp ≠ 0 := by
  rw [applyOptical_eq hg thr useFull n l (hn n (by simp)) (fun m hm => hn m (by simp [hm])) h hne] at hc
  obtain ⟨c2, h2, hw, _, hget⟩ := fromVector_spec hg.1 thr (oneByOne g (n :: l) (vec g c))
  rw [hc] at h2
  obtain rfl := Option.some.inj h2
  intro p hp
  obtain ⟨v, hv, e⟩ := hw.named' hp
  have h3 := hget _ (g.indexOf_lt hv)
  rw [nm_indexOf hv, ← e, Dict.get?_of_mem hw.nodup (show (p.1, p.2) ∈ c' from hp)] at h3
  split at h3
  · cases h3
  · rename_i hlt
    have := Option.some.inj h3
    rw [this]
    intro h0
    simp only at h0
    rw [h0] at hlt
    simp at hlt
    linarith

/-- Optical elements on a state of one photon. -/
theorem frame_optics {g : Cfg} (hg : g.Ok) {thr : ℝ} (ht : 0 < thr) (useFull : Bool) {gates : List Gate} {n : Opt × List ℕ} {l : List (Opt × List ℕ)} (hgn : List.Forall₂ (GateNode g) gates (n :: l))
    {U : ChMat g} (hU : ∀ (W : ChMat g) (κ : Fin g.C) (info : Option PInfo), opticsSubst gates (framePoly g W κ info) = framePoly g (U * W) κ info)
    {W : ChMat g} (hW : W ∈ Matrix.unitaryGroup (Fin g.C) ℂ) {k : ℕ} {s : PState} (h : InFrame g W k s) (hk : k < g.L)
    (hthr : ∀ w, Valid g w → ‖amplitudeIn (opticsSubst gates (statePoly g s)) s.info w‖ ^ 2 < thr → amplitudeIn (opticsSubst gates (statePoly g s)) s.info w = 0) :
    ∃ c', applyOptical g thr useFull (standardKeys g) n l s.q.comps = some c' ∧
      ∀ s' : PState, s'.q.comps = c' → s'.info = s.info → InFrame g (U * W) k s' ∧ statePoly g s' = opticsSubst gates (statePoly g s) := by
  have hcut : ∀ p ∈ s.q.comps, ∀ v, IsName g v p.1 → Valid g v → v.sum < g.L := by
    intro p hp v hn hv
    rw [(h.comp hp hv hn).1]
    exact hk
  obtain ⟨c', h1, h2, h3, h4⟩ := C100_state_partial g hg thr useFull gates n l hgn s h.wf (h.ne hg hW) hcut hthr
  refine ⟨c', h1, ?_⟩
  intro s' hs' hi
  have hp := h4 s' hs' hi
  refine ⟨?_, hp⟩
  have hnz := applied_nonzero hg ht (gates_onChannels hgn) h.wf (h.ne hg hW) h1
  subst hs'
  refine InFrame.of_poly hg h2 h3 hnz ?_
  rcases h.poly hg with ⟨e, e2⟩ | ⟨e, hL, κ, e2⟩
  · exact Or.inl ⟨e, by rw [hp, e2, opticsSubst_one]⟩
  · exact Or.inr ⟨e, hL, κ, by rw [hp, e2, hU, hi]⟩

end Verif
