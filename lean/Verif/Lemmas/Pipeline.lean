/-
Lemmas for circuits with optical elements and time delays: states with one photon.
-/
import Verif.Lemmas.Creation
import Verif.Lemmas.Interference3
import Verif.Spec.Pipeline

namespace Verif
open Spec Props MvPolynomial

/-- A square matrix over the channels. -/
abbrev ChMat (g : Cfg) := Matrix (Fin g.C) (Fin g.C) ℂ

/-- Amplitude of the photon numbers `v` in the state with one photon given by column `κ` of `W`. -/
noncomputable def photonVec (g : Cfg) (W : ChMat g) (κ : Fin g.C) (v : Vals) : ℂ := ∑ j : Fin g.C, if v = oneHot g.C j then W j κ else 0

theorem oneHot_at {C j : ℕ} (hj : j < C) (i : ℕ) : (oneHot C j).getD i 0 = if i = j then 1 else 0 := oneHot_getD C j i hj

theorem oneHot_inj {C i j : ℕ} (hi : i < C) (hj : j < C) (h : oneHot C i = oneHot C j) : i = j := by
  have := congrArg (fun v : Vals => v.getD i 0) h
  simp only [oneHot_at hi, oneHot_at hj, if_true] at this
  by_contra hne
  rw [if_neg hne] at this
  omega

theorem oneHot_valid {g : Cfg} {j : ℕ} (hL : 2 ≤ g.L) : Valid g (oneHot g.C j) := by
  refine ⟨by simp [oneHot], ?_⟩
  intro x hx
  rcases List.mem_or_eq_of_mem_set hx with h | rfl
  · rw [List.eq_of_mem_replicate h]; omega
  · omega

theorem zeros_valid {g : Cfg} (hL : 1 ≤ g.L) : Valid g (List.replicate g.C 0) := by
  refine ⟨by simp, ?_⟩
  intro x hx
  rw [List.eq_of_mem_replicate hx]; omega

theorem photonVec_oneHot {g : Cfg} (W : ChMat g) (κ j : Fin g.C) : photonVec g W κ (oneHot g.C j) = W j κ := by
  unfold photonVec
  rw [Finset.sum_eq_single j]
  · rw [if_pos rfl]
  · intro i _ hi
    rw [if_neg]
    intro h
    exact hi (Fin.ext (oneHot_inj i.2 j.2 h.symm))
  · intro h; exact absurd (Finset.mem_univ _) h

theorem photonVec_ne {g : Cfg} {W : ChMat g} {κ : Fin g.C} {v : Vals} (h : photonVec g W κ v ≠ 0) : ∃ j : Fin g.C, v = oneHot g.C j := by
  by_contra hno
  push Not at hno
  apply h
  unfold photonVec
  refine Finset.sum_eq_zero (fun j _ => ?_)
  rw [if_neg (hno j)]

/-- A state with `n` photons, no photon or one; a photon is in a superposition of channels given by a column of `W`. -/
structure InFrame (g : Cfg) (W : ChMat g) (n : ℕ) (s : PState) : Prop where
  wf : WellFormed g s.q.comps
  probs : ProbsAgree s.q.comps
  nonzero : ∀ p ∈ s.q.comps, p.2.amp ≠ 0
  amps : (n = 0 ∧ ∀ v, Valid g v → ampOf s.q.comps (g.stdName v) = if v = List.replicate g.C 0 then 1 else 0) ∨
    (n = 1 ∧ 2 ≤ g.L ∧ ∃ κ, ∀ v, Valid g v → ampOf s.q.comps (g.stdName v) = photonVec g W κ v)

theorem ampOf_mem {g : Cfg} {c : Comps} (hw : WellFormed g c) {p : Name × Comp} (hp : p ∈ c) : ampOf c p.1 = p.2.amp := by
  unfold ampOf
  have := Dict.get?_of_mem hw.nodup (show (p.1, p.2) ∈ c from hp)
  rw [this]
  rfl

theorem mem_of_ampOf {c : Comps} {n : Name} (h : ampOf c n ≠ 0) : ∃ p ∈ c, p.1 = n ∧ p.2.amp = ampOf c n := by
  unfold ampOf at h ⊢
  cases hk : Dict.get? c n with
  | none => rw [hk] at h; exact absurd rfl h
  | some k => exact ⟨(n, k), Dict.get?_mem hk, rfl, rfl⟩

/-- Two components have different photon numbers. -/
theorem single_of_two {g : Cfg} {c : Comps} (hw : WellFormed g c) (h2 : 2 ≤ c.length) : ∃ p ∈ c, ∃ q ∈ c, p.1 ≠ q.1 := by
  rcases c with _ | ⟨p, _ | ⟨q, l⟩⟩
  · simp at h2
  · simp at h2
  · refine ⟨p, by simp, q, by simp, ?_⟩
    have := hw.nodup
    simp only [List.map_cons, List.nodup_cons, List.mem_cons, not_or] at this
    exact this.1.1

theorem unit_row {g : Cfg} {W : ChMat g} (hW : W ∈ Matrix.unitaryGroup (Fin g.C) ℂ) (j : Fin g.C) : ∑ κ, ‖W j κ‖ ^ 2 = 1 := by
  have h := congrFun (congrFun (Matrix.mem_unitaryGroup_iff.1 hW) j) j
  rw [Matrix.mul_apply, Matrix.one_apply_eq] at h
  have : ((∑ κ, ‖W j κ‖ ^ 2 : ℝ) : ℂ) = 1 := by
    rw [← h]
    push_cast
    refine Finset.sum_congr rfl (fun κ _ => ?_)
    rw [Matrix.star_apply, ← Complex.mul_conj', RCLike.star_def]
  exact_mod_cast this

theorem unit_col {g : Cfg} {W : ChMat g} (hW : W ∈ Matrix.unitaryGroup (Fin g.C) ℂ) (κ : Fin g.C) : ∑ j, ‖W j κ‖ ^ 2 = 1 := by
  have h := congrFun (congrFun (Matrix.mem_unitaryGroup_iff'.1 hW) κ) κ
  rw [Matrix.mul_apply, Matrix.one_apply_eq] at h
  have : ((∑ j, ‖W j κ‖ ^ 2 : ℝ) : ℂ) = 1 := by
    rw [← h]
    push_cast
    refine Finset.sum_congr rfl (fun j _ => ?_)
    rw [Matrix.star_apply, ← Complex.conj_mul', RCLike.star_def]
  exact_mod_cast this

theorem lone_of_sum {ι : Type*} [Fintype ι] [DecidableEq ι] {f : ι → ℂ} (h : ∑ i, ‖f i‖ ^ 2 = 1) {i j : ι} (hi : ‖f i‖ = 1) (hij : j ≠ i) : f j = 0 := by
  have h1 : ‖f i‖ ^ 2 + ‖f j‖ ^ 2 ≤ ∑ i, ‖f i‖ ^ 2 := by
    rw [← Finset.sum_pair hij.symm (f := fun i => ‖f i‖ ^ 2)]
    exact Finset.sum_le_sum_of_subset_of_nonneg (Finset.subset_univ _) (fun _ _ _ => sq_nonneg _)
  rw [h, hi] at h1
  have h2 : ‖f j‖ ^ 2 = 0 := le_antisymm (by linarith) (sq_nonneg _)
  exact norm_eq_zero.1 (by simpa using h2)

open Classical in
/-- The phase of a photon in channel `ch`: of the only entry of a row of `W` with one entry. -/
noncomputable def framePhase {g : Cfg} (W : ChMat g) (ch : ℕ) : ℂ :=
  if h : ∃ hc : ch < g.C, ∃ κ, ‖W ⟨ch, hc⟩ κ‖ = 1 then W ⟨ch, h.1⟩ h.2.choose else 1

theorem framePhase_norm {g : Cfg} (W : ChMat g) (ch : ℕ) : ‖framePhase W ch‖ = 1 := by
  unfold framePhase
  split
  · rename_i h
    exact h.2.choose_spec
  · simp

theorem framePhase_eq {g : Cfg} {W : ChMat g} (hW : W ∈ Matrix.unitaryGroup (Fin g.C) ℂ) {j κ : Fin g.C} (h : ‖W j κ‖ = 1) : framePhase W j = W j κ := by
  have hx : ∃ hc : (j : ℕ) < g.C, ∃ κ, ‖W ⟨j, hc⟩ κ‖ = 1 := ⟨j.2, κ, h⟩
  unfold framePhase
  rw [dif_pos hx]
  have h1 := hx.2.choose_spec
  have e : hx.2.choose = κ := by
    by_contra hne
    have := lone_of_sum (f := fun k => W j k) (unit_row hW j) h hne
    rw [show W ⟨(j : ℕ), hx.1⟩ hx.2.choose = 0 from this] at h1
    simp at h1
  rw [e]

theorem framePhase_one {g : Cfg} {W : ChMat g} {j : Fin g.C} (h : ∀ κ, ‖W j κ‖ ≠ 1) : framePhase W j = 1 := by
  unfold framePhase
  rw [dif_neg]
  rintro ⟨_, κ, hκ⟩
  exact h κ hκ

theorem numbersPhase_oneHot {g : Cfg} (α : ℕ → ℂ) {j : ℕ} (hj : j < g.C) : numbersPhase α (oneHot g.C j) = α j := by
  rw [numbersPhase_eq (g := g) α (by simp [oneHot]), Finset.prod_eq_single j]
  · rw [oneHot_at hj, if_pos rfl, pow_one]
  · intro i _ hi
    rw [oneHot_at hj, if_neg hi, pow_zero]
  · intro h
    exact absurd (Finset.mem_range.2 hj) h

theorem numbersPhase_zeros {g : Cfg} (α : ℕ → ℂ) : numbersPhase α (List.replicate g.C 0) = 1 := by
  unfold numbersPhase
  refine Finset.prod_eq_one (fun i _ => ?_)
  simp

/-- The photon numbers of the components. -/
theorem InFrame.comp {g : Cfg} {W : ChMat g} {n : ℕ} {s : PState} (h : InFrame g W n s) {p : Name × Comp} (hp : p ∈ s.q.comps) {v : Vals} (hv : Valid g v) (hn : IsName g v p.1) :
    v.sum = n ∧ ((n = 0 ∧ v = List.replicate g.C 0 ∧ p.2.amp = 1) ∨ (n = 1 ∧ ∃ κ j : Fin g.C, v = oneHot g.C j ∧ p.2.amp = W j κ ∧ ∀ v, Valid g v → ampOf s.q.comps (g.stdName v) = photonVec g W κ v)) := by
  have ha : ampOf s.q.comps (g.stdName v) = p.2.amp := by rw [← (isName_iff hv).1 hn, ampOf_mem h.wf hp]
  have h0 := h.nonzero p hp
  rcases h.amps with ⟨rfl, h1⟩ | ⟨rfl, hL, κ, h1⟩
  · rw [h1 v hv] at ha
    by_cases e : v = List.replicate g.C 0
    · rw [if_pos e] at ha
      exact ⟨by rw [e]; simp, Or.inl ⟨rfl, e, ha.symm⟩⟩
    · rw [if_neg e] at ha
      exact absurd ha.symm h0
  · rw [h1 v hv] at ha
    obtain ⟨j, rfl⟩ := photonVec_ne (by rw [ha]; exact h0)
    rw [photonVec_oneHot] at ha
    exact ⟨oneHot_sum j.2, Or.inr ⟨rfl, κ, j, rfl, ha.symm, h1⟩⟩

theorem InFrame.total {g : Cfg} (hg : g.Ok) {W : ChMat g} (hW : W ∈ Matrix.unitaryGroup (Fin g.C) ℂ) {n : ℕ} {s : PState} (h : InFrame g W n s) : totalProb s.q.comps = 1 := by
  rw [totalProb_eq hg.1 h.wf]
  have hv : ∀ i < g.size, vec g s.q.comps i = ampOf s.q.comps (g.stdName (g.valuesFromIndex i)) := by
    intro i hi
    rw [← vec_index (g.valid_valuesFromIndex hg.1 i), g.indexOf_valuesFromIndex hi]
  rcases h.amps with ⟨_, h1⟩ | ⟨_, hL, κ, h1⟩
  · have hz := zeros_valid hg.1
    rw [Finset.sum_eq_single (g.indexOf (List.replicate g.C 0))]
    · rw [vec_index hz, h1 _ hz, if_pos rfl]; simp
    · intro i hi hne
      rw [hv i (Finset.mem_range.1 hi), h1 _ (g.valid_valuesFromIndex hg.1 i), if_neg]
      · simp
      · intro e
        rw [← e, g.indexOf_valuesFromIndex (Finset.mem_range.1 hi)] at hne
        exact hne rfl
    · intro h
      exact absurd (Finset.mem_range.2 (g.indexOf_lt hz)) h
  · rw [← unit_col hW κ]
    symm
    refine Finset.sum_bij_ne_zero (fun (j : Fin g.C) _ _ => g.indexOf (oneHot g.C j)) ?_ ?_ ?_ ?_
    · intro j _ _
      exact Finset.mem_range.2 (g.indexOf_lt (oneHot_valid hL))
    · intro i _ _ j _ _ e
      have := congrArg g.valuesFromIndex e
      rw [g.valuesFromIndex_indexOf (oneHot_valid hL), g.valuesFromIndex_indexOf (oneHot_valid hL)] at this
      exact Fin.ext (oneHot_inj i.2 j.2 this)
    · intro i hi hne
      rw [hv i (Finset.mem_range.1 hi), h1 _ (g.valid_valuesFromIndex hg.1 i)] at hne
      obtain ⟨j, hj⟩ := photonVec_ne (W := W) (κ := κ) (v := g.valuesFromIndex i) (by intro h0; rw [h0] at hne; simp at hne)
      refine ⟨j, Finset.mem_univ _, ?_, ?_⟩
      · rw [hj, photonVec_oneHot] at hne
        exact hne
      · rw [← hj, g.indexOf_valuesFromIndex (Finset.mem_range.1 hi)]
    · intro j _ _
      rw [vec_index (oneHot_valid hL), h1 _ (oneHot_valid hL), photonVec_oneHot]

theorem InFrame.ne {g : Cfg} (hg : g.Ok) {W : ChMat g} (hW : W ∈ Matrix.unitaryGroup (Fin g.C) ℂ) {n : ℕ} {s : PState} (h : InFrame g W n s) : s.q.comps ≠ [] := by
  intro h0
  have := h.total hg hW
  rw [h0] at this
  simp [totalProb] at this

/-- States of single photons can be split, and the phases are consistent. -/
theorem InFrame.interfering {g : Cfg} (hg : g.Ok) {W : ChMat g} (hW : W ∈ Matrix.unitaryGroup (Fin g.C) ℂ) {n : ℕ} {s : PState} (h : InFrame g W n s) : InterferingState g (framePhase W) s := by
  have hsum := h.total hg hW
  refine ⟨⟨h.wf, h.ne hg hW, fun _ => ⟨hsum, h.nonzero⟩⟩, ?_, ?_⟩
  · intro v nm k hc hv hn
    obtain ⟨h1, h2⟩ := h.comp (p := (nm, k)) (by rw [hc]; simp) hv hn
    have hle : v.sum ≤ 1 := by
      rcases h2 with ⟨rfl, _⟩ | ⟨rfl, _⟩ <;> omega
    refine ⟨?_, Or.inl hle⟩
    rcases h2 with ⟨_, e, e2⟩ | ⟨_, κ, j, e, e2, hall⟩
    · rw [e, numbersPhase_zeros]
      exact e2
    · rw [e, numbersPhase_oneHot _ j.2]
      have hone : ‖W j κ‖ = 1 := by
        rw [hc] at hsum
        simp only [totalProb, List.map_cons, List.map_nil, List.sum_cons, List.sum_nil, add_zero] at hsum
        rw [← e2]
        have := norm_nonneg k.amp
        nlinarith
      rw [framePhase_eq hW hone]
      exact e2
  · intro h2 p hp v hv hn
    obtain ⟨h3, h4⟩ := h.comp hp hv hn
    rcases h4 with ⟨_, e, _⟩ | ⟨rfl, κ, j, e, e2, hall⟩
    · rw [e, numbersPhase_zeros]
    · rw [e, numbersPhase_oneHot _ j.2]
      apply framePhase_one
      intro κ' hκ'
      have h0 : W j κ ≠ 0 := by rw [← e2]; exact h.nonzero p hp
      have hk : κ = κ' := by
        by_contra hne
        exact h0 (lone_of_sum (f := fun k => W j k) (unit_row hW j) hκ' hne)
      subst hk
      obtain ⟨a, ha, b, hb, hab⟩ := single_of_two h.wf h2
      have all : ∀ q ∈ s.q.comps, q.1 = g.stdName v := by
        intro q hq
        obtain ⟨w, hw, hwn⟩ := h.wf.named' hq
        obtain ⟨_, h5⟩ := h.comp hq hw ((isName_iff hw).2 hwn)
        rcases h5 with ⟨h6, _⟩ | ⟨_, κ2, j2, f, f2, hall2⟩
        · simp at h6
        · rw [hwn, f, e]
          have h7 : W j2 κ ≠ 0 := by
            have := h.nonzero q hq
            rw [← ampOf_mem h.wf hq, hwn, f] at this
            rw [f] at hw
            rw [hall _ hw, photonVec_oneHot] at this
            exact this
          have : j2 = j := by
            by_contra hne
            exact h7 (lone_of_sum (f := fun i => W i κ) (unit_col hW κ) hκ' hne)
          rw [this]
      exact hab (by rw [all a ha, all b hb])

end Verif
