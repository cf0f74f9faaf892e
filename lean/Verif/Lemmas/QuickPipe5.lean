/-
The 50/50 beam splitter: no small transition probabilities, no bare phases.
-/
import Verif.Lemmas.QuickPipe4
import Verif.Props.OpticalNodes

namespace Verif
open Spec Props MvPolynomial

/-- Numbers for the creation operators of the channels. -/
noncomputable def evalAt (x : ℕ → ℂ) : MvPolynomial Mode ℂ →ₐ[ℂ] ℂ := aeval (fun m : Mode => x m.1)

/-- The normalisation of a basis state. -/
noncomputable def ketNorm (v : Vals) : ℂ := ∏ j ∈ Finset.range v.length, (1 / (Real.sqrt (Nat.factorial (v.getD j 0)) : ℂ))

theorem ketNorm_ne (v : Vals) : ketNorm v ≠ 0 := by
  unfold ketNorm
  refine Finset.prod_ne_zero_iff.2 (fun j _ => ?_)
  refine one_div_ne_zero ?_
  rw [Complex.ofReal_ne_zero]
  exact (Real.sqrt_pos.2 (by exact_mod_cast Nat.factorial_pos _)).ne'

theorem ket_split (i : Option PInfo) (v : Vals) : ketPoly i v = C (ketNorm v) * ∏ j ∈ Finset.range v.length, (X (j, i) ^ (v.getD j 0) : MvPolynomial Mode ℂ) := by
  rw [ketPoly_range, Finset.prod_mul_distrib, ketNorm, map_prod]

theorem eval_ket (x : ℕ → ℂ) (i : Option PInfo) (v : Vals) : evalAt x (ketPoly i v) = ketNorm v * ∏ j ∈ Finset.range v.length, x j ^ (v.getD j 0) := by
  rw [ket_split, map_mul, map_prod]
  have : evalAt x (C (ketNorm v)) = ketNorm v := (evalAt x).commutes _
  rw [this]
  congr 1
  refine Finset.prod_congr rfl (fun j _ => ?_)
  rw [map_pow]
  unfold evalAt
  rw [aeval_X]

/-- Basis states are the same up to a phase only if the phase is 1. -/
theorem ket_phase {g : Cfg} {i : Option PInfo} {v w : Vals} {a : ℂ} (hv : Valid g v) (hw : Valid g w) (h : ketPoly i v = C a * ketPoly i w) : a = 1 := by
  classical
  have hev : ∀ x : ℕ → ℂ, ketNorm v * ∏ j ∈ Finset.range v.length, x j ^ (v.getD j 0) = a * (ketNorm w * ∏ j ∈ Finset.range w.length, x j ^ (w.getD j 0)) := by
    intro x
    have := congrArg (evalAt x) h
    rw [map_mul, eval_ket, eval_ket] at this
    rw [this]
    congr 1
    exact (evalAt x).commutes _
  have h1 := hev (fun _ => 1)
  simp only [one_pow, Finset.prod_const_one, mul_one] at h1
  have hvw : v = w := by
    refine List.ext_getElem (hv.1.trans hw.1.symm) (fun k k1 k2 => ?_)
    have h2 := hev (fun j => if j = k then 2 else 1)
    have hp : ∀ (u : Vals), k < u.length → ∏ j ∈ Finset.range u.length, (if j = k then (2 : ℂ) else 1) ^ (u.getD j 0) = 2 ^ (u.getD k 0) := by
      intro u hu
      rw [Finset.prod_eq_single k]
      · rw [if_pos rfl]
      · intro j _ hj
        rw [if_neg hj, one_pow]
      · intro hn
        exact absurd (Finset.mem_range.2 hu) hn
    rw [hp v k1, hp w k2, ← mul_assoc, ← h1] at h2
    have h3 := mul_left_cancel₀ (ketNorm_ne v) h2
    have h4 : (2 : ℕ) ^ (v.getD k 0) = 2 ^ (w.getD k 0) := by exact_mod_cast h3
    have h5 := Nat.pow_right_injective (le_refl 2) h4
    simpa [List.getD_eq_getElem, k1, k2] using h5
  rw [hvw] at h1
  have : ketNorm w * 1 = ketNorm w * a := by rw [mul_one, mul_comm _ a]; exact h1
  exact (mul_left_cancel₀ (ketNorm_ne w) this).symm

/-- The matrix of the 50/50 beam splitter. -/
noncomputable def mixM : Opt := genericMatrix (Real.pi / 8) Real.pi

/-- What the beam splitter makes of a creation operator, without the factor √½. -/
noncomputable def mixForm (h k j : ℕ) (i : Option PInfo) : MvPolynomial Mode ℤ := if j = h then X (h, i) + X (k, i) else if j = k then X (h, i) - X (k, i) else X (j, i)

/-- The factor √½ for the channels of the beam splitter. -/
noncomputable def mixFactor (h k j : ℕ) : ℂ := if j = h ∨ j = k then ((√2 / 2 : ℝ) : ℂ) else 1

theorem mix_X (h k j : ℕ) (i : Option PInfo) : gateSubst mixM h k (X (j, i)) = C (mixFactor h k j) * MvPolynomial.map (Int.castRingHom ℂ) (mixForm h k j i) := by
  unfold gateSubst mixM mixFactor mixForm
  rw [aeval_X, mixMatrix]
  by_cases e1 : j = h
  · simp only [e1, true_or, if_true, map_add, map_X]
    show C _ * _ + C _ * _ = _
    simp only [Matrix.cons_val', Matrix.cons_val_zero, Matrix.cons_val_one, Matrix.of_apply, Matrix.cons_val_fin_one]
    ring
  · by_cases e2 : j = k
    · simp only [e2, or_true, if_true]
      split
      · next e => exact absurd (e2.trans e) e1
      · show C _ * _ + C _ * _ = _
        simp only [Matrix.cons_val', Matrix.cons_val_zero, Matrix.cons_val_one, Matrix.of_apply, Matrix.cons_val_fin_one, map_neg, map_sub, map_X]
        ring
    · simp [e1, e2]

theorem mix_ket (h k : ℕ) (i : Option PInfo) (v : Vals) : opticsSubst [⟨mixM, h, k⟩] (ketPoly i v) =
    C (ketNorm v * ∏ j ∈ Finset.range v.length, mixFactor h k j ^ (v.getD j 0)) * MvPolynomial.map (Int.castRingHom ℂ) (∏ j ∈ Finset.range v.length, mixForm h k j i ^ (v.getD j 0)) := by
  show gateSubst mixM h k (ketPoly i v) = _
  have hc : ∀ z : ℂ, gateSubst mixM h k (C z) = C z := fun z => (gateSubst mixM h k).commutes z
  rw [ket_split, map_mul, hc, map_prod, C_mul, mul_assoc]
  congr 1
  rw [map_prod, map_prod, ← Finset.prod_mul_distrib]
  refine Finset.prod_congr rfl (fun j _ => ?_)
  rw [map_pow, mix_X, mul_pow, map_pow, map_pow]

theorem norm_ketNorm (v : Vals) : ‖ketNorm v‖ ^ 2 = ∏ j ∈ Finset.range v.length, (1 / (Nat.factorial (v.getD j 0) : ℝ)) := by
  unfold ketNorm
  rw [norm_prod, ← Finset.prod_pow]
  refine Finset.prod_congr rfl (fun j _ => ?_)
  rw [norm_div, norm_one, Complex.norm_real, Real.norm_eq_abs, abs_of_nonneg (Real.sqrt_nonneg _), div_pow, one_pow, Real.sq_sqrt (by positivity)]

theorem factorials_le (v : Vals) : ∏ j ∈ Finset.range v.length, Nat.factorial (v.getD j 0) ≤ Nat.factorial v.sum := by
  have := Nat.prod_factorial_dvd_factorial_sum (Finset.range v.length) (fun j => v.getD j 0)
  rw [sum_getD_range] at this
  exact Nat.le_of_dvd (Nat.factorial_pos _) this

/-- The 50/50 beam splitter has no small transition probabilities. -/
theorem mix_kets_keep {g : Cfg} {thr : ℝ} (ht : thr * ((2 : ℝ) ^ (g.L - 1) * Nat.factorial (g.L - 1)) ≤ 1) (hp : 0 < thr) (h k : ℕ) : KetsKeep g thr [⟨mixM, h, k⟩] := by
  intro i v w _ hvs _ hlt
  unfold amplitudeIn at hlt ⊢
  rw [mix_ket, coeff_C_mul, coeff_map] at hlt ⊢
  set n : ℤ := coeff (monoOf i w) (∏ j ∈ Finset.range v.length, mixForm h k j i ^ (v.getD j 0)) with hn
  by_cases h0 : n = 0
  · rw [h0]; simp
  · exfalso
    have a1 : 1 ≤ ‖((Int.castRingHom ℂ) n)‖ ^ 2 := by
      have : (1 : ℝ) ≤ |(n : ℝ)| := by
        have := Int.one_le_abs h0
        exact_mod_cast this
      have e : ‖((Int.castRingHom ℂ) n)‖ = |(n : ℝ)| := by simp
      rw [e]
      nlinarith
    have a2 : 1 ≤ ‖(((Real.sqrt ((w.map Nat.factorial).prod : ℕ) : ℝ) : ℂ))‖ ^ 2 := by
      have := factorials_norm w
      nlinarith
    have a3 : ((2 : ℝ) ^ (g.L - 1))⁻¹ ≤ ‖∏ j ∈ Finset.range v.length, mixFactor h k j ^ (v.getD j 0)‖ ^ 2 := by
      rw [norm_prod, ← Finset.prod_pow]
      have hj : ∀ j ∈ Finset.range v.length, (1 / 2 : ℝ) ^ (v.getD j 0) ≤ ‖mixFactor h k j ^ (v.getD j 0)‖ ^ 2 := by
        intro j _
        rw [norm_pow, ← pow_mul, mul_comm, pow_mul]
        refine pow_le_pow_left₀ (by norm_num) ?_ _
        unfold mixFactor
        split
        · exact norm_half.ge
        · norm_num
      refine le_trans ?_ (Finset.prod_le_prod (fun _ _ => by positivity) hj)
      rw [Finset.prod_pow_eq_pow_sum, sum_getD_range, one_div, inv_pow]
      exact inv_anti₀ (by positivity) (pow_le_pow_right₀ (by norm_num) (by omega))
    have a4 : ((Nat.factorial (g.L - 1) : ℝ))⁻¹ ≤ ‖ketNorm v‖ ^ 2 := by
      rw [norm_ketNorm]
      simp only [one_div]
      rw [Finset.prod_inv_distrib]
      refine inv_anti₀ (Finset.prod_pos (fun j _ => by exact_mod_cast Nat.factorial_pos _)) ?_
      have := le_trans (factorials_le v) (Nat.factorial_le (show v.sum ≤ g.L - 1 by omega))
      exact_mod_cast this
    rw [norm_mul, norm_mul, norm_mul, mul_pow, mul_pow, mul_pow] at hlt
    have a5 : thr ≤ ((Nat.factorial (g.L - 1) : ℝ))⁻¹ * ((2 : ℝ) ^ (g.L - 1))⁻¹ := by
      rw [← mul_inv, le_inv_comm₀ hp (by positivity), ← one_div, le_div_iff₀ hp]
      linarith
    have b1 : ((Nat.factorial (g.L - 1) : ℝ))⁻¹ * ((2 : ℝ) ^ (g.L - 1))⁻¹ ≤ ‖ketNorm v‖ ^ 2 * ‖∏ j ∈ Finset.range v.length, mixFactor h k j ^ (v.getD j 0)‖ ^ 2 :=
      mul_le_mul a4 a3 (by positivity) (by positivity)
    have b2 := mul_le_mul b1 a1 (by norm_num) (by positivity)
    have b3 := mul_le_mul b2 a2 (by norm_num) (by positivity)
    linarith

/-- The 50/50 beam splitter does not give a basis state a phase. -/
theorem mix_noBare {g : Cfg} {h k : ℕ} (hne : h ≠ k) (hh : h < g.C) (hk : k < g.C) : NoBarePhase g [⟨mixM, h, k⟩] := by
  classical
  intro i v w a hv _ hw he
  have hg : ∀ x : ℕ → ℂ, evalAt x (opticsSubst [⟨mixM, h, k⟩] (ketPoly i v)) = a * (ketNorm w * ∏ j ∈ Finset.range w.length, x j ^ (w.getD j 0)) := by
    intro x
    rw [he, map_mul, eval_ket]
    congr 1
    exact (evalAt x).commutes _
  have hl : ∀ x : ℕ → ℂ, evalAt x (opticsSubst [⟨mixM, h, k⟩] (ketPoly i v)) = (ketNorm v * ∏ j ∈ Finset.range v.length, mixFactor h k j ^ (v.getD j 0)) *
      ∏ j ∈ Finset.range v.length, (if j = h then x h + x k else if j = k then x h - x k else x j) ^ (v.getD j 0) := by
    intro x
    rw [mix_ket, map_mul]
    have hc : ∀ z : ℂ, evalAt x (C z) = z := fun z => (evalAt x).commutes z
    rw [hc]
    congr 1
    rw [map_prod, map_prod]
    refine Finset.prod_congr rfl (fun j _ => ?_)
    rw [map_pow, map_pow]
    congr 1
    unfold mixForm
    split
    · rw [map_add, map_X, map_X, map_add]
      unfold evalAt
      rw [aeval_X, aeval_X]
    · split
      · rw [map_sub, map_X, map_X, map_sub]
        unfold evalAt
        rw [aeval_X, aeval_X]
      · rw [map_X]
        unfold evalAt
        rw [aeval_X]
  have hK : ketNorm v * ∏ j ∈ Finset.range v.length, mixFactor h k j ^ (v.getD j 0) ≠ 0 := by
    refine mul_ne_zero (ketNorm_ne v) (Finset.prod_ne_zero_iff.2 (fun j _ => pow_ne_zero _ ?_))
    unfold mixFactor
    split
    · rw [Complex.ofReal_ne_zero]; positivity
    · exact one_ne_zero
  -- not zero somewhere
  have hsome : a ≠ 0 := by
    intro h0
    have h1 := hg (fun j => if j = h then 2 else 1)
    rw [hl, h0, zero_mul] at h1
    rcases mul_eq_zero.1 h1 with h1 | h1
    · exact hK h1
    · obtain ⟨j, _, hj⟩ := Finset.prod_eq_zero_iff.1 h1
      replace hj := eq_zero_of_pow_eq_zero hj
      simp only [if_true, if_neg hne.symm] at hj
      split at hj
      · norm_num at hj
      · next e1 =>
        split at hj
        · norm_num at hj
        · norm_num at hj
  have hvh : v.getD h 0 = 0 := by
    by_contra hc
    have h1 := hg (fun j => if j = k then -1 else 1)
    rw [hl] at h1
    have h2 : ∏ j ∈ Finset.range v.length, (if j = h then (if h = k then (-1 : ℂ) else 1) + (if k = k then -1 else 1) else if j = k then (if h = k then (-1 : ℂ) else 1) - (if k = k then -1 else 1) else (if j = k then -1 else 1)) ^ (v.getD j 0) = 0 := by
      refine Finset.prod_eq_zero (Finset.mem_range.2 (by rw [hv.1]; exact hh)) (i := h) ?_
      simp only [if_true, if_neg hne]
      rw [show (1 : ℂ) + -1 = 0 by ring]
      exact zero_pow hc
    rw [h2, mul_zero] at h1
    have h3 : ∏ j ∈ Finset.range w.length, (if j = k then (-1 : ℂ) else 1) ^ (w.getD j 0) ≠ 0 := Finset.prod_ne_zero_iff.2 (fun j _ => pow_ne_zero _ (by split <;> norm_num))
    exact mul_ne_zero hsome (mul_ne_zero (ketNorm_ne w) h3) h1.symm
  have hvk : v.getD k 0 = 0 := by
    by_contra hc
    have h1 := hg (fun _ => 1)
    rw [hl] at h1
    have h2 : ∏ j ∈ Finset.range v.length, (if j = h then (1 : ℂ) + 1 else if j = k then (1 : ℂ) - 1 else 1) ^ (v.getD j 0) = 0 := by
      refine Finset.prod_eq_zero (Finset.mem_range.2 (by rw [hv.1]; exact hk)) (i := k) ?_
      simp only [if_true, if_neg hne.symm]
      rw [sub_self]
      exact zero_pow hc
    rw [h2, mul_zero] at h1
    simp only [one_pow, Finset.prod_const_one, mul_one] at h1
    exact mul_ne_zero hsome (ketNorm_ne w) h1.symm
  refine ket_phase (i := i) hv hw ?_
  rw [← he, mix_ket, ket_split]
  have e1 : ∏ j ∈ Finset.range v.length, mixFactor h k j ^ (v.getD j 0) = 1 := by
    refine Finset.prod_eq_one (fun j _ => ?_)
    unfold mixFactor
    split
    · next e => rcases e with rfl | rfl <;> simp only [hvh, hvk, pow_zero]
    · exact one_pow _
  rw [e1, mul_one]
  congr 1
  rw [map_prod]
  refine Finset.prod_congr rfl (fun j _ => ?_)
  unfold mixForm
  by_cases ej : j = h
  · rw [ej, hvh, pow_zero, pow_zero, map_one]
  · by_cases ek : j = k
    · rw [ek, hvk, pow_zero, pow_zero, map_one]
    · rw [if_neg ej, if_neg ek, map_pow, map_X]

end Verif
