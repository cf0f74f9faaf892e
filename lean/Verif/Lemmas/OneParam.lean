/- One-parameter groups of matrices. -/
import Mathlib.Analysis.Normed.Algebra.MatrixExponential
import Mathlib.Analysis.SpecialFunctions.Exponential
import Mathlib.Analysis.Calculus.MeanValue

namespace Verif

open NormedSpace in
/-- a differentiable one-parameter group is the exponential of its derivative at 0 -/
theorem oneParam {n : ℕ} (f : ℝ → Matrix (Fin n) (Fin n) ℂ) (A : Matrix (Fin n) (Fin n) ℂ) (h0 : f 0 = 1)
    (hadd : ∀ s t, f (s + t) = f s * f t) (hd : ∀ i j, HasDerivAt (fun t => f t i j) (A i j) 0) :
    f 1 = NormedSpace.exp A := by
  let _ : NormedRing (Matrix (Fin n) (Fin n) ℂ) := Matrix.linftyOpNormedRing
  let _ : NormedAlgebra ℝ (Matrix (Fin n) (Fin n) ℂ) := Matrix.linftyOpNormedAlgebra
  let _ : NormedAlgebra ℂ (Matrix (Fin n) (Fin n) ℂ) := Matrix.linftyOpNormedAlgebra
  have hd0 : HasDerivAt f A 0 := by
    have e : f = fun t => ∑ i, ∑ j, f t i j • Matrix.single i j (1 : ℂ) := by
      funext t
      conv_lhs => rw [Matrix.matrix_eq_sum_single (f t)]
      simp [Matrix.smul_single]
    have eA : A = ∑ i, ∑ j, A i j • Matrix.single i j (1 : ℂ) := by
      conv_lhs => rw [Matrix.matrix_eq_sum_single A]
      simp [Matrix.smul_single]
    rw [e, eA]
    refine HasDerivAt.fun_sum fun i _ => HasDerivAt.fun_sum fun j _ => ?_
    exact (hd i j).smul_const _
  have hdt : ∀ t, HasDerivAt f (f t * A) t := by
    intro t
    have e : f = fun s => f t * f (s - t) := by
      funext s; rw [← hadd]; congr 1; ring
    have h1 : HasDerivAt (fun s => f (s - t)) A t := by
      have : HasDerivAt (fun s : ℝ => s - t) 1 t := (hasDerivAt_id t).sub_const t
      have h2 : HasDerivAt f A (t - t) := by rw [sub_self]; exact hd0
      exact (HasDerivAt.scomp (h := fun s : ℝ => s - t) t h2 this).congr_deriv (one_smul ℝ A)
    rw [e]
    simp only [sub_self, h0, mul_one]
    exact h1.const_mul (f t)
  have hg : ∀ t, HasDerivAt (fun t : ℝ => f t * exp (t • (-A))) 0 t := by
    intro t
    have h1 := (hdt t).fun_mul (hasDerivAt_exp_smul_const' (𝕂 := ℝ) (-A) t)
    refine h1.congr_deriv ?_
    rw [neg_mul, mul_neg, mul_assoc, ← sub_eq_add_neg, sub_self]
  have hc : f 1 * exp ((1 : ℝ) • (-A)) = f 0 * exp ((0 : ℝ) • (-A)) :=
    is_const_of_deriv_eq_zero (f := fun t : ℝ => f t * exp (t • (-A))) (fun t => (hg t).differentiableAt) (fun t => (hg t).deriv) 1 0
  rw [one_smul, zero_smul, exp_zero, h0, mul_one] at hc
  have h2 : exp (-A) * exp A = 1 := by
    rw [← Matrix.exp_add_of_commute _ _ (Commute.neg_left (Commute.refl A))]
    simp
  calc f 1 = f 1 * (exp (-A) * exp A) := by rw [h2, mul_one]
    _ = exp A := by rw [← mul_assoc, hc, one_mul]

end Verif
