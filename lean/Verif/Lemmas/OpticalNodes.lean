/- Matrices of the optical nodes. -/
import Verif.Model.OpticalNodes
import Verif.Lemmas.Reduced
import Mathlib.Tactic.FinCases
import Mathlib.Tactic.LinearCombination
import Mathlib.Analysis.SpecialFunctions.Trigonometric.Basic

namespace Verif
open Spec Polynomial

theorem genericMatrix_pi (θ : ℝ) : genericMatrix θ Real.pi =
    !![(Real.cos (2 * θ) : ℂ), (Real.sin (2 * θ) : ℂ); (Real.sin (2 * θ) : ℂ), -(Real.cos (2 * θ) : ℂ)] := by
  have h' := Complex.sin_sq_add_cos_sq (θ : ℂ)
  unfold genericMatrix
  simp only [Real.cos_pi, Real.sin_pi, Complex.ofReal_zero, mul_zero, add_zero, Complex.ofReal_neg, Complex.ofReal_one,
    Real.cos_two_mul, Real.sin_two_mul, Complex.ofReal_sub, Complex.ofReal_mul, Complex.ofReal_ofNat, Complex.ofReal_pow]
  ext i j
  fin_cases i <;> fin_cases j <;> simp
  · linear_combination h' * (-1)
  · ring
  · ring
  · linear_combination h'

theorem genericMatrix_zero (φ : ℝ) : genericMatrix 0 φ = !![1, 0; 0, Complex.exp (φ * Complex.I)] := by
  unfold genericMatrix
  rw [Complex.exp_mul_I, ← Complex.ofReal_cos, ← Complex.ofReal_sin]
  ext i j
  fin_cases i <;> fin_cases j <;> simp [mul_comm]

theorem swapMatrix : genericMatrix (Real.pi / 4) Real.pi = !![0, 1; 1, 0] := by
  rw [genericMatrix_pi, show 2 * (Real.pi / 4) = Real.pi / 2 by ring, Real.cos_pi_div_two, Real.sin_pi_div_two]
  simp

theorem mixMatrix : genericMatrix (Real.pi / 8) Real.pi =
    !![((√2 / 2 : ℝ) : ℂ), ((√2 / 2 : ℝ) : ℂ); ((√2 / 2 : ℝ) : ℂ), -((√2 / 2 : ℝ) : ℂ)] := by
  rw [genericMatrix_pi, show 2 * (Real.pi / 8) = Real.pi / 4 by ring, Real.cos_pi_div_four, Real.sin_pi_div_four]

theorem mixGenericMatrix {r t : ℝ} (hr : 0 ≤ r) (ht : 0 ≤ t) (h : r + t = 1) :
    genericMatrix (Complex.arg ⟨Real.sqrt t, Real.sqrt r⟩) Real.pi =
      !![((t - r : ℝ) : ℂ), ((2 * √(r * t) : ℝ) : ℂ); ((2 * √(r * t) : ℝ) : ℂ), -((t - r : ℝ) : ℂ)] := by
  have hn : ‖(⟨√t, √r⟩ : ℂ)‖ = 1 := by
    rw [← sq_eq_sq₀ (norm_nonneg _) zero_le_one, ← Complex.normSq_eq_norm_sq, Complex.normSq_mk,
      Real.mul_self_sqrt ht, Real.mul_self_sqrt hr]
    linarith
  have h0 : (⟨√t, √r⟩ : ℂ) ≠ 0 := by
    intro e; rw [e, norm_zero] at hn; exact zero_ne_one hn
  have hc : Real.cos (Complex.arg ⟨√t, √r⟩) = √t := by rw [Complex.cos_arg h0, hn, div_one]
  have hs : Real.sin (Complex.arg ⟨√t, √r⟩) = √r := by rw [Complex.sin_arg, hn, div_one]
  rw [genericMatrix_pi, Real.cos_two_mul, Real.sin_two_mul, hc, hs, Real.sq_sqrt ht, Real.sqrt_mul hr]
  have e1 : 2 * t - 1 = t - r := by linarith
  have e2 : 2 * √r * √t = 2 * (√r * √t) := by ring
  rw [e1, e2]

theorem sqrt_ratio_self (n m : ℕ) :
    (Real.sqrt ((n.factorial * m.factorial : ℕ) / ((n.factorial * m.factorial : ℕ) : ℝ)) : ℂ) = 1 := by
  rw [div_self (by positivity)]; simp

theorem sqrt_ratio_swap (n m : ℕ) :
    (Real.sqrt ((m.factorial * n.factorial : ℕ) / ((n.factorial * m.factorial : ℕ) : ℝ)) : ℂ) = 1 := by
  rw [mul_comm m.factorial]; exact sqrt_ratio_self n m

theorem bosonAmp_swap (n m u v : ℕ) : bosonAmp !![0, 1; 1, 0] n m u v = if u = m ∧ v = n then 1 else 0 := by
  unfold bosonAmp
  have hp : (genPoly !![0, 1; 1, 0] n m) = X ^ m := by simp [genPoly]
  by_cases h : u = m ∧ v = n
  · obtain ⟨rfl, rfl⟩ := h
    rw [if_pos (add_comm _ _), hp, coeff_X_pow, if_pos rfl, one_mul, sqrt_ratio_swap]; simp
  · rw [if_neg h]
    split
    · rw [hp, coeff_X_pow, if_neg (by omega), zero_mul]
    · rfl

theorem bosonAmp_diag (e : ℂ) (n m u v : ℕ) :
    bosonAmp !![1, 0; 0, e] n m u v = if u = n ∧ v = m then e ^ m else 0 := by
  unfold bosonAmp
  have hp : (genPoly !![1, 0; 0, e] n m) = C (e ^ m) * X ^ n := by simp [genPoly, mul_comm]
  by_cases h : u = n ∧ v = m
  · obtain ⟨rfl, rfl⟩ := h
    rw [if_pos rfl, hp, coeff_C_mul, coeff_X_pow, if_pos rfl, sqrt_ratio_self]; simp
  · rw [if_neg h]
    split
    · rw [hp, coeff_C_mul, coeff_X_pow, if_neg (by omega)]; simp
    · rfl

end Verif
