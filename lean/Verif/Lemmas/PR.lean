/- Helper lemmas about Popescu-Rohrlich pairs: unravelling of a product of vectors. -/
import Verif.Model.PR
import Mathlib.Analysis.SpecialFunctions.Complex.Circle

namespace Verif

theorem mem_rowMajor {d b : ℕ} (x : Fin d → Fin b) : x ∈ rowMajor d b := by
  unfold rowMajor
  rw [List.mem_map]
  refine ⟨finFunctionFinEquiv (fun i => x i.rev), List.mem_finRange _, ?_⟩
  funext i
  rw [Equiv.symm_apply_apply, Fin.rev_rev]

theorem argMaxIdx_le {ι : Type*} [Inhabited ι] {enum : List ι} (f : ι → ℝ) {x : ι} (hx : x ∈ enum) : f x ≤ f (argMaxIdx enum f) := by
  unfold argMaxIdx
  cases h : enum.argmax f with
  | none => rw [List.argmax_eq_none] at h; subst h; exact absurd hx (by simp)
  | some a => exact List.le_of_mem_argmax hx (Option.mem_def.mpr h)

theorem cexp_arg {z : ℂ} (hz : z ≠ 0) : Complex.exp (Complex.I * (z.arg : ℂ)) = z / (‖z‖ : ℂ) := by
  have h := Complex.norm_mul_exp_arg_mul_I z
  have hn : (‖z‖ : ℂ) ≠ 0 := by exact_mod_cast (norm_ne_zero_iff.mpr hz)
  rw [mul_comm Complex.I, eq_div_iff hn, mul_comm, h]

theorem norm_unit {z : ℂ} (hz : z ≠ 0) : ‖z / (‖z‖ : ℂ)‖ = 1 := by
  have hn : ‖z‖ ≠ 0 := norm_ne_zero_iff.mpr hz
  rw [Complex.norm_div, Complex.norm_real, norm_norm, div_self hn]

theorem sum_cons {d b : ℕ} {M : Type*} [AddCommMonoid M] (F : (Fin (d + 1) → Fin b) → M) :
    ∑ x, F x = ∑ j, ∑ y : Fin d → Fin b, F (Fin.cons j y) := by
  rw [← Fintype.sum_prod_type' (f := fun (j : Fin b) (y : Fin d → Fin b) => F (Fin.cons j y))]
  exact (Fintype.sum_equiv (Fin.consEquiv (fun _ => Fin b)) _ _ (fun _ => rfl)).symm

/-- The unravelled vector of a product is proportional to the first factor. -/
theorem vectorFromMatrix_prod {d b : ℕ} [NeZero b] {M : (Fin (d + 1) → Fin b) → ℂ} {f : Fin b → ℂ} {W : (Fin d → Fin b) → ℂ}
    (hM : ∀ x, M x = f (x 0) * W (fun i => x i.succ)) (hne : ∃ x, M x ≠ 0) :
    ∃ l : ℂ, l ≠ 0 ∧ ‖l‖ ^ 2 * ∑ j, ‖f j‖ ^ 2 = 1 ∧ ∀ j, vectorFromMatrix M j = l * f j := by
  obtain ⟨x₀, hx₀⟩ := hne
  set mx := argMaxIdx (rowMajor (d + 1) b) (fun x => ‖M x‖ ^ 2) with hmx
  have hM0 : M mx ≠ 0 := by
    have h := argMaxIdx_le (fun x => ‖M x‖ ^ 2) (mem_rowMajor x₀)
    rw [← hmx] at h
    intro h0
    have : 0 < ‖M x₀‖ ^ 2 := pow_pos (norm_pos_iff.mpr hx₀) 2
    simp only [h0, norm_zero] at h
    linarith
  have hf0 : f (mx 0) ≠ 0 := fun h => hM0 (by rw [hM, h, zero_mul])
  have hW0 : W (fun i => mx i.succ) ≠ 0 := fun h => hM0 (by rw [hM, h, mul_zero])
  set tot : ℝ := ∑ x, ‖M x‖ ^ 2 with htot
  set SF : ℝ := ∑ j, ‖f j‖ ^ 2 with hSF
  set SW : ℝ := ∑ y : Fin d → Fin b, ‖W y‖ ^ 2 with hSW
  have hSFp : 0 < SF := Finset.sum_pos' (fun _ _ => sq_nonneg _) ⟨mx 0, Finset.mem_univ _, pow_pos (norm_pos_iff.mpr hf0) 2⟩
  have hSWp : 0 < SW := Finset.sum_pos' (fun _ _ => sq_nonneg _) ⟨_, Finset.mem_univ _, pow_pos (norm_pos_iff.mpr hW0) 2⟩
  have hcons : ∀ (j : Fin b) (y : Fin d → Fin b), M (Fin.cons j y) = f j * W y := by
    intro j y
    rw [hM]
    simp
  have hsq : ∀ j, ∑ x ∈ Finset.univ.filter (fun x : Fin (d + 1) → Fin b => x 0 = j), ‖M x‖ ^ 2 = ‖f j‖ ^ 2 * SW := by
    intro j
    rw [Finset.sum_filter, sum_cons]
    rw [Finset.sum_eq_single j]
    · simp only [Fin.cons_zero, if_true, hcons, Complex.norm_mul, mul_pow]
      rw [← Finset.mul_sum]
    · intro i _ hij
      simp [Fin.cons_zero, hij]
    · simp
  have htotp : tot = SF * SW := by
    rw [htot, sum_cons]
    simp only [hcons, Complex.norm_mul, mul_pow, ← Finset.mul_sum]
    rw [← Finset.sum_mul]
  have htot0 : 0 < tot := htotp ▸ mul_pos hSFp hSWp
  set top : ℂ := M mx / (Real.sqrt tot : ℂ) with htop
  have hst : (Real.sqrt tot : ℂ) ≠ 0 := by exact_mod_cast (Real.sqrt_pos.mpr htot0).ne'
  have htop0 : top ≠ 0 := div_ne_zero hM0 hst
  set phase : ℂ := top / (‖top‖ : ℂ) with hphase
  have hphase1 : ‖phase‖ = 1 := norm_unit htop0
  have hphase0 : phase ≠ 0 := fun h => by rw [h, norm_zero] at hphase1; exact zero_ne_one hphase1
  set c : ℂ := W (fun i => mx i.succ) / phase with hc
  have hc0 : c ≠ 0 := div_ne_zero hW0 hphase0
  have hcn : (‖c‖ : ℂ) ≠ 0 := by exact_mod_cast (norm_ne_zero_iff.mpr hc0)
  have hsF : (Real.sqrt SF : ℂ) ≠ 0 := by exact_mod_cast (Real.sqrt_pos.mpr hSFp).ne'
  refine ⟨c / (‖c‖ : ℂ) / (Real.sqrt SF : ℂ), div_ne_zero (div_ne_zero hc0 hcn) hsF, ?_, ?_⟩
  · rw [Complex.norm_div, norm_unit hc0, Complex.norm_real, Real.norm_eq_abs, abs_of_nonneg (Real.sqrt_nonneg _), div_pow, one_pow,
      Real.sq_sqrt hSFp.le, one_div, inv_mul_cancel₀ hSFp.ne']
  · intro j
    have hupd : M (Function.update mx 0 j) / phase = f j * c := by
      rw [hM, Function.update_self, hc, mul_div_assoc]
      congr 3
    have hratio : Real.sqrt ((‖f j‖ ^ 2 * SW) / ∑ i, ‖f i‖ ^ 2 * SW) = ‖f j‖ / Real.sqrt SF := by
      rw [← Finset.sum_mul, mul_div_mul_right _ _ hSWp.ne', Real.sqrt_div (sq_nonneg _), Real.sqrt_sq (norm_nonneg _)]
    have hv : vectorFromMatrix M j = ((‖f j‖ / Real.sqrt SF : ℝ) : ℂ) * Complex.exp (Complex.I * ((f j * c).arg : ℂ)) := by
      unfold vectorFromMatrix
      simp only [hsq]
      rw [hratio, ← hmx, ← htot, ← htop, ← hphase, hupd]
    rw [hv]
    by_cases hfj : f j = 0
    · simp [hfj]
    · rw [cexp_arg (mul_ne_zero hfj hc0)]
      have hfn : (‖f j‖ : ℂ) ≠ 0 := by exact_mod_cast (norm_ne_zero_iff.mpr hfj)
      rw [Complex.norm_mul]
      push_cast
      field_simp

/-- Two proportional arrays compare as equal. -/
theorem compareMatrices_smul {ι : Type*} [Fintype ι] [Inhabited ι] {enum : List ι} (henum : ∀ x, x ∈ enum) {A B : ι → ℂ} {l : ℂ}
    (hl : l ≠ 0) (hB : ∀ x, B x = l * A x) (hne : ∃ x, A x ≠ 0) : compareMatrices enum A B = 0 := by
  obtain ⟨x₀, hx₀⟩ := hne
  have hS : 0 < ∑ y, ‖A y‖ ^ 2 := Finset.sum_pos' (fun _ _ => sq_nonneg _) ⟨x₀, Finset.mem_univ _, pow_pos (norm_pos_iff.mpr hx₀) 2⟩
  have hSB : ∑ y, ‖B y‖ ^ 2 = ‖l‖ ^ 2 * ∑ y, ‖A y‖ ^ 2 := by
    rw [Finset.mul_sum]
    exact Finset.sum_congr rfl (fun y _ => by rw [hB, Complex.norm_mul, mul_pow])
  unfold compareMatrices
  simp only
  set s : ℂ := ((Real.sqrt (∑ y, ‖A y‖ ^ 2) : ℝ) : ℂ) with hs
  have hs0 : s ≠ 0 := by rw [hs]; exact_mod_cast (Real.sqrt_pos.mpr hS).ne'
  have hln : (‖l‖ : ℂ) ≠ 0 := by exact_mod_cast (norm_ne_zero_iff.mpr hl)
  have hsB : ((Real.sqrt (∑ y, ‖B y‖ ^ 2) : ℝ) : ℂ) = (‖l‖ : ℂ) * s := by
    rw [hSB, Real.sqrt_mul (sq_nonneg _), Real.sqrt_sq (norm_nonneg _), hs]
    push_cast
    rfl
  rw [hsB]
  set mx := argMaxIdx enum (fun x => ‖A x / s‖) with hmx
  have hA0 : A mx ≠ 0 := by
    have h := argMaxIdx_le (fun x => ‖A x / s‖) (henum x₀)
    rw [← hmx] at h
    intro h0
    have : 0 < ‖A x₀ / s‖ := norm_pos_iff.mpr (div_ne_zero hx₀ hs0)
    simp only [h0, zero_div, norm_zero] at h
    linarith
  have hAn : (‖A mx / s‖ : ℂ) ≠ 0 := by exact_mod_cast (norm_ne_zero_iff.mpr (div_ne_zero hA0 hs0))
  have hBn : (‖B mx / ((‖l‖ : ℂ) * s)‖ : ℂ) = (‖A mx / s‖ : ℂ) := by
    have : ‖B mx / ((‖l‖ : ℂ) * s)‖ = ‖A mx / s‖ := by
      rw [hB, Complex.norm_div, Complex.norm_div, Complex.norm_mul, Complex.norm_mul, Complex.norm_real, norm_norm]
      exact mul_div_mul_left _ _ (norm_ne_zero_iff.mpr hl)
    exact_mod_cast this
  have hz : ∀ x, A x / s / (A mx / s / (‖A mx / s‖ : ℂ)) - B x / ((‖l‖ : ℂ) * s) / (B mx / ((‖l‖ : ℂ) * s) / (‖B mx / ((‖l‖ : ℂ) * s)‖ : ℂ)) = 0 := by
    intro x
    rw [hBn, hB, hB]
    field_simp
    ring
  rw [Finset.sum_eq_zero (fun x _ => by rw [hz, norm_zero]; simp)]
  simp

end Verif
