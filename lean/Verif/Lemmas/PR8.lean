/- Helper lemmas about Popescu-Rohrlich pairs: polarization read from outcomes that are not products. -/
import Verif.Lemmas.PR7

namespace Verif
open Spec

theorem sum_two_axes {M : Type*} [AddCommMonoid M] {b : ℕ} (F : (Fin 2 → Fin b) → M) : ∑ x, F x = ∑ i, ∑ j, F ![i, j] := by
  rw [← Fintype.sum_prod_type' (f := fun i j : Fin b => F ![i, j])]
  exact (Fintype.sum_equiv (finTwoArrowEquiv (Fin b)).symm _ _ (fun _ => rfl)).symm

theorem two_axes {b : ℕ} (x : Fin 2 → Fin b) : x = ![x 0, x 1] := by
  funext i
  fin_cases i <;> rfl

theorem photonMatrix_zero (v : Fin 4 → ℂ) (i j : Fin 2) : swapAxes (pairMatrix v) 0 ![i, j] = v (pol i j) := by
  unfold swapAxes
  rw [Equiv.swap_self]
  rfl

theorem photonMatrix_one (v : Fin 4 → ℂ) (i j : Fin 2) : swapAxes (pairMatrix v) 1 ![i, j] = v (pol j i) := by
  unfold swapAxes
  have : (![i, j] : Fin 2 → Fin 2) ∘ (Equiv.swap (1 : Fin 2) 0) = ![j, i] := by
    funext k
    fin_cases k <;> simp
  rw [this]
  rfl

/-- No two amplitudes of the pair share a polarization. -/
def LonePair (v : Fin 4 → ℂ) : Prop := (v 1 = 0 ∧ v 2 = 0) ∨ (v 0 = 0 ∧ v 3 = 0)

theorem lonePair_apart {v : Fin 4 → ℂ} (h : LonePair v) {i j i' j' : Fin 2} (hne : v (pol i j) ≠ 0) (hd : (i ≠ i' ∧ j = j') ∨ (i = i' ∧ j ≠ j')) : v (pol i' j') = 0 := by
  have e : pol 0 0 = 0 ∧ pol 0 1 = 1 ∧ pol 1 0 = 2 ∧ pol 1 1 = 3 := by decide
  obtain ⟨e0, e1, e2, e3⟩ := e
  rcases h with ⟨h1, h2⟩ | ⟨h1, h2⟩ <;> fin_cases i <;> fin_cases j <;> fin_cases i' <;> fin_cases j' <;> simp_all

theorem photonAmps_lone {v : Fin 4 → ℂ} (h : LonePair v) (hne : ∃ q, v q ≠ 0) (j : Fin 2) :
    photonAmps v 0 j = (Real.sqrt ((∑ i, ‖v (pol j i)‖ ^ 2) / ∑ q, ‖v q‖ ^ 2) : ℂ) ∧
    photonAmps v 1 j = (Real.sqrt ((∑ i, ‖v (pol i j)‖ ^ 2) / ∑ q, ‖v q‖ ^ 2) : ℂ) := by
  obtain ⟨q, hq⟩ := hne
  have hqp : pol (polA q) (polB q) = q := by fin_cases q <;> rfl
  have htot : ∑ i, ∑ j, ‖v (pol i j)‖ ^ 2 = ∑ q, ‖v q‖ ^ 2 := by
    rw [← sum_pol (fun i j => ‖v (pol i j)‖ ^ 2)]
    refine Finset.sum_congr rfl (fun q _ => ?_)
    rw [show pol (polA q) (polB q) = q by fin_cases q <;> rfl]
  have htot' : ∑ i, ∑ j, ‖v (pol j i)‖ ^ 2 = ∑ q, ‖v q‖ ^ 2 := by
    rw [Finset.sum_comm, htot]
  unfold photonAmps
  constructor
  · rw [vectorFromMatrix_lone]
    · congr 2
      congr 1
      · rw [Finset.sum_filter, sum_two_axes (fun x : Fin 2 → Fin 2 => if x 0 = j then ‖swapAxes (pairMatrix v) 0 x‖ ^ 2 else 0)]
        simp only [photonMatrix_zero, Matrix.cons_val_zero]
        fin_cases j <;> simp [Fin.sum_univ_two]
    · intro x hx k hk
      rw [two_axes x, photonMatrix_zero] at hx
      rw [two_axes (Function.update x 0 k), photonMatrix_zero]
      exact lonePair_apart h hx (Or.inl ⟨by simpa using hk.symm, by simp⟩)
    · exact ⟨![polA q, polB q], by rw [photonMatrix_zero, hqp]; exact hq⟩
  · rw [vectorFromMatrix_lone]
    · congr 3
      · rw [Finset.sum_filter, sum_two_axes (fun x : Fin 2 → Fin 2 => if x 0 = j then ‖swapAxes (pairMatrix v) 1 x‖ ^ 2 else 0)]
        simp only [photonMatrix_one, Matrix.cons_val_zero]
        fin_cases j <;> simp [Fin.sum_univ_two]
      · rw [sum_two_axes (fun x : Fin 2 → Fin 2 => ‖swapAxes (pairMatrix v) 1 x‖ ^ 2)]
        simp only [photonMatrix_one]
        exact htot'
    · intro x hx k hk
      rw [two_axes x, photonMatrix_one] at hx
      rw [two_axes (Function.update x 0 k), photonMatrix_one]
      exact lonePair_apart h hx (Or.inr ⟨by simp, by simpa using hk.symm⟩)
    · exact ⟨![polB q, polA q], by rw [photonMatrix_one, hqp]; exact hq⟩

/-- A pair whose two photons have the same polarization weights counts as fully aligned. -/
theorem alignment_lone {v : Fin 4 → ℂ} (h : LonePair v) (h12 : ‖v 1‖ = ‖v 2‖) (hne : ∃ q, v q ≠ 0) {K : ℝ} (hK : 0 < K) :
    alignment (stokes (photonAmps v 0)) (stokes (photonAmps v 1)) K = 1 := by
  have hS : 0 < ∑ q, ‖v q‖ ^ 2 := by
    obtain ⟨q, hq⟩ := hne
    exact Finset.sum_pos' (fun _ _ => sq_nonneg _) ⟨q, Finset.mem_univ _, pow_pos (norm_pos_iff.mpr hq) 2⟩
  have heq : photonAmps v 1 = photonAmps v 0 := by
    funext j
    rw [(photonAmps_lone h hne j).1, (photonAmps_lone h hne j).2]
    congr 3
    simp only [Fin.sum_univ_two]
    fin_cases j
    · show ‖v 0‖ ^ 2 + ‖v 2‖ ^ 2 = ‖v 0‖ ^ 2 + ‖v 1‖ ^ 2
      rw [h12]
    · show ‖v 1‖ ^ 2 + ‖v 3‖ ^ 2 = ‖v 2‖ ^ 2 + ‖v 3‖ ^ 2
      rw [h12]
  have hw : 0 < polWeight (photonAmps v 0) := by
    unfold polWeight
    rw [(photonAmps_lone h hne 0).1, (photonAmps_lone h hne 1).1, Complex.norm_real, Complex.norm_real, Real.norm_eq_abs, Real.norm_eq_abs, sq_abs, sq_abs,
      Real.sq_sqrt (by positivity), Real.sq_sqrt (by positivity), ← add_div]
    simp only [Fin.sum_univ_two]
    have : ‖v (pol 0 0)‖ ^ 2 + ‖v (pol 0 1)‖ ^ 2 + (‖v (pol 1 0)‖ ^ 2 + ‖v (pol 1 1)‖ ^ 2) = ∑ q, ‖v q‖ ^ 2 := by
      rw [Fin.sum_univ_four]
      show ‖v 0‖ ^ 2 + ‖v 1‖ ^ 2 + (‖v 2‖ ^ 2 + ‖v 3‖ ^ 2) = _
      ring
    rw [this, div_self hS.ne']
    exact one_pos
  rw [heq, alignment_stokes hK hw hw]
  unfold pairCorrelation
  rw [overlap_self hw, Spec.correlation]
  norm_num

end Verif
