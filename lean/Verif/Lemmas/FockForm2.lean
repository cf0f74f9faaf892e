/-
Overlaps of pulses of the same width are inner products (the matrix is positive). Lemmas for C104.
-/
import Verif.Lemmas.FockForm
import Verif.Spec.Interference
import Mathlib.Analysis.SpecialFunctions.Exponential
import Mathlib.Analysis.Normed.Algebra.Exponential
import Mathlib.Analysis.Matrix.Order

namespace Verif.Fockform
open MvPolynomial ComplexOrder

/-- The part of a quadratic form for modes in the same channel is a sum of squares. -/
theorem channel_nonneg {ι : Type} [Fintype ι] (ch : ι → ℕ) (y : ι → ℂ) : 0 ≤ ∑ i, ∑ j, (if ch i = ch j then starRingEnd ℂ (y i) * y j else 0) := by
  classical
  have h : ∑ i, ∑ j, (if ch i = ch j then starRingEnd ℂ (y i) * y j else 0) =
      ∑ c ∈ Finset.univ.image ch, starRingEnd ℂ (∑ i, if ch i = c then y i else 0) * (∑ j, if ch j = c then y j else 0) := by
    have e : ∀ c, starRingEnd ℂ (∑ i, if ch i = c then y i else 0) * (∑ j, if ch j = c then y j else 0) = ∑ i, ∑ j, (if ch i = c then (if ch i = ch j then starRingEnd ℂ (y i) * y j else 0) else 0) := by
      intro c
      rw [map_sum, Finset.sum_mul_sum]
      refine Finset.sum_congr rfl (fun i _ => Finset.sum_congr rfl (fun j _ => ?_))
      by_cases hi : ch i = c
      · rw [if_pos hi, if_pos hi, hi]
        by_cases hj : ch j = c
        · rw [if_pos hj, if_pos hj.symm]
        · rw [if_neg hj, if_neg (Ne.symm hj), mul_zero]
      · rw [if_neg hi, if_neg hi, map_zero, zero_mul]
    rw [Finset.sum_congr rfl (fun c _ => e c), Finset.sum_comm (s := Finset.univ.image ch)]
    refine Finset.sum_congr rfl (fun i _ => ?_)
    rw [Finset.sum_comm (s := Finset.univ.image ch)]
    refine Finset.sum_congr rfl (fun j _ => ?_)
    rw [Finset.sum_ite_eq, if_pos (Finset.mem_image_of_mem ch (Finset.mem_univ i))]
  rw [h]
  refine Finset.sum_nonneg (fun c _ => ?_)
  rw [Complex.conj_mul']
  exact_mod_cast (sq_nonneg ‖∑ x, if ch x = c then y x else 0‖)

theorem hasSum_same {f g : ℕ → ℂ} {a b : ℂ} (h : HasSum f a) (hf : ∀ n, g n = f n) (hb : b = a) : HasSum g b := by
  rw [hb, show g = f from funext hf]
  exact h

/-- Pulses with a Gaussian overlap, in channels. -/
noncomputable def gauss (κ : ℝ) (p q : ℕ × ℝ) : ℝ := if p.1 = q.1 then Real.exp (-κ * (p.2 - q.2) ^ 2) else 0

theorem gauss_quad {ι : Type} [Fintype ι] {κ : ℝ} (hκ : 0 ≤ κ) (f : ι → ℕ × ℝ) (x : ι → ℂ) : 0 ≤ ∑ i, ∑ j, starRingEnd ℂ (x i) * x j * (gauss κ (f i) (f j) : ℂ) := by
  let y : ℕ → ι → ℂ := fun n i => x i * (Real.exp (-κ * (f i).2 ^ 2) : ℂ) * ((f i).2 ^ n : ℝ)
  have hs : HasSum (fun n : ℕ => (((2 * κ) ^ n / n.factorial : ℝ) : ℂ) * ∑ i, ∑ j, (if (f i).1 = (f j).1 then starRingEnd ℂ (y n i) * y n j else 0))
      (∑ i, ∑ j, starRingEnd ℂ (x i) * x j * (gauss κ (f i) (f j) : ℂ)) := by
    simp_rw [Finset.mul_sum]
    refine hasSum_sum (fun i _ => hasSum_sum (fun j _ => ?_))
    by_cases h : (f i).1 = (f j).1
    · have e1 := NormedSpace.expSeries_div_hasSum_exp (𝔸 := ℝ) (2 * κ * (f i).2 * (f j).2)
      rw [← Real.exp_eq_exp_ℝ] at e1
      have e2 := (Complex.hasSum_ofReal.2 e1).mul_left (starRingEnd ℂ (x i) * x j * (Real.exp (-κ * (f i).2 ^ 2) : ℂ) * (Real.exp (-κ * (f j).2 ^ 2) : ℂ))
      refine (hasSum_same e2 ?_ ?_)
      · intro n
        rw [if_pos h]
        simp only [y, map_mul, Complex.conj_ofReal]
        push_cast
        ring
      · unfold gauss
        rw [if_pos h, mul_assoc _ (Complex.ofReal _) (Complex.ofReal _), ← Complex.ofReal_mul, mul_assoc _ (Complex.ofReal _) (Complex.ofReal _), ← Complex.ofReal_mul, ← Real.exp_add, ← Real.exp_add]
        congr 3
        ring
    · unfold gauss
      simp only [if_neg h, mul_zero, Complex.ofReal_zero]
      exact hasSum_zero
  refine hs.nonneg (fun n => mul_nonneg ?_ (channel_nonneg _ _))
  rw [Complex.zero_le_real]
  positivity

theorem gauss_symm (κ : ℝ) (p q : ℕ × ℝ) : gauss κ p q = gauss κ q p := by
  unfold gauss
  by_cases h : p.1 = q.1
  · rw [if_pos h, if_pos h.symm]
    congr 2
    ring
  · rw [if_neg h, if_neg (Ne.symm h)]

theorem gauss_features {ι : Type} [Finite ι] {κ : ℝ} (hκ : 0 ≤ κ) (f : ι → ℕ × ℝ) : ∃ (n : ℕ) (v : Fin n → ι → ℂ), ∀ m m', (gauss κ (f m) (f m') : ℂ) = ∑ i, v i m * starRingEnd ℂ (v i m') := by
  have := Fintype.ofFinite ι
  have h : (Matrix.of (fun i j => (gauss κ (f i) (f j) : ℂ))).PosSemidef := by
    refine Matrix.posSemidef_iff_dotProduct_mulVec.2 ⟨?_, fun x => ?_⟩
    · refine Matrix.IsHermitian.ext (fun i j => ?_)
      rw [Matrix.of_apply, Matrix.of_apply, gauss_symm κ (f j)]
      exact Complex.conj_ofReal _
    · have := gauss_quad hκ f x
      convert this using 1
      rw [dotProduct]
      refine Finset.sum_congr rfl (fun i _ => ?_)
      rw [Matrix.mulVec, dotProduct, Finset.mul_sum]
      refine Finset.sum_congr rfl (fun j _ => ?_)
      rw [Matrix.of_apply, Pi.star_apply, RCLike.star_def]
      ring
  obtain ⟨n, v, hv⟩ := Matrix.posSemidef_iff_eq_sum_vecMulVec.1 h
  refine ⟨n, v, fun m m' => ?_⟩
  have := congrFun (congrFun hv m) m'
  rw [Matrix.of_apply, Matrix.sum_apply] at this
  rw [this]
  rfl

/-- The squared norm for Gaussian overlaps is not negative. -/
theorem sq_gauss {σ : Type} {κ : ℝ} (hκ : 0 ≤ κ) (f : σ → ℕ × ℝ) (P : MvPolynomial σ ℂ) : ∃ r : ℝ, 0 ≤ r ∧ sq (fun m m' => (gauss κ (f m) (f m') : ℂ)) P = r := by
  obtain ⟨s, Q, rfl⟩ := exists_finset_rename P
  obtain ⟨n, v, hv⟩ := gauss_features hκ (fun m : s => f m)
  obtain ⟨r, h1, h2⟩ := sq_features _ v hv Q
  refine ⟨r, h1, ?_⟩
  rw [← h2]
  unfold sq
  have : conj (rename ((↑) : s → σ) Q) = rename (↑) (conj Q) := by
    unfold conj
    rw [map_rename]
  rw [this]
  exact form_rename _ (fun m m' => rfl) _ _

end Verif.Fockform
