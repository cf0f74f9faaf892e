/- Helper lemmas about Popescu-Rohrlich pairs: product arrays, Stokes vectors, alignment. -/
import Verif.Lemmas.PR
import Verif.Spec.PR
import Mathlib.Tactic.FieldSimp
import Mathlib.Tactic.Positivity
import Mathlib.Tactic.LinearCombination

namespace Verif
open Spec

theorem polWeight_nonneg (a : Fin 2 → ℂ) : 0 ≤ polWeight a := by unfold polWeight; positivity

theorem polWeight_pos {a : Fin 2 → ℂ} (h : ∃ i, a i ≠ 0) : 0 < polWeight a := by
  obtain ⟨i, hi⟩ := h
  have : 0 < ‖a i‖ ^ 2 := pow_pos (norm_pos_iff.mpr hi) 2
  unfold polWeight
  fin_cases i
  · have h2 := sq_nonneg ‖a 1‖
    simp only [Fin.zero_eta] at this
    linarith
  · have h2 := sq_nonneg ‖a 0‖
    simp only [Fin.mk_one] at this
    linarith

theorem exists_of_weight {a : Fin 2 → ℂ} (h : 0 < polWeight a) : ∃ i, a i ≠ 0 := by
  by_contra hc
  push Not at hc
  simp [polWeight, hc] at h

theorem polWeight_smul (l : ℂ) (a : Fin 2 → ℂ) : polWeight (fun i => l * a i) = ‖l‖ ^ 2 * polWeight a := by
  unfold polWeight
  simp only [Complex.norm_mul, mul_pow]
  ring

theorem overlap_smul {k l : ℂ} (hk : k ≠ 0) (hl : l ≠ 0) (a b : Fin 2 → ℂ) :
    overlap (fun i => k * a i) (fun i => l * b i) = overlap a b := by
  unfold overlap
  rw [polWeight_smul, polWeight_smul]
  have h : star (k * a 0) * (l * b 0) + star (k * a 1) * (l * b 1) = (star k * l) * (star (a 0) * b 0 + star (a 1) * b 1) := by
    simp only [star_mul]
    ring
  rw [h, Complex.norm_mul, Complex.norm_mul, norm_star, mul_pow, mul_pow]
  have h1 : ‖k‖ ^ 2 ≠ 0 := pow_ne_zero 2 (norm_ne_zero_iff.mpr hk)
  have h2 : ‖l‖ ^ 2 ≠ 0 := pow_ne_zero 2 (norm_ne_zero_iff.mpr hl)
  rw [show ‖k‖ ^ 2 * polWeight a * (‖l‖ ^ 2 * polWeight b) = (‖k‖ ^ 2 * ‖l‖ ^ 2) * (polWeight a * polWeight b) by ring]
  exact mul_div_mul_left _ _ (mul_ne_zero h1 h2)

/-- Stokes vector in closed form. -/
theorem stokes_eq {a : Fin 2 → ℂ} (h : 0 < polWeight a) :
    stokes a = ![2 * (a 0 * star (a 1)).im / polWeight a, 2 * (a 0 * star (a 1)).re / polWeight a, (‖a 0‖ ^ 2 - ‖a 1‖ ^ 2) / polWeight a] := by
  have hw : ‖a 0‖ ^ 2 + ‖a 1‖ ^ 2 = polWeight a := rfl
  have hxy : Real.sqrt (1 - ((‖a 0‖ ^ 2 - ‖a 1‖ ^ 2) / polWeight a) ^ 2) = 2 * ‖a 0‖ * ‖a 1‖ / polWeight a := by
    have : 1 - ((‖a 0‖ ^ 2 - ‖a 1‖ ^ 2) / polWeight a) ^ 2 = (2 * ‖a 0‖ * ‖a 1‖ / polWeight a) ^ 2 := by
      field_simp
      rw [← hw]
      ring
    rw [this, Real.sqrt_sq (by positivity)]
  unfold stokes
  simp only [hw, hxy]
  by_cases h0 : ‖a 0‖ = 0 ∨ ‖a 1‖ = 0
  · rw [if_pos h0]
    rcases h0 with h0 | h0
    · have h0' := norm_eq_zero.mp h0
      simp [h0']
    · have h0' := norm_eq_zero.mp h0
      simp [h0']
  · rw [if_neg h0]
    push Not at h0
    have ha : a 0 ≠ 0 := norm_ne_zero_iff.mp h0.1
    have hb : a 1 ≠ 0 := norm_ne_zero_iff.mp h0.2
    have hq : a 0 / a 1 ≠ 0 := div_ne_zero ha hb
    have hsin : Real.sin (a 0 / a 1).arg = (a 0 * star (a 1)).im / (‖a 0‖ * ‖a 1‖) := by
      rw [Complex.sin_arg, Complex.div_im, Complex.norm_div]
      simp only [Complex.star_def, Complex.mul_im, Complex.conj_re, Complex.conj_im]
      rw [Complex.normSq_eq_norm_sq]
      have := h0.1; have := h0.2
      field_simp
      ring
    have hcos : Real.cos (a 0 / a 1).arg = (a 0 * star (a 1)).re / (‖a 0‖ * ‖a 1‖) := by
      rw [Complex.cos_arg hq, Complex.div_re, Complex.norm_div]
      simp only [Complex.star_def, Complex.mul_re, Complex.conj_re, Complex.conj_im]
      rw [Complex.normSq_eq_norm_sq]
      have := h0.1; have := h0.2
      field_simp
      ring
    rw [hsin, hcos]
    have := h0.1; have := h0.2
    congr 1
    · field_simp
    · congr 1
      field_simp

theorem norm_sq_ri (z : ℂ) : ‖z‖ ^ 2 = z.re ^ 2 + z.im ^ 2 := by
  rw [← Complex.normSq_eq_norm_sq, Complex.normSq_apply]
  ring

/-- The inner product of two Stokes vectors is given by the overlap. -/
theorem innerR_stokes {a b : Fin 2 → ℂ} (ha : 0 < polWeight a) (hb : 0 < polWeight b) :
    innerR (stokes a) (stokes b) = 2 * overlap a b - 1 := by
  rw [stokes_eq ha, stokes_eq hb]
  unfold innerR overlap
  rw [Fin.sum_univ_three]
  simp only [Matrix.cons_val_zero, Matrix.cons_val_one, Matrix.cons_val]
  have hwa : polWeight a = (a 0).re ^ 2 + (a 0).im ^ 2 + ((a 1).re ^ 2 + (a 1).im ^ 2) := by
    unfold polWeight; rw [norm_sq_ri, norm_sq_ri]
  have hwb : polWeight b = (b 0).re ^ 2 + (b 0).im ^ 2 + ((b 1).re ^ 2 + (b 1).im ^ 2) := by
    unfold polWeight; rw [norm_sq_ri, norm_sq_ri]
  have ha' := ha.ne'
  have hb' := hb.ne'
  field_simp
  simp only [norm_sq_ri, Complex.add_re, Complex.add_im, Complex.mul_re, Complex.mul_im, Complex.star_def, Complex.conj_re, Complex.conj_im]
  rw [hwa, hwb]
  ring

theorem overlap_self {a : Fin 2 → ℂ} (ha : 0 < polWeight a) : overlap a a = 1 := by
  unfold overlap
  have : star (a 0) * a 0 + star (a 1) * a 1 = ((polWeight a : ℝ) : ℂ) := by
    unfold polWeight
    simp only [Complex.star_def, ← Complex.normSq_eq_conj_mul_self, Complex.normSq_eq_norm_sq]
    push_cast
    rfl
  rw [this, Complex.norm_real, Real.norm_eq_abs, sq_abs, pow_two]
  exact div_self (mul_ne_zero ha.ne' ha.ne')

theorem signedPow_eq (x K : ℝ) : signedPow x K = if x = 0 then 0 else correlation K x := by
  unfold signedPow correlation
  rcases lt_trichotomy x 0 with h | h | h
  · rw [if_neg h.ne, if_neg (not_le.mpr h), sign_neg h]
    simp
  · subst h
    simp
  · rw [if_neg h.ne', if_pos h.le, sign_pos h]
    simp

theorem correlation_zero {K : ℝ} (hK : 0 < K) : correlation K 0 = 0 := by
  unfold correlation
  rw [if_pos le_rfl, Real.zero_rpow (by positivity)]

theorem signedPow_correlation {K : ℝ} (hK : 0 < K) (x : ℝ) : signedPow x K = correlation K x := by
  rw [signedPow_eq]
  by_cases h : x = 0
  · rw [if_pos h, h, correlation_zero hK]
  · rw [if_neg h]

theorem alignment_stokes {K : ℝ} (hK : 0 < K) {a b : Fin 2 → ℂ} (ha : 0 < polWeight a) (hb : 0 < polWeight b) :
    alignment (stokes a) (stokes b) K = (1 + pairCorrelation K a b) / 2 := by
  unfold alignment pairCorrelation
  rw [innerR_stokes ha hb, innerR_stokes ha ha, innerR_stokes hb hb, overlap_self ha, overlap_self hb]
  norm_num
  rw [signedPow_correlation hK]
  ring

/-- A product array: `c` times a factor per axis. -/
theorem exists_ne_of_prod {d b : ℕ} {T : (Fin d → Fin b) → ℂ} {c : ℂ} {f : Fin d → Fin b → ℂ}
    (hT : ∀ x, T x = c * ∏ k, f k (x k)) : (∃ x, T x ≠ 0) ↔ c ≠ 0 ∧ ∀ k, ∃ j, f k j ≠ 0 := by
  constructor
  · rintro ⟨x, hx⟩
    rw [hT] at hx
    exact ⟨left_ne_zero_of_mul hx, fun k => ⟨x k, (Finset.prod_ne_zero_iff.mp (right_ne_zero_of_mul hx)) k (Finset.mem_univ _)⟩⟩
  · rintro ⟨hc, hf⟩
    choose x hx using hf
    refine ⟨x, ?_⟩
    rw [hT]
    exact mul_ne_zero hc (Finset.prod_ne_zero_iff.mpr (fun k _ => hx k))

theorem swapAxes_prod {d b : ℕ} {T : (Fin (d + 1) → Fin b) → ℂ} {c : ℂ} {f : Fin (d + 1) → Fin b → ℂ}
    (hT : ∀ x, T x = c * ∏ k, f k (x k)) (k : Fin (d + 1)) (x : Fin (d + 1) → Fin b) :
    swapAxes T k x = f k (x 0) * (c * ∏ i : Fin d, f (Equiv.swap k 0 i.succ) (x i.succ)) := by
  unfold swapAxes
  rw [hT]
  have h : ∏ i, f i ((x ∘ Equiv.swap k 0) i) = ∏ i, f (Equiv.swap k 0 i) (x i) := by
    rw [← Equiv.prod_comp (Equiv.swap k 0)]
    refine Finset.prod_congr rfl (fun i _ => ?_)
    simp
  rw [h, Fin.prod_univ_succ, Equiv.swap_apply_right]
  ring

/-- The unravelled pair vectors of a product array are the factors, up to a constant. -/
theorem pairVectors_prod {d : ℕ} {T : (Fin (d + 1) → Fin 4) → ℂ} {c : ℂ} {f : Fin (d + 1) → Fin 4 → ℂ}
    (hT : ∀ x, T x = c * ∏ k, f k (x k)) (hne : ∃ x, T x ≠ 0) (k : Fin (d + 1)) :
    ∃ l : ℂ, l ≠ 0 ∧ ∀ j, pairVectors T k j = l * f k j := by
  unfold pairVectors
  by_cases hd : d + 1 > 1
  · rw [if_pos hd]
    have hne' : ∃ x, swapAxes T k x ≠ 0 := by
      obtain ⟨x, hx⟩ := hne
      refine ⟨x ∘ Equiv.swap k 0, ?_⟩
      unfold swapAxes
      convert hx using 2
      funext i
      simp
    obtain ⟨l, hl, _, h⟩ := vectorFromMatrix_prod (f := f k) (W := fun y => c * ∏ i : Fin d, f (Equiv.swap k 0 i.succ) (y i)) (fun x => swapAxes_prod hT k x) hne'
    exact ⟨l, hl, h⟩
  · rw [if_neg hd]
    obtain rfl : d = 0 := by omega
    refine ⟨c, ((exists_ne_of_prod hT).mp hne).1, fun j => ?_⟩
    rw [hT]
    obtain rfl : k = 0 := Fin.ext (by omega)
    simp

/-- A product array passes the test for entanglement between pairs. -/
theorem dictFactorable_prod {d : ℕ} {T : (Fin (d + 1) → Fin 4) → ℂ} {c : ℂ} {f : Fin (d + 1) → Fin 4 → ℂ}
    (hT : ∀ x, T x = c * ∏ k, f k (x k)) (hne : ∃ x, T x ≠ 0) : DictFactorable T := by
  choose l hl h using pairVectors_prod hT hne
  have hc := ((exists_ne_of_prod hT).mp hne).1
  unfold DictFactorable
  rw [compareMatrices_smul (l := (∏ k, l k) / c) mem_rowMajor
    (div_ne_zero (Finset.prod_ne_zero_iff.mpr (fun k _ => hl k)) hc) ?_ hne]
  · exact zero_lt_one
  · intro x
    unfold reproduced
    simp only [h]
    rw [Finset.prod_mul_distrib, hT]
    field_simp

theorem pairMatrix_prod {v : Fin 4 → ℂ} {c : ℂ} {a b : Fin 2 → ℂ} (hv : ∀ q, v q = c * (a (polA q) * b (polB q))) (x : Fin 2 → Fin 2) :
    pairMatrix v x = c * ∏ k, (![a, b] : Fin 2 → Fin 2 → ℂ) k (x k) := by
  unfold pairMatrix
  rw [hv, Fin.prod_univ_two]
  have h0 : polA ⟨2 * (x 0).val + (x 1).val, by omega⟩ = x 0 := by
    apply Fin.ext
    show (2 * (x 0).val + (x 1).val) / 2 = _
    omega
  have h1 : polB ⟨2 * (x 0).val + (x 1).val, by omega⟩ = x 1 := by
    apply Fin.ext
    show (2 * (x 0).val + (x 1).val) % 2 = _
    omega
  rw [h0, h1]
  simp

/-- The unravelled photon amplitudes of a product pair vector. -/
theorem photonAmps_prod {v : Fin 4 → ℂ} {c : ℂ} {a b : Fin 2 → ℂ} (hv : ∀ q, v q = c * (a (polA q) * b (polB q))) (hne : ∃ q, v q ≠ 0)
    (side : Fin 2) : ∃ l : ℂ, l ≠ 0 ∧ ∀ j, photonAmps v side j = l * (![a, b] : Fin 2 → Fin 2 → ℂ) side j := by
  have hne' : ∃ x, swapAxes (pairMatrix v) side x ≠ 0 := by
    obtain ⟨q, hq⟩ := hne
    refine ⟨![polA q, polB q] ∘ Equiv.swap side 0, ?_⟩
    unfold swapAxes
    have : (![polA q, polB q] ∘ Equiv.swap side 0) ∘ Equiv.swap side 0 = ![polA q, polB q] := by
      funext i
      simp
    rw [this, pairMatrix_prod hv, Fin.prod_univ_two]
    simpa [hv] using hq
  obtain ⟨l, hl, _, h⟩ := vectorFromMatrix_prod (f := (![a, b] : Fin 2 → Fin 2 → ℂ) side)
    (W := fun y => c * ∏ i : Fin 1, (![a, b] : Fin 2 → Fin 2 → ℂ) (Equiv.swap side 0 i.succ) (y i))
    (fun x => swapAxes_prod (d := 1) (pairMatrix_prod hv) side x) hne'
  exact ⟨l, hl, h⟩

end Verif
