/-
C61, C83: explicit error bounds for the exponential series with a fixed number of terms.
-/
import Verif.Lemmas.Truncation
import Verif.Props.OperatorNodes

namespace Verif.Props
open Verif Spec
open scoped Matrix

/-- C61 (partial): an anti-Hermitian matrix with absolute row sums at most `r`: the series with `p` terms differs from a unitary matrix in every element by at
most `r^p/p! · exp r` (4·10⁻⁹ for `r = 4` and the 25 terms of the code). -/
theorem C61_error_partial {n : ℕ} (M : Matrix (Fin n) (Fin n) ℂ) (hM : Mᴴ = -M) {r : ℝ} (hr : 0 ≤ r) (h : ∀ i, ∑ j, ‖M i j‖ ≤ r) {p : ℕ} (hp : 1 ≤ p) :
    ∃ U : Matrix (Fin n) (Fin n) ℂ, U ∈ Matrix.unitaryGroup (Fin n) ℂ ∧ ∀ i j, ‖U i j - expMatrix p M i j‖ ≤ r ^ p / p.factorial * Real.exp r := by
  obtain ⟨U, hU, ht⟩ := C61_unitary_limit_partial M hM
  refine ⟨U, hU, fun i j => ?_⟩
  have e : U = NormedSpace.exp M := by
    ext a b
    exact tendsto_nhds_unique (ht a b) ((Continuous.tendsto (continuous_apply_apply a b) _).comp (tendsto_expMatrix M))
  rw [e]
  exact (rows_truncation hr h hp).entry i j

/-- C83 (partial): the operator of `wave_plate_from_hamiltonian(theta, phi)`, with `p` terms of the series (25 in the code), differs from the Fock matrix of
`wave_plate(theta, phi)` for an input with fewer than `L` photons in the two channels by at most `4·r^p/p!·exp(4r)`, where `r` is at least `L|theta|` and `L|phi|/2`. -/
theorem C83_error_partial {g : Cfg} (hg : g.Ok) (θ φ : ℝ) {h c : ℕ} (hh : h < g.C) (hc : c < g.C) (hne : h ≠ c) (hbug : ¬ (2 ≤ h ∧ c = 0)) {r : ℝ}
    (hθ : g.L * |θ| ≤ r) (hφ : g.L * (|φ| / 2) ≤ r) {p : ℕ} (hp : 1 ≤ p) :
    ∃ T, platesHam g.L p θ φ = some T ∧ ∀ F, IsGateMatrix g (genericMatrix θ φ) h c F → ∀ v w, Valid g v → Valid g w →
      (∀ i < g.C, i ≠ h → i ≠ c → w.getD i 0 = v.getD i 0) → v.getD h 0 + v.getD c 0 < g.L →
      ∀ i j : Fin (g.L ^ 2), limValues g.L 2 i = [v.getD h 0, v.getD c 0] → limValues g.L 2 j = [w.getD h 0, w.getD c 0] →
        ‖T i j - F.at_ (g.indexOf w) (g.indexOf v)‖ ≤ 4 * (r ^ p / p.factorial) * Real.exp (4 * r) := by
  have hL := hg.1
  obtain ⟨A, B, C, D, hT, hA, hB, hC, hD⟩ := platesHam_factors hL θ φ
  refine ⟨_, hT p, ?_⟩
  intro F hF v w hv hw hvw hn i j hi hj
  have hr : 0 ≤ r := le_trans (by positivity) hθ
  have e1 := (limValues_pair hL i).1
  have e2 := (limValues_pair hL j).1
  rw [hi] at e1; rw [hj] at e2
  simp only [List.cons.injEq, and_true] at e1 e2
  have sb : ∀ {H : Matrix (Fin (g.L ^ 2)) (Fin (g.L ^ 2)) ℂ} {X : Opt}, (∀ i j, H i j = quad X (nv g.L i) (mv g.L i) (nv g.L j) (mv g.L j)) → SameBelow g.L H (quadLim g.L X) := by
    intro H X h a b hab
    rw [h]; unfold quadLim; rw [if_pos hab]
  have st := fun X => stay_quadLim g.L X
  have main := ((sb hD).expMatrix (st _) p).mul (((sb hC).expMatrix (st _) p).mul (((sb hB).expMatrix (st _) p).mul ((sb hA).expMatrix (st _) p)
      ((st _).expMatrix p)) ((st _).expMatrix p)) ((st _).expMatrix p) i j (by omega)
  rw [main]
  have hF2 : F.at_ (g.indexOf w) (g.indexOf v) = gateLim g.L (genericMatrix θ φ) i j := by
    rw [gate_entry hg hh hc hne hbug hF hw hv, if_pos hvw, ← gateAmp_transpose, (C17_wave_plate θ φ 0).2.1]
    unfold gateLim
    rw [e1.1, e1.2, e2.1, e2.2]
  have hexact : gateLim g.L (genericMatrix θ φ) = NormedSpace.exp (quadLim g.L !![-Complex.I * (-φ / 2 : ℝ), 0; 0, -Complex.I * (-φ / 2 : ℝ)]) *
      (NormedSpace.exp (quadLim g.L !![0, (θ : ℂ); -(θ : ℂ), 0]) *
      (NormedSpace.exp (quadLim g.L !![-Complex.I * φ / 2, 0; 0, Complex.I * φ / 2]) *
        NormedSpace.exp (quadLim g.L !![0, ((-θ : ℝ) : ℂ); -((-θ : ℝ) : ℂ), 0]))) := by
    rw [exp_quad_diag hL, exp_quad_rot hL, exp_quad_diag hL, exp_quad_rot hL, gateLim_mul hL, gateLim_mul hL, gateLim_mul hL, mul_assoc, mul_assoc,
      plates_product]
  have rot : ∀ t : ℝ, |t| = |θ| → RowsLe r (quadLim g.L !![0, (t : ℂ); -(t : ℂ), 0]) := by
    intro t ht
    refine rows_quadLim hL _ (fun n m hnm => ?_) hr
    simp only [Matrix.of_apply, Matrix.cons_val', Matrix.cons_val_zero, Matrix.cons_val_one, Matrix.cons_val_fin_one, zero_mul, add_zero, norm_zero, norm_neg,
      Complex.norm_real, Real.norm_eq_abs, zero_add, ht]
    have : ((n : ℝ) + m + 1) ≤ g.L := by exact_mod_cast hnm
    nlinarith [abs_nonneg θ]
  have R1 : RowsLe r (quadLim g.L !![-Complex.I * (-φ / 2 : ℝ), 0; 0, -Complex.I * (-φ / 2 : ℝ)]) := by
    refine rows_quadLim hL _ (fun n m hnm => ?_) hr
    simp only [Matrix.of_apply, Matrix.cons_val', Matrix.cons_val_zero, Matrix.cons_val_one, Matrix.cons_val_fin_one, norm_zero, zero_mul, add_zero]
    have e : -Complex.I * ((-φ / 2 : ℝ) : ℂ) * n + -Complex.I * ((-φ / 2 : ℝ) : ℂ) * m = ((φ / 2 * (n + m) : ℝ) : ℂ) * Complex.I := by push_cast; ring
    rw [e, norm_mul, Complex.norm_I, mul_one, Complex.norm_real, Real.norm_eq_abs, abs_mul, abs_div, abs_of_nonneg (by positivity : (0 : ℝ) ≤ n + m), abs_two]
    have : ((n : ℝ) + m) + 1 ≤ g.L := by exact_mod_cast hnm
    nlinarith [abs_nonneg φ]
  have R2 : RowsLe r (quadLim g.L !![-Complex.I * φ / 2, 0; 0, Complex.I * φ / 2]) := by
    refine rows_quadLim hL _ (fun n m hnm => ?_) hr
    simp only [Matrix.of_apply, Matrix.cons_val', Matrix.cons_val_zero, Matrix.cons_val_one, Matrix.cons_val_fin_one, norm_zero, zero_mul, add_zero]
    have e : -Complex.I * (φ : ℂ) / 2 * n + Complex.I * (φ : ℂ) / 2 * m = ((φ / 2 * (m - n) : ℝ) : ℂ) * Complex.I := by push_cast; ring
    rw [e, norm_mul, Complex.norm_I, mul_one, Complex.norm_real, Real.norm_eq_abs, abs_mul, abs_div, abs_two]
    have h1 : ((n : ℝ) + m) + 1 ≤ g.L := by exact_mod_cast hnm
    have h2 : |(m : ℝ) - n| ≤ g.L := by
      rw [abs_le]
      have : (0 : ℝ) ≤ n := by positivity
      have : (0 : ℝ) ≤ m := by positivity
      constructor <;> linarith
    have h3 : 0 ≤ |φ| / 2 := by positivity
    nlinarith
  have ex := fun {X : Matrix (Fin (g.L ^ 2)) (Fin (g.L ^ 2)) ℂ} (h : RowsLe r X) => rows_expMatrix hr h hp
  have exl := fun {X : Matrix (Fin (g.L ^ 2)) (Fin (g.L ^ 2)) ℂ} (h : RowsLe r X) =>
    rows_limit (A := fun q => expMatrix (q + 1) X) ((tendsto_expMatrix X).comp (Filter.tendsto_add_atTop_nat 1)) (fun q => rows_expMatrix hr h (by omega))
  have er := fun {X : Matrix (Fin (g.L ^ 2)) (Fin (g.L ^ 2)) ℂ} (h : RowsLe r X) => rows_truncation hr h hp
  have T1 := rows_product (Real.exp_nonneg r) (by positivity : 0 ≤ r ^ p / p.factorial * Real.exp r) (exl R1) (exl (rot θ rfl)) (exl R2) (ex (rot θ rfl)) (ex R2)
    (ex (rot (-θ) (abs_neg θ))) (er R1) (er (rot θ rfl)) (er R2) (er (rot (-θ) (abs_neg θ)))
  rw [← hexact] at T1
  rw [hF2, norm_sub_rev]
  refine (T1.entry i j).trans (le_of_eq ?_)
  rw [show 4 * r = r + (r + (r + r)) by ring, Real.exp_add, Real.exp_add, Real.exp_add]
  ring

/-- The hypotheses of the bound are met by a half-wave plate at 22.5 degrees on single photons (`L = 2`) with `r = 4`. -/
example : ((2 : ℕ) : ℝ) * |(Real.pi / 8 : ℝ)| ≤ 4 ∧ ((2 : ℕ) : ℝ) * (|Real.pi| / 2) ≤ 4 := by
  have h1 := Real.pi_pos
  have h2 := Real.pi_le_four
  rw [abs_of_nonneg (by positivity), abs_of_nonneg h1.le]
  constructor <;> norm_num <;> linarith

end Verif.Props
