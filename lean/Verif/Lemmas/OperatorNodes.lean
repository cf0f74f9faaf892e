/- Quadratic command strings on two channels. -/
import Verif.Lemmas.Quadratic
import Mathlib.Analysis.SpecialFunctions.ExpDeriv
import Mathlib.Analysis.SpecialFunctions.Trigonometric.Deriv
import Mathlib.Topology.Algebra.Module.FiniteDimension

namespace Verif
open Spec

theorem word_zero (c : ℕ) : command c '0' = LinearMap.id := by
  unfold command; rw [if_neg (by decide), if_neg (by decide)]
theorem word_plus (c : ℕ) : command c '+' = create c := by unfold command; rw [if_pos rfl]
theorem word_minus (c : ℕ) : command c '-' = annihilate c := by unfold command; rw [if_neg (by decide), if_pos rfl]

theorem sqrt_self_succ (n : ℕ) : (Real.sqrt ((n : ℝ) + 1) : ℂ) * (Real.sqrt ((n : ℝ) + 1) : ℂ) = (n : ℂ) + 1 := by
  rw [← Complex.ofReal_mul, Real.mul_self_sqrt (by positivity)]; push_cast; rfl

theorem word_pmzz (n m u v : ℕ) : commands (([0, 0, 1, 1] : List ℕ).zip ['+', '-', '0', '0']) (Finsupp.single [n, m] 1) [u, v] = if u = n ∧ v = m then (n : ℂ) + 1 else 0 := by
  simp only [List.zip_cons_cons, List.zip_nil_right, commands_cons, commands_nil,
      LinearMap.comp_apply, LinearMap.id_apply, word_zero, word_plus, word_minus, annihilate_single, map_smul, create_single, Finsupp.smul_apply,
      Finsupp.single_apply, smul_eq_mul, List.set_cons_zero, List.set_cons_succ, List.getD_cons_zero, List.getD_cons_succ, one_mul, List.cons.injEq, and_true]
  by_cases h : u = n ∧ v = m
  · rw [if_pos h, if_pos ⟨h.1.symm, h.2.symm⟩, mul_one, Nat.cast_add_one, sqrt_self_succ]
  · rw [if_neg h, if_neg (fun hh => h ⟨hh.1.symm, hh.2.symm⟩), mul_zero, mul_zero]

theorem word_zzpm (n m u v : ℕ) : commands (([0, 0, 1, 1] : List ℕ).zip ['0', '0', '+', '-']) (Finsupp.single [n, m] 1) [u, v] = if u = n ∧ v = m then (m : ℂ) + 1 else 0 := by
  simp only [List.zip_cons_cons, List.zip_nil_right, commands_cons, commands_nil,
      LinearMap.comp_apply, LinearMap.id_apply, word_zero, word_plus, word_minus, annihilate_single, map_smul, create_single, Finsupp.smul_apply,
      Finsupp.single_apply, smul_eq_mul, List.set_cons_zero, List.set_cons_succ, List.getD_cons_zero, List.getD_cons_succ, one_mul, List.cons.injEq, and_true]
  by_cases h : u = n ∧ v = m
  · rw [if_pos h, if_pos ⟨h.1.symm, h.2.symm⟩, mul_one, Nat.cast_add_one, sqrt_self_succ]
  · rw [if_neg h, if_neg (fun hh => h ⟨hh.1.symm, hh.2.symm⟩), mul_zero, mul_zero]

theorem word_mpzz (n m u v : ℕ) : commands (([0, 0, 1, 1] : List ℕ).zip ['-', '+', '0', '0']) (Finsupp.single [n, m] 1) [u, v] = if u = n ∧ v = m then (n : ℂ) else 0 := by
  simp only [List.zip_cons_cons, List.zip_nil_right, commands_cons, commands_nil,
      LinearMap.comp_apply, LinearMap.id_apply, word_zero, word_plus, word_minus, annihilate_single, map_smul, create_single, Finsupp.smul_apply,
      Finsupp.single_apply, smul_eq_mul, List.set_cons_zero, List.set_cons_succ, List.getD_cons_zero, List.getD_cons_succ, one_mul, List.cons.injEq, and_true]
  cases n with
  | zero => simp
  | succ n =>
    push_cast
    by_cases h : u = n + 1 ∧ v = m
    · rw [if_pos h, if_pos ⟨h.1.symm, h.2.symm⟩, mul_one, sqrt_self_succ]
    · rw [if_neg h, if_neg (by omega), mul_zero, mul_zero]

theorem word_zzmp (n m u v : ℕ) : commands (([0, 0, 1, 1] : List ℕ).zip ['0', '0', '-', '+']) (Finsupp.single [n, m] 1) [u, v] = if u = n ∧ v = m then (m : ℂ) else 0 := by
  simp only [List.zip_cons_cons, List.zip_nil_right, commands_cons, commands_nil,
      LinearMap.comp_apply, LinearMap.id_apply, word_zero, word_plus, word_minus, annihilate_single, map_smul, create_single, Finsupp.smul_apply,
      Finsupp.single_apply, smul_eq_mul, List.set_cons_zero, List.set_cons_succ, List.getD_cons_zero, List.getD_cons_succ, one_mul, List.cons.injEq, and_true]
  cases m with
  | zero => simp
  | succ m =>
    push_cast
    by_cases h : u = n ∧ v = m + 1
    · rw [if_pos h, if_pos ⟨h.1.symm, h.2.symm⟩, mul_one, sqrt_self_succ]
    · rw [if_neg h, if_neg (by omega), mul_zero, mul_zero]

theorem word_pzmz (n m u v : ℕ) : commands (([0, 0, 1, 1] : List ℕ).zip ['+', '0', '-', '0']) (Finsupp.single [n, m] 1) [u, v] = if u = n + 1 ∧ v + 1 = m then (Real.sqrt ((n + 1) * m) : ℂ) else 0 := by
  simp only [List.zip_cons_cons, List.zip_nil_right, commands_cons, commands_nil,
      LinearMap.comp_apply, LinearMap.id_apply, word_zero, word_plus, word_minus, annihilate_single, map_smul, create_single, Finsupp.smul_apply,
      Finsupp.single_apply, smul_eq_mul, List.set_cons_zero, List.set_cons_succ, List.getD_cons_zero, List.getD_cons_succ, one_mul, List.cons.injEq, and_true]
  cases m with
  | zero => simp
  | succ m =>
    by_cases h : u = n + 1 ∧ v + 1 = m + 1
    · rw [if_pos h, if_pos (by omega), mul_one, ← Complex.ofReal_mul, ← Real.sqrt_mul (by positivity)]
    · rw [if_neg h, if_neg (by omega), mul_zero, mul_zero]

theorem word_mzpz (n m u v : ℕ) : commands (([0, 0, 1, 1] : List ℕ).zip ['-', '0', '+', '0']) (Finsupp.single [n, m] 1) [u, v] = if u + 1 = n ∧ v = m + 1 then (Real.sqrt (n * (m + 1)) : ℂ) else 0 := by
  simp only [List.zip_cons_cons, List.zip_nil_right, commands_cons, commands_nil,
      LinearMap.comp_apply, LinearMap.id_apply, word_zero, word_plus, word_minus, annihilate_single, map_smul, create_single, Finsupp.smul_apply,
      Finsupp.single_apply, smul_eq_mul, List.set_cons_zero, List.set_cons_succ, List.getD_cons_zero, List.getD_cons_succ, one_mul, List.cons.injEq, and_true]
  cases n with
  | zero => simp
  | succ n =>
    by_cases h : u + 1 = n + 1 ∧ v = m + 1
    · rw [if_pos h, if_pos (by omega), mul_one, ← Complex.ofReal_mul, ← Real.sqrt_mul (by positivity)]
    · rw [if_neg h, if_neg (by omega), mul_zero, mul_zero]

end Verif

namespace Verif
open Spec

/-- a sum of the four quadratic terms -/
theorem quad_sum (X : Opt) (n m u v : ℕ) : quad X n m u v =
    (if u = n ∧ v = m then X 0 0 * n + X 1 1 * m else 0) + X 1 0 * (if u + 1 = n ∧ v = m + 1 then (Real.sqrt (n * (m + 1)) : ℂ) else 0) +
      X 0 1 * (if u = n + 1 ∧ v + 1 = m then (Real.sqrt ((n + 1) * m) : ℂ) else 0) := by
  unfold quad
  by_cases h1 : u = n ∧ v = m
  · rw [if_pos h1, if_pos h1, if_neg (by omega), if_neg (by omega)]; ring
  · by_cases h2 : u + 1 = n ∧ v = m + 1
    · rw [if_neg h1, if_neg h1, if_pos h2, if_pos h2, if_neg (by omega)]; ring
    · by_cases h3 : u = n + 1 ∧ v + 1 = m
      · rw [if_neg h1, if_neg h1, if_neg h2, if_neg h2, if_pos h3, if_pos h3]; ring
      · rw [if_neg h1, if_neg h1, if_neg h2, if_neg h2, if_neg h3, if_neg h3]; ring

/-- the limit of the truncated exponential of a Hamiltonian that is quadratic below the cutoff -/
theorem tendsto_sameBelow {L : ℕ} {H : Matrix (Fin (L ^ 2)) (Fin (L ^ 2)) ℂ} {X : Opt} (h : SameBelow L H (quadLim L X)) :
    ∀ i j, nv L i + mv L i < L → Filter.Tendsto (fun p => expMatrix p H i j) Filter.atTop (nhds (NormedSpace.exp (quadLim L X) i j)) := by
  intro i j hi
  have := (Continuous.tendsto (continuous_apply_apply i j) _).comp (tendsto_expMatrix (quadLim L X))
  refine this.congr fun p => ?_
  exact (h.expMatrix (stay_quadLim L X) p i j hi).symm

theorem hasDerivAt_cexp_mul (z : ℂ) : HasDerivAt (fun t : ℝ => Complex.exp (t * z)) z 0 := by
  have h1 : HasDerivAt (fun t : ℝ => (t : ℂ) * z) (1 * z) 0 := (Complex.ofRealCLM.hasDerivAt (x := 0)).mul_const z
  have h := h1.cexp
  refine h.congr_deriv ?_
  simp

theorem hasDerivAt_cos_mul (θ : ℝ) : HasDerivAt (fun t : ℝ => ((Real.cos (t * θ) : ℝ) : ℂ)) 0 0 := by
  have h1 : HasDerivAt (fun t : ℝ => t * θ) (1 * θ) 0 := (hasDerivAt_id 0).mul_const θ
  have h := (h1.cos).ofReal_comp
  refine h.congr_deriv ?_
  simp

theorem hasDerivAt_sin_mul (θ : ℝ) : HasDerivAt (fun t : ℝ => ((Real.sin (t * θ) : ℝ) : ℂ)) θ 0 := by
  have h1 : HasDerivAt (fun t : ℝ => t * θ) (1 * θ) 0 := (hasDerivAt_id 0).mul_const θ
  have h := (h1.sin).ofReal_comp
  refine h.congr_deriv ?_
  simp

/-- exponential of a diagonal quadratic Hamiltonian -/
theorem exp_quad_diag {L : ℕ} (hL : 1 ≤ L) (a b : ℂ) :
    NormedSpace.exp (quadLim L !![a, 0; 0, b]) = gateLim L !![Complex.exp a, 0; 0, Complex.exp b] := by
  have := exp_quadLim (L := L) hL (M := fun t : ℝ => !![Complex.exp (t * a), 0; 0, Complex.exp (t * b)]) (X := !![a, 0; 0, b])
    (by ext i j; fin_cases i <;> fin_cases j <;> simp)
    (by
      intro s t
      ext i j
      fin_cases i <;> fin_cases j <;> simp [Matrix.mul_apply, Fin.sum_univ_two, ← Complex.exp_add] <;> ring_nf)
    (by
      intro i j
      fin_cases i <;> fin_cases j
      · exact hasDerivAt_cexp_mul a
      · exact hasDerivAt_const _ _
      · exact hasDerivAt_const _ _
      · exact hasDerivAt_cexp_mul b)
  simpa using this

/-- exponential of a rotation Hamiltonian -/
theorem exp_quad_rot {L : ℕ} (hL : 1 ≤ L) (θ : ℝ) :
    NormedSpace.exp (quadLim L !![0, (θ : ℂ); -(θ : ℂ), 0]) = gateLim L !![(Real.cos θ : ℂ), (Real.sin θ : ℂ); -(Real.sin θ : ℂ), (Real.cos θ : ℂ)] := by
  have := exp_quadLim (L := L) hL (M := fun t : ℝ => !![((Real.cos (t * θ) : ℝ) : ℂ), ((Real.sin (t * θ) : ℝ) : ℂ);
      -((Real.sin (t * θ) : ℝ) : ℂ), ((Real.cos (t * θ) : ℝ) : ℂ)]) (X := !![0, (θ : ℂ); -(θ : ℂ), 0])
    (by ext i j; fin_cases i <;> fin_cases j <;> simp)
    (by
      intro s t
      ext i j
      simp only [add_mul, Real.cos_add, Real.sin_add]
      fin_cases i <;> fin_cases j <;> simp [Matrix.mul_apply, Fin.sum_univ_two] <;> ring)
    (by
      intro i j
      fin_cases i <;> fin_cases j
      · exact hasDerivAt_cos_mul θ
      · exact hasDerivAt_sin_mul θ
      · exact (hasDerivAt_sin_mul θ).neg
      · exact hasDerivAt_cos_mul θ)
  simpa using this

/-- exponential of any quadratic Hamiltonian -/
theorem exp_quad_any {L : ℕ} (hL : 1 ≤ L) (X : Opt) : NormedSpace.exp (quadLim L X) = gateLim L (NormedSpace.exp X) := by
  let _ : NormedRing Opt := Matrix.linftyOpNormedRing
  let _ : NormedAlgebra ℝ Opt := Matrix.linftyOpNormedAlgebra
  let _ : NormedAlgebra ℂ Opt := Matrix.linftyOpNormedAlgebra
  have := exp_quadLim (L := L) hL (M := fun t : ℝ => NormedSpace.exp (t • X)) (X := X)
    (by simp)
    (by intro s t; rw [add_smul]; exact Matrix.exp_add_of_commute _ _ (((Commute.refl X).smul_left s).smul_right t))
    (by
      intro a b
      have h : HasDerivAt (fun t : ℝ => NormedSpace.exp (t • X)) X 0 := by
        have := hasDerivAt_exp_smul_const (𝕂 := ℝ) X (0 : ℝ)
        exact this.congr_deriv (by simp)
      exact (LinearMap.toContinuousLinearMap (Matrix.entryLinearMap ℝ ℂ a b : Opt →ₗ[ℝ] ℂ)).hasFDerivAt.comp_hasDerivAt (0 : ℝ) h)
  simpa using this

/-- exchanging input and output transposes the matrix -/
theorem gateAmp_transpose (L : ℕ) (M : Opt) (n m u v : ℕ) : gateAmp L M.transpose n m u v = gateAmp L M u v n m := by
  unfold gateAmp
  by_cases hc : n + m = u + v
  · by_cases h : n + m < L
    · rw [if_pos (by omega), if_pos (by omega), bosonAmp, bosonAmp, if_pos hc.symm, if_pos hc]
      show _ * sq u v n m = _ * sq n m u v
      have key := coeff_transpose M n m u v hc
      have hr := sq_ratio u v n m
      have hnz : (n.factorial * m.factorial : ℂ) ≠ 0 := by
        exact_mod_cast (show n.factorial * m.factorial ≠ 0 by positivity)
      apply mul_left_cancel₀ hnz
      linear_combination (sq n m u v) * key + ((genPoly M.transpose n m).coeff u) * hr
    · rw [if_neg h, if_neg (show ¬ u + v < L by omega)]
      by_cases e : n = u ∧ m = v
      · rw [if_pos e, if_pos ⟨e.1.symm, e.2.symm⟩]
      · rw [if_neg e, if_neg (fun h => e ⟨h.1.symm, h.2.symm⟩)]
  · have z1 : bosonAmp M u v n m = 0 := by rw [bosonAmp, if_neg (fun e => hc e.symm)]
    have z2 : bosonAmp M.transpose n m u v = 0 := by rw [bosonAmp, if_neg hc]
    have n1 : ¬ (u = n ∧ v = m) := by omega
    have n2 : ¬ (n = u ∧ m = v) := by omega
    simp [z1, z2, n1, n2]

end Verif
