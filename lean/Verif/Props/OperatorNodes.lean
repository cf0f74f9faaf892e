/-
C83, C84, C85: nodes built from Hamiltonians that are quadratic in the ladder operators, and linear optics.
-/
import Verif.Lemmas.OperatorNodes
import Verif.Model.OperatorNodes
import Verif.Props.OpticalNodes
import Verif.Props.Operators3
import Verif.Props.Fock
import Verif.Lemmas.Extend

namespace Verif.Props
open Verif Spec

/-! ### C84: quadratic Hamiltonians are linear optics -/

/-- `Σ X_ab a†_a a_b` as a list of command strings for the operator channels `[0,0,1,1]`. -/
def quadratic (X : Opt) : List (List Char × ℂ) :=
  [(['-', '+', '0', '0'], X 0 0), (['0', '0', '-', '+'], X 1 1), (['+', '0', '-', '0'], X 0 1), (['-', '0', '+', '0'], X 1 0)]

theorem quadratic_matrix {L : ℕ} (hL : 1 ≤ L) (X : Opt) {H : Matrix (Fin (L ^ 2)) (Fin (L ^ 2)) ℂ} (h : limMatrix L 2 [0, 0, 1, 1] (quadratic X) = some H)
    (i j : Fin (L ^ 2)) : H i j = quad X (nv L i) (mv L i) (nv L j) (mv L j) := by
  rw [C52_elements hL h i j, (limValues_pair hL i).1, (limValues_pair hL j).1, quad_sum]
  generalize nv L i = n, mv L i = m, nv L j = u, mv L j = v
  simp only [quadratic, List.map_cons, List.map_nil, List.sum_cons, List.sum_nil, word_mpzz, word_zzmp, word_pzmz, word_mzpz]
  split_ifs <;> ring

theorem combine_one {n : ℕ} (A : Matrix (Fin n) (Fin n) ℂ) : combineMatrices [A] = A := by simp [combineMatrices]

/-- the limit, as amplitudes -/
theorem quadratic_limit {L : ℕ} (hL : 1 ≤ L) (X : Opt) :
    ∃ T : ℕ → Matrix (Fin (L ^ 2)) (Fin (L ^ 2)) ℂ, (∀ p, transition L p 2 ⟨quadratic X, [0, 0, 1, 1]⟩ [] = some (T p)) ∧
      ∀ (i j : Fin (L ^ 2)) (n m u v : ℕ), limValues L 2 i = [n, m] → limValues L 2 j = [u, v] → n + m < L →
        Filter.Tendsto (fun p => T p i j) Filter.atTop (nhds (gateAmp L (NormedSpace.exp X) n m u v)) := by
  obtain ⟨H, hH⟩ := C52_defined hL (k := 2) (by norm_num) (chans := [0, 0, 1, 1]) (by simp) (quadratic X)
  refine ⟨fun p => expMatrix p H, ?_, ?_⟩
  · intro p
    unfold transition
    rw [if_pos (show numChannels [0, 0, 1, 1] = 2 from rfl), List.mapM_cons, hH]
    show some _ = some _
    exact congrArg some (combine_one (expMatrix p H))
  · intro i j n m u v hi hj hn
    have e1 := (limValues_pair hL i).1
    have e2 := (limValues_pair hL j).1
    rw [hi] at e1; rw [hj] at e2
    simp only [List.cons.injEq, and_true] at e1 e2
    have hb : SameBelow L H (quadLim L X) := by
      intro a b hab
      rw [quadratic_matrix hL X hH]; unfold quadLim; rw [if_pos hab]
    have := tendsto_sameBelow hb i j (by omega)
    rw [exp_quad_any hL] at this
    unfold gateLim at this
    rw [e1.1, e1.2, e2.1, e2.2]
    exact this

/-! ### C83: the wave plate -/

theorem ham_phi_matrix {L : ℕ} (hL : 1 ≤ L) (φ : ℝ) {H : Matrix (Fin (L ^ 2)) (Fin (L ^ 2)) ℂ} (h : limMatrix L 2 [0, 0, 1, 1] (hamPhi φ).ops = some H)
    (i j : Fin (L ^ 2)) : H i j = quad !![-Complex.I * φ / 2, 0; 0, Complex.I * φ / 2] (nv L i) (mv L i) (nv L j) (mv L j) := by
  rw [C52_elements hL h i j, (limValues_pair hL i).1, (limValues_pair hL j).1, quad_sum]
  generalize nv L i = n, mv L i = m, nv L j = u, mv L j = v
  simp only [hamPhi, List.map_cons, List.map_nil, List.sum_cons, List.sum_nil, word_pmzz, word_zzpm]
  split_ifs <;> simp <;> ring

theorem ham_plus_matrix {L : ℕ} (hL : 1 ≤ L) (θ : ℝ) {H : Matrix (Fin (L ^ 2)) (Fin (L ^ 2)) ℂ} (h : limMatrix L 2 [0, 0, 1, 1] (hamThetaPlus θ).ops = some H)
    (i j : Fin (L ^ 2)) : H i j = quad !![0, (θ : ℂ); -(θ : ℂ), 0] (nv L i) (mv L i) (nv L j) (mv L j) := by
  rw [C52_elements hL h i j, (limValues_pair hL i).1, (limValues_pair hL j).1, quad_sum]
  generalize nv L i = n, mv L i = m, nv L j = u, mv L j = v
  simp only [hamThetaPlus, List.map_cons, List.map_nil, List.sum_cons, List.sum_nil, word_pzmz, word_mzpz]
  split_ifs <;> simp <;> ring

theorem ham_minus_matrix {L : ℕ} (hL : 1 ≤ L) (θ : ℝ) {H : Matrix (Fin (L ^ 2)) (Fin (L ^ 2)) ℂ} (h : limMatrix L 2 [0, 0, 1, 1] (hamThetaMinus θ).ops = some H)
    (i j : Fin (L ^ 2)) : H i j = quad !![0, ((-θ : ℝ) : ℂ); -((-θ : ℝ) : ℂ), 0] (nv L i) (mv L i) (nv L j) (mv L j) := by
  rw [C52_elements hL h i j, (limValues_pair hL i).1, (limValues_pair hL j).1, quad_sum]
  generalize nv L i = n, mv L i = m, nv L j = u, mv L j = v
  simp only [hamThetaMinus, List.map_cons, List.map_nil, List.sum_cons, List.sum_nil, word_pzmz, word_mzpz]
  split_ifs <;> simp <;> ring

theorem ham_chi_matrix {L : ℕ} (hL : 1 ≤ L) (χ : ℝ) {H : Matrix (Fin (L ^ 2)) (Fin (L ^ 2)) ℂ} (h : limMatrix L 2 [0, 0, 1, 1] (hamChi χ).ops = some H)
    (i j : Fin (L ^ 2)) : H i j = quad !![-Complex.I * χ, 0; 0, -Complex.I * χ] (nv L i) (mv L i) (nv L j) (mv L j) := by
  rw [C52_elements hL h i j, (limValues_pair hL i).1, (limValues_pair hL j).1, quad_sum]
  generalize nv L i = n, mv L i = m, nv L j = u, mv L j = v
  simp only [hamChi, List.map_cons, List.map_nil, List.sum_cons, List.sum_nil, word_mpzz, word_zzmp]
  split_ifs <;> simp

/-- The four factors of the operator. -/
theorem platesHam_factors {L : ℕ} (hL : 1 ≤ L) (θ φ : ℝ) : ∃ A B C D : Matrix (Fin (L ^ 2)) (Fin (L ^ 2)) ℂ,
    (∀ p, platesHam L p θ φ = some (expMatrix p D * (expMatrix p C * (expMatrix p B * expMatrix p A)))) ∧
    (∀ i j, A i j = quad !![0, ((-θ : ℝ) : ℂ); -((-θ : ℝ) : ℂ), 0] (nv L i) (mv L i) (nv L j) (mv L j)) ∧
    (∀ i j, B i j = quad !![-Complex.I * φ / 2, 0; 0, Complex.I * φ / 2] (nv L i) (mv L i) (nv L j) (mv L j)) ∧
    (∀ i j, C i j = quad !![0, (θ : ℂ); -(θ : ℂ), 0] (nv L i) (mv L i) (nv L j) (mv L j)) ∧
    (∀ i j, D i j = quad !![-Complex.I * (-φ / 2 : ℝ), 0; 0, -Complex.I * (-φ / 2 : ℝ)] (nv L i) (mv L i) (nv L j) (mv L j)) := by
  have hd := fun ops => C52_defined hL (k := 2) (by norm_num) (chans := [0, 0, 1, 1]) (by simp) ops
  obtain ⟨A, hA⟩ := hd (hamThetaMinus θ).ops
  obtain ⟨B, hB⟩ := hd (hamPhi φ).ops
  obtain ⟨C, hC⟩ := hd (hamThetaPlus θ).ops
  obtain ⟨D, hD⟩ := hd (hamChi (-φ / 2)).ops
  refine ⟨A, B, C, D, ?_, ham_minus_matrix hL θ hA, ham_phi_matrix hL φ hB, ham_plus_matrix hL θ hC, ham_chi_matrix hL _ hD⟩
  intro p
  unfold platesHam transition
  have hc : (hamThetaMinus θ).chans = [0, 0, 1, 1] := rfl
  rw [hc, if_pos (show numChannels [0, 0, 1, 1] = 2 from rfl), List.mapM_cons, List.mapM_cons, List.mapM_cons, List.mapM_cons, hA, hB, hC, hD]
  show some _ = some _
  simp [combineMatrices]

theorem plates_product (θ φ : ℝ) :
    !![(Real.cos (-θ) : ℂ), (Real.sin (-θ) : ℂ); -(Real.sin (-θ) : ℂ), (Real.cos (-θ) : ℂ)] *
      (!![Complex.exp (-Complex.I * φ / 2), 0; 0, Complex.exp (Complex.I * φ / 2)] *
      (!![(Real.cos θ : ℂ), (Real.sin θ : ℂ); -(Real.sin θ : ℂ), (Real.cos θ : ℂ)] *
      !![Complex.exp (-Complex.I * (-φ / 2 : ℝ)), 0; 0, Complex.exp (-Complex.I * (-φ / 2 : ℝ))])) = genericMatrix θ φ := by
  have e1 : Complex.exp (-Complex.I * φ / 2) * Complex.exp (-Complex.I * (-φ / 2 : ℝ)) = 1 := by
    rw [← Complex.exp_add]; push_cast; ring_nf; exact Complex.exp_zero
  have e2 : Complex.exp (Complex.I * φ / 2) * Complex.exp (-Complex.I * (-φ / 2 : ℝ)) = (Real.cos φ : ℂ) + Complex.I * (Real.sin φ : ℂ) := by
    rw [← Complex.exp_add]
    have : Complex.I * φ / 2 + -Complex.I * (-φ / 2 : ℝ) = φ * Complex.I := by push_cast; ring
    rw [this, Complex.exp_mul_I, Complex.ofReal_cos, Complex.ofReal_sin]; ring
  have hs : (Real.sin θ : ℂ) ^ 2 + (Real.cos θ : ℂ) ^ 2 = 1 := by
    rw [← Complex.ofReal_pow, ← Complex.ofReal_pow, ← Complex.ofReal_add, Real.sin_sq_add_cos_sq]; rfl
  generalize Complex.exp (-Complex.I * φ / 2) = a at *
  generalize Complex.exp (Complex.I * φ / 2) = b at *
  generalize Complex.exp (-Complex.I * (-φ / 2 : ℝ)) = x at *
  unfold genericMatrix
  rw [Real.cos_neg, Real.sin_neg]
  dsimp only
  rw [← e2]
  push_cast
  generalize Complex.cos θ = c
  generalize Complex.sin θ = s
  ext i j
  fin_cases i <;> fin_cases j <;> simp [Matrix.mul_apply, Fin.sum_univ_two]
  · linear_combination c ^ 2 * e1
  · linear_combination c * s * e1
  · linear_combination c * s * e1
  · linear_combination s ^ 2 * e1

/-- the limit, as amplitudes -/
theorem plates_limit {L : ℕ} (hL : 1 ≤ L) (θ φ : ℝ) :
    ∃ T : ℕ → Matrix (Fin (L ^ 2)) (Fin (L ^ 2)) ℂ, (∀ p, platesHam L p θ φ = some (T p)) ∧
      ∀ (i j : Fin (L ^ 2)) (n m u v : ℕ), limValues L 2 i = [n, m] → limValues L 2 j = [u, v] → n + m < L →
        Filter.Tendsto (fun p => T p i j) Filter.atTop (nhds (gateAmp L (genericMatrix θ φ) n m u v)) := by
  obtain ⟨A, B, C, D, hT, hA, hB, hC, hD⟩ := platesHam_factors hL θ φ
  refine ⟨_, hT, ?_⟩
  intro i j n m u v hi hj hn
  have e1 := (limValues_pair hL i).1
  have e2 := (limValues_pair hL j).1
  rw [hi] at e1; rw [hj] at e2
  simp only [List.cons.injEq, and_true] at e1 e2
  have sb : ∀ {H : Matrix (Fin (L ^ 2)) (Fin (L ^ 2)) ℂ} {X : Opt}, (∀ i j, H i j = quad X (nv L i) (mv L i) (nv L j) (mv L j)) → SameBelow L H (quadLim L X) := by
    intro H X h a b hab
    rw [h]; unfold quadLim; rw [if_pos hab]
  have st := fun X => stay_quadLim L X
  have main : ∀ p, SameBelow L (expMatrix p D * (expMatrix p C * (expMatrix p B * expMatrix p A))) _ := fun p =>
    ((sb hD).expMatrix (st _) p).mul (((sb hC).expMatrix (st _) p).mul (((sb hB).expMatrix (st _) p).mul ((sb hA).expMatrix (st _) p)
      ((st _).expMatrix p)) ((st _).expMatrix p)) ((st _).expMatrix p)
  have hlim := (tendsto_expMatrix (quadLim L !![-Complex.I * (-φ / 2 : ℝ), 0; 0, -Complex.I * (-φ / 2 : ℝ)])).mul
    ((tendsto_expMatrix (quadLim L !![0, (θ : ℂ); -(θ : ℂ), 0])).mul
      ((tendsto_expMatrix (quadLim L !![-Complex.I * φ / 2, 0; 0, Complex.I * φ / 2])).mul
        (tendsto_expMatrix (quadLim L !![0, ((-θ : ℝ) : ℂ); -((-θ : ℝ) : ℂ), 0]))))
  rw [exp_quad_diag hL, exp_quad_rot hL, exp_quad_diag hL, exp_quad_rot hL, gateLim_mul hL, gateLim_mul hL, gateLim_mul hL, mul_assoc, mul_assoc,
    plates_product] at hlim
  have h2 := (Continuous.tendsto (continuous_apply_apply i j) _).comp hlim
  rw [e1.1, e1.2, e2.1, e2.2]
  refine h2.congr fun p => ?_
  exact (main p i j (by omega)).symm

/-- The operator elements `T p i j` (row = input, see `C59_gate`) tend, as the number `p` of terms of the exponential series grows, to the elements of the Fock matrix
(column = input) of the optical node with matrix `M` on channels `h`, `c`, for inputs `v` with fewer than `L` photons in the two channels; `w` is the output. -/
def TendsToNode (g : Cfg) (M : Opt) (h c : ℕ) (T : ℕ → Matrix (Fin (g.L ^ 2)) (Fin (g.L ^ 2)) ℂ) : Prop :=
  ∀ F, IsGateMatrix g M h c F → ∀ v w, Valid g v → Valid g w → (∀ i < g.C, i ≠ h → i ≠ c → w.getD i 0 = v.getD i 0) → v.getD h 0 + v.getD c 0 < g.L →
    ∀ i j : Fin (g.L ^ 2), limValues g.L 2 i = [v.getD h 0, v.getD c 0] → limValues g.L 2 j = [w.getD h 0, w.getD c 0] →
      Filter.Tendsto (fun p => T p i j) Filter.atTop (nhds (F.at_ (g.indexOf w) (g.indexOf v)))

/-- C83 (partial): for an input with fewer than `L` photons in the two channels the operator of `wave_plate_from_hamiltonian(theta, phi)` tends, as the number of
terms of the exponential series grows, to the wave plate `wave_plate(theta, phi)` of the optical nodes. (Missing: the code uses 25 terms; inputs at or above the
cutoff, where the claim is false, see `C83_fails`; channel pairs that the optical node mistakes, see C07.) -/
theorem C83_limit_partial {g : Cfg} (hg : g.Ok) (θ φ : ℝ) {h c : ℕ} (hh : h < g.C) (hc : c < g.C) (hne : h ≠ c) (hbug : ¬ (2 ≤ h ∧ c = 0)) :
    ∃ T : ℕ → Matrix (Fin (g.L ^ 2)) (Fin (g.L ^ 2)) ℂ, (∀ p, platesHam g.L p θ φ = some (T p)) ∧ TendsToNode g (genericMatrix θ φ) h c T := by
  obtain ⟨T, h1, h2⟩ := plates_limit hg.1 θ φ
  refine ⟨T, h1, ?_⟩
  intro F hF v w hv hw hvw hn i j hi hj
  rw [gate_entry hg hh hc hne hbug hF hw hv, if_pos hvw, ← gateAmp_transpose, (C17_wave_plate θ φ 0).2.1]
  exact h2 i j _ _ _ _ hi hj hn

/-- C84 (partial): for every 2×2 matrix `X` of coefficients, the operator built from `Σ X_ab a†_a a_b` tends for an input with fewer than `L` photons in the
two channels, as the number of terms of the exponential series grows, to the optical node whose matrix is the transpose of `exp X`. (Missing: the number of terms is
fixed in the code, and inputs at or above the cutoff, see `C83_cutoff`.) -/
theorem C84_linear_optics_partial {g : Cfg} (hg : g.Ok) (X : Opt) {h c : ℕ} (hh : h < g.C) (hc : c < g.C) (hne : h ≠ c) (hbug : ¬ (2 ≤ h ∧ c = 0)) :
    ∃ T : ℕ → Matrix (Fin (g.L ^ 2)) (Fin (g.L ^ 2)) ℂ, (∀ p, transition g.L p 2 ⟨quadratic X, [0, 0, 1, 1]⟩ [] = some (T p)) ∧
      TendsToNode g (NormedSpace.exp X).transpose h c T := by
  obtain ⟨T, h1, h2⟩ := quadratic_limit hg.1 X
  refine ⟨T, h1, ?_⟩
  intro F hF v w hv hw hvw hn i j hi hj
  rw [gate_entry hg hh hc hne hbug hF hw hv, if_pos hvw, gateAmp_transpose]
  exact h2 i j _ _ _ _ hi hj hn

/-! ### at the cutoff -/

theorem eigenRow_pow {n : ℕ} {H : Matrix (Fin n) (Fin n) ℂ} {i : Fin n} {c : ℂ} (h : ∀ j, H i j = if i = j then c else 0) (k : ℕ) (j : Fin n) :
    (H ^ k) i j = if i = j then c ^ k else 0 := by
  induction k generalizing j with
  | zero => rw [pow_zero, pow_zero, Matrix.one_apply]
  | succ k ih =>
    rw [pow_succ, Matrix.mul_apply, Finset.sum_eq_single i]
    · rw [ih i, if_pos rfl, h j, pow_succ]
      split <;> simp
    · intro b _ hb
      rw [ih b, if_neg (Ne.symm hb), zero_mul]
    · intro hb; exact absurd (Finset.mem_univ i) hb

theorem eigenRow_exp {n : ℕ} {H : Matrix (Fin n) (Fin n) ℂ} {i : Fin n} {c : ℂ} (h : ∀ j, H i j = if i = j then c else 0) {p : ℕ} (hp : 1 ≤ p) (j : Fin n) :
    expMatrix p H i j = if i = j then ∑ k ∈ Finset.range p, c ^ k / (Nat.factorial k : ℂ) else 0 := by
  rw [expMatrix_eq_sum H hp, Matrix.sum_apply]
  simp only [Matrix.smul_apply, eigenRow_pow h, smul_eq_mul]
  by_cases hij : i = j
  · simp only [if_pos hij]
    exact Finset.sum_congr rfl fun k _ => by ring
  · simp only [if_neg hij, mul_zero, Finset.sum_const_zero]

theorem eigenRow_mul {n : ℕ} {A B : Matrix (Fin n) (Fin n) ℂ} {i : Fin n} {c d : ℂ} (h : ∀ j, A i j = if i = j then c else 0)
    (h' : ∀ j, B i j = if i = j then d else 0) (j : Fin n) : (A * B) i j = if i = j then c * d else 0 := by
  rw [Matrix.mul_apply, Finset.sum_eq_single i]
  · rw [h i, if_pos rfl, h' j]
    split <;> simp
  · intro b _ hb
    rw [h b, if_neg (Ne.symm hb), zero_mul]
  · intro hb; exact absurd (Finset.mem_univ i) hb

theorem sum_zero_pow {p : ℕ} (hp : 1 ≤ p) : ∑ k ∈ Finset.range p, (0 : ℂ) ^ k / (Nat.factorial k : ℂ) = 1 := by
  obtain ⟨q, rfl⟩ := Nat.exists_eq_add_of_le' hp
  rw [Finset.sum_range_succ']
  simp

/-- C83, above the cutoff: with `L-1` photons in both channels the operator of `wave_plate_from_hamiltonian` multiplies the amplitude by the truncated
exponential of `i(L-1)·phi`, whatever `theta` is. The wave plate of the optical nodes leaves such a state alone. -/
theorem C83_cutoff {L : ℕ} (hL : 2 ≤ L) (θ φ : ℝ) {p : ℕ} (hp : 1 ≤ p) (i j : Fin (L ^ 2)) (hi : limValues L 2 i = [L - 1, L - 1]) :
    ∃ T, platesHam L p θ φ = some T ∧ T i j = if i = j then ∑ k ∈ Finset.range p, (Complex.I * φ * (L - 1)) ^ k / (Nat.factorial k : ℂ) else 0 := by
  have hL1 : 1 ≤ L := by omega
  obtain ⟨A, B, C, D, hT, hA, hB, hC, hD⟩ := platesHam_factors hL1 θ φ
  refine ⟨_, hT p, ?_⟩
  have e1 := (limValues_pair hL1 i).1
  rw [hi] at e1
  simp only [List.cons.injEq, and_true] at e1
  have row : ∀ {H : Matrix (Fin (L ^ 2)) (Fin (L ^ 2)) ℂ} {X : Opt}, (∀ i j, H i j = quad X (nv L i) (mv L i) (nv L j) (mv L j)) →
      ∀ b, H i b = if i = b then X 0 0 * (L - 1 : ℕ) + X 1 1 * (L - 1 : ℕ) else 0 := by
    intro H X h b
    have e2 := limValues_pair hL1 b
    rw [h, ← e1.1, ← e1.2]
    by_cases hb : i = b
    · subst hb
      rw [← e1.1, ← e1.2, quad_same, if_pos rfl]
    · rw [if_neg hb, quad_else X ?_ (by omega) (by omega)]
      rintro ⟨h1, h2⟩
      apply hb
      apply Fin.ext
      apply limValues_inj hL1 i.2 b.2
      rw [hi, e2.1, h1, h2]
  have key := eigenRow_mul (eigenRow_exp (row hD) hp) (eigenRow_mul (eigenRow_exp (row hC) hp) (eigenRow_mul (eigenRow_exp (row hB) hp) (eigenRow_exp (row hA) hp))) j
  rw [key]
  by_cases hij : i = j
  · rw [if_pos hij, if_pos hij]
    have z1 : (!![0, (θ : ℂ); -(θ : ℂ), 0] : Opt) 0 0 * ((L - 1 : ℕ) : ℂ) + (!![0, (θ : ℂ); -(θ : ℂ), 0] : Opt) 1 1 * ((L - 1 : ℕ) : ℂ) = 0 := by simp
    have z2 : (!![0, ((-θ : ℝ) : ℂ); -((-θ : ℝ) : ℂ), 0] : Opt) 0 0 * ((L - 1 : ℕ) : ℂ) + (!![0, ((-θ : ℝ) : ℂ); -((-θ : ℝ) : ℂ), 0] : Opt) 1 1 * ((L - 1 : ℕ) : ℂ) = 0 := by
      simp
    have z3 : (!![-Complex.I * φ / 2, 0; 0, Complex.I * φ / 2] : Opt) 0 0 * ((L - 1 : ℕ) : ℂ) + (!![-Complex.I * φ / 2, 0; 0, Complex.I * φ / 2] : Opt) 1 1 * ((L - 1 : ℕ) : ℂ) = 0 := by
      simp; ring
    have z4 : (!![-Complex.I * (-φ / 2 : ℝ), 0; 0, -Complex.I * (-φ / 2 : ℝ)] : Opt) 0 0 * ((L - 1 : ℕ) : ℂ) +
        (!![-Complex.I * (-φ / 2 : ℝ), 0; 0, -Complex.I * (-φ / 2 : ℝ)] : Opt) 1 1 * ((L - 1 : ℕ) : ℂ) = Complex.I * φ * (L - 1) := by
      rw [Nat.cast_sub hL1]; simp; ring
    rw [z1, z2, z3, z4, sum_zero_pow hp]
    ring
  · rw [if_neg hij, if_neg hij]

theorem re_sum_I (c : ℝ) (n : ℕ) : (∑ k ∈ Finset.range (2 * n), (Complex.I * c) ^ k / (Nat.factorial k : ℂ)).re = ∑ m ∈ Finset.range n, (-c ^ 2) ^ m / (Nat.factorial (2 * m) : ℝ) := by
  induction n with
  | zero => simp
  | succ n ih =>
    rw [Nat.mul_succ, Finset.sum_range_succ, Finset.sum_range_succ, Finset.sum_range_succ, Complex.add_re, Complex.add_re, ih]
    have h1 : (Complex.I * c) ^ (2 * n) = (((-c ^ 2) ^ n : ℝ) : ℂ) := by
      rw [pow_mul, mul_pow, Complex.I_sq]; push_cast; ring
    have h2 : (Complex.I * c) ^ (2 * n + 1) = (((-c ^ 2) ^ n * c : ℝ) : ℂ) * Complex.I := by
      rw [pow_succ, h1]; push_cast; ring
    rw [h1, h2]
    have h3 : ∀ (x : ℝ) (k : ℕ), ((x : ℂ) / (Nat.factorial k : ℂ)).re = x / Nat.factorial k := by
      intro x k; rw [← Complex.ofReal_natCast, ← Complex.ofReal_div, Complex.ofReal_re]
    have h4 : ∀ (x : ℝ) (k : ℕ), ((x : ℂ) * Complex.I / (Nat.factorial k : ℂ)).re = 0 := by
      intro x k; rw [← Complex.ofReal_natCast, mul_div_right_comm, ← Complex.ofReal_div, Complex.re_ofReal_mul]; simp
    rw [h3, h4, add_zero]

/-- C83 fails at the cutoff: length 2, one photon in each channel, retardation `phi = 1`: `wave_plate` leaves the amplitude alone,
`wave_plate_from_hamiltonian` does not. -/
theorem C83_fails (θ : ℝ) : ∃ (i : Fin (2 ^ 2)) (T : Matrix (Fin (2 ^ 2)) (Fin (2 ^ 2)) ℂ), limValues 2 2 i = [1, 1] ∧ platesHam 2 25 θ 1 = some T ∧
    T i i ≠ 1 ∧ gateAmp 2 (genericMatrix θ 1) 1 1 1 1 = 1 := by
  have hi : limValues 2 2 (⟨3, by norm_num⟩ : Fin (2 ^ 2)) = [1, 1] := by simp [limValues]
  obtain ⟨T, hT, h⟩ := C83_cutoff (L := 2) le_rfl θ 1 (p := 25) (by norm_num) ⟨3, by norm_num⟩ ⟨3, by norm_num⟩ hi
  refine ⟨⟨3, by norm_num⟩, T, hi, hT, ?_, ?_⟩
  · rw [h, if_pos rfl]
    have e : Complex.I * ((1 : ℝ) : ℂ) * (((2 : ℕ) : ℂ) - 1) = Complex.I * ((1 : ℝ) : ℂ) := by push_cast; ring
    rw [e, Finset.sum_range_succ]
    intro hc
    have := congrArg Complex.re hc
    rw [Complex.add_re, show (24 : ℕ) = 2 * 12 from rfl, re_sum_I] at this
    have h24 : ((Complex.I * ((1 : ℝ) : ℂ)) ^ (2 * 12) / (Nat.factorial (2 * 12) : ℂ)).re = 1 / (Nat.factorial 24 : ℝ) := by
      rw [Complex.ofReal_one, mul_one, pow_mul, Complex.I_sq]
      rw [show ((-1 : ℂ) ^ 12) = ((1 : ℝ) : ℂ) by norm_num, ← Complex.ofReal_natCast, ← Complex.ofReal_div, Complex.ofReal_re]
    rw [h24] at this
    norm_num [Finset.sum_range_succ, Nat.factorial] at this
  · rw [gateAmp, if_neg (by norm_num), if_pos ⟨rfl, rfl⟩]

/-- The hypotheses of C83 and C84 are met: length 3, three channels, plate on channels 1 and 2, input `[1,1,1]`, output `[1,2,0]` below the cutoff. -/
example : ∃ (F : SqArr) (i j : Fin (3 ^ 2)), IsGateMatrix ⟨3, 3, true⟩ (genericMatrix 1 1) 1 2 F ∧ limValues 3 2 i = [1, 1] ∧ limValues 3 2 j = [2, 0] ∧ 1 + 1 < 3 :=
  ⟨_, ⟨4, by norm_num⟩, ⟨2, by norm_num⟩, ⟨[1, 2, 0], by decide, rfl⟩, by simp [limValues], by simp [limValues], by norm_num⟩

/-! ### C85: the nodes on a collection -/

/-- Every state of the second collection comes from the state at the same place in the first one: only its optical components change, and they satisfy `R`. -/
def StateByState (R : QState → Comps → Prop) (coll out : Coll) : Prop :=
  (out.map Prod.fst).Nodup ∧ List.Forall₂ (fun p q => q.2 = { p.2 with comps := q.2.comps } ∧ R p.2 q.2.comps) coll out

theorem foldlM_states (r : ℕ → ℕ → ℕ) (f : QState → Option Comps) (R : QState → Comps → Prop) (coll : Coll)
    (h : ∀ p ∈ coll, ∃ c, f p.2 = some c ∧ R p.2 c) :
    ∃ out, coll.foldlM (fun (out : Coll) p => (f p.2).map (fun comps => addState out { p.2 with comps := comps } none (r out.length))) [] = some out ∧
      StateByState R coll out := by
  have key : ∀ (coll acc : Coll), (acc.map Prod.fst).Nodup → (∀ p ∈ coll, ∃ c, f p.2 = some c ∧ R p.2 c) →
      ∃ tail, coll.foldlM (fun (out : Coll) p => (f p.2).map (fun comps => addState out { p.2 with comps := comps } none (r out.length))) acc = some (acc ++ tail) ∧
        ((acc ++ tail).map Prod.fst).Nodup ∧
        List.Forall₂ (fun p q => q.2 = { p.2 with comps := q.2.comps } ∧ R p.2 q.2.comps) coll tail := by
    intro coll
    induction coll with
    | nil => intro acc ha _; exact ⟨[], by simp, by simpa using ha, List.Forall₂.nil⟩
    | cons p coll ih =>
      intro acc ha hm
      obtain ⟨c, hc, hR⟩ := hm p (by simp)
      obtain ⟨i, hn, hadd⟩ := addState_none_nodup ha { p.2 with comps := c } (r acc.length)
      obtain ⟨tail, h1, h2, h3⟩ := ih (acc ++ [(i, { p.2 with comps := c })]) hn (fun q hq => hm q (by simp [hq]))
      refine ⟨(i, { p.2 with comps := c }) :: tail, ?_, by simpa using h2, List.Forall₂.cons ⟨rfl, hR⟩ h3⟩
      rw [List.foldlM_cons, hc]
      simp only [Option.map_some, Option.bind_eq_bind, Option.bind_some]
      rw [hadd, h1]
      simp
  obtain ⟨tail, h1, h2, h3⟩ := key coll [] (by simp) h
  exact ⟨tail, by simpa using h1, by simpa using h2, h3⟩

/-- The amplitudes of `c'` are those of `c` multiplied by the matrix `T` on the channels `ch` (coefficients that round to nothing are dropped). -/
def ActsOn (g : Cfg) (thr : ℝ) (k : ℕ) (T : Matrix (Fin (g.L ^ k)) (Fin (g.L ^ k)) ℂ) (ch : List ℕ) (c c' : Comps) : Prop :=
  WellFormed g c' ∧ ∀ w, Valid g w → ∀ j : Fin (g.L ^ k), limValues g.L k j = ch.map (fun x => w.getD x 0) →
    ∀ s, IsName g w s → ampOf c' s = ∑ m : Fin (g.L ^ k), keptCoeff thr (T m j) * ampOf c (g.stdName (withValues ch (limValues g.L k m) w))

/-- C85: an operator node (different, existing channels, as many as the operator has) on a collection of well-formed states: no exception, every state
is transformed on its own, classical values, measurement results and probabilities are kept, and no state is lost. -/
theorem C85_gate {g : Cfg} (hg : g.Ok) (thr : ℝ) {k : ℕ} (T : Matrix (Fin (g.L ^ k)) (Fin (g.L ^ k)) ℂ) {ch : List ℕ} (hk : ch.length = k)
    (hn : ch.Nodup) (hb : ∀ c ∈ ch, c < g.C) (r : ℕ → ℕ → ℕ) {coll : Coll} (hw : ∀ p ∈ coll, WellFormed g p.2.comps) :
    ∃ out, operatorColl g thr k T ch coll r = some out ∧ StateByState (fun q c' => ActsOn g thr k T ch q.comps c') coll out := by
  refine foldlM_states r (fun q => operatorComps g thr k T ch q.comps) _ coll ?_
  intro p hp
  obtain ⟨c', h1, h2, -, h4⟩ := C59_gate hg thr T hk hn hb (hw p hp)
  exact ⟨c', h1, h2, h4⟩

/-- C85: the classically controlled wave plate: every state gets the operator for the angles in its own classical channels (negative numbers count from the end).
The values must be there (see `C85_builder_fails`). -/
theorem C85_control {g : Cfg} (hg : g.Ok) (thr : ℝ) {ch cv : ℕ} (hne : ch ≠ cv) (hch : ch < g.C) (hcv : cv < g.C) (cTheta cPhi : ℤ) (r : ℕ → ℕ → ℕ)
    {coll : Coll} (hw : ∀ p ∈ coll, WellFormed g p.2.comps) (θ φ : QState → ℝ)
    (hθ : ∀ p ∈ coll, pyGet p.2.classical cTheta = some (θ p.2)) (hφ : ∀ p ∈ coll, pyGet p.2.classical cPhi = some (φ p.2)) :
    ∃ out, wavePlateHamControl g thr ch cv cTheta cPhi r coll = some out ∧
      StateByState (fun q c' => ∃ T, platesHam g.L 25 (θ q) (φ q) = some T ∧ ActsOn g thr 2 T [ch, cv] q.comps c') coll out := by
  have := foldlM_states r (fun q => do
    let φ ← pyGet q.classical cPhi
    let θ ← pyGet q.classical cTheta
    let T ← platesHam g.L 25 θ φ
    operatorComps g thr 2 T [ch, cv] q.comps)
    (fun q c' => ∃ T, platesHam g.L 25 (θ q) (φ q) = some T ∧ ActsOn g thr 2 T [ch, cv] q.comps c') coll (by
      intro p hp
      obtain ⟨A, B, C, D, hT, -⟩ := platesHam_factors hg.1 (θ p.2) (φ p.2)
      have hT' := hT 25
      generalize expMatrix 25 D * (expMatrix 25 C * (expMatrix 25 B * expMatrix 25 A)) = T at hT'
      obtain ⟨c', h1, h2, -, h4⟩ := C59_gate hg thr T (ch := [ch, cv]) rfl (by simpa using hne) (by simp [hch, hcv]) (hw p hp)
      refine ⟨c', ?_, T, hT', h2, h4⟩
      simp only [hθ p hp, hφ p hp, hT', h1, Option.bind_eq_bind, Option.bind_some])
  obtain ⟨out, h1, h2⟩ := this
  refine ⟨out, ?_, h2⟩
  rw [← h1]
  unfold wavePlateHamControl
  congr 1
  funext o p
  simp only [Option.bind_eq_bind, Option.map_eq_bind]
  cases pyGet p.2.classical cPhi <;> cases pyGet p.2.classical cTheta <;> simp
  cases platesHam g.L 25 _ _ <;> simp

/-- C85: `wave_plate_from_hamiltonian` on a collection: the operator of the angles acts on the two channels in the given order, state by state. -/
theorem C85_wave_plate {g : Cfg} (hg : g.Ok) (thr : ℝ) {ch cv : ℕ} (hne : ch ≠ cv) (hch : ch < g.C) (hcv : cv < g.C) (θ φ : ℝ) (r : ℕ → ℕ → ℕ)
    {coll : Coll} (hw : ∀ p ∈ coll, WellFormed g p.2.comps) :
    ∃ T out, platesHam g.L 25 θ φ = some T ∧ wavePlateHam g thr ch cv θ φ r coll = some out ∧
      StateByState (fun q c' => ActsOn g thr 2 T [ch, cv] q.comps c') coll out := by
  obtain ⟨A, B, C, D, hT, -⟩ := platesHam_factors hg.1 θ φ
  have hT' := hT 25
  generalize expMatrix 25 D * (expMatrix 25 C * (expMatrix 25 B * expMatrix 25 A)) = T at hT'
  obtain ⟨out, h1, h2⟩ := C85_gate hg thr T (ch := [ch, cv]) rfl (by simpa using hne) (by simp [hch, hcv]) r hw
  refine ⟨T, out, hT', ?_, h2⟩
  simp only [wavePlateHam, hT', Option.bind_eq_bind, Option.bind_some, h1]

/-- C85 fails for the check of the builder: the classical channel with the number of channels is accepted and the evaluation then fails for every
collection that is not empty; likewise for the optical channels. -/
theorem C85_builder_fails (C m ch cv : ℕ) (h : ch < C) (h' : cv < C) :
    (platesControlAccepted C m ch cv m m = true ∧
    ∀ (g : Cfg) (thr : ℝ) (r : ℕ → ℕ → ℕ) (coll : Coll), coll ≠ [] → (∀ p ∈ coll, p.2.classical.length = m) →
      wavePlateHamControl g thr ch cv m m r coll = none) ∧
    platesControlAccepted C m C cv 0 0 = true ∧
    ∀ (g : Cfg) (thr : ℝ) (r : ℕ → ℕ → ℕ) (coll : Coll), g.C = C → coll ≠ [] → (∀ p ∈ coll, WellFormed g p.2.comps ∧ p.2.comps ≠ []) →
      wavePlateHamControl g thr C cv 0 0 r coll = none := by
  refine ⟨⟨?_, ?_⟩, ?_, ?_⟩
  · simp [platesControlAccepted]; omega
  · intro g thr r coll hne hl
    cases coll with
    | nil => exact absurd rfl hne
    | cons p coll =>
      unfold wavePlateHamControl
      rw [List.foldlM_cons]
      have : pyGet p.2.classical (m : ℤ) = none := by
        unfold pyGet pyIndex
        rw [hl p (by simp)]
        simp
      rw [this]
      rfl
  · simp [platesControlAccepted]; omega
  · intro g thr r coll hC hne hw
    cases coll with
    | nil => exact absurd rfl hne
    | cons p coll =>
      have key : ∀ T, operatorComps g thr 2 T [C, cv] p.2.comps = none := by
        intro T
        obtain ⟨w1, w2⟩ := hw p (by simp)
        cases hc : p.2.comps with
        | nil => exact absurd hc w2
        | cons e l =>
          obtain ⟨v, hv, hn⟩ := w1.named' (p := e) (by rw [hc]; simp)
          have hnone : v[C]? = none := List.getElem?_eq_none (by rw [hv.1, hC])
          simp only [operatorComps, List.mapM_cons, hn, g.parse_stdName hv.2, Option.bind_eq_bind, Option.bind_some, hnone, Option.bind_none]
      unfold wavePlateHamControl
      rw [List.foldlM_cons]
      simp only [key, Option.bind_eq_bind, Option.bind_none, Option.bind_fun_none]

/-- The hypotheses of C85 are met by a photon in channel 2 of three, with the plate on channels 2 and 0 and angles in classical channels 1 and -1. -/
example (r : ℕ → ℕ → ℕ) : ∃ out, wavePlateHamControl ⟨2, 3, true⟩ 0.0001 2 0 1 (-2) r
    [(['a'], ⟨['0', '0', '1'], 1, [(['0', '0', '1'], ⟨1, 1⟩)], [0.5, 0.25], []⟩)] = some out ∧ out.length = 1 := by
  obtain ⟨out, h1, h2⟩ := C85_control (g := ⟨2, 3, true⟩) (by decide) 0.0001 (ch := 2) (cv := 0) (by norm_num) (by norm_num) (by norm_num) 1 (-2) r
    (coll := [(['a'], ⟨['0', '0', '1'], 1, [(['0', '0', '1'], ⟨1, 1⟩)], [0.5, 0.25], []⟩)])
    (by
      intro p hp
      obtain rfl : p = (['a'], ⟨['0', '0', '1'], 1, [(['0', '0', '1'], ⟨1, 1⟩)], [0.5, 0.25], []⟩) := by simpa using hp
      refine wf_iff.2 ⟨by simp [Dict.keys], fun e he => ?_⟩
      obtain rfl : e = (['0', '0', '1'], ⟨1, 1⟩) := by simpa using he
      exact ⟨[0, 0, 1], by decide, by decide⟩)
    (fun _ => 0.25) (fun _ => 0.5) (by simp [pyGet, pyIndex]) (by simp [pyGet, pyIndex])
  exact ⟨out, h1, by simpa using h2.2.length_eq.symm⟩

end Verif.Props
