/-
C58 - C61: the order of Hamiltonians, photon number conservation, unitarity.
-/
import Verif.Props.Operators
import Mathlib.Analysis.Normed.Algebra.MatrixExponential
import Mathlib.LinearAlgebra.UnitaryGroup
import Mathlib.Analysis.SpecialFunctions.Exponential

namespace Verif.Props
open Verif Spec
open scoped Matrix

/-! ### C58: order of the Hamiltonians -/

/-- Apply the transformations one after the other, first one first. A state is a row vector of amplitudes, a transformation takes `x` to
`y_j = Σ_i x_i E_ij` (row = input, column = output, as in `C52_elements`). -/
def applyInOrder {n : ℕ} (x : Fin n → ℂ) (l : List (Matrix (Fin n) (Fin n) ℂ)) : Fin n → ℂ := l.foldl (fun y E => y ᵥ* E) x

theorem combine_append {n : ℕ} (l : List (Matrix (Fin n) (Fin n) ℂ)) (E : Matrix (Fin n) (Fin n) ℂ) :
    combineMatrices (l ++ [E]) = E * combineMatrices l := by
  unfold combineMatrices; rw [List.foldl_append]; rfl

/-- C58: what the code does: the LAST transformation of the list acts first. -/
theorem C58_actual {n : ℕ} (x : Fin n → ℂ) (l : List (Matrix (Fin n) (Fin n) ℂ)) :
    x ᵥ* combineMatrices l = applyInOrder x l.reverse := by
  induction l using List.reverseRecOn generalizing x with
  | nil => simp [combineMatrices, applyInOrder]
  | append_singleton l E ih =>
    rw [combine_append, List.reverse_append, ← Matrix.vecMul_vecMul, ih]
    rfl

/-- C58 (partial): for pairwise commuting transformations the documented order is right. -/
theorem C58_commuting_partial {n : ℕ} (x : Fin n → ℂ) (l : List (Matrix (Fin n) (Fin n) ℂ)) (h : l.Pairwise Commute) :
    x ᵥ* combineMatrices l = applyInOrder x l := by
  have key : ∀ (l : List (Matrix (Fin n) (Fin n) ℂ)) (x : Fin n → ℂ), l.Pairwise Commute →
      applyInOrder x l = x ᵥ* combineMatrices l := by
    intro l
    induction l using List.reverseRecOn with
    | nil => intro x _; simp [combineMatrices, applyInOrder]
    | append_singleton l E ih =>
      intro x h
      rw [List.pairwise_append] at h
      have hc : Commute E (combineMatrices l) := by
        have hl : ∀ A ∈ l, Commute A E := fun A hA => h.2.2 A hA E (by simp)
        clear ih h
        induction l using List.reverseRecOn with
        | nil => exact Commute.one_right _
        | append_singleton l F ih' =>
          rw [combine_append]
          exact (hl F (by simp)).symm.mul_right (ih' (fun A hA => hl A (by simp [hA])))
      have e : applyInOrder x (l ++ [E]) = applyInOrder x l ᵥ* E := by unfold applyInOrder; rw [List.foldl_append]; rfl
      rw [e, ih x h.1, combine_append, Matrix.vecMul_vecMul, hc.eq]
  exact (key l x h).symm

/-- Truncated exponential of a matrix with square zero. -/
theorem expMatrix_sq_zero {n : ℕ} {M : Matrix (Fin n) (Fin n) ℂ} (h : M ^ 2 = 0) {p : ℕ} (hp : 2 ≤ p) : expMatrix p M = 1 + M := by
  unfold expMatrix
  obtain ⟨q, rfl⟩ := Nat.exists_eq_add_of_le hp
  rw [show 2 + q - 1 = q + 1 from by omega, List.range'_succ, List.foldl_cons]
  have : ∀ (m s : ℕ) (T : Matrix (Fin n) (Fin n) ℂ), 2 ≤ s →
      (List.range' s m).foldl (fun T k => T + ((1 : ℂ) / (Nat.factorial k : ℂ)) • M ^ k) T = T := by
    intro m
    induction m with
    | zero => intro s T _; rfl
    | succ m ih =>
      intro s T hs
      rw [List.range'_succ, List.foldl_cons, ih _ _ (by omega)]
      obtain ⟨t, rfl⟩ := Nat.exists_eq_add_of_le hs
      rw [pow_add, h]; simp
  rw [this _ _ _ (by omega)]
  simp

theorem limValues_21 (i : Fin (2 ^ 1)) : limValues 2 1 i = [(i : ℕ)] := by
  have : (i : ℕ) < 2 := i.2
  have h : (i : ℕ) = 0 ∨ (i : ℕ) = 1 := by omega
  rcases h with h | h <;> rw [h] <;> simp [limValues]

/-- C58 fails: with the Hamiltonians "create" (index 0) and "annihilate" (index 1) on one channel of length 2, "create, then annihilate" takes the vacuum to
`2|0⟩ + |1⟩`; the operator built by the code takes it to `|0⟩ + |1⟩`. -/
theorem C58_fails : ∃ (A B : Matrix (Fin (2 ^ 1)) (Fin (2 ^ 1)) ℂ) (T : Matrix (Fin (2 ^ 1)) (Fin (2 ^ 1)) ℂ),
    limMatrix 2 1 [0] [(['+'], 1)] = some A ∧ limMatrix 2 1 [0] [(['-'], 1)] = some B ∧
    transition 2 25 1 ⟨[(['+'], 1)], [0]⟩ [⟨[(['-'], 1)], [0]⟩] = some T ∧
    applyInOrder (Pi.single 0 1) [expMatrix 25 A, expMatrix 25 B] 0 = 2 ∧ (Pi.single (0 : Fin (2 ^ 1)) 1 ᵥ* T) 0 = 1 := by
  obtain ⟨A, hA⟩ := C52_defined (L := 2) (k := 1) (by norm_num) (by norm_num) (chans := [0]) (by simp) [(['+'], 1)]
  obtain ⟨B, hB⟩ := C52_defined (L := 2) (k := 1) (by norm_num) (by norm_num) (chans := [0]) (by simp) [(['-'], 1)]
  have eA : A = !![0, 1; 0, 0] := by
    ext i j
    rw [C52_creation (by norm_num) (pre := []) (post := []) (c := 0) rfl (by simp) (by simp) hA i j, limValues_21, limValues_21]
    fin_cases i <;> fin_cases j <;> simp
  have eB : B = !![0, 0; 1, 0] := by
    ext i j
    rw [C52_annihilation (by norm_num) (pre := []) (post := []) (c := 0) rfl (by simp) (by simp) hB i j, limValues_21, limValues_21]
    fin_cases i <;> fin_cases j <;> simp
  have sA : A ^ 2 = 0 := by rw [eA, pow_two]; ext i j; fin_cases i <;> fin_cases j <;> simp [Matrix.mul_apply, Fin.sum_univ_two]
  have sB : B ^ 2 = 0 := by rw [eB, pow_two]; ext i j; fin_cases i <;> fin_cases j <;> simp [Matrix.mul_apply, Fin.sum_univ_two]
  have xA := expMatrix_sq_zero sA (p := 25) (by norm_num)
  have xB := expMatrix_sq_zero sB (p := 25) (by norm_num)
  refine ⟨A, B, combineMatrices [expMatrix 25 A, expMatrix 25 B], hA, hB, ?_, ?_, ?_⟩
  · have : numChannels [0] = 1 := rfl
    unfold transition
    rw [if_pos this, List.mapM_cons, hA, List.mapM_cons, hB]
    rfl
  · rw [xA, xB, eA, eB]
    simp [applyInOrder, Matrix.vecMul, dotProduct, Fin.sum_univ_two]
    norm_num
  · rw [xA, xB, eA, eB]
    simp [combineMatrices, Matrix.vecMul, dotProduct, Fin.sum_univ_two, Matrix.mul_apply]

/-! ### C60: photon number conservation -/

/-- Every product of ladder operators has as many creations as annihilations. -/
def Balanced (chans : List ℕ) (ops : List (List Char × ℂ)) : Prop :=
  ∀ op ∈ ops, ((chans.zip op.1).map Prod.snd).count '+' = ((chans.zip op.1).map Prod.snd).count '-'

/-- No amplitude between basis states of different photon number. -/
def Conserves (L k : ℕ) (M : Matrix (Fin (L ^ k)) (Fin (L ^ k)) ℂ) : Prop :=
  ∀ i j : Fin (L ^ k), (limValues L k i).sum ≠ (limValues L k j).sum → M i j = 0

theorem sum_set_nat (l : List ℕ) (c n : ℕ) (h : c < l.length) : (l.set c n).sum + l.getD c 0 = l.sum + n := by
  induction l generalizing c with
  | nil => simp at h
  | cons a l ih =>
    cases c with
    | zero => simp; omega
    | succ c =>
      have := ih c (by simpa using h)
      simp only [List.set_cons_succ, List.sum_cons, List.getD_cons_succ]
      omega

theorem commands_photons (w : List (ℕ × Char)) (u : List ℕ) (hw : ∀ x ∈ w, x.1 < u.length) :
    ∃ (a : ℂ) (u' : List ℕ), commands w (Finsupp.single u 1) = a • Finsupp.single u' 1 ∧ u'.length = u.length ∧
      (a ≠ 0 → u'.sum + (w.map Prod.snd).count '-' = u.sum + (w.map Prod.snd).count '+') := by
  induction w generalizing u with
  | nil => exact ⟨1, u, by rw [commands_nil]; simp, rfl, by simp⟩
  | cons x w ih =>
    have hx := hw x List.mem_cons_self
    have hpm : ¬ ('-' : Char) = '+' := by decide
    have hpm' : ¬ ('+' : Char) = '-' := by decide
    have : ∃ (a : ℂ) (u' : List ℕ), command x.1 x.2 (Finsupp.single u (1 : ℂ)) = a • Finsupp.single u' (1 : ℂ) ∧ u'.length = u.length ∧
        (a ≠ 0 → u'.sum + [x.2].count '-' = u.sum + [x.2].count '+') := by
      unfold command
      by_cases h1 : x.2 = '+'
      · rw [if_pos h1, create_single, one_mul]
        refine ⟨_, _, rfl, by simp, fun _ => ?_⟩
        have := sum_set_nat u x.1 (u.getD x.1 0 + 1) hx
        rw [h1]; simp only [List.count_singleton, beq_iff_eq, if_neg hpm', if_true]; omega
      · rw [if_neg h1]
        by_cases h2 : x.2 = '-'
        · rw [if_pos h2, annihilate_single, one_mul]
          refine ⟨_, _, rfl, by simp, fun ha => ?_⟩
          have := sum_set_nat u x.1 (u.getD x.1 0 - 1) hx
          have h0 : u.getD x.1 0 ≠ 0 := by
            intro h0; apply ha; rw [h0]; simp
          rw [h2]; simp only [List.count_singleton, beq_iff_eq, if_neg hpm, if_true]; omega
        · rw [if_neg h2]
          exact ⟨1, u, by simp, rfl, fun _ => by simp [h1, h2]⟩
    obtain ⟨a, u', ha, hl, hs⟩ := this
    obtain ⟨b, u2, hb, hl2, hs2⟩ := ih u' (fun y hy => hl ▸ hw y (List.mem_cons_of_mem _ hy))
    refine ⟨a * b, u2, by rw [commands_cons, LinearMap.comp_apply, ha, map_smul, hb, smul_smul], hl2.trans hl, fun hab => ?_⟩
    have h1 := hs (left_ne_zero_of_mul hab)
    have h2 := hs2 (right_ne_zero_of_mul hab)
    rw [List.map_cons, List.count_cons, List.count_cons]
    rw [List.count_singleton, List.count_singleton] at h1
    omega

/-- C60: the matrix of a Hamiltonian with as many creations as annihilations in every term conserves the photon number. -/
theorem C60_hamiltonian {L k : ℕ} (hL : 1 ≤ L) {chans : List ℕ} (hc : ∀ c ∈ chans, c < k) {ops : List (List Char × ℂ)}
    (hb : Balanced chans ops) {M : Matrix (Fin (L ^ k)) (Fin (L ^ k)) ℂ} (h : limMatrix L k chans ops = some M) : Conserves L k M := by
  intro i j hij
  rw [C52_elements hL h i j]
  apply List.sum_eq_zero
  intro x hx
  obtain ⟨op, hop, rfl⟩ := List.mem_map.1 hx
  obtain ⟨a, u', ha, -, hs⟩ := commands_photons (chans.zip op.1) (limValues L k i) (fun x hx => by
    rw [(limValues_valid hL i.2).1]; exact hc _ (List.of_mem_zip hx).1)
  rw [ha, Finsupp.smul_apply, Finsupp.single_apply]
  by_cases h0 : a = 0
  · rw [h0]; simp
  · have := hs h0
    rw [hb op hop] at this
    rw [if_neg]
    · simp
    · rintro rfl; omega

theorem Conserves.one {L k : ℕ} : Conserves L k 1 := by
  intro i j hij
  rw [Matrix.one_apply_ne]; rintro rfl; exact hij rfl

theorem Conserves.mul {L k : ℕ} {A B : Matrix (Fin (L ^ k)) (Fin (L ^ k)) ℂ} (hA : Conserves L k A) (hB : Conserves L k B) : Conserves L k (A * B) := by
  intro i j hij
  rw [Matrix.mul_apply]
  apply Finset.sum_eq_zero
  intro m _
  by_cases h : (limValues L k i).sum = (limValues L k m).sum
  · rw [hB m j (by rw [← h]; exact hij), mul_zero]
  · rw [hA i m h, zero_mul]

theorem Conserves.pow {L k : ℕ} {A : Matrix (Fin (L ^ k)) (Fin (L ^ k)) ℂ} (hA : Conserves L k A) (n : ℕ) : Conserves L k (A ^ n) := by
  induction n with
  | zero => rw [pow_zero]; exact Conserves.one
  | succ n ih => rw [pow_succ]; exact ih.mul hA

theorem Conserves.exp {L k : ℕ} {A : Matrix (Fin (L ^ k)) (Fin (L ^ k)) ℂ} (hA : Conserves L k A) (p : ℕ) : Conserves L k (expMatrix p A) := by
  unfold expMatrix
  have : ∀ (l : List ℕ) (T : Matrix (Fin (L ^ k)) (Fin (L ^ k)) ℂ), Conserves L k T →
      Conserves L k (l.foldl (fun T m => T + ((1 : ℂ) / (Nat.factorial m : ℂ)) • A ^ m) T) := by
    intro l
    induction l with
    | nil => intro T hT; exact hT
    | cons m l ih =>
      intro T hT
      apply ih
      intro i j hij
      change (T + ((1 : ℂ) / (Nat.factorial m : ℂ)) • A ^ m) i j = 0
      rw [Matrix.add_apply, Matrix.smul_apply, hT i j hij, hA.pow m i j hij]; simp
  exact this _ _ Conserves.one

/-- C60: so does the transformation built from any list of such Hamiltonians, for every truncation of the exponential. -/
theorem C60_transition {L p k : ℕ} (hL : 1 ≤ L) {h : Ham} {rest : List Ham} (hc : ∀ c ∈ h.chans, c < k)
    (hb : ∀ x ∈ h :: rest, Balanced h.chans x.ops) {T : Matrix (Fin (L ^ k)) (Fin (L ^ k)) ℂ} (hT : transition L p k h rest = some T) :
    ∀ i j : Fin (L ^ k), (limValues L k i).sum ≠ (limValues L k j).sum → T i j = 0 := by
  change Conserves L k T
  unfold transition at hT
  split_ifs at hT with hk
  rw [Option.map_eq_some_iff] at hT
  obtain ⟨l, hl, rfl⟩ := hT
  rw [mapM_some_iff] at hl
  have hall : ∀ M ∈ l, Conserves L k M := by
    generalize h :: rest = hs at hl hb
    clear hk
    induction hl with
    | nil => intro M hM; cases hM
    | cons h1 _ ih =>
      intro M hM
      rcases List.mem_cons.1 hM with rfl | hM
      · exact C60_hamiltonian hL hc (hb _ List.mem_cons_self) h1
      · exact ih (fun x hx => hb x (List.mem_cons_of_mem _ hx)) M hM
  clear hl
  induction l using List.reverseRecOn with
  | nil => exact Conserves.one
  | append_singleton l E ih =>
    rw [List.map_append, List.map_cons, List.map_nil, combine_append]
    exact ((hall E (by simp)).exp p).mul (ih (fun M hM => hall M (by simp [hM])))

/-! ### C61: unitarity -/

theorem expMatrix_eq_sum {n : ℕ} (M : Matrix (Fin n) (Fin n) ℂ) {p : ℕ} (hp : 1 ≤ p) :
    expMatrix p M = ∑ k ∈ Finset.range p, ((1 : ℂ) / (Nat.factorial k : ℂ)) • M ^ k := by
  obtain ⟨q, rfl⟩ := Nat.exists_eq_add_of_le' hp
  unfold expMatrix
  rw [Nat.add_sub_cancel]
  induction q with
  | zero => simp
  | succ q ih =>
    rw [List.range'_concat, List.foldl_append, ih (by omega), Finset.sum_range_succ _ (q + 1)]
    simp [add_comm]

/-- C61 (partial): for an anti-Hermitian matrix the truncated exponentials converge to a unitary matrix. The code uses a fixed number of terms. -/
theorem C61_unitary_limit_partial {n : ℕ} (M : Matrix (Fin n) (Fin n) ℂ) (hM : Mᴴ = -M) :
    ∃ U : Matrix (Fin n) (Fin n) ℂ, U ∈ Matrix.unitaryGroup (Fin n) ℂ ∧
      ∀ i j, Filter.Tendsto (fun p => expMatrix p M i j) Filter.atTop (nhds (U i j)) := by
  let _ : NormedRing (Matrix (Fin n) (Fin n) ℂ) := Matrix.linftyOpNormedRing
  let _ : NormedAlgebra ℂ (Matrix (Fin n) (Fin n) ℂ) := Matrix.linftyOpNormedAlgebra
  refine ⟨NormedSpace.exp M, ?_, ?_⟩
  · rw [Matrix.mem_unitaryGroup_iff, Matrix.star_eq_conjTranspose, ← Matrix.exp_conjTranspose, hM, ← Matrix.exp_add_of_commute _ _ (Commute.neg_right (Commute.refl M))]
    simp
  · intro i j
    have h := (NormedSpace.exp_series_hasSum_exp' (𝕂 := ℂ) M).tendsto_sum_nat
    have h2 : Filter.Tendsto (fun p => expMatrix p M) Filter.atTop (nhds (NormedSpace.exp M)) := by
      refine h.congr' ?_
      filter_upwards [Filter.eventually_ge_atTop 1] with p hp
      rw [expMatrix_eq_sum M hp]
      simp
    exact (Continuous.tendsto (continuous_apply_apply i j) _).comp h2

/-- C61 fails for the fixed number of terms: a phase shift Hamiltonian `i·100·a†a` on one channel of length 2 gives a matrix that is not unitary. -/
theorem C61_fails : ∃ M T : Matrix (Fin (2 ^ 1)) (Fin (2 ^ 1)) ℂ, limMatrix 2 1 [0, 0] [(['-', '+'], 100 * Complex.I)] = some M ∧ Mᴴ = -M ∧
    transition 2 25 1 ⟨[(['-', '+'], 100 * Complex.I)], [0, 0]⟩ [] = some T ∧ T ∉ Matrix.unitaryGroup (Fin (2 ^ 1)) ℂ := by
  obtain ⟨M, hM⟩ := C52_defined (L := 2) (k := 1) (by norm_num) (by norm_num) (chans := [0, 0]) (by simp) [(['-', '+'], 100 * Complex.I)]
  have hpm : ¬ ('-' : Char) = '+' := by decide
  have eM : M = Matrix.diagonal (![0, 100 * Complex.I] : Fin 2 → ℂ) := by
    ext i j
    rw [C52_elements (by norm_num) hM i j, limValues_21, limValues_21]
    simp only [List.map_cons, List.map_nil, List.sum_cons, List.sum_nil, List.zip_cons_cons, List.zip_nil_right, commands_cons, commands_nil,
      LinearMap.comp_apply, LinearMap.id_apply, command, if_true, if_neg hpm, annihilate_single, map_smul, create_single, Finsupp.smul_apply,
      Finsupp.single_apply]
    fin_cases i <;> fin_cases j <;> simp
  refine ⟨M, combineMatrices [expMatrix 25 M], hM, ?_, ?_, ?_⟩
  · rw [eM, Matrix.diagonal_conjTranspose, Matrix.diagonal_neg]
    congr 1
    ext i
    fin_cases i <;> simp
  · unfold transition
    rw [if_pos (show numChannels [0, 0] = 1 from rfl), List.mapM_cons, hM]
    rfl
  · have hc : combineMatrices [expMatrix 25 M] = expMatrix 25 M := by simp [combineMatrices]
    rw [hc, expMatrix_eq_sum M (by norm_num), Matrix.mem_unitaryGroup_iff]
    intro h
    have hd : ∑ k ∈ Finset.range 25, ((1 : ℂ) / (Nat.factorial k : ℂ)) • M ^ k =
        Matrix.diagonal (fun a => ∑ k ∈ Finset.range 25, ((1 : ℂ) / (Nat.factorial k : ℂ)) * (![0, 100 * Complex.I] : Fin 2 → ℂ) a ^ k) := by
      rw [eM]
      ext a b
      rw [Matrix.sum_apply]
      by_cases hab : a = b
      · subst hab
        simp [Matrix.diagonal_pow]
      · simp [Matrix.diagonal_pow, Matrix.diagonal_apply_ne _ hab]
    rw [hd, Matrix.star_eq_conjTranspose, Matrix.diagonal_conjTranspose, Matrix.diagonal_mul_diagonal] at h
    have h11 := congrFun (congrFun h 1) 1
    rw [Matrix.diagonal_apply_eq, Matrix.one_apply_eq] at h11
    generalize hs : ∑ k ∈ Finset.range 25, ((1 : ℂ) / (Nat.factorial k : ℂ)) * (![0, 100 * Complex.I] : Fin 2 → ℂ) 1 ^ k = s at h11
    have hn : ‖s‖ = 1 := by
      have := congrArg norm h11
      simp only [Pi.star_apply, hs, norm_mul, norm_star, norm_one] at this
      nlinarith [norm_nonneg s]
    have hre : |s.re| ≤ 1 := hn ▸ Complex.abs_re_le_norm s
    have hpow : ∀ m : ℕ, (100 * Complex.I) ^ (2 * m) = (((-10000 : ℝ) ^ m : ℝ) : ℂ) := by
      intro m; rw [pow_mul, mul_pow, Complex.I_sq]; push_cast; norm_num
    have hpow' : ∀ m : ℕ, (100 * Complex.I) ^ (2 * m + 1) = (((-10000 : ℝ) ^ m * 100 : ℝ) : ℂ) * Complex.I := by
      intro m; rw [pow_succ, hpow]; push_cast; ring
    have e : s.re = ∑ m ∈ Finset.range 13, 1 / (Nat.factorial (2 * m) : ℝ) * (-10000) ^ m := by
      have h1 : ∀ n : ℕ, (∑ k ∈ Finset.range (2 * n + 1), ((1 : ℂ) / (Nat.factorial k : ℂ)) * (100 * Complex.I) ^ k).re =
          ∑ m ∈ Finset.range (n + 1), 1 / (Nat.factorial (2 * m) : ℝ) * (-10000) ^ m := by
        have hr : ∀ m : ℕ, ((1 : ℂ) / (Nat.factorial m : ℂ)) = ((1 / (Nat.factorial m : ℝ) : ℝ) : ℂ) := by intro m; push_cast; rfl
        intro n
        induction n with
        | zero => simp
        | succ n ih =>
          rw [show 2 * (n + 1) + 1 = 2 * n + 1 + 1 + 1 from by ring, Finset.sum_range_succ, Finset.sum_range_succ, Complex.add_re, Complex.add_re, ih,
            Finset.sum_range_succ _ (n + 1), hpow', hr, show 2 * n + 1 + 1 = 2 * (n + 1) from by ring, hpow, hr, ← mul_assoc, ← Complex.ofReal_mul,
            ← Complex.ofReal_mul, Complex.re_ofReal_mul, Complex.I_re, Complex.ofReal_re]
          ring
      rw [← hs]
      exact h1 12
    rw [e] at hre
    norm_num [Finset.sum_range_succ, Nat.factorial] at hre

end Verif.Props
