/- The error of the truncated exponential series. -/
import Verif.Lemmas.OperatorNodes

namespace Verif
open Spec

/-- absolute row sums at most `r` -/
def RowsLe {n : ℕ} (r : ℝ) (A : Matrix (Fin n) (Fin n) ℂ) : Prop := ∀ i, ∑ j, ‖A i j‖ ≤ r

theorem RowsLe.mono {n : ℕ} {r s : ℝ} {A : Matrix (Fin n) (Fin n) ℂ} (h : RowsLe r A) (hrs : r ≤ s) : RowsLe s A := fun i => (h i).trans hrs

theorem RowsLe.entry {n : ℕ} {r : ℝ} {A : Matrix (Fin n) (Fin n) ℂ} (h : RowsLe r A) (i j : Fin n) : ‖A i j‖ ≤ r :=
  (Finset.single_le_sum (f := fun j => ‖A i j‖) (fun _ _ => norm_nonneg _) (Finset.mem_univ j)).trans (h i)

theorem RowsLe.add {n : ℕ} {r s : ℝ} {A B : Matrix (Fin n) (Fin n) ℂ} (h : RowsLe r A) (h' : RowsLe s B) : RowsLe (r + s) (A + B) := by
  intro i
  calc ∑ j, ‖(A + B) i j‖ ≤ ∑ j, (‖A i j‖ + ‖B i j‖) := Finset.sum_le_sum fun j _ => norm_add_le _ _
    _ = ∑ j, ‖A i j‖ + ∑ j, ‖B i j‖ := Finset.sum_add_distrib
    _ ≤ r + s := add_le_add (h i) (h' i)

theorem RowsLe.mul {n : ℕ} {r s : ℝ} {A B : Matrix (Fin n) (Fin n) ℂ} (h : RowsLe r A) (h' : RowsLe s B) (hs : 0 ≤ s) : RowsLe (r * s) (A * B) := by
  intro i
  calc ∑ j, ‖(A * B) i j‖ ≤ ∑ j, ∑ k, ‖A i k‖ * ‖B k j‖ := Finset.sum_le_sum fun j _ => by
        rw [Matrix.mul_apply]
        exact (norm_sum_le _ _).trans (Finset.sum_le_sum fun k _ => (norm_mul _ _).le)
    _ = ∑ k, ‖A i k‖ * ∑ j, ‖B k j‖ := by
        rw [Finset.sum_comm]; exact Finset.sum_congr rfl fun k _ => (Finset.mul_sum _ _ _).symm
    _ ≤ ∑ k, ‖A i k‖ * s := Finset.sum_le_sum fun k _ => mul_le_mul_of_nonneg_left (h' k) (norm_nonneg _)
    _ = (∑ k, ‖A i k‖) * s := (Finset.sum_mul _ _ _).symm
    _ ≤ r * s := mul_le_mul_of_nonneg_right (h i) hs

theorem RowsLe.one {n : ℕ} : RowsLe 1 (1 : Matrix (Fin n) (Fin n) ℂ) := by
  intro i
  rw [Finset.sum_eq_single i]
  · simp
  · intro j _ hj; rw [Matrix.one_apply_ne (Ne.symm hj), norm_zero]
  · intro h; exact absurd (Finset.mem_univ i) h

theorem RowsLe.pow {n : ℕ} {r : ℝ} (hr : 0 ≤ r) {A : Matrix (Fin n) (Fin n) ℂ} (h : RowsLe r A) (k : ℕ) : RowsLe (r ^ k) (A ^ k) := by
  induction k with
  | zero => rw [pow_zero, pow_zero]; exact RowsLe.one
  | succ k ih => rw [pow_succ, pow_succ A]; exact ih.mul h hr

theorem RowsLe.smul {n : ℕ} {r : ℝ} {A : Matrix (Fin n) (Fin n) ℂ} (h : RowsLe r A) (c : ℂ) : RowsLe (‖c‖ * r) (c • A) := by
  intro i
  calc ∑ j, ‖(c • A) i j‖ = ‖c‖ * ∑ j, ‖A i j‖ := by
        rw [Finset.mul_sum]; exact Finset.sum_congr rfl fun j _ => by rw [Matrix.smul_apply, smul_eq_mul, norm_mul]
    _ ≤ ‖c‖ * r := mul_le_mul_of_nonneg_left (h i) (norm_nonneg _)

theorem RowsLe.zero {n : ℕ} : RowsLe 0 (0 : Matrix (Fin n) (Fin n) ℂ) := fun i => by simp

theorem RowsLe.sum {n : ℕ} {ι : Type*} {s : Finset ι} {r : ι → ℝ} {A : ι → Matrix (Fin n) (Fin n) ℂ} (h : ∀ k ∈ s, RowsLe (r k) (A k)) :
    RowsLe (∑ k ∈ s, r k) (∑ k ∈ s, A k) := by
  classical
  induction s using Finset.induction_on with
  | empty => simpa using RowsLe.zero
  | insert a s ha ih =>
    rw [Finset.sum_insert ha, Finset.sum_insert ha]
    exact (h a (by simp)).add (ih fun k hk => h k (by simp [hk]))

theorem rows_term {n : ℕ} {r : ℝ} (hr : 0 ≤ r) {A : Matrix (Fin n) (Fin n) ℂ} (h : RowsLe r A) (k : ℕ) :
    RowsLe (r ^ k / k.factorial) (((1 : ℂ) / (k.factorial : ℂ)) • A ^ k) := by
  refine ((h.pow hr k).smul _).mono (le_of_eq ?_)
  rw [norm_div, norm_one, Complex.norm_natCast]; ring

theorem rows_expMatrix {n : ℕ} {r : ℝ} (hr : 0 ≤ r) {A : Matrix (Fin n) (Fin n) ℂ} (h : RowsLe r A) {p : ℕ} (hp : 1 ≤ p) : RowsLe (Real.exp r) (expMatrix p A) := by
  rw [Props.expMatrix_eq_sum A hp]
  exact (RowsLe.sum fun k _ => rows_term hr h k).mono (Real.sum_le_exp_of_nonneg hr p)

theorem tail_le {r : ℝ} (hr : 0 ≤ r) (p q : ℕ) : ∑ k ∈ Finset.range q, r ^ (p + k) / ((p + k).factorial : ℝ) ≤ r ^ p / p.factorial * Real.exp r := by
  calc ∑ k ∈ Finset.range q, r ^ (p + k) / ((p + k).factorial : ℝ) ≤ ∑ k ∈ Finset.range q, r ^ p / p.factorial * (r ^ k / k.factorial) := by
        refine Finset.sum_le_sum fun k _ => ?_
        rw [pow_add, div_mul_div_comm]
        refine div_le_div_of_nonneg_left (by positivity) (by positivity) ?_
        exact_mod_cast Nat.le_of_dvd (Nat.factorial_pos _) (Nat.factorial_mul_factorial_dvd_factorial_add p k)
    _ = r ^ p / p.factorial * ∑ k ∈ Finset.range q, r ^ k / k.factorial := (Finset.mul_sum _ _ _).symm
    _ ≤ _ := mul_le_mul_of_nonneg_left (Real.sum_le_exp_of_nonneg hr q) (by positivity)

theorem rows_truncation_finite {n : ℕ} {r : ℝ} (hr : 0 ≤ r) {A : Matrix (Fin n) (Fin n) ℂ} (h : RowsLe r A) {p : ℕ} (hp : 1 ≤ p) (q : ℕ) :
    RowsLe (r ^ p / p.factorial * Real.exp r) (expMatrix (p + q) A - expMatrix p A) := by
  have e : expMatrix (p + q) A - expMatrix p A = ∑ k ∈ Finset.range q, ((1 : ℂ) / ((p + k).factorial : ℂ)) • A ^ (p + k) := by
    rw [Props.expMatrix_eq_sum A hp, Props.expMatrix_eq_sum A (by omega), Finset.sum_range_add_sub_sum_range]
  rw [e]
  exact (RowsLe.sum fun k _ => rows_term hr h (p + k)).mono (tail_le hr p q)

theorem rows_limit {n : ℕ} {r : ℝ} {A : ℕ → Matrix (Fin n) (Fin n) ℂ} {B : Matrix (Fin n) (Fin n) ℂ} (h : Filter.Tendsto A Filter.atTop (nhds B))
    (hA : ∀ q, RowsLe r (A q)) : RowsLe r B := by
  intro i
  have : Filter.Tendsto (fun q => ∑ j, ‖A q i j‖) Filter.atTop (nhds (∑ j, ‖B i j‖)) :=
    tendsto_finset_sum _ fun j _ => ((Continuous.tendsto (continuous_apply_apply i j) _).comp h).norm
  exact le_of_tendsto' this fun q => hA q i

/-- the error of the truncated series -/
theorem rows_truncation {n : ℕ} {r : ℝ} (hr : 0 ≤ r) {A : Matrix (Fin n) (Fin n) ℂ} (h : RowsLe r A) {p : ℕ} (hp : 1 ≤ p) :
    RowsLe (r ^ p / p.factorial * Real.exp r) (NormedSpace.exp A - expMatrix p A) := by
  refine rows_limit (A := fun q => expMatrix (p + q) A - expMatrix p A) ?_ (fun q => rows_truncation_finite hr h hp q)
  refine Filter.Tendsto.sub_const ?_ _
  exact (tendsto_expMatrix A).comp ((Filter.tendsto_add_atTop_nat p).congr fun q => add_comm q p)


/-- four factors -/
theorem rows_product {n : ℕ} {a d : ℝ} (ha : 0 ≤ a) (hd : 0 ≤ d) {A B C D A' B' C' D' : Matrix (Fin n) (Fin n) ℂ} (hA : RowsLe a A) (hB : RowsLe a B) (hC : RowsLe a C)
    (hB' : RowsLe a B') (hC' : RowsLe a C') (hD' : RowsLe a D') (eA : RowsLe d (A - A')) (eB : RowsLe d (B - B')) (eC : RowsLe d (C - C'))
    (eD : RowsLe d (D - D')) : RowsLe (4 * d * a ^ 3) (A * (B * (C * D)) - A' * (B' * (C' * D'))) := by
  have e : A * (B * (C * D)) - A' * (B' * (C' * D')) = A * (B * (C * (D - D'))) + A * (B * ((C - C') * D')) + A * ((B - B') * (C' * D')) + (A - A') * (B' * (C' * D')) := by
    noncomm_ring
  rw [e]
  have m := fun {r s : ℝ} {X Y : Matrix (Fin n) (Fin n) ℂ} (h : RowsLe r X) (h' : RowsLe s Y) (hs : 0 ≤ s) => h.mul h' hs
  have h1 := m hA (m hB (m hC eD hd) (by positivity)) (by positivity)
  have h2 := m hA (m hB (m eC hD' ha) (by positivity)) (by positivity)
  have h3 := m hA (m eB (m hC' hD' ha) (by positivity)) (by positivity)
  have h4 := m eA (m hB' (m hC' hD' ha) (by positivity)) (by positivity)
  exact (((h1.add h2).add h3).add h4).mono (le_of_eq (by ring))

theorem sum_pair_le {L : ℕ} (hL : 1 ≤ L) {x : ℝ} (hx : 0 ≤ x) (P : ℕ → ℕ → Prop) [DecidableRel P] (hP : ∀ a b a' b', P a b → P a' b' → a = a' ∧ b = b') :
    ∑ j : Fin (L ^ 2), (if P (nv L j) (mv L j) then x else 0) ≤ x := by
  by_cases h : ∃ j : Fin (L ^ 2), P (nv L j) (mv L j)
  · obtain ⟨j, hj⟩ := h
    rw [Finset.sum_eq_single j]
    · rw [if_pos hj]
    · intro k _ hk
      rw [if_neg]
      intro hk'
      obtain ⟨h1, h2⟩ := hP _ _ _ _ hj hk'
      apply hk
      apply Fin.ext
      apply limValues_inj hL k.2 j.2
      rw [(limValues_pair hL k).1, (limValues_pair hL j).1, h1, h2]
    · intro h; exact absurd (Finset.mem_univ j) h
  · rw [Finset.sum_eq_zero]
    · exact hx
    · intro j _; rw [if_neg (fun hj => h ⟨j, hj⟩)]

theorem sqrt_le_half (n m : ℕ) : Real.sqrt (n * (m + 1)) ≤ ((n : ℝ) + m + 1) / 2 := by
  apply Real.sqrt_le_iff.2
  refine ⟨by positivity, ?_⟩
  nlinarith [sq_nonneg ((n : ℝ) - (m + 1))]

theorem rows_quadLim {L : ℕ} (hL : 1 ≤ L) (X : Opt) {r : ℝ} (hr : ∀ n m : ℕ, n + m < L → ‖X 0 0 * n + X 1 1 * m‖ + ‖X 1 0‖ * (((n : ℝ) + m + 1) / 2) +
    ‖X 0 1‖ * (((n : ℝ) + m + 1) / 2) ≤ r) (hr0 : 0 ≤ r) : RowsLe r (quadLim L X) := by
  intro i
  unfold quadLim
  by_cases hi : nv L i + mv L i < L
  · simp only [if_pos hi]
    generalize nv L i = n at *
    generalize mv L i = m at *
    calc ∑ j, ‖quad X n m (nv L j) (mv L j)‖ ≤ ∑ j : Fin (L ^ 2), ((if nv L j = n ∧ mv L j = m then ‖X 0 0 * n + X 1 1 * m‖ else 0) +
          (if nv L j + 1 = n ∧ mv L j = m + 1 then ‖X 1 0‖ * (((n : ℝ) + m + 1) / 2) else 0) +
          (if nv L j = n + 1 ∧ mv L j + 1 = m then ‖X 0 1‖ * (((n : ℝ) + m + 1) / 2) else 0)) := by
          refine Finset.sum_le_sum fun j _ => ?_
          rw [quad_sum]
          refine (norm_add_le _ _).trans (add_le_add ((norm_add_le _ _).trans (add_le_add ?_ ?_)) ?_)
          · split <;> simp
          · rw [norm_mul]
            split
            · rw [Complex.norm_real, Real.norm_eq_abs, abs_of_nonneg (Real.sqrt_nonneg _)]
              exact mul_le_mul_of_nonneg_left (sqrt_le_half n m) (norm_nonneg _)
            · simp
          · rw [norm_mul]
            split
            · rw [Complex.norm_real, Real.norm_eq_abs, abs_of_nonneg (Real.sqrt_nonneg _), mul_comm ((n : ℝ) + 1)]
              refine mul_le_mul_of_nonneg_left ((sqrt_le_half m n).trans (le_of_eq ?_)) (norm_nonneg _)
              ring
            · simp
      _ ≤ ‖X 0 0 * n + X 1 1 * m‖ + ‖X 1 0‖ * (((n : ℝ) + m + 1) / 2) + ‖X 0 1‖ * (((n : ℝ) + m + 1) / 2) := by
          rw [Finset.sum_add_distrib, Finset.sum_add_distrib]
          refine add_le_add (add_le_add ?_ ?_) ?_
          · exact sum_pair_le hL (norm_nonneg _) (fun a b => a = n ∧ b = m) (by intros; omega)
          · exact sum_pair_le hL (by positivity) (fun a b => a + 1 = n ∧ b = m + 1) (by intros; omega)
          · exact sum_pair_le hL (by positivity) (fun a b => a = n + 1 ∧ b + 1 = m) (by intros; omega)
      _ ≤ r := hr n m hi
  · simp only [if_neg hi, norm_zero, Finset.sum_const_zero]
    exact hr0

end Verif
