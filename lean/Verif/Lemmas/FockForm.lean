/-
The inner product of states created by polynomials, for modes with a given matrix of overlaps, by annihilation operators (derivations). Lemmas for C104.
-/
import Mathlib.Algebra.MvPolynomial.Derivation
import Mathlib.Algebra.MvPolynomial.Rename
import Mathlib.Algebra.MvPolynomial.PDeriv
import Mathlib.Analysis.InnerProductSpace.Positive
import Mathlib.Analysis.SpecialFunctions.Exponential
import Mathlib.LinearAlgebra.Matrix.Permanent
import Mathlib.GroupTheory.Perm.Fin
import Mathlib.RingTheory.Derivation.Lie
import Mathlib.Algebra.Algebra.Subalgebra.Lattice
import Mathlib.Analysis.Complex.Basic

namespace Verif.Fockform
open MvPolynomial

variable {σ τ : Type}

/-- The annihilation operator of the mode `m` for overlaps `K`. -/
noncomputable def lower (K : σ → σ → ℂ) (m : σ) : Derivation ℂ (MvPolynomial σ ℂ) (MvPolynomial σ ℂ) := mkDerivation ℂ (fun m' => C (K m m'))

theorem lower_X (K : σ → σ → ℂ) (m m' : σ) : lower K m (X m') = C (K m m') := mkDerivation_X _ _ _

theorem lower_comm (K : σ → σ → ℂ) (m m' : σ) (Q : MvPolynomial σ ℂ) : lower K m (lower K m' Q) = lower K m' (lower K m Q) := by
  have h : ⁅lower K m, lower K m'⁆ = 0 := by
    refine derivation_ext (fun i => ?_)
    rw [Derivation.commutator_apply, lower_X, lower_X, derivation_C, derivation_C, sub_zero]
    rfl
  have := congrArg (fun D : Derivation ℂ (MvPolynomial σ ℂ) (MvPolynomial σ ℂ) => D Q) h
  simp only [Derivation.commutator_apply, Derivation.coe_zero, Pi.zero_apply] at this
  exact sub_eq_zero.1 this

/-- The annihilation operators as linear maps. -/
noncomputable def lowerEnd (K : σ → σ → ℂ) (m : σ) : Module.End ℂ (MvPolynomial σ ℂ) := (lower K m : MvPolynomial σ ℂ →ₗ[ℂ] MvPolynomial σ ℂ)

theorem lowerEnd_comm (K : σ → σ → ℂ) : ∀ a ∈ Set.range (lowerEnd K), ∀ b ∈ Set.range (lowerEnd K), a * b = b * a := by
  rintro _ ⟨m, rfl⟩ _ ⟨m', rfl⟩
  refine LinearMap.ext (fun Q => ?_)
  exact lower_comm K m m' Q

/-- A polynomial in the annihilation operators. -/
noncomputable def op (K : σ → σ → ℂ) : MvPolynomial σ ℂ →ₐ[ℂ] Module.End ℂ (MvPolynomial σ ℂ) :=
  letI := Algebra.adjoinCommSemiringOfComm ℂ (lowerEnd_comm K)
  (Algebra.adjoin ℂ (Set.range (lowerEnd K))).val.comp (aeval (fun m => (⟨lowerEnd K m, Algebra.subset_adjoin ⟨m, rfl⟩⟩ : Algebra.adjoin ℂ (Set.range (lowerEnd K)))))

theorem op_X (K : σ → σ → ℂ) (m : σ) (Q : MvPolynomial σ ℂ) : op K (X m) Q = lower K m Q := by
  letI := Algebra.adjoinCommSemiringOfComm ℂ (lowerEnd_comm K)
  unfold op
  rw [AlgHom.comp_apply, aeval_X]
  rfl

theorem op_C (K : σ → σ → ℂ) (c : ℂ) (Q : MvPolynomial σ ℂ) : op K (C c) Q = C c * Q := by
  have : op K (C c) = algebraMap ℂ _ c := (op K).commutes c
  rw [this, Module.algebraMap_end_apply, C_mul']

theorem op_mul (K : σ → σ → ℂ) (P R Q : MvPolynomial σ ℂ) : op K (P * R) Q = op K P (op K R Q) := by
  rw [map_mul]; rfl

theorem op_add (K : σ → σ → ℂ) (P R Q : MvPolynomial σ ℂ) : op K (P + R) Q = op K P Q + op K R Q := by
  rw [map_add]; rfl

/-- The bilinear form: the constant term of the polynomial `P` in the annihilation operators applied to `Q`. -/
noncomputable def form (K : σ → σ → ℂ) (P Q : MvPolynomial σ ℂ) : ℂ := constantCoeff (op K P Q)

theorem form_add_left (K : σ → σ → ℂ) (P R Q : MvPolynomial σ ℂ) : form K (P + R) Q = form K P Q + form K R Q := by
  unfold form
  rw [op_add, map_add]

theorem form_add_right (K : σ → σ → ℂ) (P Q R : MvPolynomial σ ℂ) : form K P (Q + R) = form K P Q + form K P R := by
  unfold form
  rw [map_add, map_add]

theorem form_C_left (K : σ → σ → ℂ) (c : ℂ) (P Q : MvPolynomial σ ℂ) : form K (C c * P) Q = c * form K P Q := by
  unfold form
  rw [op_mul, op_C, map_mul, constantCoeff_C]

theorem form_C_right (K : σ → σ → ℂ) (c : ℂ) (P Q : MvPolynomial σ ℂ) : form K P (C c * Q) = c * form K P Q := by
  unfold form
  rw [C_mul', map_smul, ← C_mul', map_mul, constantCoeff_C]

theorem form_zero_left (K : σ → σ → ℂ) (Q : MvPolynomial σ ℂ) : form K 0 Q = 0 := by
  unfold form
  rw [map_zero, LinearMap.zero_apply, map_zero]

theorem form_zero_right (K : σ → σ → ℂ) (P : MvPolynomial σ ℂ) : form K P 0 = 0 := by
  unfold form
  rw [map_zero, map_zero]

theorem form_sum_left {ι : Type*} (K : σ → σ → ℂ) (s : Finset ι) (P : ι → MvPolynomial σ ℂ) (Q : MvPolynomial σ ℂ) : form K (∑ i ∈ s, P i) Q = ∑ i ∈ s, form K (P i) Q := by
  classical
  induction s using Finset.induction_on with
  | empty => simp [form_zero_left]
  | insert a s ha ih => rw [Finset.sum_insert ha, Finset.sum_insert ha, form_add_left, ih]

theorem form_sum_right {ι : Type*} (K : σ → σ → ℂ) (s : Finset ι) (P : MvPolynomial σ ℂ) (Q : ι → MvPolynomial σ ℂ) : form K P (∑ i ∈ s, Q i) = ∑ i ∈ s, form K P (Q i) := by
  classical
  induction s using Finset.induction_on with
  | empty => simp [form_zero_right]
  | insert a s ha ih => rw [Finset.sum_insert ha, Finset.sum_insert ha, form_add_right, ih]

/-! ### Substitutions -/

/-- A substitution of the modes that keeps all overlaps keeps the form. -/
theorem form_subst {K : σ → σ → ℂ} {K' : τ → τ → ℂ} (φ ψ : MvPolynomial σ ℂ →ₐ[ℂ] MvPolynomial τ ℂ) (hc : ∀ m, constantCoeff (ψ (X m)) = 0)
    (h : ∀ m, ∃ D : Derivation ℂ (MvPolynomial τ ℂ) (MvPolynomial τ ℂ), (∀ Q, op K' (φ (X m)) Q = D Q) ∧ ∀ m', D (ψ (X m')) = C (K m m')) (P Q : MvPolynomial σ ℂ) :
    form K' (φ P) (ψ Q) = form K P Q := by
  have h1 : ∀ m Q, op K' (φ (X m)) (ψ Q) = ψ (lower K m Q) := by
    intro m Q
    obtain ⟨D, hD, hX⟩ := h m
    rw [hD]
    induction Q using MvPolynomial.induction_on with
    | C a => rw [derivation_C, map_zero, ← algebraMap_eq, AlgHom.commutes, algebraMap_eq, derivation_C]
    | add p q hp hq => rw [map_add, map_add, hp, hq, map_add, map_add]
    | mul_X p i hp =>
      rw [map_mul, Derivation.leibniz, hp, hX, Derivation.leibniz, lower_X, map_add, smul_eq_mul, smul_eq_mul, smul_eq_mul, smul_eq_mul, map_mul, map_mul]
      rw [← algebraMap_eq (R := ℂ) (σ := τ), ← algebraMap_eq (R := ℂ) (σ := σ), AlgHom.commutes]
  have h2 : ∀ Q, op K' (φ P) (ψ Q) = ψ (op K P Q) := by
    induction P using MvPolynomial.induction_on with
    | C a => intro Q; rw [op_C, map_mul, ← algebraMap_eq (R := ℂ) (σ := σ), AlgHom.commutes, algebraMap_eq, op_C, ← algebraMap_eq, AlgHom.commutes, algebraMap_eq]
    | add p q hp hq => intro Q; rw [map_add, op_add, hp, hq, op_add, map_add]
    | mul_X p i hp => intro Q; rw [map_mul, op_mul, h1, hp, op_mul, op_X]
  have h3 : ∀ Q, constantCoeff (ψ Q) = constantCoeff Q := by
    intro Q
    induction Q using MvPolynomial.induction_on with
    | C a => rw [← algebraMap_eq, AlgHom.commutes, algebraMap_eq, constantCoeff_C, algebraMap_eq, constantCoeff_C]
    | add p q hp hq => rw [map_add, map_add, map_add, hp, hq]
    | mul_X p i _ => rw [map_mul, map_mul, hc, mul_zero, map_mul, constantCoeff_X, mul_zero]
  unfold form
  rw [h2, h3]

/-- Renaming modes. -/
theorem form_rename {K : σ → σ → ℂ} {K' : τ → τ → ℂ} (f : σ → τ) (h : ∀ m m', K' (f m) (f m') = K m m') (P Q : MvPolynomial σ ℂ) : form K' (rename f P) (rename f Q) = form K P Q := by
  refine form_subst (rename f) (rename f) (fun m => by rw [rename_X, constantCoeff_X]) (fun m => ⟨lower K' (f m), fun Q => by rw [rename_X, op_X], fun m' => by rw [rename_X, lower_X, h]⟩) P Q

/-! ### Monomials: the permanent -/

theorem permanent_expand {n : ℕ} {R : Type*} [CommSemiring R] (M : Matrix (Fin (n + 1)) (Fin (n + 1)) R) :
    M.permanent = ∑ p : Fin (n + 1), M p 0 * (M.submatrix p.succAbove Fin.succ).permanent := by
  unfold Matrix.permanent
  rw [← Equiv.sum_comp Equiv.Perm.decomposeFin.symm, Fintype.sum_prod_type]
  refine Finset.sum_congr rfl (fun p _ => ?_)
  rw [Finset.mul_sum]
  have key : ∀ e : Equiv.Perm (Fin n), ∏ i, M (Equiv.Perm.decomposeFin.symm (p, e) i) i = M p 0 * ∏ i : Fin n, M (Equiv.swap 0 p (e i).succ) i.succ := by
    intro e
    rw [Fin.prod_univ_succ, Equiv.Perm.decomposeFin_symm_apply_zero]
    congr 1
    exact Finset.prod_congr rfl (fun i _ => by rw [Equiv.Perm.decomposeFin_symm_apply_succ])
  rw [Finset.sum_congr rfl (fun e _ => key e)]
  refine Fin.cases ?_ (fun q => ?_) p
  · simp
  · refine Fintype.sum_equiv (Equiv.mulLeft (Fin.cycleRange q)) _ _ (fun e => ?_)
    congr 1
    refine Finset.prod_congr rfl (fun i _ => ?_)
    rw [Matrix.submatrix_apply, Equiv.coe_mulLeft, Equiv.Perm.mul_apply, Fin.succAbove_cycleRange]

theorem derivation_prod {ι : Type*} [DecidableEq ι] (D : Derivation ℂ (MvPolynomial σ ℂ) (MvPolynomial σ ℂ)) (s : Finset ι) (f : ι → MvPolynomial σ ℂ) :
    D (∏ i ∈ s, f i) = ∑ i ∈ s, D (f i) * ∏ j ∈ s.erase i, f j := by
  induction s using Finset.induction_on with
  | empty => simp
  | insert a s ha ih =>
    rw [Finset.prod_insert ha, Derivation.leibniz, ih, Finset.sum_insert ha, Finset.erase_insert ha, smul_eq_mul, smul_eq_mul, Finset.mul_sum, add_comm, mul_comm (∏ i ∈ s, f i)]
    congr 1
    refine Finset.sum_congr rfl (fun i hi => ?_)
    have hia : a ≠ i := fun h => ha (h ▸ hi)
    rw [Finset.erase_insert_of_ne hia, Finset.prod_insert (fun h => ha (Finset.mem_of_mem_erase h))]
    ring

theorem lower_prod {n : ℕ} (K : σ → σ → ℂ) (m : σ) (k : Fin (n + 1) → σ) :
    lower K m (∏ i, X (k i)) = ∑ p : Fin (n + 1), C (K m (k p)) * ∏ i : Fin n, X (k (p.succAbove i)) := by
  rw [derivation_prod]
  refine Finset.sum_congr rfl (fun p _ => ?_)
  rw [lower_X]
  congr 1
  have : (Finset.univ : Finset (Fin (n + 1))).erase p = Finset.univ.map (Fin.succAboveEmb p) := by
    rw [Fin.univ_succAbove n p, Finset.erase_cons]
  rw [this, Finset.prod_map]
  rfl

/-- The form of two products of modes is the permanent of the matrix of overlaps. -/
theorem form_prod {n : ℕ} (K : σ → σ → ℂ) (l k : Fin n → σ) : form K (∏ i, X (l i)) (∏ i, X (k i)) = Matrix.permanent (Matrix.of (fun i j => K (l j) (k i))) := by
  induction n with
  | zero =>
    unfold form
    rw [Matrix.permanent_isEmpty]
    simp
  | succ n ih =>
    rw [permanent_expand, Fin.prod_univ_succ (fun i => X (l i)), mul_comm]
    have : form K ((∏ i : Fin n, X (l i.succ)) * X (l 0)) (∏ i, X (k i)) = form K (∏ i : Fin n, X (l i.succ)) (lower K (l 0) (∏ i, X (k i))) := by
      unfold form
      rw [op_mul, op_X]
    rw [this, lower_prod, form_sum_right]
    refine Finset.sum_congr rfl (fun p _ => ?_)
    rw [form_C_right, ih]
    rfl

/-- Different numbers of modes. -/
theorem form_prod_ne {n n' : ℕ} (hn : n ≠ n') (K : σ → σ → ℂ) (l : Fin n → σ) (k : Fin n' → σ) : form K (∏ i, X (l i)) (∏ i, X (k i)) = 0 := by
  induction n generalizing n' with
  | zero =>
    rcases n' with _ | n'
    · exact absurd rfl hn
    · unfold form
      rw [Fin.prod_univ_zero, map_one, Module.End.one_apply, Fin.prod_univ_succ, map_mul, constantCoeff_X, zero_mul]
  | succ n ih =>
    have : form K (∏ i, X (l i)) (∏ i, X (k i)) = form K (∏ i : Fin n, X (l i.succ)) (lower K (l 0) (∏ i, X (k i))) := by
      unfold form
      rw [Fin.prod_univ_succ (fun i => X (l i)), mul_comm, op_mul, op_X]
    rw [this]
    rcases n' with _ | n'
    · rw [Fin.prod_univ_zero, Derivation.map_one_eq_zero, form_zero_right]
    · rw [lower_prod, form_sum_right]
      refine Finset.sum_eq_zero (fun p _ => ?_)
      rw [form_C_right, ih (by omega), mul_zero]

/-! ### Orthonormal modes -/

open Classical in
theorem form_orthonormal (a : σ →₀ ℕ) : ∃ r : ℝ, 0 ≤ r ∧ ∀ Q : MvPolynomial σ ℂ, form (fun m m' => if m = m' then 1 else 0) (monomial a 1) Q = (r : ℂ) * Q.coeff a := by
  have hlow : ∀ (m : σ) (Q : MvPolynomial σ ℂ), lower (fun m m' => if m = m' then (1 : ℂ) else 0) m Q = pderiv m Q := by
    intro m Q
    have : lower (fun m m' => if m = m' then (1 : ℂ) else 0) m = pderiv m := by
      refine derivation_ext (fun i => ?_)
      rw [lower_X, pderiv_X]
      by_cases h : m = i
      · subst h; simp
      · rw [if_neg h, Pi.single_eq_of_ne (Ne.symm h)]; simp
    rw [this]
  have key : ∀ s : Multiset σ, ∃ r : ℝ, 0 ≤ r ∧ ∀ Q : MvPolynomial σ ℂ, form (fun m m' => if m = m' then 1 else 0) (monomial (Multiset.toFinsupp s) 1) Q = (r : ℂ) * Q.coeff (Multiset.toFinsupp s) := by
    intro s
    induction s using Multiset.induction_on with
    | empty =>
      refine ⟨1, by norm_num, fun Q => ?_⟩
      rw [map_zero]
      unfold form
      rw [show (monomial (0 : σ →₀ ℕ) (1 : ℂ)) = 1 from rfl, map_one, Module.End.one_apply, constantCoeff_eq]
      simp
    | cons m s ih =>
      obtain ⟨r, hr, h⟩ := ih
      refine ⟨r * (Multiset.toFinsupp s m + 1), by positivity, fun Q => ?_⟩
      have e : Multiset.toFinsupp (m ::ₘ s) = Multiset.toFinsupp s + Finsupp.single m 1 := by
        rw [← Multiset.singleton_add, map_add, Multiset.toFinsupp_singleton, add_comm]
      have e2 : (monomial (Multiset.toFinsupp s + Finsupp.single m 1) (1 : ℂ)) = monomial (Multiset.toFinsupp s) 1 * X m := by
        rw [X, monomial_mul, mul_one]
      rw [e, e2]
      have := h (pderiv m Q)
      rw [coeff_pderiv] at this
      unfold form at this ⊢
      rw [op_mul, op_X, hlow, this]
      push_cast
      ring
  have := key (Finsupp.toMultiset a)
  rwa [Finsupp.toMultiset_toFinsupp] at this

/-- The polynomial with conjugate coefficients. -/
noncomputable def conj (P : MvPolynomial σ ℂ) : MvPolynomial σ ℂ := map (starRingEnd ℂ) P

theorem conj_add (P Q : MvPolynomial σ ℂ) : conj (P + Q) = conj P + conj Q := map_add _ _ _
theorem conj_mul (P Q : MvPolynomial σ ℂ) : conj (P * Q) = conj P * conj Q := map_mul _ _ _
theorem conj_C (c : ℂ) : conj (C c : MvPolynomial σ ℂ) = C (starRingEnd ℂ c) := map_C _ _
theorem conj_X (m : σ) : conj (X m : MvPolynomial σ ℂ) = X m := map_X _ _
theorem conj_monomial (a : σ →₀ ℕ) (c : ℂ) : conj (monomial a c) = monomial a (starRingEnd ℂ c) := map_monomial _ _ _
theorem conj_sum {ι : Type*} (s : Finset ι) (P : ι → MvPolynomial σ ℂ) : conj (∑ i ∈ s, P i) = ∑ i ∈ s, conj (P i) := map_sum _ _ _

/-- The squared norm. -/
noncomputable def sq (K : σ → σ → ℂ) (P : MvPolynomial σ ℂ) : ℂ := form K (conj P) P

theorem form_monomial (K : σ → σ → ℂ) (a : σ →₀ ℕ) (c : ℂ) (Q : MvPolynomial σ ℂ) : form K (monomial a c) Q = c * form K (monomial a 1) Q := by
  rw [← form_C_left, C_mul_monomial, mul_one]

open Classical in
theorem sq_orthonormal (P : MvPolynomial σ ℂ) : ∃ r : ℝ, 0 ≤ r ∧ sq (fun m m' => if m = m' then 1 else 0) P = r := by
  have key : ∀ Q : MvPolynomial σ ℂ, form (fun m m' => if m = m' then 1 else 0) (conj P) Q = ∑ a ∈ P.support, starRingEnd ℂ (P.coeff a) * form (fun m m' => if m = m' then 1 else 0) (monomial a 1) Q := by
    intro Q
    conv_lhs => rw [P.as_sum, conj_sum, form_sum_left]
    exact Finset.sum_congr rfl (fun a _ => by rw [conj_monomial, form_monomial])
  choose r hr h using form_orthonormal (σ := σ)
  refine ⟨∑ a ∈ P.support, r a * ‖P.coeff a‖ ^ 2, Finset.sum_nonneg (fun a _ => mul_nonneg (hr a) (sq_nonneg _)), ?_⟩
  unfold sq
  rw [key]
  push_cast
  refine Finset.sum_congr rfl (fun a _ => ?_)
  rw [h, ← Complex.conj_mul']
  ring

/-! ### Positive matrices of overlaps -/

theorem sum_lower {ι : Type} [Fintype ι] (K : τ → τ → ℂ) (u : ι → ℂ) (f : ι → τ) :
    ∃ D : Derivation ℂ (MvPolynomial τ ℂ) (MvPolynomial τ ℂ), (∀ Q, op K (∑ i, C (u i) * X (f i)) Q = D Q) ∧ ∀ t, D (X t) = C (∑ i, u i * K (f i) t) := by
  refine ⟨mkDerivation ℂ (fun t => C (∑ i, u i * K (f i) t)), fun Q => ?_, fun t => mkDerivation_X _ _ _⟩
  have e : ∀ Q, op K (∑ i, C (u i) * X (f i)) Q = ∑ i, C (u i) * lower K (f i) Q := by
    intro Q
    rw [map_sum, LinearMap.sum_apply]
    exact Finset.sum_congr rfl (fun i _ => by rw [op_mul, op_C, op_X])
  rw [e]
  induction Q using MvPolynomial.induction_on with
  | C a => rw [derivation_C]; exact Finset.sum_eq_zero (fun i _ => by rw [derivation_C, mul_zero])
  | add p q hp hq =>
    rw [map_add, ← hp, ← hq, ← Finset.sum_add_distrib]
    exact Finset.sum_congr rfl (fun i _ => by rw [map_add, mul_add])
  | mul_X p t hp =>
    rw [Derivation.leibniz, ← hp, mkDerivation_X, map_sum, smul_eq_mul, smul_eq_mul, Finset.mul_sum, Finset.mul_sum, ← Finset.sum_add_distrib]
    refine Finset.sum_congr rfl (fun i _ => ?_)
    rw [Derivation.leibniz, lower_X, smul_eq_mul, smul_eq_mul, C_mul]
    ring

/-- Replacing every mode by a sum of modes keeps the form if it keeps the overlaps. -/
theorem form_linear {ι : Type} [Fintype ι] {K : σ → σ → ℂ} {K' : τ → τ → ℂ} (φ ψ : MvPolynomial σ ℂ →ₐ[ℂ] MvPolynomial τ ℂ) (u v : σ → ι → ℂ) (f : σ → ι → τ)
    (hφ : ∀ m, φ (X m) = ∑ i, C (u m i) * X (f m i)) (hψ : ∀ m, ψ (X m) = ∑ i, C (v m i) * X (f m i))
    (hK : ∀ m m', ∑ j, v m' j * ∑ i, u m i * K' (f m i) (f m' j) = K m m') (P Q : MvPolynomial σ ℂ) : form K' (φ P) (ψ Q) = form K P Q := by
  refine form_subst φ ψ (fun m => ?_) (fun m => ?_) P Q
  · rw [hψ, map_sum]
    exact Finset.sum_eq_zero (fun i _ => by rw [map_mul, constantCoeff_X, mul_zero])
  · obtain ⟨D, h1, h2⟩ := sum_lower K' (u m) (f m)
    refine ⟨D, fun Q => by rw [hφ, h1], fun m' => ?_⟩
    rw [hψ, map_sum, ← hK, map_sum]
    refine Finset.sum_congr rfl (fun j _ => ?_)
    rw [C_mul', Derivation.map_smul, h2, ← C_mul', ← C_mul]

theorem conj_subst {ι : Type} [Fintype ι] (φ ψ : MvPolynomial σ ℂ →ₐ[ℂ] MvPolynomial τ ℂ) (u : σ → ι → ℂ) (f : σ → ι → τ)
    (hφ : ∀ m, φ (X m) = ∑ i, C (starRingEnd ℂ (u m i)) * X (f m i)) (hψ : ∀ m, ψ (X m) = ∑ i, C (u m i) * X (f m i)) (Q : MvPolynomial σ ℂ) : φ (conj Q) = conj (ψ Q) := by
  induction Q using MvPolynomial.induction_on with
  | C a => rw [conj_C, ← algebraMap_eq (R := ℂ) (σ := σ), AlgHom.commutes, AlgHom.commutes, algebraMap_eq, conj_C]
  | add p q hp hq => rw [conj_add, map_add, hp, hq, map_add, conj_add]
  | mul_X p i hp =>
    rw [conj_mul, map_mul, hp, conj_X, map_mul, conj_mul, hφ, hψ, conj_sum]
    congr 1
    exact Finset.sum_congr rfl (fun j _ => by rw [conj_mul, conj_C, conj_X])

/-- Replacing every mode by a sum of modes keeps the squared norm if it keeps the overlaps. -/
theorem sq_linear {ι : Type} [Fintype ι] {K : σ → σ → ℂ} {K' : τ → τ → ℂ} (ψ : MvPolynomial σ ℂ →ₐ[ℂ] MvPolynomial τ ℂ) (u : σ → ι → ℂ) (f : σ → ι → τ)
    (hψ : ∀ m, ψ (X m) = ∑ i, C (u m i) * X (f m i))
    (hK : ∀ m m', ∑ j, u m' j * ∑ i, starRingEnd ℂ (u m i) * K' (f m i) (f m' j) = K m m') (P : MvPolynomial σ ℂ) : sq K' (ψ P) = sq K P := by
  have hφ : ∀ m, (aeval (fun m => ∑ i, C (starRingEnd ℂ (u m i)) * X (f m i)) : MvPolynomial σ ℂ →ₐ[ℂ] MvPolynomial τ ℂ) (X m) = ∑ i, C (starRingEnd ℂ (u m i)) * X (f m i) := fun m => aeval_X _ _
  unfold sq
  rw [← conj_subst _ ψ u f hφ hψ]
  exact form_linear _ ψ _ u f hφ hψ hK _ _

theorem sq_orthonormal' [DecidableEq σ] (P : MvPolynomial σ ℂ) : ∃ r : ℝ, 0 ≤ r ∧ sq (fun m m' => if m = m' then 1 else 0) P = r := by
  obtain ⟨r, h1, h2⟩ := sq_orthonormal P
  refine ⟨r, h1, ?_⟩
  rw [← h2]
  congr 1
  funext m m'
  by_cases h : m = m'
  · rw [if_pos h, if_pos h]
  · rw [if_neg h, if_neg h]

/-- If the overlaps are inner products, the squared norm is not negative. -/
theorem sq_features {n : ℕ} (K : σ → σ → ℂ) (v : Fin n → σ → ℂ) (hK : ∀ m m', K m m' = ∑ i, v i m * starRingEnd ℂ (v i m')) (P : MvPolynomial σ ℂ) : ∃ r : ℝ, 0 ≤ r ∧ sq K P = r := by
  have hψ : ∀ m, (aeval (fun m => ∑ i, C (starRingEnd ℂ (v i m)) * X i) : MvPolynomial σ ℂ →ₐ[ℂ] MvPolynomial (Fin n) ℂ) (X m) = ∑ i, C (starRingEnd ℂ (v i m)) * X i := fun m => aeval_X _ _
  have hK' : ∀ m m', ∑ j, starRingEnd ℂ (v j m') * ∑ i, starRingEnd ℂ (starRingEnd ℂ (v i m)) * (fun m m' : Fin n => if m = m' then (1 : ℂ) else 0) i j = K m m' := by
    intro m m'
    rw [hK]
    refine Finset.sum_congr rfl (fun j _ => ?_)
    rw [Finset.sum_eq_single j (fun i _ hi => by simp only [if_neg hi, mul_zero]) (by simp)]
    simp only [if_true, Complex.conj_conj]
    ring
  have h := sq_linear (K := K) (K' := fun m m' : Fin n => if m = m' then (1 : ℂ) else 0) _ (fun m i => starRingEnd ℂ (v i m)) (fun _ i => i) hψ hK' P
  rw [← h]
  exact sq_orthonormal' _

end Verif.Fockform
