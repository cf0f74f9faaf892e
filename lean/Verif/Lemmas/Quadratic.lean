/- Exponentials of quadratic Hamiltonians on two channels are linear optics. -/
import Verif.Lemmas.OneParam
import Verif.Lemmas.Gate
import Verif.Props.Operators2

namespace Verif
open Spec Polynomial

/-- coefficientwise derivative -/
def PolyDeriv (p : ℝ → ℂ[X]) (p' : ℂ[X]) (t : ℝ) : Prop := ∀ u, HasDerivAt (fun t => (p t).coeff u) (p'.coeff u) t

theorem PolyDeriv.mul {p q : ℝ → ℂ[X]} {p' q' : ℂ[X]} {t : ℝ} (hp : PolyDeriv p p' t) (hq : PolyDeriv q q' t) :
    PolyDeriv (fun t => p t * q t) (p' * q t + p t * q') t := by
  intro u
  simp only [coeff_mul, coeff_add]
  rw [← Finset.sum_add_distrib]
  exact HasDerivAt.fun_sum fun x _ => (hp x.1).fun_mul (hq x.2)

theorem PolyDeriv.pow {p : ℝ → ℂ[X]} {p' : ℂ[X]} {t : ℝ} (hp : PolyDeriv p p' t) (n : ℕ) :
    PolyDeriv (fun t => p t ^ n) (n * p t ^ (n - 1) * p') t := by
  induction n with
  | zero => intro u; simpa using hasDerivAt_const t _
  | succ n ih =>
    have h := ih.mul hp
    intro u
    have := h u
    simp only [← pow_succ] at this
    refine this.congr_deriv ?_
    congr 1
    cases n with
    | zero => simp
    | succ n => simp only [Nat.add_sub_cancel]; push_cast; ring

/-- entries of a quadratic Hamiltonian with coefficients `X` -/
noncomputable def quad (X : Opt) (n m u v : ℕ) : ℂ :=
  if u = n ∧ v = m then X 0 0 * n + X 1 1 * m
  else if u + 1 = n ∧ v = m + 1 then X 1 0 * (Real.sqrt (n * (m + 1)) : ℝ)
  else if u = n + 1 ∧ v + 1 = m then X 0 1 * (Real.sqrt ((n + 1) * m) : ℝ)
  else 0

theorem quad_same (X : Opt) (n m : ℕ) : quad X n m n m = X 0 0 * n + X 1 1 * m := by rw [quad, if_pos ⟨rfl, rfl⟩]

theorem quad_down (X : Opt) (n m : ℕ) : quad X (n + 1) m n (m + 1) = X 1 0 * (Real.sqrt (((n + 1 : ℕ) : ℝ) * (m + 1)) : ℝ) := by
  rw [quad, if_neg (by omega), if_pos ⟨rfl, rfl⟩]

theorem quad_up (X : Opt) (n m : ℕ) : quad X n (m + 1) (n + 1) m = X 0 1 * (Real.sqrt ((n + 1) * ((m + 1 : ℕ) : ℝ)) : ℝ) := by
  rw [quad, if_neg (by omega), if_neg (by omega), if_pos ⟨rfl, rfl⟩]

theorem quad_else (X : Opt) {n m u v : ℕ} (h1 : ¬ (u = n ∧ v = m)) (h2 : ¬ (u + 1 = n ∧ v = m + 1)) (h3 : ¬ (u = n + 1 ∧ v + 1 = m)) :
    quad X n m u v = 0 := by
  rw [quad, if_neg h1, if_neg h2, if_neg h3]

theorem sq_down (n m : ℕ) : ((n + 1 : ℕ) : ℂ) * sq n (m + 1) (n + 1) m = (Real.sqrt (((n + 1 : ℕ) : ℝ) * (m + 1)) : ℝ) := by
  unfold sq
  have e : ((n.factorial * (m + 1).factorial : ℕ) : ℝ) / (((n + 1).factorial * m.factorial : ℕ) : ℝ) = (m + 1) / (n + 1) := by
    rw [Nat.factorial_succ m, Nat.factorial_succ n]
    have := Nat.factorial_pos n
    have := Nat.factorial_pos m
    push_cast
    field_simp
  rw [e]
  have h1 : ((n + 1 : ℕ) : ℂ) = (Real.sqrt (((n + 1 : ℕ) : ℝ) ^ 2) : ℝ) := by
    rw [Real.sqrt_sq (by positivity)]; push_cast; rfl
  rw [h1, ← Complex.ofReal_mul, ← Real.sqrt_mul (by positivity)]
  congr 2
  push_cast
  field_simp

theorem sq_up (n m : ℕ) : ((m + 1 : ℕ) : ℂ) * sq (n + 1) m n (m + 1) = (Real.sqrt ((n + 1) * ((m + 1 : ℕ) : ℝ)) : ℝ) := by
  have := sq_down m n
  rw [mul_comm ((m + 1 : ℕ) : ℝ)] at this
  rw [← this]
  congr 1
  unfold sq
  rw [Nat.mul_comm (n + 1).factorial, Nat.mul_comm n.factorial]

theorem gateAmp_deriv {M : ℝ → Opt} {X : Opt} (h0 : M 0 = 1) (hd : ∀ a b, HasDerivAt (fun t => M t a b) (X a b) 0) (L n m u v : ℕ) :
    HasDerivAt (fun t => gateAmp L (M t) n m u v) (if n + m < L then quad X n m u v else 0) 0 := by
  by_cases hL : n + m < L
  · simp only [gateAmp, if_pos hL, bosonAmp]
    by_cases hs : n + m = u + v
    · simp only [if_pos hs]
      have lin : ∀ a b : Fin 2, PolyDeriv (fun t => C (M t a b) * Polynomial.X + C (M t 1 b)) (C (X a b) * Polynomial.X + C (X 1 b)) 0 := by
        intro a b w
        simp only [coeff_add, coeff_C_mul, coeff_C, coeff_X]
        refine HasDerivAt.fun_add ((hd a b).mul_const _) ?_
        by_cases hw : w = 0
        · simp only [if_pos hw]; exact hd 1 b
        · simp only [if_neg hw]; exact hasDerivAt_const _ _
      have h := (((lin 0 0).pow n).mul ((lin 0 1).pow m)) u
      have h2 := h.mul_const (sq u v n m)
      simp only [h0] at h2
      refine h2.congr_deriv ?_
      have e1 : (C ((1 : Opt) 0 0) * Polynomial.X + C ((1 : Opt) 1 0) : ℂ[X]) = Polynomial.X := by simp
      have e2 : (C ((1 : Opt) 0 1) * Polynomial.X + C ((1 : Opt) 1 1) : ℂ[X]) = 1 := by simp
      rw [e1, e2, one_pow, one_pow, mul_one, mul_one]
      have e3 : ((n : ℂ[X]) * Polynomial.X ^ (n - 1) * (C (X 0 0) * Polynomial.X + C (X 1 0)) +
          Polynomial.X ^ n * ((m : ℂ[X]) * (C (X 0 1) * Polynomial.X + C (X 1 1)))).coeff u =
          (n : ℂ) * X 0 0 * (if u = n - 1 + 1 then 1 else 0) + (n : ℂ) * X 1 0 * (if u = n - 1 then 1 else 0) +
          ((m : ℂ) * X 0 1 * (if u = n + 1 then 1 else 0) + (m : ℂ) * X 1 1 * (if u = n then 1 else 0)) := by
        have e : ((n : ℂ[X]) * Polynomial.X ^ (n - 1) * (C (X 0 0) * Polynomial.X + C (X 1 0)) +
          Polynomial.X ^ n * ((m : ℂ[X]) * (C (X 0 1) * Polynomial.X + C (X 1 1)))) =
          C ((n : ℂ) * X 0 0) * Polynomial.X ^ (n - 1 + 1) + C ((n : ℂ) * X 1 0) * Polynomial.X ^ (n - 1) +
          (C ((m : ℂ) * X 0 1) * Polynomial.X ^ (n + 1) + C ((m : ℂ) * X 1 1) * Polynomial.X ^ n) := by
          simp only [C_mul, map_natCast]; ring
        rw [e]
        simp only [coeff_add, coeff_C_mul, coeff_X_pow]
      rw [e3]
      by_cases hu : u = n
      · have hv : v = m := by omega
        subst hu hv
        rw [quad_same, sq_self]
        cases u with
        | zero => simp; ring
        | succ u => simp; ring
      · by_cases hu1 : u + 1 = n
        · have hv : v = m + 1 := by omega
          subst hu1 hv
          rw [quad_down, ← sq_down]
          have c1 : ¬ (u = u + 1 + 1) := by omega
          simp [c1]
          ring
        · by_cases hu2 : u = n + 1
          · have hv : v + 1 = m := by omega
            subst hu2 hv
            rw [quad_up, ← sq_up]
            by_cases hn : n = 0
            · subst hn; simp; ring
            · have c1 : ¬ (n + 1 = n - 1 + 1) := by omega
              have c2 : ¬ (n + 1 = n - 1) := by omega
              have c3 : ¬ (n = n - 1) := by omega
              simp [c2, c3]; ring
          · rw [quad_else _ (by omega) (by omega) (by omega)]
            by_cases hn : n = 0
            · subst hn; simp [hu, hu2]
            · have c1 : ¬ (u = n - 1 + 1) := by omega
              have c2 : ¬ (u = n - 1) := by omega
              simp [c1, c2, hu, hu2]
    · simp only [if_neg hs]
      have : quad X n m u v = 0 := by
        unfold quad
        rw [if_neg (by omega), if_neg (by omega), if_neg (by omega)]
      rw [this]
      exact hasDerivAt_const _ _
  · simp only [gateAmp, if_neg hL]
    exact hasDerivAt_const _ _

end Verif

namespace Verif
open Spec

/-! ### two channels -/

/-- photon numbers of a basis state of two channels -/
def nv (L : ℕ) (i : Fin (L ^ 2)) : ℕ := (limValues L 2 i).getD 0 0
/-- photon numbers of a basis state of two channels -/
def mv (L : ℕ) (i : Fin (L ^ 2)) : ℕ := (limValues L 2 i).getD 1 0

theorem limValues_pair {L : ℕ} (hL : 1 ≤ L) (i : Fin (L ^ 2)) : limValues L 2 i = [nv L i, mv L i] ∧ nv L i < L ∧ mv L i < L := by
  have h := limValues_valid hL i.2
  obtain ⟨h1, h2⟩ := h
  unfold nv mv
  match hv : limValues L 2 i with
  | [a, b] => rw [hv] at h2; exact ⟨rfl, h2 a (by simp), h2 b (by simp)⟩
  | [] => rw [hv] at h1; simp [limCfg] at h1
  | [a] => rw [hv] at h1; simp [limCfg] at h1
  | a :: b :: c :: l => rw [hv] at h1; simp [limCfg] at h1

/-- the two photon numbers as an equivalence -/
noncomputable def pairE {L : ℕ} (hL : 1 ≤ L) : Fin (L ^ 2) ≃ Fin L × Fin L :=
  Equiv.ofBijective (fun i => (⟨nv L i, (limValues_pair hL i).2.1⟩, ⟨mv L i, (limValues_pair hL i).2.2⟩)) (by
    rw [Fintype.bijective_iff_injective_and_card]
    constructor
    · intro i j h
      simp only [Prod.mk.injEq, Fin.mk.injEq] at h
      apply Fin.ext
      apply limValues_inj hL i.2 j.2
      rw [(limValues_pair hL i).1, (limValues_pair hL j).1, h.1, h.2]
    · simp [pow_two])

/-- the gate matrix in the limited basis -/
noncomputable def gateLim (L : ℕ) (M : Opt) : Matrix (Fin (L ^ 2)) (Fin (L ^ 2)) ℂ :=
  fun i j => gateAmp L M (nv L i) (mv L i) (nv L j) (mv L j)

theorem gateLim_eq {L : ℕ} (hL : 1 ≤ L) (M : Opt) : gateLim L M = (gateMat L M).submatrix (pairE hL) (pairE hL) := rfl

theorem gateLim_mul {L : ℕ} (hL : 1 ≤ L) (M M' : Opt) : gateLim L M * gateLim L M' = gateLim L (M' * M) := by
  rw [gateLim_eq hL, gateLim_eq hL, gateLim_eq hL, Matrix.submatrix_mul_equiv, gateMat_mul]

theorem gateLim_one {L : ℕ} (hL : 1 ≤ L) : gateLim L 1 = 1 := by
  rw [gateLim_eq hL, gateMat_one, Matrix.submatrix_one_equiv]

/-- a quadratic Hamiltonian in the limited basis, below the cutoff -/
noncomputable def quadLim (L : ℕ) (X : Opt) : Matrix (Fin (L ^ 2)) (Fin (L ^ 2)) ℂ :=
  fun i j => if nv L i + mv L i < L then quad X (nv L i) (mv L i) (nv L j) (mv L j) else 0

/-- the exponential of a quadratic Hamiltonian is the gate of the one-parameter group it generates -/
theorem exp_quadLim {L : ℕ} (hL : 1 ≤ L) {M : ℝ → Opt} {X : Opt} (h0 : M 0 = 1) (hadd : ∀ s t, M (s + t) = M s * M t)
    (hd : ∀ a b, HasDerivAt (fun t => M t a b) (X a b) 0) : NormedSpace.exp (quadLim L X) = gateLim L (M 1) := by
  refine (oneParam (fun t => gateLim L (M t)) (quadLim L X) ?_ ?_ ?_).symm
  · simp only [h0]; exact gateLim_one hL
  · intro s t
    show gateLim L (M (s + t)) = _
    rw [gateLim_mul hL, add_comm, hadd]
  · intro i j
    exact gateAmp_deriv h0 hd _ _ _ _ _

/-- equal rows below the cutoff -/
def SameBelow (L : ℕ) (A B : Matrix (Fin (L ^ 2)) (Fin (L ^ 2)) ℂ) : Prop := ∀ i j, nv L i + mv L i < L → A i j = B i j

/-- photon number conserved -/
def Stay (L : ℕ) (A : Matrix (Fin (L ^ 2)) (Fin (L ^ 2)) ℂ) : Prop := ∀ i j, A i j ≠ 0 → nv L i + mv L i = nv L j + mv L j

theorem SameBelow.mul {L : ℕ} {A A' B B' : Matrix (Fin (L ^ 2)) (Fin (L ^ 2)) ℂ} (hA : SameBelow L A A') (hB : SameBelow L B B')
    (hs : Stay L A') : SameBelow L (A * B) (A' * B') := by
  intro i j hi
  rw [Matrix.mul_apply, Matrix.mul_apply]
  refine Finset.sum_congr rfl fun k _ => ?_
  rw [hA i k hi]
  by_cases h : A' i k = 0
  · rw [h, zero_mul, zero_mul]
  · rw [hB k j (by rw [← hs i k h]; exact hi)]

theorem Stay.mul {L : ℕ} {A B : Matrix (Fin (L ^ 2)) (Fin (L ^ 2)) ℂ} (hA : Stay L A) (hB : Stay L B) : Stay L (A * B) := by
  intro i j h
  rw [Matrix.mul_apply] at h
  obtain ⟨k, -, hk⟩ := Finset.exists_ne_zero_of_sum_ne_zero h
  exact (hA i k (left_ne_zero_of_mul hk)).trans (hB k j (right_ne_zero_of_mul hk))

theorem Stay.one {L : ℕ} : Stay L 1 := by
  intro i j h
  rw [Matrix.one_apply] at h
  split at h
  · rename_i e; rw [e]
  · exact absurd rfl h

theorem Stay.pow {L : ℕ} {A : Matrix (Fin (L ^ 2)) (Fin (L ^ 2)) ℂ} (hA : Stay L A) (n : ℕ) : Stay L (A ^ n) := by
  induction n with
  | zero => rw [pow_zero]; exact Stay.one
  | succ n ih => rw [pow_succ]; exact ih.mul hA

theorem SameBelow.pow {L : ℕ} {A A' : Matrix (Fin (L ^ 2)) (Fin (L ^ 2)) ℂ} (hA : SameBelow L A A') (hs : Stay L A') (n : ℕ) :
    SameBelow L (A ^ n) (A' ^ n) := by
  induction n with
  | zero => rw [pow_zero, pow_zero]; exact fun i j _ => rfl
  | succ n ih => rw [pow_succ A, pow_succ A']; exact ih.mul hA (hs.pow n)

theorem SameBelow.expMatrix {L : ℕ} {A A' : Matrix (Fin (L ^ 2)) (Fin (L ^ 2)) ℂ} (hA : SameBelow L A A') (hs : Stay L A') (p : ℕ) :
    SameBelow L (expMatrix p A) (expMatrix p A') := by
  intro i j hi
  have e : ∀ B : Matrix (Fin (L ^ 2)) (Fin (L ^ 2)) ℂ, Verif.expMatrix 0 B = Verif.expMatrix 1 B := fun _ => rfl
  rcases Nat.eq_zero_or_pos p with rfl | hp
  · rw [e, e, Props.expMatrix_eq_sum _ le_rfl, Props.expMatrix_eq_sum _ le_rfl]; simp
  · rw [Props.expMatrix_eq_sum _ hp, Props.expMatrix_eq_sum _ hp, Matrix.sum_apply, Matrix.sum_apply]
    refine Finset.sum_congr rfl fun k _ => ?_
    rw [Matrix.smul_apply, Matrix.smul_apply, hA.pow hs k i j hi]

theorem Stay.expMatrix {L : ℕ} {A : Matrix (Fin (L ^ 2)) (Fin (L ^ 2)) ℂ} (hs : Stay L A) (p : ℕ) : Stay L (expMatrix p A) := by
  intro i j h
  have e : ∀ B : Matrix (Fin (L ^ 2)) (Fin (L ^ 2)) ℂ, Verif.expMatrix 0 B = Verif.expMatrix 1 B := fun _ => rfl
  have key : ∀ p, 1 ≤ p → Verif.expMatrix p A i j ≠ 0 → nv L i + mv L i = nv L j + mv L j := by
    intro p hp h
    rw [Props.expMatrix_eq_sum _ hp, Matrix.sum_apply] at h
    obtain ⟨k, -, hk⟩ := Finset.exists_ne_zero_of_sum_ne_zero h
    rw [Matrix.smul_apply, smul_eq_mul] at hk
    exact hs.pow k i j (right_ne_zero_of_mul hk)
  rcases Nat.eq_zero_or_pos p with rfl | hp
  · rw [e] at h; exact key 1 le_rfl h
  · exact key p hp h

theorem stay_quadLim (L : ℕ) (X : Opt) : Stay L (quadLim L X) := by
  intro i j h
  unfold quadLim at h
  split at h
  · by_contra hne
    exact h (quad_else X (by omega) (by omega) (by omega))
  · exact absurd rfl h

theorem tendsto_expMatrix {n : ℕ} (M : Matrix (Fin n) (Fin n) ℂ) :
    Filter.Tendsto (fun p => expMatrix p M) Filter.atTop (nhds (NormedSpace.exp M)) := by
  let _ : NormedRing (Matrix (Fin n) (Fin n) ℂ) := Matrix.linftyOpNormedRing
  let _ : NormedAlgebra ℂ (Matrix (Fin n) (Fin n) ℂ) := Matrix.linftyOpNormedAlgebra
  have h := (NormedSpace.exp_series_hasSum_exp' (𝕂 := ℂ) M).tendsto_sum_nat
  refine h.congr' ?_
  filter_upwards [Filter.eventually_ge_atTop 1] with p hp
  rw [Props.expMatrix_eq_sum M hp]
  simp

end Verif
