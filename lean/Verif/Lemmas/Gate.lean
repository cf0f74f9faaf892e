/- Algebra of the two-channel gate amplitudes as matrices. -/
import Verif.Lemmas.Fock2

namespace Verif
open Spec Polynomial

/-- the square-root factor -/
noncomputable def sq (u v n m : ℕ) : ℂ :=
  (Real.sqrt ((u.factorial * v.factorial : ℕ) / ((n.factorial * m.factorial : ℕ) : ℝ)) : ℂ)

theorem sq_mul (a b u v n m : ℕ) : sq u v n m * sq a b u v = sq a b n m := by
  unfold sq
  rw [← Complex.ofReal_mul, ← Real.sqrt_mul (by positivity)]
  congr 2
  have h1 : ((u.factorial * v.factorial : ℕ) : ℝ) ≠ 0 := by positivity
  have h2 : ((n.factorial * m.factorial : ℕ) : ℝ) ≠ 0 := by positivity
  field_simp

theorem sq_self (u v : ℕ) : sq u v u v = 1 := by
  unfold sq
  rw [div_self (by positivity)]; simp

theorem sq_ratio (u v n m : ℕ) : sq u v n m * (n.factorial * m.factorial : ℂ)
    = sq n m u v * (u.factorial * v.factorial : ℂ) := by
  unfold sq
  have h1 : (0:ℝ) < ((u.factorial * v.factorial : ℕ) : ℝ) := by positivity
  have h2 : (0:ℝ) < ((n.factorial * m.factorial : ℕ) : ℝ) := by positivity
  rw [Real.sqrt_div h1.le, Real.sqrt_div h2.le]
  have e1 : (n.factorial * m.factorial : ℂ) = (((n.factorial * m.factorial : ℕ) : ℝ) : ℂ) := by push_cast; rfl
  have e2 : (u.factorial * v.factorial : ℂ) = (((u.factorial * v.factorial : ℕ) : ℝ) : ℂ) := by push_cast; rfl
  rw [e1, e2]
  generalize ((u.factorial * v.factorial : ℕ) : ℝ) = a at *
  generalize hb : ((n.factorial * m.factorial : ℕ) : ℝ) = b at *
  have key : √a / √b * b = √b / √a * a := by
    have s1 := Real.mul_self_sqrt h1.le
    have s2 := Real.mul_self_sqrt h2.le
    have p1 := Real.sqrt_pos.2 h1
    have p2 := Real.sqrt_pos.2 h2
    rw [div_mul_eq_mul_div, div_mul_eq_mul_div, div_eq_div_iff p2.ne' p1.ne']
    nlinarith
  exact_mod_cast key

theorem sum_antidiag {L N : ℕ} (hN : N < L) (f : ℕ → ℕ → ℂ) (h : ∀ u v, u + v ≠ N → f u v = 0) :
    ∑ p : Fin L × Fin L, f p.1 p.2 = ∑ u ∈ Finset.range (N + 1), f u (N - u) := by
  rw [Fintype.sum_prod_type]
  rw [← Fin.sum_univ_eq_sum_range (fun u => f u (N - u)) (N + 1)]
  rw [Fin.sum_univ_eq_sum_range (fun u => f u (N - u)) (N + 1)]
  rw [Fin.sum_univ_eq_sum_range (fun u => ∑ v : Fin L, f u v) L]
  rw [← Finset.sum_subset (Finset.range_subset_range.2 (show N + 1 ≤ L by omega))]
  · refine Finset.sum_congr rfl fun u hu => ?_
    rw [Finset.mem_range] at hu
    rw [Fin.sum_univ_eq_sum_range (fun v => f u v) L, Finset.sum_eq_single (N - u)]
    · intro v _ hv; exact h _ _ (by omega)
    · intro hc; exact absurd (Finset.mem_range.2 (by omega)) hc
  · intro u _ hu
    rw [Finset.mem_range] at hu
    exact Finset.sum_eq_zero fun v _ => h _ _ (by omega)

/-- gate amplitudes as a matrix -/
noncomputable def gateMat (L : ℕ) (M : Opt) : Matrix (Fin L × Fin L) (Fin L × Fin L) ℂ :=
  fun p q => gateAmp L M p.1 p.2 q.1 q.2

theorem gateMat_mul (L : ℕ) (M M' : Opt) : gateMat L M * gateMat L M' = gateMat L (M' * M) := by
  ext ⟨n, m⟩ ⟨w, x⟩
  rw [Matrix.mul_apply]
  show ∑ p : Fin L × Fin L, gateAmp L M n m p.1 p.2 * gateAmp L M' p.1 p.2 w x = gateAmp L (M' * M) n m w x
  by_cases h : (n : ℕ) + m < L
  · rw [sum_antidiag h (fun u v => gateAmp L M n m u v * gateAmp L M' u v w x)]
    · rw [gateAmp, if_pos h]
      have e : ∀ u ∈ Finset.range ((n : ℕ) + m + 1), gateAmp L M n m u (n + m - u) * gateAmp L M' u (n + m - u) w x
          = if (n : ℕ) + m = w + x then (genPoly M n m).coeff u * (genPoly M' u (n + m - u)).coeff w * sq w x n m
            else 0 := by
        intro u hu
        rw [Finset.mem_range] at hu
        have h1 : (n : ℕ) + m = u + (n + m - u) := by omega
        rw [gateAmp, if_pos h, gateAmp, if_pos (by omega), bosonAmp, if_pos h1, bosonAmp]
        by_cases h2 : (n : ℕ) + m = w + x
        · rw [if_pos (by omega), if_pos h2]
          show _ * sq u (n + m - u) n m * (_ * sq w x u (n + m - u)) = _
          rw [← sq_mul w x u (n + m - u) n m]; ring
        · rw [if_neg (by omega), if_neg h2, mul_zero]
      rw [Finset.sum_congr rfl e, bosonAmp]
      by_cases h2 : (n : ℕ) + m = w + x
      · simp only [if_pos h2]
        rw [← Finset.sum_mul, coeff_comp]; rfl
      · simp only [if_neg h2, Finset.sum_const_zero]
    · intro u v huv
      have : gateAmp L M n m u v = 0 := by
        rw [gateAmp, if_pos h, bosonAmp, if_neg (fun e => huv e.symm)]
      rw [this, zero_mul]
  · rw [Finset.sum_eq_single (n, m)]
    · simp only [gateAmp, if_neg h, and_self, if_true, one_mul]
    · rintro ⟨u, v⟩ _ hne
      simp only [gateAmp, if_neg h]
      rw [if_neg, zero_mul]
      rintro ⟨h1, h2⟩
      exact hne (by ext <;> simp [h1, h2])
    · intro hc; exact absurd (Finset.mem_univ _) hc

theorem gateMat_one (L : ℕ) : gateMat L 1 = 1 := by
  ext ⟨n, m⟩ ⟨u, v⟩
  show gateAmp L 1 n m u v = _
  rw [gateAmp, Matrix.one_apply]
  have hd : ((n, m) = (u, v)) ↔ ((n : ℕ) = u ∧ (m : ℕ) = v) := by
    rw [Prod.mk.injEq, Fin.ext_iff, Fin.ext_iff]
  by_cases h : (n : ℕ) + m < L
  · rw [if_pos h, bosonAmp]
    by_cases h2 : (n : ℕ) = u ∧ (m : ℕ) = v
    · rw [if_pos (by omega), if_pos (hd.2 h2), coeff_one, if_pos h2.1.symm, one_mul]
      show sq u v n m = 1
      rw [h2.1, h2.2, sq_self]
    · rw [if_neg (fun e => h2 (hd.1 e))]
      split
      · rw [coeff_one, if_neg (by omega), zero_mul]
      · rfl
  · rw [if_neg h]; simp only [hd]

theorem genPoly_conj (M : Opt) (n m u : ℕ) :
    (genPoly (M.map (starRingEnd ℂ)) n m).coeff u = starRingEnd ℂ ((genPoly M n m).coeff u) := by
  rw [coeff_genPoly, coeff_genPoly, map_sum]
  refine Finset.sum_congr rfl fun j _ => ?_
  rw [map_sum]
  refine Finset.sum_congr rfl fun k _ => ?_
  split
  · simp [Matrix.map_apply]
  · simp

theorem gateMat_conjTranspose (L : ℕ) (M : Opt) : (gateMat L M).conjTranspose = gateMat L M.conjTranspose := by
  ext ⟨n, m⟩ ⟨u, v⟩
  rw [Matrix.conjTranspose_apply]
  show star (gateAmp L M u v n m) = gateAmp L M.conjTranspose n m u v
  unfold gateAmp
  by_cases hc : (n : ℕ) + m = u + v
  · by_cases h : (n : ℕ) + m < L
    · rw [if_pos (by omega), if_pos h, bosonAmp, bosonAmp, if_pos hc.symm, if_pos hc]
      show star (_ * sq n m u v) = _ * sq u v n m
      have e1 : M.conjTranspose = (M.map (starRingEnd ℂ)).transpose := rfl
      have key := coeff_transpose (M.map (starRingEnd ℂ)) n m u v hc
      rw [genPoly_conj] at key
      rw [e1, star_mul']
      have hs : star (sq n m u v) = sq n m u v := by
        unfold sq; exact Complex.conj_ofReal _
      rw [hs]
      have hr := sq_ratio u v n m
      have hnz : (n.val.factorial * m.val.factorial : ℂ) ≠ 0 := by
        exact_mod_cast (show n.val.factorial * m.val.factorial ≠ 0 by positivity)
      apply mul_left_cancel₀ hnz
      have e2 : starRingEnd ℂ ((genPoly M u v).coeff n) = star ((genPoly M u v).coeff n) := rfl
      rw [e2] at key
      linear_combination (-sq n m u v) * key - ((genPoly (M.map (starRingEnd ℂ)).transpose n m).coeff u) * hr
    · rw [if_neg (by omega), if_neg h]
      by_cases e : (n : ℕ) = u ∧ (m : ℕ) = v
      · rw [if_pos e, if_pos ⟨e.1.symm, e.2.symm⟩]; simp
      · rw [if_neg e, if_neg (fun h => e ⟨h.1.symm, h.2.symm⟩)]; simp
  · have z1 : bosonAmp M u v n m = 0 := by rw [bosonAmp, if_neg (fun e => hc e.symm)]
    have z2 : bosonAmp M.conjTranspose n m u v = 0 := by rw [bosonAmp, if_neg hc]
    have n1 : ¬ ((u : ℕ) = n ∧ (v : ℕ) = m) := by omega
    have n2 : ¬ ((n : ℕ) = u ∧ (m : ℕ) = v) := by omega
    simp [z1, z2, n1, n2]

end Verif
