/- The two-channel Fock matrix. -/
import Verif.Spec.Fock
import Mathlib.Algebra.Polynomial.Roots
import Mathlib.Data.Nat.Choose.Sum
import Mathlib.Algebra.CharZero.Infinite
import Mathlib.Tactic.FieldSimp
import Mathlib.Tactic.Positivity
import Mathlib.Tactic.Linarith

namespace Verif
open Spec Polynomial

theorem sum_loopPairs (n m : ℕ) (f : ℕ × ℕ → ℂ) :
    ((loopPairs n m).map f).sum = ∑ j ∈ Finset.range (n + 1), ∑ k ∈ Finset.range (m + 1), f (j, k) := by
  have key : ∀ (N : ℕ) (h : ℕ → ℂ), ((List.range N).map h).sum = ∑ k ∈ Finset.range N, h k := by
    intro N h
    induction N with
    | zero => simp
    | succ N ih => simp [List.range_succ, Finset.sum_range_succ, ih]
  unfold loopPairs
  rw [List.map_flatMap, List.flatMap_def, List.sum_flatten, List.map_map, ← key]
  congr 1
  apply List.map_congr_left
  intro j _
  simp only [Function.comp, List.map_map]
  rw [← key]; rfl

theorem mem_loopPairs {n m : ℕ} {p : ℕ × ℕ} : p ∈ loopPairs n m ↔ p.1 ≤ n ∧ p.2 ≤ m := by
  obtain ⟨j, k⟩ := p
  simp [loopPairs]

theorem radix_inj {L a b c d : ℕ} (ha : a < L) (hc : c < L) (h : b * L + a = d * L + c) : a = c ∧ b = d := by
  have hL : 0 < L := by omega
  have h1 : (b * L + a) % L = (d * L + c) % L := by rw [h]
  rw [Nat.mul_add_mod', Nat.mul_add_mod', Nat.mod_eq_of_lt ha, Nat.mod_eq_of_lt hc] at h1
  subst h1
  exact ⟨rfl, Nat.eq_of_mul_eq_mul_right hL (by omega)⟩

/-- below the cutoff the loops accumulate -/
theorem foldl_below {L : ℕ} {M : Opt} {n m : ℕ} (h : n + m < L) (l : List (ℕ × ℕ)) (hl : ∀ p ∈ l, p.1 ≤ n ∧ p.2 ≤ m)
    (row : ℕ → ℂ) (x : ℕ) :
    l.foldl (fockStep L M n m) row x = row x +
      (l.map (fun p => if ((n - p.1) + (m - p.2)) * L + (p.1 + p.2) = x then fockCoeff M n m p.1 p.2 else 0)).sum := by
  induction l generalizing row with
  | nil => simp
  | cons p l ih =>
    have hp := hl p (by simp)
    rw [List.foldl_cons, ih (fun q hq => hl q (by simp [hq])), List.map_cons, List.sum_cons, ← add_assoc]
    congr 1
    unfold fockStep
    have h1 : p.1 + p.2 < L ∧ n - p.1 + (m - p.2) < L := by omega
    have h2 : ¬ (n + m ≥ L ∨ p.1 + p.2 + (n - p.1 + (m - p.2)) ≥ L) := by omega
    simp only [h1, h2, and_self, if_true, if_false, Function.update_apply]
    by_cases e : x = (n - p.1 + (m - p.2)) * L + (p.1 + p.2)
    · simp [e]
    · rw [if_neg e, if_neg (fun h => e h.symm), add_zero]

/-- above the cutoff the loops write the identity row -/
theorem foldl_above {L : ℕ} {M : Opt} {n m : ℕ} (h : L ≤ n + m) (l : List (ℕ × ℕ)) (row : ℕ → ℂ) {u v : ℕ}
    (hu : u < L) (hv : v < L) :
    l.foldl (fockStep L M n m) row (v * L + u) =
      if ∃ p ∈ l, p.1 + p.2 = u ∧ (n - p.1) + (m - p.2) = v then (if n = u ∧ m = v then 1 else 0) else row (v * L + u) := by
  induction l using List.reverseRecOn with
  | nil => simp
  | append_singleton l p ih =>
    rw [List.foldl_append, List.foldl_cons, List.foldl_nil]
    generalize l.foldl (fockStep L M n m) row = row' at ih
    unfold fockStep
    by_cases h1 : p.1 + p.2 < L ∧ n - p.1 + (m - p.2) < L
    · have h2 : (n + m ≥ L ∨ p.1 + p.2 + (n - p.1 + (m - p.2)) ≥ L) := by omega
      simp only [h1, h2, and_self, if_true]
      by_cases e : p.1 + p.2 = u ∧ (n - p.1) + (m - p.2) = v
      · have hex : ∃ q ∈ l ++ [p], q.1 + q.2 = u ∧ (n - q.1) + (m - q.2) = v := ⟨p, by simp, e⟩
        rw [if_pos hex, e.1, e.2]
        split <;> simp
      · have hne : v * L + u ≠ (n - p.1 + (m - p.2)) * L + (p.1 + p.2) := by
          intro hc
          have := radix_inj hu h1.1 hc
          exact e ⟨this.1.symm, this.2.symm⟩
        have : (∃ q ∈ l ++ [p], q.1 + q.2 = u ∧ (n - q.1) + (m - q.2) = v) ↔
            (∃ q ∈ l, q.1 + q.2 = u ∧ (n - q.1) + (m - q.2) = v) := by
          constructor
          · rintro ⟨q, hq, hh⟩
            rcases List.mem_append.1 hq with hq | hq
            · exact ⟨q, hq, hh⟩
            · rw [List.mem_singleton] at hq; subst hq; exact absurd hh e
          · rintro ⟨q, hq, hh⟩; exact ⟨q, by simp [hq], hh⟩
        simp only [this]
        rw [← ih]
        split <;> simp [Function.update_of_ne hne]
    · simp only [h1, if_false]
      have : (∃ q ∈ l ++ [p], q.1 + q.2 = u ∧ (n - q.1) + (m - q.2) = v) ↔
            (∃ q ∈ l, q.1 + q.2 = u ∧ (n - q.1) + (m - q.2) = v) := by
        constructor
        · rintro ⟨q, hq, hh⟩
          rcases List.mem_append.1 hq with hq | hq
          · exact ⟨q, hq, hh⟩
          · rw [List.mem_singleton] at hq; subst hq
            exact absurd ⟨by omega, by omega⟩ h1
        · rintro ⟨q, hq, hh⟩; exact ⟨q, by simp [hq], hh⟩
      simp only [this]
      exact ih

/-- coefficients of the generating polynomial -/
theorem coeff_genPoly (M : Opt) (n m u : ℕ) :
    (genPoly M n m).coeff u = ∑ j ∈ Finset.range (n + 1), ∑ k ∈ Finset.range (m + 1),
      if j + k = u then (n.choose j : ℂ) * (m.choose k : ℂ) * M 0 0 ^ j * M 1 0 ^ (n - j) * M 0 1 ^ k * M 1 1 ^ (m - k)
      else 0 := by
  have e : genPoly M n m = ∑ j ∈ Finset.range (n + 1), ∑ k ∈ Finset.range (m + 1),
      C ((n.choose j : ℂ) * (m.choose k : ℂ) * M 0 0 ^ j * M 1 0 ^ (n - j) * M 0 1 ^ k * M 1 1 ^ (m - k)) * X ^ (j + k) := by
    rw [genPoly, add_pow, add_pow, Finset.sum_mul_sum]
    refine Finset.sum_congr rfl fun j _ => Finset.sum_congr rfl fun k _ => ?_
    simp only [map_mul, map_pow, map_natCast, mul_pow, pow_add]
    ring
  rw [e]
  simp only [finsetSum_coeff, coeff_C_mul, coeff_X_pow]
  refine Finset.sum_congr rfl fun j _ => Finset.sum_congr rfl fun k _ => ?_
  by_cases h : j + k = u
  · simp [h]
  · rw [if_neg h, if_neg (fun e => h e.symm), mul_zero]

theorem fock2_at {L : ℕ} (M : Opt) {n m u v : ℕ} (hn : n < L) (_hm : m < L) (hu : u < L) (hv : v < L) :
    (fock2 L M).at_ (m * L + n) (v * L + u) = gateAmp L M n m u v := by
  have e1 : (m * L + n) % L = n := by rw [Nat.mul_add_mod', Nat.mod_eq_of_lt hn]
  have e2 : (m * L + n - (m * L + n) % L) / L = m := by
    rw [e1, Nat.add_sub_cancel, Nat.mul_div_cancel _ (by omega)]
  show List.foldl (fockStep L M ((m * L + n) % L) ((m * L + n - (m * L + n) % L) / L)) (fun _ => 0)
    (loopPairs ((m * L + n) % L) ((m * L + n - (m * L + n) % L) / L)) (v * L + u) = _
  rw [e2, e1]
  unfold gateAmp
  split
  · rename_i h
    rw [foldl_below h _ (fun p hp => mem_loopPairs.1 hp), zero_add, sum_loopPairs]
    unfold bosonAmp
    split
    · rename_i hcons
      rw [coeff_genPoly, Finset.sum_mul]
      refine Finset.sum_congr rfl fun j hj => ?_
      rw [Finset.sum_mul]
      refine Finset.sum_congr rfl fun k hk => ?_
      simp only [Finset.mem_range] at hj hk
      by_cases hjk : j + k = u
      · have hv' : n - j + (m - k) = v := by omega
        rw [if_pos (by rw [hjk, hv']), if_pos hjk, fockCoeff, hjk, hv']
      · rw [if_neg hjk, if_neg, zero_mul]
        intro hc
        exact hjk (radix_inj (by omega) hu hc).1
    · rename_i hcons
      refine Finset.sum_eq_zero fun j hj => Finset.sum_eq_zero fun k hk => ?_
      simp only [Finset.mem_range] at hj hk
      rw [if_neg]
      intro hc
      have := radix_inj (by omega) hu hc
      omega
  · rename_i h
    rw [foldl_above (by omega) _ _ hu hv]
    by_cases hd : n = u ∧ m = v
    · rw [if_pos hd, if_pos]
      exact ⟨(n, 0), mem_loopPairs.2 ⟨le_rfl, by simp⟩, by simp [hd.1], by simp [hd.2]⟩
    · rw [if_neg hd]; simp

/-! ### algebra of the amplitudes -/

theorem genPoly_eval (M : Opt) (n m : ℕ) (x : ℂ) :
    (genPoly M n m).eval x = (M 0 0 * x + M 1 0) ^ n * (M 0 1 * x + M 1 1) ^ m := by
  simp [genPoly]

theorem genPoly_natDegree (M : Opt) (n m : ℕ) : (genPoly M n m).natDegree ≤ n + m := by
  have h : ∀ a b : ℂ, (C a * X + C b).natDegree ≤ 1 := fun a b => natDegree_linear_le
  refine natDegree_mul_le_of_le ?_ ?_
  · simpa using natDegree_pow_le_of_le n (h (M 0 0) (M 1 0))
  · simpa using natDegree_pow_le_of_le m (h (M 0 1) (M 1 1))

/-- homogeneous form of the expansion -/
theorem genPoly_homog (M : Opt) (n m : ℕ) (x y : ℂ) :
    ∑ u ∈ Finset.range (n + m + 1), (genPoly M n m).coeff u * x ^ u * y ^ (n + m - u)
      = (M 0 0 * x + M 1 0 * y) ^ n * (M 0 1 * x + M 1 1 * y) ^ m := by
  have e : (M 0 0 * x + M 1 0 * y) ^ n * (M 0 1 * x + M 1 1 * y) ^ m =
      ∑ j ∈ Finset.range (n + 1), ∑ k ∈ Finset.range (m + 1),
      ((n.choose j : ℂ) * (m.choose k : ℂ) * M 0 0 ^ j * M 1 0 ^ (n - j) * M 0 1 ^ k * M 1 1 ^ (m - k))
        * x ^ (j + k) * y ^ (n + m - (j + k)) := by
    rw [add_pow, add_pow, Finset.sum_mul_sum]
    refine Finset.sum_congr rfl fun j hj => Finset.sum_congr rfl fun k hk => ?_
    simp only [Finset.mem_range] at hj hk
    rw [show n + m - (j + k) = (n - j) + (m - k) by omega]
    simp only [mul_pow, pow_add]
    ring
  rw [e]
  simp only [coeff_genPoly, Finset.sum_mul]
  rw [Finset.sum_comm]
  refine Finset.sum_congr rfl fun j hj => ?_
  rw [Finset.sum_comm]
  refine Finset.sum_congr rfl fun k hk => ?_
  simp only [Finset.mem_range] at hj hk
  rw [Finset.sum_eq_single (j + k)]
  · simp
  · intro u _ hu
    rw [if_neg (fun h => hu h.symm)]; simp
  · intro h
    exact absurd (Finset.mem_range.2 (by omega)) h

/-- composition of expansions -/
theorem coeff_comp (M M' : Opt) (n m w : ℕ) :
    ∑ u ∈ Finset.range (n + m + 1), (genPoly M n m).coeff u * (genPoly M' u (n + m - u)).coeff w
      = (genPoly (M' * M) n m).coeff w := by
  have : (∑ u ∈ Finset.range (n + m + 1), C ((genPoly M n m).coeff u) * genPoly M' u (n + m - u))
      = genPoly (M' * M) n m := by
    apply Polynomial.funext
    intro x
    rw [eval_finsetSum]
    simp only [eval_mul, eval_C, genPoly_eval]
    rw [show (∑ u ∈ Finset.range (n + m + 1), (genPoly M n m).coeff u *
        ((M' 0 0 * x + M' 1 0) ^ u * (M' 0 1 * x + M' 1 1) ^ (n + m - u))) =
        ∑ u ∈ Finset.range (n + m + 1), (genPoly M n m).coeff u *
        (M' 0 0 * x + M' 1 0) ^ u * (M' 0 1 * x + M' 1 1) ^ (n + m - u) from
      Finset.sum_congr rfl fun u _ => by ring]
    rw [genPoly_homog]
    simp only [Matrix.mul_apply, Fin.sum_univ_two]
    congr 2 <;> ring
  rw [← this]
  simp [finsetSum_coeff, coeff_C_mul]

theorem coeff_one (n m u : ℕ) : (genPoly 1 n m).coeff u = if u = n then 1 else 0 := by
  simp [genPoly, coeff_X_pow]

/-- reciprocity of the expansions under transposition -/
theorem coeff_transpose (M : Opt) (n m u v : ℕ) (h : n + m = u + v) :
    (u.factorial * v.factorial : ℂ) * (genPoly M.transpose n m).coeff u
      = (n.factorial * m.factorial : ℂ) * (genPoly M u v).coeff n := by
  have single : ∀ (M : Opt) (n m u : ℕ), u ≤ n + m → (genPoly M n m).coeff u =
      ∑ j ∈ Finset.range (n + m + 1), if j ≤ n ∧ j ≤ u ∧ u - j ≤ m then
        (n.choose j : ℂ) * (m.choose (u - j) : ℂ) * M 0 0 ^ j * M 1 0 ^ (n - j) * M 0 1 ^ (u - j) * M 1 1 ^ (m - (u - j))
        else 0 := by
    intro M n m u hu
    rw [coeff_genPoly]
    rw [← Finset.sum_subset (Finset.range_subset_range.2 (show n + 1 ≤ n + m + 1 by omega))
      (fun j _ hj => if_neg (fun hc => hj (Finset.mem_range.2 (by omega))))]
    refine Finset.sum_congr rfl fun j hj => ?_
    simp only [Finset.mem_range] at hj
    split
    · rename_i hh
      rw [Finset.sum_eq_single (u - j)]
      · rw [if_pos (by omega)]
      · intro k _ hk
        rw [if_neg (by omega)]
      · intro hc
        exact absurd (Finset.mem_range.2 (by omega)) hc
    · rename_i hh
      refine Finset.sum_eq_zero fun k hk => ?_
      simp only [Finset.mem_range] at hk
      rw [if_neg (by omega)]
  rw [single _ _ _ _ (by omega), single _ _ _ _ (by omega), h, Finset.mul_sum, Finset.mul_sum]
  refine Finset.sum_congr rfl fun j _ => ?_
  by_cases hc : j ≤ n ∧ j ≤ u ∧ u - j ≤ m
  · have hc' : j ≤ u ∧ j ≤ n ∧ n - j ≤ v := by omega
    rw [if_pos hc, if_pos hc']
    have e1 : m - (u - j) = v - (n - j) := by omega
    have key : (u.factorial * v.factorial : ℂ) * ((n.choose j : ℂ) * (m.choose (u - j) : ℂ))
        = (n.factorial * m.factorial : ℂ) * ((u.choose j : ℂ) * (v.choose (n - j) : ℂ)) := by
      have a1 := Nat.choose_mul_factorial_mul_factorial hc.1
      have a2 := Nat.choose_mul_factorial_mul_factorial hc.2.2
      have a3 := Nat.choose_mul_factorial_mul_factorial hc'.1
      have a4 := Nat.choose_mul_factorial_mul_factorial hc'.2.2
      rw [e1] at a2
      have p1 : (0:ℕ) < j.factorial := Nat.factorial_pos _
      have p2 : (0:ℕ) < (n - j).factorial := Nat.factorial_pos _
      have p3 : (0:ℕ) < (u - j).factorial := Nat.factorial_pos _
      have p4 : (0:ℕ) < (v - (n - j)).factorial := Nat.factorial_pos _
      have : (u.factorial * v.factorial) * (n.choose j * m.choose (u - j))
          = (n.factorial * m.factorial) * (u.choose j * v.choose (n - j)) := by
        rw [← a1, ← a2, ← a3, ← a4]; ring
      exact_mod_cast this
    simp only [Matrix.transpose_apply]
    rw [e1]
    linear_combination (M 0 0 ^ j * M 0 1 ^ (n - j) * M 1 0 ^ (u - j) * M 1 1 ^ (v - (n - j))) * key
  · rw [if_neg hc, if_neg (by omega)]; simp

end Verif
