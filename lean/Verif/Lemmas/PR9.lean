/- Helper lemmas about Popescu-Rohrlich pairs: detecting entanglement between pairs. -/
import Verif.Lemmas.PR8

namespace Verif
open Spec

/-- What a small difference means. -/
theorem compare_small {ι : Type*} [Fintype ι] [Inhabited ι] {enum : List ι} (henum : ∀ x, x ∈ enum) {A B : ι → ℂ} (hne : ∃ x, A x ≠ 0)
    (h : compareMatrices enum A B < 1) :
    ∃ β u : ℂ, ‖u‖ = 1 ∧ Real.sqrt (∑ x, ‖A x / (Real.sqrt (∑ y, ‖A y‖ ^ 2) : ℂ) - u * (β * B x)‖ ^ 2) < 1 / 1000000 := by
  obtain ⟨x₀, hx₀⟩ := hne
  unfold compareMatrices at h
  simp only at h
  have hS : 0 < ∑ y, ‖A y‖ ^ 2 := Finset.sum_pos' (fun _ _ => sq_nonneg _) ⟨x₀, Finset.mem_univ _, pow_pos (norm_pos_iff.mpr hx₀) 2⟩
  set s : ℂ := ((Real.sqrt (∑ y, ‖A y‖ ^ 2) : ℝ) : ℂ) with hs
  have hs0 : s ≠ 0 := by rw [hs]; exact_mod_cast (Real.sqrt_pos.mpr hS).ne'
  set mx := argMaxIdx enum (fun x => ‖A x / s‖) with hmx
  have hA0 : A mx / s ≠ 0 := by
    have h1 : ‖A x₀ / s‖ ≤ ‖A mx / s‖ := argMaxIdx_le (fun x => ‖A x / s‖) (henum x₀)
    have h2 : 0 < ‖A x₀ / s‖ := norm_pos_iff.mpr (div_ne_zero hx₀ hs0)
    exact norm_pos_iff.mp (h2.trans_le h1)
  set u : ℂ := A mx / s / (‖A mx / s‖ : ℂ) with hu
  have hu1 : ‖u‖ = 1 := norm_unit hA0
  have hu0 : u ≠ 0 := norm_pos_iff.mp (by rw [hu1]; exact one_pos)
  set t : ℂ := ((Real.sqrt (∑ y, ‖B y‖ ^ 2) : ℝ) : ℂ) with ht
  set w : ℂ := B mx / t / (‖B mx / t‖ : ℂ) with hw
  refine ⟨1 / t / w, u, hu1, ?_⟩
  have hterm : ∀ x, ‖A x / s - u * (1 / t / w * B x)‖ = ‖A x / s / u - B x / t / w‖ := by
    intro x
    have : A x / s - u * (1 / t / w * B x) = u * (A x / s / u - B x / t / w) := by
      rw [mul_sub, mul_div_cancel₀ _ hu0]
      ring
    rw [this, Complex.norm_mul, hu1, one_mul]
  simp only [hterm]
  linarith

theorem norm_le_of_sum {ι : Type*} [Fintype ι] {F : ι → ℂ} {ε : ℝ} (h : Real.sqrt (∑ x, ‖F x‖ ^ 2) < ε) (x : ι) : ‖F x‖ < ε := by
  refine lt_of_le_of_lt ?_ h
  rw [← Real.sqrt_sq (norm_nonneg (F x))]
  exact Real.sqrt_le_sqrt (Finset.single_le_sum (f := fun x => ‖F x‖ ^ 2) (fun _ _ => sq_nonneg _) (Finset.mem_univ x))

/-- Two equal elements on a diagonal are far from anything with vanishing minors. -/
theorem minors_far {ι : Type*} [Fintype ι] {A C : ι → ℂ} {p q r s : ι}
    (hsum : ∑ y, ‖A y‖ ^ 2 = 2 * ‖A p‖ ^ 2) (hp : A p ≠ 0) (hq : ‖A q‖ = ‖A p‖) (hr : A r = 0) (hs : A s = 0) (hC : C p * C q = C r * C s) :
    1 / 1000000 ≤ Real.sqrt (∑ x, ‖A x / (Real.sqrt (∑ y, ‖A y‖ ^ 2) : ℂ) - C x‖ ^ 2) := by
  by_contra hsm
  push Not at hsm
  have hx := norm_le_of_sum hsm
  have hpn : 0 < ‖A p‖ := norm_pos_iff.mpr hp
  have hroot : Real.sqrt (∑ y, ‖A y‖ ^ 2) = Real.sqrt 2 * ‖A p‖ := by
    rw [hsum, Real.sqrt_mul (by norm_num), Real.sqrt_sq hpn.le]
  rw [hroot] at hx
  have h2 : 0 < Real.sqrt 2 := Real.sqrt_pos.mpr (by norm_num)
  have h2' : Real.sqrt 2 < 3 / 2 := by
    rw [Real.sqrt_lt' (by norm_num)]
    norm_num
  have hval : ∀ x, ‖A x‖ = ‖A p‖ → 3 / 5 < ‖C x‖ := by
    intro x hxe
    have h1 := hx x
    have h3 : ‖A x / ((Real.sqrt 2 * ‖A p‖ : ℝ) : ℂ)‖ = 1 / Real.sqrt 2 := by
      rw [Complex.norm_div, Complex.norm_real, Real.norm_of_nonneg (by positivity), hxe]
      field_simp
    have h4 : 2 / 3 < 1 / Real.sqrt 2 := by
      rw [lt_div_iff₀ h2]
      linarith
    have h5 := norm_sub_norm_le (A x / ((Real.sqrt 2 * ‖A p‖ : ℝ) : ℂ)) (C x)
    rw [h3] at h5
    linarith
  have hzero : ∀ x, A x = 0 → ‖C x‖ < 1 / 1000000 := by
    intro x hxe
    have h1 := hx x
    rw [hxe, zero_div, zero_sub, norm_neg] at h1
    exact h1
  have hprod : ‖C p‖ * ‖C q‖ = ‖C r‖ * ‖C s‖ := by
    rw [← Complex.norm_mul, ← Complex.norm_mul, hC]
  have a1 := hval p rfl
  have a2 := hval q hq
  have a3 := hzero r hr
  have a4 := hzero s hs
  have b3 := norm_nonneg (C r)
  have b4 := norm_nonneg (C s)
  nlinarith

theorem compare_far {ι : Type*} [Fintype ι] [Inhabited ι] {enum : List ι} (henum : ∀ x, x ∈ enum) {A B : ι → ℂ} {p q r s : ι}
    (hsum : ∑ y, ‖A y‖ ^ 2 = 2 * ‖A p‖ ^ 2) (hp : A p ≠ 0) (hq : ‖A q‖ = ‖A p‖) (hr : A r = 0) (hs : A s = 0) (hB : B p * B q = B r * B s) :
    ¬ compareMatrices enum A B < 1 := by
  intro h
  obtain ⟨β, u, hu, hsm⟩ := compare_small henum ⟨p, hp⟩ h
  refine absurd hsm (not_lt.mpr (minors_far hsum hp hq hr hs ?_))
  linear_combination u ^ 2 * β ^ 2 * hB

/-- Two pairs that are both in state `a` or both in state `b`. -/
structure TwoDiagonal (T : (Fin 2 → Fin 4) → ℂ) (a b : Fin 4) : Prop where
  ne : a ≠ b
  first : T ![a, a] ≠ 0
  second : ‖T ![b, b]‖ = ‖T ![a, a]‖
  rest : ∀ x, x ≠ ![a, a] → x ≠ ![b, b] → T x = 0

theorem vec_eq_iff {b : ℕ} {i j k l : Fin b} : (![i, j] : Fin 2 → Fin b) = ![k, l] ↔ i = k ∧ j = l := by
  constructor
  · intro h
    exact ⟨congrFun h 0, congrFun h 1⟩
  · rintro ⟨rfl, rfl⟩
    rfl

theorem TwoDiagonal.entry {T : (Fin 2 → Fin 4) → ℂ} {a b : Fin 4} (h : TwoDiagonal T a b) (i j : Fin 4) :
    ‖T ![i, j]‖ ^ 2 = if i = j ∧ (i = a ∨ i = b) then ‖T ![a, a]‖ ^ 2 else 0 := by
  split_ifs with hc
  · obtain ⟨rfl, rfl | rfl⟩ := hc
    · rfl
    · rw [h.second]
  · rw [h.rest, norm_zero, zero_pow two_ne_zero]
    · intro e
      rw [vec_eq_iff] at e
      exact hc ⟨e.1.trans e.2.symm, Or.inl e.1⟩
    · intro e
      rw [vec_eq_iff] at e
      exact hc ⟨e.1.trans e.2.symm, Or.inr e.1⟩

theorem sum_two_of {a b : Fin 4} (hab : a ≠ b) (t : ℝ) : ∑ i : Fin 4, (if i = a ∨ i = b then t else 0) = 2 * t := by
  have : ∀ i : Fin 4, (if i = a ∨ i = b then t else 0) = (if i = a then t else 0) + (if i = b then t else 0) := by
    intro i
    by_cases h1 : i = a
    · subst h1
      simp [hab]
    · simp [h1]
  simp only [this]
  rw [Finset.sum_add_distrib, Finset.sum_ite_eq' Finset.univ a, Finset.sum_ite_eq' Finset.univ b]
  simp
  ring

theorem TwoDiagonal.row {T : (Fin 2 → Fin 4) → ℂ} {a b : Fin 4} (h : TwoDiagonal T a b) (i : Fin 4) :
    ∑ j, ‖T ![i, j]‖ ^ 2 = if i = a ∨ i = b then ‖T ![a, a]‖ ^ 2 else 0 := by
  rw [Finset.sum_congr rfl (fun j _ => h.entry i j), Finset.sum_eq_single i]
  · simp
  · intro j _ hj
    rw [if_neg (fun hc => hj hc.1.symm)]
  · simp

theorem TwoDiagonal.total {T : (Fin 2 → Fin 4) → ℂ} {a b : Fin 4} (h : TwoDiagonal T a b) : ∑ x, ‖T x‖ ^ 2 = 2 * ‖T ![a, a]‖ ^ 2 := by
  rw [sum_two_axes (fun x => ‖T x‖ ^ 2)]
  simp only [h.row]
  exact sum_two_of h.ne _

theorem swapAxes_zero {b : ℕ} (T : (Fin 2 → Fin b) → ℂ) : swapAxes (d := 1) T 0 = T := by
  funext x
  unfold swapAxes
  rw [Equiv.swap_self]
  rfl

theorem swapAxes_one {b : ℕ} (T : (Fin 2 → Fin b) → ℂ) (i j : Fin b) : swapAxes (d := 1) T 1 ![i, j] = T ![j, i] := by
  unfold swapAxes
  congr 1
  funext k
  fin_cases k <;> simp

theorem TwoDiagonal.swap {T : (Fin 2 → Fin 4) → ℂ} {a b : Fin 4} (h : TwoDiagonal T a b) (k : Fin 2) : TwoDiagonal (swapAxes (d := 1) T k) a b := by
  fin_cases k
  · show TwoDiagonal (swapAxes (d := 1) T 0) a b
    rw [swapAxes_zero]
    exact h
  · refine ⟨h.ne, ?_, ?_, ?_⟩
    · show swapAxes (d := 1) T 1 ![a, a] ≠ 0
      rw [swapAxes_one]
      exact h.first
    · show ‖swapAxes (d := 1) T 1 ![b, b]‖ = ‖swapAxes (d := 1) T 1 ![a, a]‖
      rw [swapAxes_one, swapAxes_one]
      exact h.second
    · intro x h1 h2
      show swapAxes (d := 1) T 1 x = 0
      rw [two_axes x, swapAxes_one]
      rw [two_axes x] at h1 h2
      apply h.rest
      · intro e
        rw [vec_eq_iff] at e
        exact h1 (vec_eq_iff.mpr ⟨e.2, e.1⟩)
      · intro e
        rw [vec_eq_iff] at e
        exact h2 (vec_eq_iff.mpr ⟨e.2, e.1⟩)

/-- The vector read for each pair. -/
theorem TwoDiagonal.vector {T : (Fin 2 → Fin 4) → ℂ} {a b : Fin 4} (h : TwoDiagonal T a b) (k : Fin 2) (q : Fin 4) :
    pairVectors (d := 1) T k q = if q = a ∨ q = b then (Real.sqrt (1 / 2) : ℂ) else 0 := by
  have hs := h.swap k
  unfold pairVectors
  rw [if_pos (by omega)]
  rw [vectorFromMatrix_lone (M := swapAxes (d := 1) T k)]
  · rw [Finset.sum_filter, sum_two_axes (fun x : Fin 2 → Fin 4 => if x 0 = q then ‖swapAxes (d := 1) T k x‖ ^ 2 else 0), hs.total]
    have : ∑ i, ∑ j, (if (![i, j] : Fin 2 → Fin 4) 0 = q then ‖swapAxes (d := 1) T k ![i, j]‖ ^ 2 else 0) = ∑ j, ‖swapAxes (d := 1) T k ![q, j]‖ ^ 2 := by
      rw [Finset.sum_eq_single q]
      · simp
      · intro i _ hi
        simp [hi]
      · simp
    rw [this, hs.row]
    have hpos : 0 < ‖swapAxes (d := 1) T k ![a, a]‖ ^ 2 := pow_pos (norm_pos_iff.mpr hs.first) 2
    split_ifs with hc
    · congr 2
      rw [div_eq_div_iff (by positivity) (by norm_num)]
      ring
    · simp
  · intro x hx j hj
    have hxe : x = ![a, a] ∨ x = ![b, b] := by
      by_contra hc
      push Not at hc
      exact hx (hs.rest x hc.1 hc.2)
    have hup : ∀ c : Fin 4, Function.update (![c, c] : Fin 2 → Fin 4) 0 j = ![j, c] := by
      intro c
      rw [two_axes (Function.update ![c, c] 0 j)]
      simp
    rcases hxe with rfl | rfl
    · rw [hup]
      exact hs.rest _ (by rw [Ne, vec_eq_iff]; exact fun e => hj e.1) (by rw [Ne, vec_eq_iff]; exact fun e => h.ne e.2)
    · rw [hup]
      exact hs.rest _ (by rw [Ne, vec_eq_iff]; exact fun e => h.ne e.2.symm) (by rw [Ne, vec_eq_iff]; exact fun e => hj e.1)
  · exact ⟨_, hs.first⟩

theorem TwoDiagonal.not_factorable {T : (Fin 2 → Fin 4) → ℂ} {a b : Fin 4} (h : TwoDiagonal T a b) : ¬ DictFactorable (d := 1) T := by
  unfold DictFactorable
  refine compare_far (p := ![a, a]) (q := ![b, b]) (r := ![a, b]) (s := ![b, a]) mem_rowMajor h.total h.first h.second
    (h.rest _ (by rw [Ne, vec_eq_iff]; exact fun e => h.ne e.2.symm) (by rw [Ne, vec_eq_iff]; exact fun e => h.ne e.1))
    (h.rest _ (by rw [Ne, vec_eq_iff]; exact fun e => h.ne e.1.symm) (by rw [Ne, vec_eq_iff]; exact fun e => h.ne e.2)) ?_
  unfold reproduced
  simp only [Fin.prod_univ_two, Matrix.cons_val_zero, Matrix.cons_val_one, Nat.reduceAdd]
  ring

end Verif
