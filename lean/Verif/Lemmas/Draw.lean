import Verif.Spec.Draw
import Mathlib.Data.Nat.Bitwise
import Mathlib.Tactic.Linarith

namespace Verif
open Spec

theorem testBit_bitsToNat (l : List Bool) : ∀ i, (bitsToNat l).testBit i = (l.reverse[i]?).getD false := by
  unfold bitsToNat
  have key : ∀ (r : List Bool) (i : ℕ), (r.foldr (fun (b : Bool) (n : ℕ) => 2 * n + b.toNat) 0).testBit i = (r[i]?).getD false := by
    intro r
    induction r with
    | nil => intro i; simp
    | cons b r ih =>
      intro i
      rw [List.foldr_cons]
      cases i with
      | zero => rw [Nat.testBit_zero]; cases b <;> simp [Nat.add_mod]
      | succ i =>
        rw [Nat.testBit_succ]
        have : (2 * List.foldr (fun (b : Bool) (n : ℕ) => 2 * n + b.toNat) 0 r + b.toNat) / 2 = List.foldr (fun (b : Bool) (n : ℕ) => 2 * n + b.toNat) 0 r := by cases b <;> simp <;> omega
        rw [this, ih]; simp
  intro i
  rw [← key, List.foldr_reverse]

theorem usedBits_line {a c : ℕ} {o k : List ℕ} {linked : Bool} {gate : Option (List Char)} {line : ℕ} (h : OnLine a c (.node o k linked gate) line) :
    line < a + c ∧ (usedBits a c o k).testBit (a + c - 1 - line) = true := by
  have hl : line < a + c := by
    rcases h with ⟨_, h⟩ | ⟨ch, _, h, rfl⟩ <;> omega
  refine ⟨hl, ?_⟩
  unfold usedBits
  rw [testBit_bitsToNat, List.getElem?_reverse (by simp; omega)]
  simp only [List.length_append, List.length_map, List.length_range]
  rw [show a + c - 1 - (a + c - 1 - line) = line by omega]
  rcases h with ⟨h1, h2⟩ | ⟨ch, h1, h2, rfl⟩
  · rw [List.getElem?_append_left (by simpa using h2)]
    simp [h1, h2]
  · rw [List.getElem?_append_right (by simp)]
    simp [h1, h2]

theorem usedBits_above {a c : ℕ} {o k : List ℕ} {i : ℕ} (h : (usedBits a c o k).testBit i = true) : i < a + c := by
  unfold usedBits at h
  rw [testBit_bitsToNat] at h
  by_contra hi
  rw [List.getElem?_eq_none (by simp; omega)] at h
  simp at h

theorem shift_ne_zero {x k : ℕ} : x >>> k ≠ 0 ↔ ∃ j, k ≤ j ∧ x.testBit j = true := by
  constructor
  · intro h
    obtain ⟨i, hi⟩ := Nat.exists_testBit_of_ne_zero h
    rw [Nat.testBit_shiftRight] at hi
    exact ⟨k + i, by omega, hi⟩
  · rintro ⟨j, hj, h⟩ e
    have : (x >>> k).testBit (j - k) = true := by rw [Nat.testBit_shiftRight, show k + (j - k) = j by omega]; exact h
    rw [e] at this
    simp at this

theorem testBit_toNat_shift (b : Bool) (k i : ℕ) : (b.toNat <<< k).testBit i = (b && decide (i = k)) := by
  rw [Nat.testBit_shiftLeft]
  cases b
  · simp
  · by_cases h : i = k
    · subst h; simp
    · by_cases h2 : k ≤ i
      · obtain ⟨d, rfl⟩ : ∃ d, i = k + d + 1 := ⟨i - k - 1, by omega⟩
        have : k + d + 1 - k = d + 1 := by omega
        rw [this]
        rw [show (true.toNat).testBit (d + 1) = false by rw [Nat.testBit_succ]; simp]
        simp; omega
      · simp [h, h2]

theorem fillBits_iff (n used k : ℕ) : (fillBits n used).testBit k = true ↔ k < n ∧ (∃ i ≤ k, used.testBit i = true) ∧ ∃ j, k ≤ j ∧ used.testBit j = true := by
  classical
  unfold fillBits
  have key : ∀ n, ((List.range n).foldl (fillStep used) (false, 0)).1 = decide (0 < n ∧ (∃ i < n, used.testBit i = true) ∧ ∃ j, n - 1 ≤ j ∧ used.testBit j = true) ∧
      ∀ k, ((List.range n).foldl (fillStep used) (false, 0)).2.testBit k = true ↔ k < n ∧ (∃ i ≤ k, used.testBit i = true) ∧ ∃ j, k ≤ j ∧ used.testBit j = true := by
    intro n
    induction n with
    | zero => simp
    | succ n ih =>
      obtain ⟨h1, h2⟩ := ih
      rw [List.range_succ, List.foldl_append, List.foldl_cons, List.foldl_nil]
      generalize (List.range n).foldl (fillStep used) (false, 0) = s at h1 h2
      have hm : (fillStep used s n).1 = decide (0 < n + 1 ∧ (∃ i < n + 1, used.testBit i = true) ∧ ∃ j, n + 1 - 1 ≤ j ∧ used.testBit j = true) := by
        unfold fillStep
        simp only [h1]
        rw [Bool.eq_iff_iff]
        simp only [Bool.and_eq_true, Bool.or_eq_true, decide_eq_true_eq, shift_ne_zero, Nat.add_sub_cancel]
        constructor
        · rintro ⟨h | h, hj⟩
          · obtain ⟨-, ⟨i, hi, hb⟩, -⟩ := h
            exact ⟨by omega, ⟨i, by omega, hb⟩, hj⟩
          · exact ⟨by omega, ⟨n, by omega, h⟩, hj⟩
        · rintro ⟨-, ⟨i, hi, hb⟩, j, hj, hjb⟩
          refine ⟨?_, j, hj, hjb⟩
          by_cases hin : i = n
          · subst hin; right; exact hb
          · left; exact ⟨by omega, ⟨i, by omega, hb⟩, j, by omega, hjb⟩
      refine ⟨hm, fun k => ?_⟩
      have e : (fillStep used s n).2 = s.2 ||| ((fillStep used s n).1.toNat <<< n) := rfl
      rw [e, Nat.testBit_or, Bool.or_eq_true, h2 k, testBit_toNat_shift, hm]
      simp only [Bool.and_eq_true, decide_eq_true_eq, Nat.add_sub_cancel]
      constructor
      · rintro (⟨h, h'⟩ | ⟨⟨_, ⟨i, hi, hb⟩, hj⟩, rfl⟩)
        · exact ⟨by omega, h'⟩
        · exact ⟨by omega, ⟨i, by omega, hb⟩, hj⟩
      · rintro ⟨hk, ⟨i, hi, hb⟩, hj⟩
        by_cases hkn : k = n
        · subst hkn; right; exact ⟨⟨by omega, ⟨i, by omega, hb⟩, hj⟩, rfl⟩
        · left; exact ⟨by omega, ⟨i, hi, hb⟩, hj⟩
  exact (key n).2 k

theorem lowestBit_set {x : ℕ} : ∀ (fuel k : ℕ), (∃ i, k ≤ i ∧ i < k + fuel ∧ x.testBit i = true) → x.testBit (lowestBit x fuel k) = true := by
  intro fuel
  induction fuel with
  | zero => rintro k ⟨i, h1, h2, -⟩; omega
  | succ fuel ih =>
    rintro k ⟨i, h1, h2, h3⟩
    unfold lowestBit
    split
    · assumption
    · rename_i h
      refine ih (k + 1) ⟨i, ?_, by omega, h3⟩
      by_contra hc
      obtain rfl : i = k := by omega
      exact h h3

theorem linkBits_ge {n occ k : ℕ} {linked : Bool} (h : occ.testBit k = true) : (linkBits n occ linked).testBit k = true := by
  unfold linkBits
  split
  · rw [Nat.testBit_or, h]; rfl
  · exact h

theorem testBit_mask {r k : ℕ} (h : k < r) : (2 ^ r - 1).testBit k = true := by
  rw [Nat.testBit_two_pow_sub_one]; simpa using h

/-- the bits of a node that is not part of a longer gate contain all lines it covers -/
theorem nodeBits_covers {a c : ℕ} {o k : List ℕ} {linked : Bool} {gate : Option (List Char)} {line : ℕ} (h : Covers a c (.node o k linked gate) line) :
    (linkBits (a + c) (fillBits (a + c) (usedBits a c o k)) linked).testBit (a + c - 1 - line) = true := by
  obtain ⟨hl, ⟨x, hx, hxo⟩, h⟩ := h
  obtain ⟨hx1, hx2⟩ := usedBits_line hxo
  by_cases hy : ∃ y, line ≤ y ∧ OnLine a c (.node o k linked gate) y
  · obtain ⟨y, hy1, hy2⟩ := hy
    obtain ⟨hy3, hy4⟩ := usedBits_line hy2
    apply linkBits_ge
    rw [fillBits_iff]
    exact ⟨by omega, ⟨_, by omega, hy4⟩, _, by omega, hx2⟩
  · rcases h with h | h
    swap
    · exact absurd h hy
    have hlk : linked = true := h.1
    have hfx : (fillBits (a + c) (usedBits a c o k)).testBit (a + c - 1 - x) = true := by
      rw [fillBits_iff]
      exact ⟨by omega, ⟨_, le_rfl, hx2⟩, _, le_rfl, hx2⟩
    have hne : fillBits (a + c) (usedBits a c o k) ≠ 0 := by
      intro e; rw [e] at hfx; simp at hfx
    unfold linkBits
    rw [if_pos ⟨hlk, hne⟩, Nat.testBit_or, Bool.or_eq_true]
    set r := lowestBit (fillBits (a + c) (usedBits a c o k)) (a + c) 0
    have hr : (fillBits (a + c) (usedBits a c o k)).testBit r = true := lowestBit_set _ _ ⟨_, Nat.zero_le _, by omega, hfx⟩
    by_cases hlt : a + c - 1 - line < r
    · right; exact testBit_mask hlt
    · left
      rw [fillBits_iff] at hr ⊢
      obtain ⟨-, ⟨i, hi, hb⟩, -⟩ := hr
      exact ⟨by omega, ⟨i, by omega, hb⟩, _, by omega, hx2⟩

theorem full_testBit {n i : ℕ} (h : i < n) : (bitsToNat (List.replicate n true)).testBit i = true := by
  rw [testBit_bitsToNat, List.reverse_replicate, List.getElem?_replicate, if_pos h]; rfl

theorem gateBits_ge {a c : ℕ} {l : List DrawNode} {o k : List ℕ} {linked : Bool} {gate : Option (List Char)} (h : .node o k linked gate ∈ l) {i : ℕ}
    (hb : (usedBits a c o k).testBit i = true) : (gateBits a c l).testBit i = true := by
  unfold gateBits
  have mono : ∀ (l : List DrawNode) (b : ℕ), b.testBit i = true → (l.foldl (fun b n => match n with
      | .node o k _ _ => b ||| usedBits a c o k
      | .bridge => b) b).testBit i = true := by
    intro l
    induction l with
    | nil => intro b hb; exact hb
    | cons n l ih =>
      intro b hb
      rw [List.foldl_cons]
      apply ih
      cases n with
      | bridge => exact hb
      | node o k li g => rw [Nat.testBit_or, hb]; rfl
  generalize 0 = b0
  induction l generalizing b0 with
  | nil => cases h
  | cons n l ih =>
    rw [List.foldl_cons]
    rcases List.mem_cons.1 h with rfl | h
    · exact mono _ _ (by rw [Nat.testBit_or, hb]; simp)
    · exact ih h _

/-- all nodes of a gate lie on the filled lines of the gate -/
theorem gateFill_covers {a c : ℕ} {l : List DrawNode} {o k : List ℕ} {linked : Bool} {g : List Char} (h : .node o k linked (some g) ∈ l) {line : ℕ}
    (hc : Covers a c (.node o k linked (some g)) line) : (fillBits (a + c) (gateBits a c l)).testBit (a + c - 1 - line) = true := by
  obtain ⟨hl, ⟨x, hx, hxo⟩, hy⟩ := hc
  obtain ⟨hx1, hx2⟩ := usedBits_line hxo
  have : ∃ y, line ≤ y ∧ OnLine a c (.node o k linked (some g)) y := by
    rcases hy with hy | hy
    · exact absurd hy.2 (by simp)
    · exact hy
  obtain ⟨y, hy1, hy2⟩ := this
  obtain ⟨hy3, hy4⟩ := usedBits_line hy2
  rw [fillBits_iff]
  exact ⟨by omega, ⟨_, by omega, gateBits_ge h hy4⟩, _, by omega, gateBits_ge h hx2⟩

theorem land_ne_zero {x y i : ℕ} (hx : x.testBit i = true) (hy : y.testBit i = true) : x &&& y ≠ 0 := by
  intro e
  have : (x &&& y).testBit i = true := by rw [Nat.testBit_and, hx, hy]; rfl
  rw [e] at this; simp at this

theorem wideBits_near {b i j : ℕ} (h : b.testBit j = true) (hij : i ≤ j + 1 ∧ j ≤ i + 1) : (wideBits b).testBit i = true := by
  unfold wideBits
  rw [Nat.testBit_or, Nat.testBit_or, Nat.testBit_shiftLeft, Nat.testBit_shiftRight]
  rcases (by omega : i = j ∨ i = j + 1 ∨ j = 1 + i) with rfl | rfl | rfl
  · simp [h]
  · simp [h]
  · simp [h]

/-! ### where a node is placed -/

theorem searchLeft_gt {occ : List ℕ} {bits : ℕ} : ∀ n {q : ℕ}, q < n → occ.getD q 0 &&& bits ≠ 0 → q < searchLeft occ bits n := by
  intro n
  induction n with
  | zero => intro q h; omega
  | succ n ih =>
    intro q hq h
    unfold searchLeft
    split
    · omega
    · rename_i hn
      refine ih ?_ h
      by_contra hc
      obtain rfl : q = n := by omega
      exact hn h

theorem searchRight_ge {occ : List ℕ} {wide : ℕ} : ∀ fuel p, p ≤ searchRight occ wide fuel p := by
  intro fuel
  induction fuel with
  | zero => intro p; exact le_rfl
  | succ fuel ih => intro p; unfold searchRight; split <;> [exact le_rfl; exact (by have := ih (p + 1); omega)]

theorem searchRight_free {occ : List ℕ} {wide : ℕ} : ∀ fuel p, occ.length ≤ fuel + p → let r := searchRight occ wide fuel p
    r ≥ occ.length ∨ occ.getD r 0 &&& wide = 0 := by
  intro fuel
  induction fuel with
  | zero => intro p h; left; show p ≥ _; omega
  | succ fuel ih =>
    intro p h
    unfold searchRight
    dsimp only
    split
    · assumption
    · exact ih (p + 1) (by omega)

end Verif
