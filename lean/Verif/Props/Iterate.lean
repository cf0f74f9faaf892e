/-
C98: indexing and iterating a collection.
-/
import Verif.Model.Iterate
import Verif.Lemmas.Dict
import Mathlib.Tactic.NormNum

namespace Verif.Props
open Verif

/-- **C98** A state is found under its identifier. -/
theorem C98_identifier {α : Type*} (d : Dict Ident α) (hd : d.keys.Nodup) (e : Ident × α) (he : e ∈ d) : getItem d e.1 = some (some e.2) := by
  unfold getItem
  rw [Dict.get?_of_mem hd he]

/-- **C98** A string that is not an identifier gives `None`, an integer that is no identifier gives the state at that position, counted from the end if negative, and an IndexError if there is no such
position. -/
theorem C98_position {α : Type*} (d : Dict Ident α) (n : ℤ) (s : List Char) :
    (Ident.str s ∉ d.keys → getItem d (.str s) = some none) ∧
    (Ident.int n ∉ d.keys → ∀ k : ℕ, (h : k < d.length) → n = k ∨ n = (k : ℤ) - d.length → getItem d (.int n) = some (some (d[k]).2)) ∧
    (Ident.int n ∉ d.keys → (n ≥ d.length ∨ n < -(d.length : ℤ)) → getItem d (.int n) = none) := by
  refine ⟨?_, ?_, ?_⟩
  · intro h
    unfold getItem
    rw [Dict.get?_eq_none.2 h]
  · intro h k hk hn
    unfold getItem
    rw [Dict.get?_eq_none.2 h]
    simp only
    unfold pyGet pyIndex
    rw [List.length_map]
    rcases hn with rfl | rfl
    · rw [if_pos (by omega), if_pos (by omega)]
      simp [hk]
    · rw [if_neg (by omega), if_pos (by omega)]
      have : ((k : ℤ) - d.length + d.length).toNat = k := by omega
      rw [this]
      simp [hk]
  · intro h hn
    unfold getItem
    rw [Dict.get?_eq_none.2 h]
    simp only
    unfold pyGet pyIndex
    rw [List.length_map]
    rcases hn with hn | hn
    · rw [if_pos (by omega), if_neg (by omega)]
      rfl
    · rw [if_neg (by omega), if_neg (by omega)]
      rfl

/-- **C98** (partial: no integer identifier lies in the range of positions) Iterating gives every state exactly once, in the order of the collection. -/
theorem C98_iterate_partial {α : Type*} (d : Dict Ident α) (h : ∀ n : ℕ, n ≤ d.length → Ident.int n ∉ d.keys) : iterFrom d (d.length + 1) 0 = some (d.map (fun e => some e.2)) := by
  have key : ∀ (j k : ℕ), j + k = d.length → iterFrom d (j + 1) k = some ((d.drop k).map (fun e => some e.2)) := by
    intro j
    induction j with
    | zero =>
      intro k hk
      unfold iterFrom
      rw [(C98_position d k []).2.2 (h k (by omega)) (Or.inl (by omega)), List.drop_eq_nil_of_le (by omega)]
      rfl
    | succ j ih =>
      intro k hk
      unfold iterFrom
      rw [(C98_position d k []).2.1 (h k (by omega)) k (by omega) (Or.inl rfl)]
      simp only
      rw [ih (k + 1) (by omega), Option.map_some, List.drop_eq_getElem_cons (by omega : k < d.length), List.map_cons]
  have := key d.length 0 rfl
  rwa [List.drop_zero] at this

/-- **C98** In particular this holds when all identifiers are strings. -/
theorem C98_strings {α : Type*} (d : Dict Ident α) (h : ∀ i ∈ d.keys, ∃ s, i = Ident.str s) : iterFrom d (d.length + 1) 0 = some (d.map (fun e => some e.2)) := by
  refine C98_iterate_partial d ?_
  intro n _ hm
  obtain ⟨s, hs⟩ := h _ hm
  cases hs

/-- **C98** Iterating always stops. -/
theorem C98_stops {α : Type*} (d : Dict Ident α) : ∃ fuel l, iterFrom d fuel 0 = some l := by
  obtain ⟨m, hm⟩ : ∃ m : ℕ, d.length ≤ m ∧ ∀ n : ℕ, Ident.int n ∈ d.keys → n < m := by
    generalize d.length = L
    generalize d.keys = ks
    induction ks with
    | nil => exact ⟨L, le_refl _, by simp⟩
    | cons i ks ih =>
      obtain ⟨m, h1, h2⟩ := ih
      rcases i with s | n
      · refine ⟨m, h1, ?_⟩
        intro k hk
        rcases List.mem_cons.1 hk with h | h
        · cases h
        · exact h2 k h
      · refine ⟨max m (n.toNat + 1), by omega, ?_⟩
        intro k hk
        rcases List.mem_cons.1 hk with h | h
        · injection h with h
          omega
        · have := h2 k h
          omega
  have key : ∀ (j k : ℕ), j + k = m → ∃ l, iterFrom d (j + 1) k = some l := by
    intro j
    induction j with
    | zero =>
      intro k hk
      have hn : Ident.int k ∉ d.keys := fun h => by have := hm.2 k h; omega
      unfold iterFrom
      rw [(C98_position d k []).2.2 hn (Or.inl (by omega))]
      exact ⟨[], rfl⟩
    | succ j ih =>
      intro k hk
      obtain ⟨l, hl⟩ := ih (k + 1) (by omega)
      unfold iterFrom
      rcases getItem d (.int k) with _ | x
      · exact ⟨[], rfl⟩
      · exact ⟨x :: l, by simp only; rw [hl]; rfl⟩
  obtain ⟨l, hl⟩ := key m 0 rfl
  exact ⟨m + 1, l, hl⟩

/-- **C98** What is violated: with the identifiers 1 and 2 the first state is visited twice; with the identifiers 1 and 0 the order is reversed and index 0 is not the first state. -/
theorem C98_fails (a b : ℕ) : iterFrom [(Ident.int 1, a), (Ident.int 2, b)] 4 0 = some [some a, some a, some b] ∧
    iterFrom [(Ident.int 1, a), (Ident.int 0, b)] 3 0 = some [some b, some a] ∧ getItem [(Ident.int 1, a), (Ident.int 0, b)] (.int 0) = some (some b) := by
  refine ⟨?_, ?_, ?_⟩ <;> rfl

example : iterFrom [(Ident.str "identifier_a".toList, (5 : ℕ)), (Ident.int 7, 6)] 3 0 = some [some 5, some 6] :=
  C98_iterate_partial [(Ident.str "identifier_a".toList, 5), (Ident.int 7, 6)] (by
    intro n hn hm
    simp only [List.length_cons, List.length_nil] at hn
    simp only [Dict.keys, List.map_cons, List.map_nil, List.mem_cons, List.not_mem_nil, or_false, reduceCtorEq, false_or, Ident.int.injEq] at hm
    omega)

end Verif.Props
