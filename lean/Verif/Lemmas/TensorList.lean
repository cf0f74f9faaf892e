/- Tensor lists. -/
import Verif.Model.TensorList
import Mathlib.Data.List.Perm.Basic
import Mathlib.Data.List.GetD

namespace Verif

theorem swapAt_spec {l : List ℕ} {i j : ℕ} (hi : i < l.length) (hj : j < l.length) :
    ∃ l', swapAt l i j = some l' ∧ l'.Perm l ∧
      ∀ k, l'[k]? = if k = j then some l[i] else if k = i then some l[j] else l[k]? := by
  refine ⟨(l.set i l[j]).set j l[i], ?_, List.set_set_perm hi hj, ?_⟩
  · simp [swapAt, hi, hj]
  · intro k
    rw [List.getElem?_set, List.getElem?_set]
    by_cases h1 : j = k
    · subst h1; simp [hj]
    · have h1' : ¬ k = j := fun e => h1 e.symm
      simp only [h1, h1', if_false]
      by_cases h2 : i = k
      · subst h2; simp [hi]
      · have h2' : ¬ k = i := fun e => h2 e.symm
        simp only [h2, h2', if_false]

theorem swapAt_none {l : List ℕ} {i j : ℕ} (h : ¬ (i < l.length ∧ j < l.length)) : swapAt l i j = none := by
  unfold swapAt
  split
  · rename_i h1 h2
    exfalso
    apply h
    exact ⟨(List.getElem?_eq_some_iff.1 h1).1, (List.getElem?_eq_some_iff.1 h2).1⟩
  · rfl

theorem cons_of_getElem? {l : List ℕ} {a b : ℕ} (h0 : l[0]? = some a) (h1 : l[1]? = some b) : ∃ r, l = a :: b :: r := by
  match l, h0, h1 with
  | x :: y :: r, h0, h1 => 
    simp at h0 h1
    exact ⟨r, by rw [h0, h1]⟩

/-- two-channel tensor list: the result in all cases, also the wrongly addressed one -/
theorem tensorList_two {C h c : ℕ} (hh : h < C) (hc : c < C) (hne : h ≠ c) :
    ∃ tl, tensorList C [h, c] = some tl ∧ tl.Perm (List.range C) ∧
      tl[0]? = some (if 2 ≤ h ∧ c = 0 then 1 else h) ∧ tl[1]? = some (if 2 ≤ h ∧ c = 0 then h else c) := by
  have hC : 2 ≤ C := by omega
  have hlen : (List.range C).length = C := List.length_range
  unfold tensorList
  simp only
  rw [if_neg hne]
  by_cases c1 : h = 0 ∧ c = 1
  · rw [if_pos c1]
    obtain ⟨rfl, rfl⟩ := c1
    refine ⟨_, rfl, List.Perm.refl _, ?_, ?_⟩ <;> rw [List.getElem?_range (by omega)] <;> simp
  rw [if_neg c1]
  by_cases c2 : h = 1 ∧ c = 0
  · rw [if_pos c2]
    obtain ⟨rfl, rfl⟩ := c2
    obtain ⟨l', e, hp, hk⟩ := swapAt_spec (l := List.range C) (i := 0) (j := 1) (by simp; omega) (by simp; omega)
    refine ⟨l', e, hp, ?_, ?_⟩ <;> rw [hk] <;> simp
  rw [if_neg c2]
  obtain ⟨l', e, hp, hk⟩ := swapAt_spec (l := List.range C) (i := 0) (j := h) (by simp; omega) (by simp; omega)
  have hl' : l'.length = C := by rw [hp.length_eq, hlen]
  obtain ⟨l'', e', hp', hk'⟩ := swapAt_spec (l := l') (i := 1) (j := c) (by omega) (by omega)
  refine ⟨l'', by rw [e, Option.bind_some, e'], hp'.trans hp, ?_, ?_⟩
  · rw [hk']
    by_cases hc0 : c = 0
    · have h2 : 2 ≤ h := by omega
      subst hc0
      simp only [if_true, h2, and_self]
      rw [← List.getElem?_eq_getElem, hk, if_neg (by omega), if_neg (by omega), List.getElem?_range (by omega)]
    · rw [if_neg (fun e => hc0 e.symm), if_neg (by omega), hk]
      simp only [hc0, and_false, if_false]
      by_cases h0 : h = 0
      · subst h0; simp
      · rw [if_neg (fun e => h0 e.symm)]; simp
  · rw [hk']
    by_cases hc0 : c = 0
    · have h2 : 2 ≤ h := by omega
      subst hc0
      simp only [h2, and_self, if_true]
      rw [if_neg (by omega)]
      rw [← List.getElem?_eq_getElem, hk, if_neg (by omega)]
      simp
    · simp only [hc0, and_false, if_false]
      by_cases hc1 : c = 1
      · subst hc1
        rw [if_pos rfl, ← List.getElem?_eq_getElem, hk, if_neg (by omega), if_neg (by omega), List.getElem?_range (by omega)]
      · rw [if_neg (fun e => hc1 e.symm)]
        simp only [if_true]
        rw [← List.getElem?_eq_getElem, hk, if_neg (fun e => hne e.symm),
          if_neg hc0, List.getElem?_range (by omega)]

end Verif
