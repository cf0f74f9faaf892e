/- Helper lemmas about insertion-ordered dictionaries. -/
import Verif.Model.Dict
import Mathlib.Data.List.Nodup
import Mathlib.Data.List.Perm.Basic

namespace Verif.Dict
variable {α β γ : Type*} [DecidableEq α]

@[simp] theorem get?_nil (k : α) : get? ([] : Dict α β) k = none := rfl

theorem get?_cons (k' : α) (v : β) (d : Dict α β) (k : α) :
    get? ((k', v) :: d) k = if k' = k then some v else get? d k := rfl

theorem get?_set (d : Dict α β) (k : α) (v : β) (k' : α) :
    get? (set d k v) k' = if k = k' then some v else get? d k' := by
  induction d with
  | nil => simp [set, get?]
  | cons p d ih =>
    obtain ⟨a, b⟩ := p
    by_cases h : a = k
    · subst h
      by_cases h' : a = k' <;> simp [set, get?, h']
    · by_cases h' : a = k'
      · subst h'
        have : ¬ k = a := fun e => h e.symm
        simp [set, get?, h, this]
      · simp [set, get?, h, h', ih]

theorem get?_eq_none {d : Dict α β} {k : α} : get? d k = none ↔ k ∉ keys d := by
  induction d with
  | nil => simp [keys]
  | cons p d ih =>
    obtain ⟨a, b⟩ := p
    by_cases h : a = k
    · simp [get?, keys, h]
    · have h' : ¬ k = a := fun e => h e.symm
      have := ih
      simp [keys] at this
      simp [get?, keys, h, h', this]

theorem get?_mem {d : Dict α β} {k : α} {v : β} (h : get? d k = some v) : (k, v) ∈ d := by
  induction d with
  | nil => cases h
  | cons p d ih =>
    obtain ⟨a, b⟩ := p
    rw [get?_cons] at h
    split at h
    · rename_i e; cases h; subst e; simp
    · exact List.mem_cons_of_mem _ (ih h)

theorem get?_of_mem {d : Dict α β} {k : α} {v : β} (hn : (keys d).Nodup) (h : (k, v) ∈ d) : get? d k = some v := by
  induction d with
  | nil => cases h
  | cons p d ih =>
    obtain ⟨a, b⟩ := p
    simp only [keys, List.map_cons, List.nodup_cons] at hn
    rw [get?_cons]
    rcases List.mem_cons.1 h with e | h
    · cases e; simp
    · have : a ≠ k := by
        rintro rfl
        exact hn.1 (List.mem_map.2 ⟨_, h, rfl⟩)
      rw [if_neg this]; exact ih hn.2 h

theorem mem_keys_iff {d : Dict α β} {k : α} : k ∈ keys d ↔ ∃ v, get? d k = some v := by
  rw [← not_iff_not, ← get?_eq_none]
  cases get? d k <;> simp

theorem has_iff {d : Dict α β} {k : α} : has d k = true ↔ k ∈ keys d := by
  rw [mem_keys_iff]; simp [has, Option.isSome_iff_exists]

theorem set_of_not_mem {d : Dict α β} {k : α} (v : β) (h : k ∉ keys d) : set d k v = d ++ [(k, v)] := by
  induction d with
  | nil => rfl
  | cons p d ih =>
    obtain ⟨a, b⟩ := p
    simp only [keys, List.map_cons, List.mem_cons, not_or] at h
    rw [set, if_neg (fun e => h.1 e.symm), ih h.2]; rfl

theorem keys_set_of_mem {d : Dict α β} {k : α} (v : β) (h : k ∈ keys d) : keys (set d k v) = keys d := by
  induction d with
  | nil => simp [keys] at h
  | cons p d ih =>
    obtain ⟨a, b⟩ := p
    by_cases e : a = k
    · simp [set, keys, e]
    · have : k ∈ keys d := by
        simp only [keys, List.map_cons, List.mem_cons] at h
        rcases h with h | h
        · exact absurd h.symm e
        · exact h
      have := ih this
      simp only [keys] at this
      simp [set, keys, e, this]

theorem keys_set_of_not_mem {d : Dict α β} {k : α} (v : β) (h : k ∉ keys d) : keys (set d k v) = keys d ++ [k] := by
  rw [set_of_not_mem v h]; simp [keys]

theorem nodup_keys_set {d : Dict α β} (hn : (keys d).Nodup) (k : α) (v : β) : (keys (set d k v)).Nodup := by
  by_cases h : k ∈ keys d
  · rw [keys_set_of_mem v h]; exact hn
  · rw [keys_set_of_not_mem v h]
    simp only [List.nodup_append, hn, List.nodup_singleton, true_and]
    rintro a ha b hb rfl
    simp at hb
    exact h (hb ▸ ha)

theorem mem_set {d : Dict α β} {k : α} {v : β} {p : α × β} (h : p ∈ set d k v) : p ∈ d ∨ p = (k, v) := by
  induction d with
  | nil => simpa [set] using h
  | cons q d ih =>
    obtain ⟨a, b⟩ := q
    rw [set] at h
    split at h
    · rename_i e
      rcases List.mem_cons.1 h with h | h
      · right; rw [h, e]
      · left; simp [h]
    · rcases List.mem_cons.1 h with h | h
      · left; simp [h]
      · rcases ih h with h | h
        · left; simp [h]
        · right; exact h

theorem mem_keys_set {d : Dict α β} {k k' : α} {v : β} : k' ∈ keys (set d k v) ↔ k' = k ∨ k' ∈ keys d := by
  rw [mem_keys_iff, mem_keys_iff]
  simp only [get?_set]
  by_cases h : k = k'
  · simp [h]
  · have : ¬ k' = k := fun e => h e.symm
    simp [h, this]

theorem foldl_set_of_nodup (l : List (α × β)) (d : Dict α β) (h : (keys d ++ l.map Prod.fst).Nodup) :
    l.foldl (fun d kv => set d kv.1 kv.2) d = d ++ l := by
  induction l generalizing d with
  | nil => simp
  | cons p l ih =>
    have hk : p.1 ∉ keys d := by
      intro hm
      rw [List.nodup_append] at h
      exact h.2.2 _ hm p.1 (by simp) rfl
    rw [List.foldl_cons, set_of_not_mem _ hk, ih]
    · simp
    · simpa [keys] using h

theorem ofList_of_nodup (l : List (α × β)) (h : (l.map Prod.fst).Nodup) : ofList l = l := by
  rw [ofList, foldl_set_of_nodup _ _ (by simpa [keys] using h)]; rfl

theorem nodup_keys_foldl_set (l : List (α × β)) (d : Dict α β) (h : (keys d).Nodup) :
    (keys (l.foldl (fun d kv => set d kv.1 kv.2) d)).Nodup := by
  induction l generalizing d with
  | nil => exact h
  | cons p l ih => exact ih _ (nodup_keys_set h _ _)

theorem nodup_keys_ofList (l : List (α × β)) : (keys (ofList l)).Nodup :=
  nodup_keys_foldl_set l [] (by simp [keys])

theorem get?_erase {d : Dict α β} (hn : (keys d).Nodup) (k k' : α) :
    get? (erase d k) k' = if k = k' then none else get? d k' := by
  induction d with
  | nil => simp [erase]
  | cons p d ih =>
    obtain ⟨a, b⟩ := p
    simp only [keys, List.map_cons, List.nodup_cons] at hn
    rw [erase]
    by_cases e : a = k
    · subst e
      rw [if_pos rfl]
      by_cases e' : a = k'
      · subst e'
        rw [if_pos rfl]; exact get?_eq_none.2 hn.1
      · rw [if_neg e', get?_cons, if_neg e']
    · rw [if_neg e, get?_cons, get?_cons, ih hn.2]
      by_cases e' : a = k'
      · subst e'
        simp; exact fun h => e h.symm
      · simp [e']

end Verif.Dict
