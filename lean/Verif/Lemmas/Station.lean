import Verif.Spec.Station
import Mathlib.Tactic.SplitIfs
import Mathlib.Tactic.Tauto

namespace Verif

open Spec

theorem mem_localChannels (own node : List ℕ) (l : ℕ) : l ∈ localChannels own node ↔ ∃ c ∈ node, own[l]? = some c := by
  unfold localChannels
  simp only [List.mem_map, List.mem_filter, Prod.exists, decide_eq_true_eq, List.mem_zipIdx_iff_getElem?]
  constructor
  · rintro ⟨a, b, ⟨h1, h2⟩, rfl⟩
    exact ⟨a, h2, h1⟩
  · rintro ⟨c, h1, h2⟩
    exact ⟨c, l, ⟨h2, h1⟩, rfl⟩

theorem localChannels_ne_nil (own node : List ℕ) : localChannels own node ≠ [] ↔ ∃ c ∈ node, c ∈ own := by
  constructor
  · intro h
    obtain ⟨l, hl⟩ := List.exists_mem_of_ne_nil _ h
    obtain ⟨c, h1, h2⟩ := (mem_localChannels own node l).1 hl
    exact ⟨c, h1, List.mem_of_getElem? h2⟩
  · rintro ⟨c, h1, h2⟩ h
    obtain ⟨l, hl⟩ := List.mem_iff_getElem?.1 h2
    have := (mem_localChannels own node l).2 ⟨c, h1, hl⟩
    rw [h] at this
    cases this

theorem touches_iff (own node : List ℕ) : touches own node = true ↔ ∃ c ∈ node, c ∈ own := by
  simp [touches]

def Links.has (l : Links) (name : List Char) : Prop := name ∈ l.classical ∨ name ∈ l.optical ∨ name ∈ l.both

theorem mem_named_merge (l : Links) (ty : NodeType) (o k : List ℕ) (i : Option ℕ) (name : List Char) :
    name ∈ (LocalNode.mk ty o k (mergeLinks l).classical (mergeLinks l).optical (mergeLinks l).both i).named ↔ l.has name := by
  unfold LocalNode.named mergeLinks Links.has
  rcases l with ⟨c, o', b⟩
  dsimp only
  by_cases h : b ≠ [] ∨ o' ≠ [] ∧ c ≠ []
  · rw [if_pos h]
    dsimp only
    have : b ++ c ++ o' ≠ [] := by
      rcases h with h | h
      · simp [h]
      · simp [h.1]
    rw [if_pos this]
    simp only [List.mem_append]
    tauto
  · rw [if_neg h]
    dsimp only
    have hb : b = [] := by tauto
    rw [if_neg (by simp [hb]), hb]
    simp only [List.mem_append, List.not_mem_nil]
    tauto

theorem merge_ne_nil (l : Links) : ((mergeLinks l).classical ≠ [] ∨ (mergeLinks l).optical ≠ [] ∨ (mergeLinks l).both ≠ []) ↔ ∃ name, l.has name := by
  have key : ((mergeLinks l).classical ≠ [] ∨ (mergeLinks l).optical ≠ [] ∨ (mergeLinks l).both ≠ []) ↔ (l.classical ≠ [] ∨ l.optical ≠ [] ∨ l.both ≠ []) := by
    unfold mergeLinks
    split_ifs with h
    · dsimp only
      simp only [ne_eq, List.append_eq_nil_iff]
      tauto
    · rfl
  rw [key]
  unfold Links.has
  constructor
  · rintro (h | h | h)
    · obtain ⟨x, hx⟩ := List.exists_mem_of_ne_nil _ h; exact ⟨x, Or.inl hx⟩
    · obtain ⟨x, hx⟩ := List.exists_mem_of_ne_nil _ h; exact ⟨x, Or.inr (Or.inl hx)⟩
    · obtain ⟨x, hx⟩ := List.exists_mem_of_ne_nil _ h; exact ⟨x, Or.inr (Or.inr hx)⟩
  · rintro ⟨x, h | h | h⟩
    · exact Or.inl (List.ne_nil_of_mem h)
    · exact Or.inr (Or.inl (List.ne_nil_of_mem h))
    · exact Or.inr (Or.inr (List.ne_nil_of_mem h))

theorem mem_measurementLinks (s : Station) (all : List Station) (n : GlobalNode) (name : List Char) :
    name ∈ measurementLinks s all n ↔ ∃ t ∈ all, t.name = name ∧ name ≠ s.name ∧
      ∃ p ∈ n.optical.zip n.classical, (p.1 ∈ s.optical ∨ p.2 ∈ s.classical) ∧ (p.1 ∈ t.optical ∨ p.2 ∈ t.classical) := by
  unfold measurementLinks
  simp only [List.mem_flatMap, List.mem_map, List.mem_filter, Bool.and_eq_true, Bool.or_eq_true, decide_eq_true_eq]
  constructor
  · rintro ⟨p, hp, t, ⟨ht, h1, h2, h3⟩, rfl⟩
    exact ⟨t, ht, rfl, h1, p, hp, h2, h3⟩
  · rintro ⟨t, ht, rfl, h1, p, hp, h2, h3⟩
    exact ⟨p, hp, t, ⟨ht, h1, h2, h3⟩, rfl⟩

theorem linkStep_has (s : Station) (n : GlobalNode) (oh kh : Bool) (l : Links) (t : Station) (name : List Char) :
    (linkStep s n oh kh l t).has name ↔ l.has name ∨ (t.name = name ∧ name ≠ s.name ∧ Has t n) := by
  have h1 : Has t n ↔ touches t.optical n.optical = true ∨ touches t.classical n.classical = true := by
    rw [touches_iff, touches_iff]; rfl
  rw [h1]
  unfold linkStep
  by_cases h0 : t.name = s.name
  · rw [if_pos h0]
    constructor
    · exact Or.inl
    · rintro (h | ⟨h, h', -⟩)
      · exact h
      · exact absurd (h.symm.trans h0) h'
  · rw [if_neg h0]
    have add1 : (Links.has { l with classical := l.classical ++ [t.name] } name) ↔ l.has name ∨ t.name = name := by
      unfold Links.has; simp only [List.mem_append, List.mem_singleton, eq_comm (a := name)]; tauto
    have add2 : (Links.has { l with optical := l.optical ++ [t.name] } name) ↔ l.has name ∨ t.name = name := by
      unfold Links.has; simp only [List.mem_append, List.mem_singleton, eq_comm (a := name)]; tauto
    have add3 : (Links.has { l with both := l.both ++ [t.name] } name) ↔ l.has name ∨ t.name = name := by
      unfold Links.has; simp only [List.mem_append, List.mem_singleton, eq_comm (a := name)]; tauto
    have hne : t.name = name → name ≠ s.name := fun e => e ▸ h0
    rcases touches t.optical n.optical with _ | _ <;> rcases touches t.classical n.classical with _ | _ <;> dsimp only
    · simp
    all_goals
      split_ifs <;> first | rw [add1] | rw [add2] | rw [add3]
    all_goals
      constructor
      · rintro (h | h)
        · exact Or.inl h
        · exact Or.inr ⟨h, hne h, by simp⟩
      · rintro (h | h)
        · exact Or.inl h
        · exact Or.inr h.1

theorem mem_generalLinks (s : Station) (all : List Station) (n : GlobalNode) (name : List Char) :
    (generalLinks s all n).has name ↔ ∃ t ∈ all, t.name = name ∧ name ≠ s.name ∧ Has t n := by
  unfold generalLinks
  generalize decide (localChannels s.optical n.optical ≠ []) = oh
  generalize decide (localChannels s.classical n.classical ≠ []) = kh
  have : ∀ (ts : List Station) (l : Links), (ts.foldl (linkStep s n oh kh) l).has name ↔ l.has name ∨ ∃ t ∈ ts, t.name = name ∧ name ≠ s.name ∧ Has t n := by
    intro ts
    induction ts with
    | nil => intro l; simp
    | cons t ts ih =>
      intro l
      rw [List.foldl_cons, ih, linkStep_has, List.exists_mem_cons_iff, or_assoc]
  rw [this]
  simp [Links.has]

theorem mem_rawLinks (s : Station) (all : List Station) (n : GlobalNode) (hh : n.type = .bridge ∨ Has s n) (name : List Char) :
    (rawLinks s all n).has name ↔ ∃ t ∈ all, t.name = name ∧ name ≠ s.name ∧ Shared s t n := by
  unfold rawLinks Shared
  rcases ht : n.type with _ | _ | _
  · simp [Links.has]
  · dsimp only
    rw [← mem_measurementLinks]
    simp [Links.has]
  · have hs : Has s n := by
      rcases hh with hb | hb
      · rw [ht] at hb; cases hb
      · exact hb
    dsimp only
    rw [mem_generalLinks]
    tauto

theorem localNode_eq_none (s : Station) (all : List Station) (i : ℕ) (n : GlobalNode) : localNode s all i n = none ↔ n.type ≠ .bridge ∧ ¬Has s n := by
  unfold localNode
  dsimp only
  have h1 : Has s n ↔ localChannels s.optical n.optical ≠ [] ∨ localChannels s.classical n.classical ≠ [] := by
    rw [localChannels_ne_nil, localChannels_ne_nil]; rfl
  rw [h1]
  split_ifs with h
  · simp only [true_iff]; tauto
  · simp only [reduceCtorEq, false_iff]; tauto

theorem localNode_seen {s : Station} {all : List Station} {i : ℕ} {n : GlobalNode} {m : LocalNode} (h : localNode s all i n = some m) :
    SeenAs s all n m ∧ m.identifier = if m.named = [] then none else some (symbolNumber i) := by
  have hh : n.type = .bridge ∨ Has s n := by
    by_contra hc
    rw [not_or] at hc
    rw [(localNode_eq_none s all i n).2 hc] at h
    cases h
  have h0 : ¬(n.type ≠ .bridge ∧ localChannels s.optical n.optical = [] ∧ localChannels s.classical n.classical = []) := by
    intro hc
    unfold localNode at h
    rw [if_pos hc] at h
    cases h
  unfold localNode at h
  dsimp only at h
  rw [if_neg h0] at h
  have hm := (Option.some.inj h).symm
  have hnamed : ∀ name, name ∈ m.named ↔ (rawLinks s all n).has name := by
    intro name
    rw [hm]
    exact mem_named_merge _ _ _ _ _ name
  refine ⟨⟨by rw [hm], fun l => by rw [hm]; exact mem_localChannels _ _ _, fun l => by rw [hm]; exact mem_localChannels _ _ _,
    fun name => by rw [hnamed]; exact mem_rawLinks s all n hh name⟩, ?_⟩
  have e := merge_ne_nil (rawLinks s all n)
  have e2 : m.named = [] ↔ ¬∃ name, (rawLinks s all n).has name := by
    rw [List.eq_nil_iff_forall_not_mem]
    simp only [hnamed, not_exists]
  by_cases hx : ∃ name, (rawLinks s all n).has name
  · rw [if_neg (by rw [e2]; exact fun h => h hx), hm]
    exact if_pos (e.2 hx)
  · rw [if_pos (e2.2 hx), hm]
    exact if_neg (fun h => hx (e.1 h))

end Verif
