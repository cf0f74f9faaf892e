/-
Lemmas on interference groups as dictionaries.
-/
import Verif.Spec.GroupBook
import Verif.Lemmas.Dict

namespace Verif

open Spec

theorem Book.next_fresh (G : Book) : G.cols.has G.next = false := by
  unfold Book.next
  cases h : (List.range (G.cols.length + 1)).find? (fun n => !G.cols.has n) with
  | some n => simpa using List.find?_some h
  | none =>
    exfalso
    rw [List.find?_eq_none] at h
    have hs : List.range (G.cols.length + 1) ⊆ G.cols.keys := by
      intro n hn
      have := h n hn
      simp only [Bool.not_eq_true, Bool.not_eq_false'] at this
      exact Dict.has_iff.1 this
    have hl := (List.nodup_range (n := G.cols.length + 1)).length_le_of_subset hs
    simp [Dict.keys] at hl

/-- `add_column` in one formula: the column goes to the end of the dictionary, under an unused key. -/
theorem Book.addColumn_eq (G : Book) (c : BookColumn) (k : Option ℕ) :
    ∃ n c', G.cols.has n = false ∧ (G.addColumn c k).cols = G.cols ++ [(n, c')] ∧ (G.addColumn c k).gid = G.gid ∧ (G.addColumn c k).gprob = G.gprob ∧
      c'.col.states = c.col.states ∧ c'.col.amp = c.col.amp ∧ c'.col.boson = c.col.boson ∧ c'.col.gprob = c.col.gprob ∧
      ((k = some n ∧ c' = c) ∨ ((k = none ∨ ∃ m, k = some m ∧ G.cols.has m = true) ∧ n = G.next ∧ c'.col.id = n ∧ c'.gid = G.gid)) := by
  have hset : ∀ (n : ℕ) (v : BookColumn), G.cols.has n = false → G.cols.set n v = G.cols ++ [(n, v)] := by
    intro n v h
    apply Dict.set_of_not_mem
    intro hm
    rw [Dict.has_iff.2 hm] at h
    cases h
  unfold Book.addColumn
  cases k with
  | none =>
    exact ⟨G.next, _, G.next_fresh, hset _ _ G.next_fresh, rfl, rfl, rfl, rfl, rfl, rfl, Or.inr ⟨Or.inl rfl, rfl, rfl, rfl⟩⟩
  | some m =>
    cases h : G.cols.has m with
    | true =>
      dsimp only
      rw [if_pos h]
      exact ⟨G.next, _, G.next_fresh, hset _ _ G.next_fresh, rfl, rfl, rfl, rfl, rfl, rfl, Or.inr ⟨Or.inr ⟨m, rfl, h⟩, rfl, rfl, rfl⟩⟩
    | false =>
      dsimp only
      rw [if_neg (by rw [h]; exact Bool.false_ne_true)]
      exact ⟨m, c, h, hset _ _ h, rfl, rfl, rfl, rfl, rfl, rfl, Or.inl ⟨rfl, rfl⟩⟩

theorem get?_append_new {d : Dict ℕ BookColumn} {n : ℕ} {c : BookColumn} (h : d.has n = false) (k : ℕ) :
    Dict.get? (d ++ [(n, c)]) k = if k = n then some c else d.get? k := by
  have hm : n ∉ d.keys := fun hm => by rw [Dict.has_iff.2 hm] at h; cases h
  rw [← Dict.set_of_not_mem c hm, Dict.get?_set]
  simp only [eq_comm]

theorem pushFirst_some {n : ℕ} {s : AState} {d d' : Dict ℕ BookColumn} (h : pushFirst n s d = some d') :
    ∃ l r k c, d = l ++ (k, c) :: r ∧ d' = l ++ (k, c.push s) :: r ∧ c.col.id = n ∧ ∀ p ∈ l, p.2.col.id ≠ n := by
  induction d generalizing d' with
  | nil => cases h
  | cons p d ih =>
    obtain ⟨k, c⟩ := p
    unfold pushFirst at h
    split at h
    · rename_i hc
      cases h
      exact ⟨[], d, k, c, rfl, rfl, hc, by simp⟩
    · rename_i hc
      cases h' : pushFirst n s d with
      | none => rw [h'] at h; cases h
      | some d1 =>
        rw [h'] at h
        cases h
        obtain ⟨l, r, k1, c1, e1, e2, e3, e4⟩ := ih h'
        refine ⟨(k, c) :: l, r, k1, c1, by rw [e1]; rfl, by rw [e2]; rfl, e3, ?_⟩
        intro p hp
        rcases List.mem_cons.1 hp with rfl | hp
        · exact hc
        · exact e4 p hp

theorem pushFirst_none {n : ℕ} {s : AState} {d : Dict ℕ BookColumn} : pushFirst n s d = none ↔ ∀ p ∈ d, p.2.col.id ≠ n := by
  induction d with
  | nil => simp [pushFirst]
  | cons p d ih =>
    obtain ⟨k, c⟩ := p
    unfold pushFirst
    split
    · rename_i hc; simp [hc]
    · rename_i hc; simp [hc, ih]

theorem get?_replace {l r : Dict ℕ BookColumn} {k : ℕ} {c c' : BookColumn} (hn : ((l ++ (k, c) :: r).map Prod.fst).Nodup) (j : ℕ) :
    Dict.get? (l ++ (k, c') :: r) j = if j = k then some c' else Dict.get? (l ++ (k, c) :: r) j := by
  induction l with
  | nil => simp [Dict.get?_cons]; grind
  | cons p l ih =>
    obtain ⟨a, b⟩ := p
    simp only [List.cons_append, List.map_cons, List.nodup_cons] at hn
    have hne : a ≠ k := fun h => hn.1 (by simp [h])
    simp only [List.cons_append, Dict.get?_cons]
    by_cases h : a = j
    · subst h; simp [hne]
    · simp [h, ih hn.2]

theorem get?_map_snd (f : BookColumn → BookColumn) (d : Dict ℕ BookColumn) (k : ℕ) :
    Dict.get? (d.map (fun p => (p.1, f p.2))) k = (d.get? k).map f := by
  induction d with
  | nil => rfl
  | cons p d ih =>
    obtain ⟨a, b⟩ := p
    simp only [List.map_cons, Dict.get?_cons]
    split
    · rfl
    · exact ih

theorem StillThere.refl (c : BookColumn) : StillThere c c := ⟨rfl, rfl, rfl, List.prefix_rfl⟩

theorem StillThere.trans {a b c : BookColumn} (h : StillThere a b) (h' : StillThere b c) : StillThere a c :=
  ⟨h'.ident.trans h.ident, h'.amp.trans h.amp, h'.boson.trans h.boson, h.states.trans h'.states⟩

/-- What one call does to the group. -/
structure Grows (G G' : Book) (l : List PState) : Prop where
  nodup : DistinctIds G → DistinctIds G'
  states : G'.states.Perm (G.states ++ l)
  there : DistinctIds G → ∀ (k : ℕ) (c : BookColumn), G.extract k = some c → ∃ c', G'.extract k = some c' ∧ StillThere c c'

theorem Grows.trans {G G' G'' : Book} {l l' : List PState} (h : Grows G G' l) (h' : Grows G' G'' l') : Grows G G'' (l ++ l') where
  nodup hn := h'.nodup (h.nodup hn)
  states := by
    rw [← List.append_assoc]
    exact h'.states.trans (h.states.append_right _)
  there hn k c hc := by
    obtain ⟨c', e, s⟩ := h.there hn k c hc
    obtain ⟨c'', e', s'⟩ := h'.there (h.nodup hn) k c' e
    exact ⟨c'', e', StillThere.trans s s'⟩

theorem grows_addColumn (G : Book) (c : BookColumn) (k : Option ℕ) : Grows G (G.addColumn c k) c.col.states := by
  obtain ⟨n, c', hn, e, _, _, es, _⟩ := G.addColumn_eq c k
  have hm : n ∉ G.cols.map Prod.fst := fun hm => by rw [Dict.has_iff.2 (by exact hm)] at hn; cases hn
  refine ⟨fun h => ?_, ?_, fun _ j d hd => ?_⟩
  · unfold DistinctIds at h ⊢
    rw [e, List.map_append, List.nodup_append]
    refine ⟨h, by simp, ?_⟩
    intro a ha b hb
    simp only [List.map_cons, List.map_nil, List.mem_singleton] at hb
    subst hb
    exact fun hab => hm (hab ▸ ha)
  · unfold Book.states
    rw [e, List.flatMap_append]
    simp [es]
  · refine ⟨d, ?_, StillThere.refl d⟩
    unfold Book.extract at hd ⊢
    rw [e, get?_append_new hn, if_neg, hd]
    rintro rfl
    have := Dict.has_iff.2 (Dict.mem_keys_iff.2 ⟨d, hd⟩)
    rw [this] at hn
    cases hn

theorem StillThere.push (c : BookColumn) (s : AState) : StillThere c (c.push s) := ⟨rfl, rfl, rfl, List.prefix_append _ _⟩

theorem columnOfState_states (s : AState) : (columnOfState s).col.states = [⟨s.q, s.aux.bind (·.info)⟩] := by
  unfold columnOfState
  dsimp only
  split <;> rfl

theorem grows_addStateAt (G : Book) (n : ℕ) (s : AState) : Grows G (G.addStateAt n s) [⟨s.q, s.aux.bind (·.info)⟩] := by
  unfold Book.addStateAt
  split
  · rename_i d h
    obtain ⟨l, r, k, c, e1, e2, _, _⟩ := pushFirst_some h
    refine ⟨fun h => ?_, ?_, fun h j c1 hc1 => ?_⟩
    · unfold DistinctIds at h ⊢
      rw [e1] at h
      dsimp only
      rw [e2]
      simpa using h
    · unfold Book.states
      dsimp only
      rw [e1, e2]
      simp only [List.flatMap_append, List.flatMap_cons, BookColumn.push, List.append_assoc]
      exact ((List.perm_append_comm (l₁ := [_]) (l₂ := r.flatMap _)).append_left _).append_left _
    · unfold DistinctIds at h
      unfold Book.extract at hc1 ⊢
      dsimp only
      rw [e1] at h hc1
      rw [e2, get?_replace h]
      split
      · rename_i hj
        subst hj
        refine ⟨_, rfl, ?_⟩
        have hk := Dict.get?_of_mem (d := l ++ (j, c) :: r) h (List.mem_append_right _ List.mem_cons_self)
        rw [hk] at hc1
        cases hc1
        exact StillThere.push _ _
      · exact ⟨c1, hc1, StillThere.refl _⟩
  · have := grows_addColumn G (columnOfState s) (some n)
    rwa [columnOfState_states] at this

theorem grows_addState {G G' : Book} {s : AState} {k : Option ℕ} (h : G.addState s k = some G') : Grows G G' [⟨s.q, s.aux.bind (·.info)⟩] := by
  unfold Book.addState at h
  split at h
  · cases h; exact grows_addStateAt G _ s
  · split at h
    · cases h
      rename_i hs
      have := grows_addColumn G (columnOfState s) none
      rwa [columnOfState_states] at this
    · cases h; exact grows_addStateAt G _ s
    · split at h
      · cases h
        have := grows_addColumn G (columnOfState s) (some 0)
        rwa [columnOfState_states] at this
      · cases h

theorem grows_map (G : Book) (f : BookColumn → BookColumn) (hf : ∀ c, StillThere c (f c) ∧ (f c).col.states = c.col.states) (n : ℕ) (p : ℝ) :
    Grows G ⟨n, p, G.cols.map (fun x => (x.1, f x.2))⟩ [] where
  nodup h := by
    unfold DistinctIds at h ⊢
    simpa [List.map_map, Function.comp_def] using h
  states := by
    unfold Book.states
    simp [List.flatMap_map, (hf _).2]
  there _ k c hc := by
    unfold Book.extract at hc ⊢
    dsimp only
    rw [get?_map_snd, hc]
    exact ⟨_, rfl, (hf c).1⟩

theorem grows_step {G G' : Book} {o : BookOp} (h : G.step o = some G') : Grows G G' (handedOver o) := by
  cases o with
  | addColumn c k => cases h; exact grows_addColumn G c k
  | addState s k => exact grows_addState h
  | setGid n => cases h; exact grows_map G (fun c => { c with gid := n }) (fun c => ⟨⟨rfl, rfl, rfl, List.prefix_rfl⟩, rfl⟩) _ _
  | setProb p =>
    cases h
    exact grows_map G (fun c => { c with col := { c.col with gprob := p } }) (fun c => ⟨⟨rfl, rfl, rfl, List.prefix_rfl⟩, rfl⟩) _ _

theorem grows_run {G G' : Book} {ops : List BookOp} (h : G.run ops = some G') : Grows G G' (ops.flatMap handedOver) := by
  unfold Book.run at h
  induction ops generalizing G with
  | nil =>
    simp only [List.foldlM_nil] at h
    cases h
    exact ⟨id, by simp, fun _ k c hc => ⟨c, hc, StillThere.refl c⟩⟩
  | cons o ops ih =>
    simp only [List.foldlM_cons, Option.bind_eq_bind, Option.bind_eq_some_iff] at h
    obtain ⟨G1, h1, h2⟩ := h
    rw [List.flatMap_cons]
    exact (grows_step h1).trans (ih h2)

end Verif
