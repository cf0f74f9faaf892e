/-
C123: bookkeeping of an interference group over all histories of `add_column`, `add_state` and assignments to its two attributes.
-/
import Verif.Lemmas.GroupBook
import Verif.Lemmas.Spectral

namespace Verif.Props

open Verif Spec

/-- **C123** Nothing is lost or overwritten: after any history of calls the states of the group are those it had and those handed over, each once; every column is still found under
its identifier, with its states in the same order (new ones behind them); the identifiers are different. -/
theorem C123_nothing_lost (G G' : Book) (ops : List BookOp) (h : G.run ops = some G') (hd : DistinctIds G) :
    DistinctIds G' ∧ G'.states.Perm (G.states ++ ops.flatMap handedOver) ∧
      ∀ (k : ℕ) (c : BookColumn), G.extract k = some c → ∃ c', G'.extract k = some c' ∧ StillThere c c' :=
  ⟨(grows_run h).nodup hd, (grows_run h).states, (grows_run h).there hd⟩

/-- **C123** The calls do not raise for states that have a column identifier or no photon information at all. -/
theorem C123_defined (G : Book) (ops : List BookOp) (h : ∀ o ∈ ops, Placed o) : (G.run ops).isSome := by
  unfold Book.run
  induction ops generalizing G with
  | nil => rfl
  | cons o ops ih =>
    have : ∃ G1, G.step o = some G1 := by
      cases o with
      | addColumn c k => exact ⟨_, rfl⟩
      | setGid n => exact ⟨_, rfl⟩
      | setProb p => exact ⟨_, rfl⟩
      | addState s k =>
        have hp := h _ List.mem_cons_self
        cases k with
        | some n => exact ⟨_, rfl⟩
        | none =>
          simp only [Placed] at hp
          simp only [Book.step, Book.addState]
          cases hs : s.aux with
          | none => exact ⟨_, rfl⟩
          | some a =>
            obtain ⟨info, col⟩ := a
            cases col with
            | none => exact absurd rfl (hp _ hs)
            | some ci => exact ⟨_, rfl⟩
    obtain ⟨G1, e⟩ := this
    simp only [List.foldlM_cons, Option.bind_eq_bind, e, Option.bind_some]
    exact ih G1 (fun o' ho' => h o' (List.mem_cons_of_mem _ ho'))

/-- **C123** `add_column` stores the column under an identifier that was not used; all other columns are unchanged. Without an identifier, or with one that is used, the column gets
the new identifier and the identifier of the group; an identifier that was not used is respected. -/
theorem C123_add_column (G : Book) (c : BookColumn) (k : Option ℕ) :
    ∃ (n : ℕ) (c' : BookColumn), G.extract n = none ∧ (∀ j : ℕ, (G.addColumn c k).extract j = if j = n then some c' else G.extract j) ∧
      c'.col.states = c.col.states ∧ c'.col.amp = c.col.amp ∧ c'.col.boson = c.col.boson ∧ c'.col.gprob = c.col.gprob ∧
      (∀ m : ℕ, k = some m → G.extract m = none → n = m) ∧
      (k = none ∨ (∃ m : ℕ, k = some m ∧ G.extract m ≠ none) → c'.col.id = n ∧ c'.gid = G.gid) := by
  obtain ⟨n, c', hn, e, _, _, e1, e2, e3, e4, hk⟩ := G.addColumn_eq c k
  have hnone : ∀ m : ℕ, G.cols.has m = true → G.extract m ≠ none := by
    intro m hm h
    unfold Dict.has at hm
    unfold Book.extract at h
    rw [h] at hm
    cases hm
  have hsome : ∀ m : ℕ, G.cols.has m = false → G.extract m = none := by
    intro m hm
    unfold Dict.has at hm
    unfold Book.extract
    simpa using hm
  refine ⟨n, c', hsome n hn, ?_, e1, e2, e3, e4, ?_, ?_⟩
  · intro j
    unfold Book.extract
    rw [e, get?_append_new hn]
  · intro m hm hx
    rcases hk with ⟨h1, _⟩ | ⟨h1 | ⟨m', h1, h2⟩, _⟩
    · rw [hm] at h1; cases h1; rfl
    · rw [hm] at h1; cases h1
    · rw [hm] at h1; cases h1; exact absurd hx (hnone m h2)
  · intro hx
    rcases hk with ⟨h1, _⟩ | ⟨_, _, h2, h3⟩
    · subst h1
      rcases hx with hx | ⟨m, hx, h2⟩
      · cases hx
      · cases hx; exact absurd (hsome n hn) h2
    · exact ⟨h2, h3⟩

theorem get?_mem_iff_of_distinct {G : Book} (hd : DistinctIds G) {k : ℕ} {c : BookColumn} : (k, c) ∈ G.cols ↔ G.extract k = some c :=
  ⟨fun h => Dict.get?_of_mem hd h, fun h => Dict.get?_mem h⟩

/-- **C123** A state that is added with the identifier of a column (given in the call, or its own) goes to the end of this column, and nothing else changes, in a group whose columns
carry their identifiers. -/
theorem C123_join_partial (G : Book) (hd : DistinctIds G) (ho : CarriesOwnId G) (s : AState) (k : Option ℕ) (n : ℕ) (hk : k = some n ∨ (k = none ∧ ownId s = some n))
    (c : BookColumn) (hc : G.extract n = some c) :
    ∃ G', G.addState s k = some G' ∧ (∀ j : ℕ, j ≠ n → G'.extract j = G.extract j) ∧
      G'.extract n = some { c with col := { c.col with states := c.col.states ++ [⟨s.q, s.aux.bind (·.info)⟩] } } := by
  have e : G.addState s k = some (G.addStateAt n s) := by
    rcases hk with rfl | ⟨rfl, h⟩
    · rfl
    · unfold ownId at h
      unfold Book.addState
      cases ha : s.aux with
      | none => rw [ha] at h; cases h
      | some a =>
        obtain ⟨i, col⟩ := a
        cases col with
        | none => rw [ha] at h; cases h
        | some ci => rw [ha] at h; cases h; rfl
  refine ⟨_, e, ?_⟩
  unfold Book.addStateAt
  cases hp : pushFirst n s G.cols with
  | none => exact absurd (ho n c hc) (pushFirst_none.1 hp _ (Dict.get?_mem hc))
  | some d =>
    obtain ⟨l, r, k1, c1, e1, e2, e3, e4⟩ := pushFirst_some hp
    have hm : (k1, c1) ∈ G.cols := by rw [e1]; exact List.mem_append_right _ List.mem_cons_self
    have hk1 := (get?_mem_iff_of_distinct hd).1 hm
    have : k1 = n := by rw [← e3]; exact (ho k1 c1 hk1).symm
    subst this
    rw [hc] at hk1
    cases hk1
    have hd' := hd
    unfold DistinctIds at hd'
    rw [e1] at hd'
    constructor
    · intro j hj
      unfold Book.extract
      dsimp only
      rw [e2, get?_replace hd', if_neg hj, e1]
    · unfold Book.extract
      dsimp only
      rw [e2, get?_replace hd', if_pos rfl]
      rfl

/-- **C123** A state without photon information that is added without an identifier gets a column of its own, under an identifier that was not used; nothing else changes. -/
theorem C123_new_column (G : Book) (s : AState) (hs : s.aux = none) :
    ∃ (G' : Book) (n : ℕ) (c : BookColumn), G.addState s none = some G' ∧ G.extract n = none ∧ c.col.states = [⟨s.q, none⟩] ∧ c.col.id = n ∧ c.gid = G.gid ∧
      ∀ j : ℕ, G'.extract j = if j = n then some c else G.extract j := by
  obtain ⟨n, c', h1, h2, h3, _, _, _, _, h4⟩ := C123_add_column G (columnOfState s) none
  obtain ⟨h5, h6⟩ := h4 (Or.inl rfl)
  refine ⟨_, n, c', ?_, h1, ?_, h5, h6, h2⟩
  · unfold Book.addState
    rw [hs]
  · rw [h3, columnOfState_states, hs]
    rfl

theorem columnOfState_id (s : AState) : (columnOfState s).col.id = (ownId s).getD 0 := by
  unfold columnOfState ownId
  dsimp only
  cases s.aux.bind (·.col) <;> rfl

theorem carries_addColumn {G : Book} (ho : CarriesOwnId G) {c : BookColumn} {k : Option ℕ} (hk : k = none ∨ k = some c.col.id) : CarriesOwnId (G.addColumn c k) := by
  obtain ⟨n, c', hn, e, _, _, _, _, _, _, h⟩ := G.addColumn_eq c k
  intro j d hj
  unfold Book.extract at hj
  rw [e, get?_append_new hn] at hj
  split at hj
  · rename_i hjn
    cases hj
    rcases h with ⟨h1, h2⟩ | ⟨_, _, h2, _⟩
    · rw [h2]
      rcases hk with hk | hk
      · rw [hk] at h1; cases h1
      · rw [hk] at h1; cases h1; exact hjn.symm
    · rw [h2, hjn]
  · exact ho j d hj

theorem carries_addStateAt {G : Book} (hd : DistinctIds G) (ho : CarriesOwnId G) {s : AState} {n : ℕ} (hn : (columnOfState s).col.id = n) : CarriesOwnId (G.addStateAt n s) := by
  unfold Book.addStateAt
  cases hp : pushFirst n s G.cols with
  | none => exact carries_addColumn ho (Or.inr (by rw [hn]))
  | some d =>
    obtain ⟨l, r, k1, c1, e1, e2, e3, e4⟩ := pushFirst_some hp
    have hd' := hd
    unfold DistinctIds at hd'
    rw [e1] at hd'
    intro j b hj
    unfold Book.extract at hj
    dsimp only at hj
    rw [e2, get?_replace hd'] at hj
    split at hj
    · rename_i hjk
      cases hj
      subst hjk
      exact ho j c1 ((get?_mem_iff_of_distinct hd).1 (by rw [e1]; exact List.mem_append_right _ List.mem_cons_self))
    · rw [← e1] at hj
      exact ho j b hj

/-- **C123** (positive part) If no call names an identifier that differs from the one the column or state has anyway, every column carries the identifier under which it is stored. -/
theorem C123_own_identifier_partial (G G' : Book) (ops : List BookOp) (hops : ∀ o ∈ ops, NamesOwnId o) (h : G.run ops = some G') (hd : DistinctIds G) (ho : CarriesOwnId G) :
    CarriesOwnId G' := by
  unfold Book.run at h
  induction ops generalizing G with
  | nil => simp only [List.foldlM_nil] at h; cases h; exact ho
  | cons o ops ih =>
    simp only [List.foldlM_cons, Option.bind_eq_bind, Option.bind_eq_some_iff] at h
    obtain ⟨G1, h1, h2⟩ := h
    refine ih G1 (fun o' ho' => hops o' (List.mem_cons_of_mem _ ho')) h2 ((grows_step h1).nodup hd) ?_
    have hmap : ∀ (f : BookColumn → BookColumn) (n : ℕ) (p : ℝ), (∀ c, (f c).col.id = c.col.id) → CarriesOwnId ⟨n, p, G.cols.map (fun x => (x.1, f x.2))⟩ := by
      intro f n p hf j c hj
      unfold Book.extract at hj
      dsimp only at hj
      rw [get?_map_snd, Option.map_eq_some_iff] at hj
      obtain ⟨c0, hc0, rfl⟩ := hj
      rw [hf]
      exact ho j c0 hc0
    have hname := hops o List.mem_cons_self
    cases o with
    | setGid n => cases h1; exact hmap (fun c => { c with gid := n }) _ _ (fun _ => rfl)
    | setProb p => cases h1; exact hmap (fun c => { c with col := { c.col with gprob := p } }) _ _ (fun _ => rfl)
    | addColumn c k => cases h1; exact carries_addColumn ho hname
    | addState s k =>
      simp only [NamesOwnId] at hname
      simp only [Book.step, Book.addState] at h1
      cases k with
      | some n =>
        cases h1
        apply carries_addStateAt hd ho
        rw [columnOfState_id]
        rcases hname with hname | hname
        · cases hname
        · rw [← hname]; rfl
      | none =>
        cases hs : s.aux with
        | none =>
          rw [hs] at h1
          cases h1
          exact carries_addColumn ho (Or.inl rfl)
        | some a =>
          obtain ⟨i, col⟩ := a
          rw [hs] at h1
          cases col with
          | some ci =>
            cases h1
            apply carries_addStateAt hd ho
            rw [columnOfState_id, ownId, hs]
            rfl
          | none =>
            dsimp only at h1
            split at h1
            · cases h1
              apply carries_addColumn ho
              right
              rw [columnOfState_id, ownId, hs]
              rfl
            · cases h1

/-- **C123** The three constructors give groups with different identifiers, which the columns carry. -/
theorem C123_constructors (n : Option ℕ) :
    (DistinctIds (Book.empty n) ∧ CarriesOwnId (Book.empty n)) ∧
      (∀ (s : AState) (G : Book), Book.ofState s n = some G → DistinctIds G ∧ CarriesOwnId G ∧ CarryGroupId G ∧ CarryGroupProb G ∧ G.gprob = s.q.cum ∧ G.states = [⟨s.q, s.aux.bind (·.info)⟩]) ∧
      ∀ (c : BookColumn) (l : List BookColumn), DistinctIds (Book.ofColumns c l n) ∧ CarriesOwnId (Book.ofColumns c l n) ∧ CarryGroupId (Book.ofColumns c l n) ∧
        (Book.ofColumns c l n).gprob = c.col.gprob ∧ (Book.ofColumns c l n).states.Perm ((c :: l).flatMap (fun x => x.col.states)) := by
  have hempty : ∀ (m : ℕ) (p : ℝ), DistinctIds ⟨m, p, []⟩ ∧ CarriesOwnId ⟨m, p, []⟩ := fun m p => ⟨by simp [DistinctIds], fun k c h => by cases h⟩
  refine ⟨hempty _ _, ?_, ?_⟩
  · intro s G h
    unfold Book.ofState at h
    rw [Option.map_eq_some_iff] at h
    obtain ⟨G0, h0, hG⟩ := h
    have hrun : Book.run ⟨n.getD 0, 1, []⟩ ([.addState s none, .setGid (((s.aux.bind (·.col)).map (·.gid)).getD 0), .setProb s.q.cum] ++ n.toList.map BookOp.setGid) = some G := by
      unfold Book.run
      simp only [List.cons_append, List.foldlM_cons, Option.bind_eq_bind, Book.step, h0, Option.bind_some, List.nil_append]
      cases n with
      | none => simp only [Option.toList, List.map_nil, List.foldlM_nil]; rw [← hG]; rfl
      | some m => simp only [Option.toList, List.map_cons, List.map_nil, List.foldlM_cons, List.foldlM_nil, Option.bind_eq_bind, Book.step, Option.bind_some]; rw [← hG]; rfl
    obtain ⟨a, b, _⟩ := C123_nothing_lost _ _ _ hrun (hempty _ _).1
    have hc := C123_own_identifier_partial _ _ _ (by
      intro o ho
      simp only [List.cons_append, List.nil_append, List.mem_cons, List.mem_map] at ho
      rcases ho with rfl | rfl | rfl | ⟨_, _, rfl⟩
      · exact Or.inl rfl
      · trivial
      · trivial
      · trivial) hrun (hempty _ _).1 (hempty _ _).2
    have hone : ∃ k c, G.cols = [(k, c)] ∧ c.gid = G.gid ∧ c.col.gprob = G.gprob ∧ G.gprob = s.q.cum := by
      have h0' : ∃ k c, G0.cols = [(k, c)] := by
        unfold Book.addState at h0
        split at h0
        · rename_i hk; cases hk
        · split at h0
          · cases h0; exact ⟨_, _, rfl⟩
          · cases h0; exact ⟨_, _, rfl⟩
          · split at h0
            · cases h0; exact ⟨_, _, rfl⟩
            · cases h0
      obtain ⟨k, c, e⟩ := h0'
      cases n with
      | none => dsimp only at hG; rw [← hG]; exact ⟨_, _, by simp only [Book.setGid, Book.setProb, e, List.map_cons, List.map_nil]; rfl, rfl, rfl, rfl⟩
      | some m => dsimp only at hG; rw [← hG]; exact ⟨_, _, by simp only [Book.setGid, Book.setProb, e, List.map_cons, List.map_nil]; rfl, rfl, rfl, rfl⟩
    obtain ⟨k, c, e, e1, e2, e3⟩ := hone
    have hx : ∀ j d, G.extract j = some d → d = c := by
      intro j d hj
      have := Dict.get?_mem hj
      rw [e] at this
      simp only [List.mem_singleton, Prod.mk.injEq] at this
      exact this.2
    refine ⟨a, hc, fun j d hj => by rw [hx j d hj, e1], fun j d hj => by rw [hx j d hj, e2], e3, ?_⟩
    have hb : G.states.Perm [⟨s.q, s.aux.bind (·.info)⟩] := by
      cases n <;> simpa [Book.states, handedOver] using b
    exact List.perm_singleton.1 hb
  · intro c l
    have hrun : Book.run ⟨n.getD 0, c.col.gprob, []⟩ ((c :: l).map (fun x => BookOp.addColumn x (some x.col.id)) ++ [.setGid (n.getD c.gid)]) = some (Book.ofColumns c l n) := by
      have : ∀ (l : List BookColumn) (G : Book), Book.run G (l.map (fun x => BookOp.addColumn x (some x.col.id)) ++ [.setGid (n.getD c.gid)]) =
          some ((l.foldl (fun (G : Book) (x : BookColumn) => G.addColumn x (some x.col.id)) G).setGid (n.getD c.gid)) := by
        intro l
        induction l with
        | nil => intro G; rfl
        | cons x l ih =>
          intro G
          rw [List.map_cons, List.cons_append, List.foldl_cons, ← ih]
          rfl
      exact this (c :: l) _
    obtain ⟨a, b, _⟩ := C123_nothing_lost _ _ _ hrun (hempty _ _).1
    have hc := C123_own_identifier_partial _ _ _ (by
      intro o ho
      simp only [List.mem_append, List.mem_map, List.mem_singleton] at ho
      rcases ho with ⟨x, _, rfl⟩ | rfl
      · exact Or.inr rfl
      · trivial) hrun (hempty _ _).1 (hempty _ _).2
    refine ⟨a, hc, ?_, ?_, ?_⟩
    · intro j d hj
      unfold Book.ofColumns Book.setGid Book.extract at hj
      dsimp only at hj
      rw [get?_map_snd (fun x => { x with gid := n.getD c.gid }), Option.map_eq_some_iff] at hj
      obtain ⟨d0, _, rfl⟩ := hj
      rfl
    · have : ∀ (l : List BookColumn) (G : Book), (l.foldl (fun (G : Book) (x : BookColumn) => G.addColumn x (some x.col.id)) G).gprob = G.gprob := by
        intro l
        induction l with
        | nil => intro G; rfl
        | cons x l ih =>
          intro G
          rw [List.foldl_cons, ih]
          obtain ⟨_, _, _, _, _, e, _⟩ := G.addColumn_eq x (some x.col.id)
          exact e
      exact this (c :: l) _
    · refine b.trans ?_
      simp [Book.states, List.flatMap_append, List.flatMap_map, handedOver]

/-- **C123** Assigning one of the two attributes reaches every column. -/
theorem C123_assign (G : Book) (n : ℕ) (p : ℝ) : CarryGroupId (G.setGid n) ∧ (G.setGid n).gid = n ∧ CarryGroupProb (G.setProb p) ∧ (G.setProb p).gprob = p := by
  refine ⟨?_, rfl, ?_, rfl⟩
  · intro j d hj
    unfold Book.setGid Book.extract at hj
    dsimp only at hj
    rw [get?_map_snd (fun x => { x with gid := n }), Option.map_eq_some_iff] at hj
    obtain ⟨d0, _, rfl⟩ := hj
    rfl
  · intro j d hj
    unfold Book.setProb Book.extract at hj
    dsimp only at hj
    rw [get?_map_snd (fun c => { c with col := { c.col with gprob := p } }), Option.map_eq_some_iff] at hj
    obtain ⟨d0, _, rfl⟩ := hj
    rfl

/-- A state for the examples: no photon information. -/
def bookState (q : QState) : AState := ⟨q, none⟩

/-- A history that meets the hypotheses: a state without photon information, then two states of column 3, then a column whose identifier 3 is used and that is renamed to 1. -/
example (q : QState) (i : Option PInfo) (c : BookColumn) (hc : c.col.id = 3) :
    ∃ (G : Book) (c0 c3 c1 : BookColumn), (Book.empty (some 5)).run [.addState ⟨q, none⟩ none, .addState ⟨q, some ⟨i, some ⟨5, 3, 1, 1, 1⟩⟩⟩ none,
        .addState ⟨q, some ⟨i, some ⟨5, 3, 1, 1, 1⟩⟩⟩ none, .addColumn c (some 3)] = some G ∧ G.cols = [(0, c0), (3, c3), (1, c1)] ∧ c3.col.states = [⟨q, i⟩, ⟨q, i⟩] ∧ c1.col.id = 1 ∧
      CarriesOwnId G ∧ DistinctIds G := by
  refine ⟨_, _, _, _, rfl, rfl, rfl, rfl, ?_, ?_⟩
  · refine C123_own_identifier_partial (Book.empty (some 5)) _ [.addState ⟨q, none⟩ none, .addState ⟨q, some ⟨i, some ⟨5, 3, 1, 1, 1⟩⟩⟩ none,
        .addState ⟨q, some ⟨i, some ⟨5, 3, 1, 1, 1⟩⟩⟩ none, .addColumn c (some 3)] ?_ rfl (C123_constructors _).1.1 (C123_constructors _).1.2
    intro o ho
    simp only [List.mem_cons, List.not_mem_nil, or_false] at ho
    rcases ho with rfl | rfl | rfl | rfl
    · exact Or.inl rfl
    · exact Or.inl rfl
    · exact Or.inl rfl
    · exact Or.inr (by rw [hc])
  · exact (C123_nothing_lost (Book.empty (some 5)) _ [.addState ⟨q, none⟩ none, .addState ⟨q, some ⟨i, some ⟨5, 3, 1, 1, 1⟩⟩⟩ none,
        .addState ⟨q, some ⟨i, some ⟨5, 3, 1, 1, 1⟩⟩⟩ none, .addColumn c (some 3)] rfl (C123_constructors _).1.1).1

/-- **C123** (violated) Two states without photon information that are added to a new group with the same column_identifier `n` (not 0) do not share a column: the group has two
columns, and neither of them carries the identifier `n`. -/
theorem C123_join_fails (q1 q2 : QState) (n : ℕ) (hn : n ≠ 0) :
    ∃ (G : Book) (c1 c2 : BookColumn), (Book.empty none).run [.addState (bookState q1) (some n), .addState (bookState q2) (some n)] = some G ∧ G.cols = [(n, c1), (0, c2)] ∧
      c1.col.states = [⟨q1, none⟩] ∧ c2.col.states = [⟨q2, none⟩] ∧ c1.col.id ≠ n ∧ c2.col.id ≠ n ∧ ¬ CarriesOwnId G := by
  have h0 : n = 0 ↔ False := by simp [hn]
  have h0' : 0 = n ↔ False := by simp [hn.symm]
  refine ⟨⟨0, 1, [(n, columnOfState (bookState q1)), (0, columnOfState (bookState q2))]⟩, columnOfState (bookState q1), columnOfState (bookState q2), ?_, rfl, rfl, rfl, hn.symm, hn.symm, ?_⟩
  · have e1 : (Book.empty none).addStateAt n (bookState q1) = ⟨0, 1, [(n, columnOfState (bookState q1))]⟩ := rfl
    have hid : (columnOfState (bookState q1)).col.id = n ↔ False := h0'
    have hnext : Book.next ⟨0, 1, [(n, columnOfState (bookState q1))]⟩ = 0 := by
      simp [Book.next, Dict.has, Dict.get?_cons, hn, List.range_succ]
    have e2 : Book.addStateAt ⟨0, 1, [(n, columnOfState (bookState q1))]⟩ n (bookState q2) =
        ⟨0, 1, [(n, columnOfState (bookState q1)), (0, columnOfState (bookState q2))]⟩ := by
      simp only [Book.addStateAt, pushFirst, hid, if_false, Option.map_none, Book.addColumn, Dict.has, Dict.get?_cons, if_true, Option.isSome_some, Book.addFresh, hnext, Dict.set, h0]
      rfl
    unfold Book.run
    simp only [List.foldlM_cons, List.foldlM_nil, Option.bind_eq_bind, Book.step, Book.addState, Option.bind_some, e1, e2]
    rfl
  · intro h
    have := h n (columnOfState (bookState q1)) (by simp [Book.extract, Dict.get?_cons])
    exact hn this.symm

/-- **C123** (violated) A group made from columns with different cumulative probabilities takes the one of the first column; the other columns keep theirs. -/
theorem C123_probability_fails (c d : BookColumn) (h : c.col.gprob ≠ d.col.gprob) (n : Option ℕ) : ¬ CarryGroupProb (Book.ofColumns c [d] n) := by
  intro hc
  have hp := (C123_constructors n).2.2 c [d]
  have hgp := hp.2.2.2.1
  have : ∃ (k : ℕ) (d' : BookColumn), (Book.ofColumns c [d] n).extract k = some d' ∧ d'.col.gprob = d.col.gprob := by
    unfold Book.ofColumns Book.setGid Book.extract
    dsimp only
    simp only [List.foldl_cons, List.foldl_nil]
    obtain ⟨k, d', hk, e, _, _, _, _, _, e4, _⟩ := (Book.addColumn ⟨n.getD 0, c.col.gprob, []⟩ c (some c.col.id)).addColumn_eq d (some d.col.id)
    refine ⟨k, { d' with gid := n.getD c.gid }, ?_, e4⟩
    rw [get?_map_snd (fun x => { x with gid := n.getD c.gid }), e, get?_append_new hk, if_pos rfl]
    rfl
  obtain ⟨k, d', e1, e2⟩ := this
  have := hc k d' e1
  rw [e2, hgp] at this
  exact h this.symm

/-- **C123** (violated) A column that is added with an unused identifier keeps its own column identifier and group identifier, whatever they are. -/
theorem C123_carries_fails (G : Book) (c : BookColumn) (n : ℕ) (h : G.extract n = none) :
    (G.addColumn c (some n)).extract n = some c ∧ (c.col.id ≠ n → ¬ CarriesOwnId (G.addColumn c (some n))) ∧ (c.gid ≠ G.gid → ¬ CarryGroupId (G.addColumn c (some n))) := by
  have hn : G.cols.has n = false := by
    unfold Book.extract at h
    unfold Dict.has
    rw [h]
    rfl
  have e : G.addColumn c (some n) = { G with cols := G.cols.set n c } := by
    unfold Book.addColumn
    dsimp only
    rw [if_neg (by rw [hn]; exact Bool.false_ne_true)]
  have e1 : (G.addColumn c (some n)).extract n = some c := by
    rw [e]
    unfold Book.extract
    rw [Dict.get?_set, if_pos rfl]
  refine ⟨e1, fun hc ho => hc (ho n c e1), fun hc ho => hc ?_⟩
  have := ho n c e1
  rw [e] at this
  exact this

/-- The simpler description of a group as a list of columns, on which C51 to C66 and C100 to C109 rest, agrees with the dictionary: a state of a column is added in the same way. -/
theorem C123_list_of_columns (G : Book) (ho : CarriesOwnId G) (q : QState) (i : Option PInfo) (ci : ColInfo) :
    ∃ G', G.addState ⟨q, some ⟨i, some ci⟩⟩ none = some G' ∧ G'.cols.map (fun p => p.2.col) = addToColumns ⟨q, i⟩ ci (G.cols.map (fun p => p.2.col)) := by
  refine ⟨_, rfl, ?_⟩
  unfold Book.addStateAt
  cases hp : pushFirst ci.cid ⟨q, some ⟨i, some ci⟩⟩ G.cols with
  | some d =>
    dsimp only
    revert hp
    generalize G.cols = l
    intro hp
    induction l generalizing d with
    | nil => cases hp
    | cons p l ih =>
      obtain ⟨k, c⟩ := p
      unfold pushFirst at hp
      rw [List.map_cons, addToColumns]
      split at hp
      · rename_i hc
        cases hp
        rw [if_pos hc]
        rfl
      · rename_i hc
        rw [if_neg hc]
        rw [Option.map_eq_some_iff] at hp
        obtain ⟨d1, h1, rfl⟩ := hp
        rw [List.map_cons, ih d1 h1]
  | none =>
    have hno := pushFirst_none.1 hp
    have hn : G.cols.has ci.cid = false := by
      rw [Bool.eq_false_iff]
      intro h
      obtain ⟨c, hc⟩ := Dict.mem_keys_iff.1 (Dict.has_iff.1 h)
      exact hno _ (Dict.get?_mem hc) (ho _ c hc)
    dsimp only
    unfold Book.addColumn
    dsimp only
    rw [if_neg (by rw [hn]; exact Bool.false_ne_true)]
    dsimp only
    rw [Dict.set_of_not_mem _ (fun hm => by rw [Dict.has_iff.2 hm] at hn; cases hn), List.map_append]
    rw [addToColumns_new _ _ _ (by
      intro c hc
      obtain ⟨p, hp, rfl⟩ := List.mem_map.1 hc
      exact hno p hp)]
    rfl

/-- The next free identifier of a group whose columns carry their identifiers is the one of the list of columns. -/
theorem C123_next_identifier (G : Book) (h : ∀ p ∈ G.cols, p.2.col.id = p.1) : G.next = nextColumnId (G.cols.map (fun p => p.2.col)) := by
  unfold Book.next nextColumnId
  have e : (G.cols.map (fun p => p.2.col)).map (·.id) = G.cols.keys := by
    unfold Dict.keys
    rw [List.map_map]
    exact List.map_congr_left (fun p hp => h p hp)
  rw [e, List.length_map]
  congr 2
  funext n
  congr 1
  rw [Bool.eq_iff_iff, Dict.has_iff, List.contains_iff_mem]

end Verif.Props
