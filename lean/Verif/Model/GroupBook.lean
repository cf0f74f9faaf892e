/-
Interference groups as objects a user builds up: constructor, add_column, add_state, the two setters. Models interference_group.py 227-329, 383-486 and
column_of_states.py 211-215, 300-335, 341-389, 413-431 in src/fock_state_circuit/temporal_and_spectral_gate_functionality/.
Exceptions are `none`. Model/Columns describes what the columns mean; here the dictionary in which the group stores them is added, with the parameters that code and columns
keep separately. Simplification: every State and every ColumnOfStates object is given to a group once (an object given twice would be shared); identifiers are natural numbers.
-/
import Verif.Model.Spectral

namespace Verif

/-- column_of_states.py 211-215: `ColumnOfStates` with the identifier of its group, `column['interference_group_identifier']`. -/
structure BookColumn where
  col : Column
  gid : ℕ

/-- interference_group.py 263-264, 311-329: `InterferenceGroup`: 'interference_group_identifier', 'group_cumulative_probability' and the dictionary `_interference_group_dict`. -/
structure Book where
  gid : ℕ
  gprob : ℝ
  cols : Dict ℕ BookColumn

/-- column_of_states.py 300-320: `ColumnOfStates(state=s)`: the five parameters come from the state if it has them, otherwise from `_DEFAULT_COLUMN_VALUES` (lines 211-215). -/
def columnOfState (s : AState) : BookColumn :=
  let info := s.aux.bind (·.info)
  match s.aux.bind (·.col) with
  | some ci => ⟨{ states := [⟨s.q, info⟩], amp := ci.amp, boson := ci.boson, gprob := ci.gprob, id := ci.cid }, ci.gid⟩
  | none => ⟨{ states := [⟨s.q, info⟩], amp := 1, boson := 1, gprob := 1, id := 0 }, 0⟩

/-- interference_group.py 383-388: `set_next_new_column_identifier`: the first number that is not a key. -/
def Book.next (G : Book) : ℕ := ((List.range (G.cols.length + 1)).find? (fun n => !G.cols.has n)).getD G.cols.length

/-- interference_group.py 413-417: the column is stored under the next free identifier and carries this identifier and the one of the group. -/
def Book.addFresh (G : Book) (c : BookColumn) : Book := { G with cols := G.cols.set G.next ⟨{ c.col with id := G.next }, G.gid⟩ }

/-- interference_group.py 396-420: `add_column`. With an unused identifier only the key is set, not the parameters of the column (line 419). -/
def Book.addColumn (G : Book) (c : BookColumn) (k : Option ℕ) : Book :=
  match k with
  | none => G.addFresh c
  | some n => if G.cols.has n then G.addFresh c else { G with cols := G.cols.set n c }

/-- column_of_states.py 413-431: `ColumnOfStates.add_state`: the state takes the parameters of the column. -/
def BookColumn.push (c : BookColumn) (s : AState) : BookColumn :=
  { c with col := { c.col with states := c.col.states ++ [⟨s.q, s.aux.bind (·.info)⟩] } }

/-- interference_group.py 451-454, 461-464, 474-477: the loop over the columns: the state is added to the first column with this column_identifier. `none`: no such column. -/
def pushFirst (n : ℕ) (s : AState) : Dict ℕ BookColumn → Option (Dict ℕ BookColumn)
  | [] => none
  | (k, c) :: d => if c.col.id = n then some ((k, c.push s) :: d) else (pushFirst n s d).map ((k, c) :: ·)

/-- interference_group.py 449-458 and 472-481: add a state to the column with the given identifier, or create one. -/
def Book.addStateAt (G : Book) (n : ℕ) (s : AState) : Book :=
  match pushFirst n s G.cols with
  | some d => { G with cols := d }
  | none => G.addColumn (columnOfState s) (some n)

/-- interference_group.py 423-486: `add_state`. A state that has 'photon_resolution' without column identifier raises a KeyError in line 462 unless the group is empty: then
the constructor of the column in line 467 has written the default identifier 0 into the state before line 468 reads it. -/
def Book.addState (G : Book) (s : AState) (k : Option ℕ) : Option Book :=
  match k with
  | some n => some (G.addStateAt n s)
  | none =>
    match s.aux with
    | none => some (G.addColumn (columnOfState s) none)
    | some ⟨_, some ci⟩ => some (G.addStateAt ci.cid s)
    | some ⟨_, none⟩ => if G.cols.isEmpty then some (G.addColumn (columnOfState s) (some 0)) else none

/-- interference_group.py 315-319 (also 390-394): assigning `interference_group_identifier` changes every column. -/
def Book.setGid (G : Book) (n : ℕ) : Book := { G with gid := n, cols := G.cols.map (fun p => (p.1, { p.2 with gid := n })) }

/-- interference_group.py 324-328: assigning `group_cumulative_probability` changes every column. -/
def Book.setProb (G : Book) (p : ℝ) : Book := { G with gprob := p, cols := G.cols.map (fun x => (x.1, { x.2 with col := { x.2.col with gprob := p } })) }

/-- interference_group.py 291-296 and 302-303: `InterferenceGroup()`, with or without an identifier. -/
def Book.empty (n : Option ℕ) : Book := ⟨n.getD 0, 1, []⟩

/-- interference_group.py 271-277, 302-303: `InterferenceGroup(state=s)`. While the state is added the identifier of the group is the argument (`None` if not given, which no later
reader sees: it is overwritten in line 276). -/
def Book.ofState (s : AState) (n : Option ℕ) : Option Book :=
  (Book.addState ⟨n.getD 0, 1, []⟩ s none).map (fun G =>
    let G1 := (G.setGid (((s.aux.bind (·.col)).map (·.gid)).getD 0)).setProb s.q.cum
    match n with
    | none => G1
    | some m => G1.setGid m)

/-- interference_group.py 280-288, 302-303: `InterferenceGroup(list_of_state_columns=l)` for a list that is not empty: the probability is set before the columns are added, so it
does not reach them. -/
def Book.ofColumns (c : BookColumn) (l : List BookColumn) (n : Option ℕ) : Book :=
  let G : Book := (c :: l).foldl (fun (G : Book) (x : BookColumn) => G.addColumn x (some x.col.id)) ⟨n.getD 0, c.col.gprob, []⟩
  G.setGid (n.getD c.gid)

/-- interference_group.py 365-369: `by_state`: the states of the group, column by column. -/
def Book.states (G : Book) : List PState := G.cols.flatMap (fun p => p.2.col.states)

/-- interference_group.py 376-381: `extract_column_by_identifier` (`none`: KeyError). -/
def Book.extract (G : Book) (k : ℕ) : Option BookColumn := G.cols.get? k

/-- A call that a user makes on a group: `add_column`, `add_state`, or an assignment to one of the two attributes. -/
inductive BookOp where
  | addColumn (c : BookColumn) (k : Option ℕ)
  | addState (s : AState) (k : Option ℕ)
  | setGid (n : ℕ)
  | setProb (p : ℝ)

/-- One call. -/
def Book.step (G : Book) : BookOp → Option Book
  | .addColumn c k => some (G.addColumn c k)
  | .addState s k => G.addState s k
  | .setGid n => some (G.setGid n)
  | .setProb p => some (G.setProb p)

/-- A history of calls. -/
def Book.run (G : Book) (ops : List BookOp) : Option Book := ops.foldlM Book.step G

end Verif
