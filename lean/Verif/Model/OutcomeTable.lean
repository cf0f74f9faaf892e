/-
Probabilities of all outcomes of an interference group. Models interference_group.py 841-887 (`total_probability_for_group_all_outcomes`) with 740-782 and
column_of_states.py 735-781 (`generate_optical_component_corresponding_to_column`) in src/fock_state_circuit/temporal_and_spectral_gate_functionality/, and
column_of_states.py 591-634 (`set_photon_information`). Exceptions are `none`. The conventions of Model/Columns hold.
-/
import Verif.Model.Resolved

namespace Verif

/-- column_of_states.py 771-776: a column with the component name stored in the attribute `_column_as_component`. `stored = none`: the attribute does not exist (the constructor does not
create it); `some none`: it is `None` (photon numbers without a name). -/
structure StoredColumn where
  col : Column
  stored : Option (Option Name)

/-- column_of_states.py 217-339: the constructor does not set `_column_as_component`. -/
def StoredColumn.fresh (c : Column) : StoredColumn := ⟨c, none⟩

/-- column_of_states.py 760-781: `generate_optical_component_corresponding_to_column`: the returned name and the column with what is now stored. `none`: exception (no state; with
`use_stored_values` AttributeError if nothing is stored). -/
def StoredColumn.generate (g : Cfg) (useStored : Bool) (c : StoredColumn) : Option (Option Name × StoredColumn) :=
  if useStored then c.stored.map (fun s => (s, c))
  else (columnValues g c.col).map (fun v => (g.render v, { c with stored := some (g.render v) }))

/-- interference_group.py 864-885: the probability of one outcome. The columns are selected by the stored name. Line 766: a name without photon numbers, or a group without states, leaves
`values` undefined (UnboundLocalError). -/
noncomputable def outcomeEntry (g : Cfg) (cols : List StoredColumn) (name : Option Name) : Option ℝ :=
  if cols.all (fun c => c.col.states.isEmpty) then none
  else name.bind (fun nm => (g.parse nm).bind (fun v =>
    (cols.mapM (fun (c : StoredColumn) => c.stored.map (fun s => (s, c.col)))).bind (fun l => columnListProbability g v ((l.filter (fun x => x.1 == name)).map Prod.snd))))

/-- interference_group.py 855-863: the outcomes that are looked at. Simplification: the order of the set is the order of first appearance. -/
def outcomeNames (cols : List StoredColumn) : Option (List (Option Name)) := (cols.mapM (fun (c : StoredColumn) => c.stored)).map (fun l => l.reverse.dedup.reverse)

/-- interference_group.py 841-887: `total_probability_for_group_all_outcomes(list_of_projections)`. -/
noncomputable def outcomeTable (g : Cfg) (cols : List StoredColumn) (projections : Option (List Name)) : Option (Dict (Option Name) ℝ) :=
  (match projections with
    | none => outcomeNames cols
    | some l => some (l.map some)).bind (fun names =>
      names.foldlM (fun (d : Dict (Option Name) ℝ) nm => (outcomeEntry g cols nm).map (fun p => d.set nm p)) [])

/-- column_of_states.py 618-634: `set_photon_information` for one state; the first component decides (`none`: the state has no component or its name is not valid). -/
def setInfoState (g : Cfg) (info : PInfo) (filter : Option (List Vals)) (default : Option PInfo) (s : PState) : Option PState :=
  match filter with
  | none => some { s with info := some info }
  | some vs => (firstValues g s).map (fun v => if v ∈ vs then { s with info := some info } else match default with
    | some d => { s with info := some d }
    | none => s)

/-- column_of_states.py 591-634: `set_photon_information`. -/
def Column.setPhotonInformation (g : Cfg) (info : PInfo) (filter : Option (List Vals)) (default : Option PInfo) (c : Column) : Option Column :=
  (c.states.mapM (setInfoState g info filter default)).map (fun sts => { c with states := sts })

end Verif
