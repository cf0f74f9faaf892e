/-
Photon-resolved measurement with a list of projections. Models interference_group.py 926-943 (`list_of_projections` of `measure_interference_group_alternative`), 979-997, and
collection_of_state_columns.py 235-266 (`perform_measurement` with `list_of_projections`) in src/fock_state_circuit/temporal_and_spectral_gate_functionality/. The conventions of
Model/Resolved hold.
-/
import Verif.Model.Resolved

namespace Verif

/-- interference_group.py 934-937: the column is not skipped. A column whose photon numbers have no name (`None`) is in no list of names. -/
def keptBy (g : Cfg) (proj : Option (List Name)) (v : Vals) : Bool :=
  match proj with
  | none => true
  | some names => match g.render v with
    | some nm => names.contains nm
    | none => false

/-- interference_group.py 906-975: `measure_interference_group_alternative` with `list_of_projections` (`none`: not given). The columns that are not skipped are treated as in
`measureGroup`. -/
noncomputable def measureGroupProj (g : Cfg) (proj : Option (List Name)) (opt cls : List ℕ) (cols : List Column) : Option (List (List Column)) :=
  (cols.mapM (fun c => (columnValues g c).map (fun v => (c, v)))).bind (fun l => measureGroup g opt cls ((l.filter (fun x => keptBy g proj x.2)).map Prod.fst))

end Verif
