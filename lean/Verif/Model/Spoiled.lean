/-
What the spectral nodes and the photon-resolved measurement do to the collection they are given. Models collection_of_state_columns.py 86-113, 217-226 and
column_of_states.py 442-505 in src/fock_state_circuit/temporal_and_spectral_gate_functionality/, with temporal_functions.py 83-152, 171-251, 270-401 and
spectral_nodes.py 312-321; circuit.py 518-527 hands the collection itself (not a copy) to these functions.
The conventions of Model/Spectral hold. The states of the collection are listed in the order of Model/Spectral `writeGroups` (initial state, group, column), which is
their order in the collection whenever the collection was made by one of these nodes or its states have different initial states; in all other cases
only the order of the states differs. The random identifiers of the states are not modelled.
-/
import Verif.Model.Spectral

namespace Verif

/-- column_of_states.py 442-505, interference_group.py 511-527: what splitting leaves in the State objects of the columns of a group. `split` works on the State object of the given
column, which keeps the remaining components (476-491), and copies the whole column for the new one (467); new columns are placed behind the given columns. So the objects of the
given columns are found in the first columns of the result. -/
noncomputable def leftColumns (g : Cfg) (fuel : ℕ) (cols : List Column) : Option (List Column) :=
  (splitColumns g fuel cols).map (fun out => out.take cols.length)

/-- collection_of_state_columns.py 86-113 and 217-226: the states of the given collection after the constructor of `CollectionOfStateColumns` (which places the State objects of
the collection in the columns and writes the column parameters to them) and `split`. `single_photon_states` (column_of_states.py 539-562) only makes copies, and so do the
time delays and `set_pulse_width` for some channels after this. -/
noncomputable def spoiled (g : Cfg) (fuel : ℕ) (l : List AState) : Option (List AState) :=
  (readGroups l).bind (fun G => (G.mapM (leftColumns g fuel)).map writeGroups)

/-- temporal_functions.py 171-251: the states of the given collection after `set_pulse_width`. For no channels the collection is returned, for all channels its State objects are
changed and the collection itself is returned. -/
noncomputable def spoiledByWidth (g : Cfg) (fuel : ℕ) (chs : List ℕ) (w : ℝ) (l : List AState) : Option (List AState) :=
  if chs = [] then some l
  else if (∀ n < g.C, n ∈ chs) ∧ (∀ n ∈ chs, n < g.C) then some (l.map (widthAll w))
  else spoiled g fuel l

end Verif
