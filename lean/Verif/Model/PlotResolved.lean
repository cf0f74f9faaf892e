/-
Histogram of photon-resolved collections. Models src/fock_state_circuit/visualization/plot.py 41-118 with 163-178 and collection_of_states.py 1065-1073.
Exceptions are `none`. The conventions of Model/Plot and Model/Spectral hold. The collection made in lines 163-178 gets random identifiers, which the histogram does not use; here they
are empty.
-/
import Verif.Model.Plot
import Verif.Model.Spoiled

namespace Verif

/-- collection_of_states.py 1065-1073: `is_photon_resolved`. -/
def isPhotonResolved (l : List AState) : Bool := l.all (fun s => s.aux.isSome)

/-- column_of_states.py 783-833: `generate_single_state_from_column` (a copy of the column is condensed). -/
noncomputable def columnState (g : Cfg) (c : Column) : Option QState := (c.condense g).bind (fun c' => (c'.states.head?).map (fun s => s.q))

/-- collection_of_state_columns.py 174-179: `by_column`: all columns. -/
def allColumns (G : Groups) : List Column := G.flatMap (fun e => e.2.flatMap (fun x => x.2))

/-- plot.py 163-178: `_pre_plot`: the states of the collection that is plotted. -/
noncomputable def prePlot (g : Cfg) (fuel : ℕ) (l : List AState) : Option (List QState) :=
  (readGroups l).bind (fun G => (G.mapM (splitColumns g fuel)).bind (fun G' => (allColumns G').mapM (columnState g)))

/-- plot.py 41-118: `plot(..., histo_output_instead_of_plot=True)` for every collection. -/
noncomputable def histogramAll (g : Cfg) (m fuel : ℕ) (initials : List (List Char)) (channels : List ℤ) (l : List AState) : Option (Dict (List Char) (List (Name × ℝ))) :=
  if isPhotonResolved l then (prePlot g fuel l).bind (fun qs => histogram g m initials channels (qs.map (fun q => ([], q))))
  else histogram g m initials channels (l.map (fun s => ([], s.q)))

/-- plot.py 169-170 (77-81): what plotting leaves in the states of the collection: for a photon-resolved collection the constructor of `CollectionOfStateColumns` and `split` are
called on the collection itself ("Make full copy" in line 164 concerns another object). -/
noncomputable def leftByPlot (g : Cfg) (fuel : ℕ) (l : List AState) : Option (List AState) := if isPhotonResolved l then spoiled g fuel l else some l

end Verif
