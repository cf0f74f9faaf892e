/-
Specification for C132.
-/
import Verif.Model.Collection

namespace Verif.Spec
open Verif

/-- Two collections have density matrices with the same entries for an initial label (`densityMatrix` models `density_matrix`, collection_of_states.py 699-733). -/
def SameDensityMatrix (g : Cfg) (label : List Char) (A B : Coll) : Prop :=
  ∃ a b, densityMatrix g A label = some a ∧ densityMatrix g B label = some b ∧ ∀ i < g.L ^ g.C, ∀ j < g.L ^ g.C, a i j = b i j

end Verif.Spec
