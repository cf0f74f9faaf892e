/-
Specification: parts of a density matrix.
-/
import Verif.Spec.Reshape

namespace Verif.Spec
open Verif

open Classical in
/-- Partial trace: the entry of the density matrix of the channels `keep` for the photon numbers `a` (row) and `b` (column) in these channels. -/
noncomputable def reducedEntry (g : Cfg) (keep : List ℕ) (dm : ℕ → ℕ → ℂ) (a b : Vals) : ℂ :=
  ∑ i ∈ Finset.range g.size, ∑ j ∈ Finset.range g.size,
    if select keep (g.valuesFromIndex i) = a ∧ select keep (g.valuesFromIndex j) = b ∧ SameOutside g keep (g.valuesFromIndex i) (g.valuesFromIndex j) then dm i j else 0

end Verif.Spec
