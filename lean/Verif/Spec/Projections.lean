/-
Specification: measurement with a list of projections.
-/
import Verif.Model.Projections
import Verif.Spec.Interference

namespace Verif.Spec
open Verif MvPolynomial

open Classical in
/-- The probability to find photon numbers from the list `vs` that read `o` in the channels `opt`. -/
noncomputable def bornKept (vs : List Vals) (opt o : List ℕ) (P : MvPolynomial Mode ℂ) : ℝ :=
  ∑ v ∈ vs.toFinset.filter (fun v => opt.map (fun n => v.getD n 0) = o), bornProb v P

end Verif.Spec
