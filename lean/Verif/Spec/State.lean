/-
Independent specification of states: which component dictionaries are valid and what amplitude a name has.
-/
import Verif.Model.State
import Verif.Spec.Fock

namespace Verif.Spec
open Verif

/-- A valid dictionary of optical components: no repeated keys (always true of a Python dictionary) and every key is the
standard name of a valid photon-number list. -/
structure WellFormed (g : Cfg) (c : Comps) : Prop where
  nodup : (c.map Prod.fst).Nodup
  named : ∀ p ∈ c, ∃ v, Valid g v ∧ IsName g v p.1

/-- The amplitude a state gives to a component name; 0 if the component is not listed. -/
noncomputable def ampOf (c : Comps) (s : Name) : ℂ := (c.get? s).elim 0 Comp.amp

/-- Total probability of the components. -/
noncomputable def totalProb (c : Comps) : ℝ := (c.map (fun p => ‖p.2.amp‖ ^ 2)).sum

/-- The probabilities stored beside the amplitudes are their squared moduli. -/
def ProbsAgree (c : Comps) : Prop := ∀ p ∈ c, p.2.prob = ‖p.2.amp‖ ^ 2

end Verif.Spec
