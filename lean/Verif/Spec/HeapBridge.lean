/-
Independent specification used for C137: reshaping in place.
-/
import Verif.Model.HeapBridge
import Verif.Spec.Heap

namespace Verif.Spec
open Verif

/-- What reshaping in place must do on objects, given what it does on values: both raise, or the settings are the same, the new collection shows the new states, nothing that existed before has changed, and
the references in the new heap are closed. -/
def ReshapedInPlace (h : Heap) (result : Option (Heap × HCollection)) (expected : Option Collection) : Prop :=
  (result = none ↔ expected = none) ∧
  ∀ h' cl, result = some (h', cl) → ∃ D, expected = some D ∧ (cl.g, cl.m, cl.thr) = (D.g, D.m, D.thr) ∧ h'.view cl.states = some D.states ∧ Closed h' ∧
    ∀ other E, h.view other = some E → h'.view other = some E

end Verif.Spec
