/-
The deprecated node `create_no_signalling_boxes`.  Models src/fock_state_circuit/nodes/superquantum_nodes.py 160-262. The deprecated aliases
popescu_rohrlich_correlations.py 394-416 call the functions of Model/PR with the same arguments.
-/
import Verif.Model.PR

namespace Verif

/-- superquantum_nodes.py 247-252: the first state of the collection is used as template; the others are not used. `none`: an exception (for the empty collection
because `template_state` is not bound). -/
noncomputable def noSignallingBoxes (g : Cfg) (thr : ℝ) (m : ℕ) (boxes : List Box) (ident : ℕ) (coll : List PRState) : Option (List PRState) :=
  coll.head?.bind (createPR g thr m boxes ident)

end Verif
