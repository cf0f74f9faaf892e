/-
`shift_direct` and `c_shift_direct` as functions on collections.  Models src/fock_state_circuit/nodes/custom_nodes.py 271-301 and
342-367. Settings are those of the circuit. Exceptions are `none`.
-/
import Verif.Model.Shift
import Verif.Model.Evaluate

namespace Verif

/-- custom_nodes.py 271-291 and 342-358: the function of the node: a new collection with a changed copy of every state, under new random
identifiers (`r k`: random numbers for the `k`-th one). The collection is also copied as a whole first (274, 345). -/
noncomputable def moveColl (c : Circ) (move : Vals → Option Vals) (r : ℕ → ℕ → ℕ) (coll : Coll) : Option Coll := do
  let _ ← copyColl c.thr c.m coll
  coll.foldlM (fun (out : Coll) p => do
    let q ← copyState c.thr c.m p.2
    let comps ← moveComps c.g move p.2.comps
    some (addState out { q with comps := comps } none (r out.length))) []

/-- custom_nodes.py 238-301: the node added by `shift_direct`. -/
noncomputable def shiftDirectNode (c : Circ) (targets : List ℕ) (shifts : List ℤ) (r : ℕ → ℕ → ℕ) : Node :=
  .generic (moveColl c (shiftValues c.g.L targets shifts) r)

/-- custom_nodes.py 303-367: the node added by `c_shift_direct`. -/
noncomputable def cShiftDirectNode (c : Circ) (controls targets : List ℕ) (r : ℕ → ℕ → ℕ) : Node :=
  .generic (moveColl c (cShiftValues c.g.L controls targets) r)

end Verif
