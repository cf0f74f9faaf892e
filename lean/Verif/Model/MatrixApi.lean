/-
The Fock matrix of a circuit as returned to the user. Models src/fock_state_circuit/circuit.py 956-972.
-/
import Verif.Model.Evaluate

namespace Verif

/-- circuit.py 956: the argument `nodes_to_be_evaluated`: the string 'all' (default) or a list of node numbers. Simplification: negative
node numbers (counted from the end by Python) are left out. -/
inductive NodeArg where
  | all
  | list (l : List ℕ)

/-- circuit.py 793-794: the list of node numbers. -/
def NodeArg.toList (c : Circ) : NodeArg → List ℕ
  | .all => List.range c.nodes.length
  | .list l => l

/-- circuit.py 793-839 (without 'photon_number_selection'): matrix of the listed nodes; `none`: IndexError, no nodes, or a node that is not
optical. -/
noncomputable def generateMatrix (c : Circ) (arg : NodeArg) : Option SqArr :=
  if (arg.toList c).all (fun i => ((c.nodes[i]?).map Node.isOptical).getD false) then
    match opticalNodes c (arg.toList c) with
    | [] => none
    | n :: l => some (fockNodes c.g (basisKeys c.g) .all n l).1
  else none

/-- circuit.py 956-972: `get_fock_state_matrix`. A list with one node that is a custom Fock matrix is answered with that matrix; the string
'all' has length 3 and never takes this branch. -/
noncomputable def getFockStateMatrix (c : Circ) (arg : NodeArg) : Option SqArr :=
  match arg with
  | .list [i] =>
    match c.nodes[i]? with
    | none => none
    | some (.fockMatrix F) => some F
    | some _ => generateMatrix c (.list [i])
  | arg => generateMatrix c arg

end Verif
