/-
Optical nodes acting on collections with Popescu-Rohrlich pairs.
-/
import Verif.Model.PR
import Verif.Model.Evaluate

namespace Verif

/-- circuit.py 721-753 applied to a collection whose states carry auxiliary information: the copy at line 722 keeps the auxiliary
information (state.py 434-435) and lines 724-752 change optical components only. Simplification: the identifiers of the states (random
in the code) are their positions, written as decimal numbers. -/
noncomputable def opticalPR (c : Circ) (n : Opt × List ℕ) (l : List (Opt × List ℕ)) (coll : List PRState) : Option (List PRState) :=
  (opticalColl c n l (coll.zipIdx.map (fun sk => (pyStr sk.2, sk.1.q)))).map
    (fun out => (out.zip coll).map (fun es => ⟨es.1.2, es.2.pr⟩))

end Verif
