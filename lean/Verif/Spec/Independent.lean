/-
Specification: an operation treats every state of a collection on its own.
-/
import Verif.Model.Evaluate

namespace Verif.Spec
open Verif

/-- The states of a collection, in order, without their identifiers. -/
def statesOf (coll : Coll) : List QState := coll.map Prod.snd

/-- The operation `F` on collections replaces every state `q`, independently of its identifier and of the other states, by the list of
states `f q` (`none`: an exception). The results stand in the order of the states they come from, and no two of them share an
identifier. The operation fails exactly if it fails for one of the states. -/
structure ActsPerState (F : Coll → Option Coll) (f : QState → Option (List QState)) : Prop where
  states : ∀ coll : Coll, (coll.map Prod.fst).Nodup → (F coll).map statesOf = ((statesOf coll).mapM f).map List.flatten
  identifiers : ∀ coll out : Coll, (coll.map Prod.fst).Nodup → F coll = some out → (out.map Prod.fst).Nodup

/-- The nodes of circuit `c` with the listed indices exist, are no bridges, controlled nodes have one classical channel for each
variable (as all the methods that create them guarantee), and functions given by the user treat every state on its own. -/
structure PlainNodes (c : Circ) (l : List ℕ) : Prop where
  exist : ∀ i ∈ l, i < c.nodes.length
  bridges : ∀ i ∈ l, ∀ k, c.nodes[i]? ≠ some (.bridge k)
  controls : ∀ i ∈ l, ∀ vars channels defaults tl, c.nodes[i]? = some (.controlled vars channels defaults tl) → vars.length = channels.length
  generic : ∀ i ∈ l, ∀ f, c.nodes[i]? = some (.generic f) → ∃ h, ActsPerState f h

end Verif.Spec
