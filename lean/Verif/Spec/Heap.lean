/-
Independent specification used for the object-level properties (C30, C32, C57).
-/
import Verif.Model.Heap

namespace Verif.Spec
open Verif

/-- All references in the heap point to existing list objects. -/
def Closed (h : Heap) : Prop := ∀ s ∈ h.objs, s.classical < h.lists.length ∧ ∀ r ∈ s.results, r.1 < h.lists.length

/-- Sharing inside a collection: two states with different identifiers do not share the list object of their classical values, and the list
object of the classical values of a state is not an entry of a measurement history - with the exception, if `own`, of the state's own
history. -/
structure Separated (own : Bool) (h : Heap) (coll : HColl) : Prop where
  classical : ∀ p ∈ coll, ∀ q ∈ coll, ∀ s t, h.objs[p.2]? = some s → h.objs[q.2]? = some t → s.classical = t.classical → p.1 = q.1
  history : ∀ p ∈ coll, ∀ q ∈ coll, ∀ s t, h.objs[p.2]? = some s → h.objs[q.2]? = some t → ∀ r ∈ t.results, r.1 = s.classical →
    own = true ∧ p.1 = q.1

/-- The function does not change the list it is given (it returns a new list, or the same one unchanged). -/
def KeepsArgument (f : List ℝ → List ℝ → List ℤ → Option ClsEffect) : Prop := ∀ vals v a r, f vals v a = some r → r.arg = vals

/-- In the given order of nodes, a classical node whose function writes into the list it is given does not come directly after a measurement
(other classical nodes may be in between): there is an optical, controlled or custom matrix node in between. `measured`: a measurement
without such a node after it may already have happened. -/
def NoWriteAfterMeasurement (c : HCirc) : Bool → List ℕ → Prop
  | _, [] => True
  | measured, i :: rest =>
    match c.nodes[i]? with
    | some (.measurement _ _) => NoWriteAfterMeasurement c true rest
    | some (.classical f _ _) => (measured = true → KeepsArgument f) ∧ NoWriteAfterMeasurement c measured rest
    | _ => NoWriteAfterMeasurement c false rest

/-- Node `i` of the circuit is a classical node. -/
def IsClassical (c : HCirc) (i : ℕ) : Prop := ∃ f v a, c.nodes[i]? = some (.classical f v a)

/-- From `h` to `h'` only State objects of the collection and the list objects of their classical values have changed (and new objects
may have been made). -/
structure ChangesOnly (coll : HColl) (h h' : Heap) : Prop where
  objs : ∀ a < h.objs.length, (∀ p ∈ coll, p.2 ≠ a) → h'.objs[a]? = h.objs[a]?
  lists : ∀ r < h.lists.length, (∀ p ∈ coll, ∀ s, h.objs[p.2]? = some s → s.classical ≠ r) → h'.lists[r]? = h.lists[r]?

end Verif.Spec
