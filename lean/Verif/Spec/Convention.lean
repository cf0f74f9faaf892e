/-
Independent specification: the same circuits, states and collections under the other naming convention
(`channel_0_left_in_state_name`).
-/
import Verif.Model.Compound
import Verif.Spec.State

namespace Verif.Spec
open Verif

/-- The other naming convention: everything else is the same. -/
def otherWay (g : Cfg) : Cfg := { g with left := !g.left }

/-- The two strings name the same photon numbers, the first under the convention of `g`, the second under the other one. -/
def SameName (g : Cfg) (s s' : Name) : Prop := ∃ v, Valid g v ∧ IsName g v s ∧ IsName (otherWay g) v s'

/-- Both computations fail, or both succeed with results related by `R`. -/
def Both {α β : Type*} (R : α → β → Prop) : Option α → Option β → Prop
  | none, none => True
  | some a, some b => R a b
  | _, _ => False

/-- The same state under the two conventions: the components stand in the same order, name the same photon numbers and have the same
amplitudes and probabilities; everything else is equal, except the label, for which the user may choose another string (`R`). -/
structure SameState (g : Cfg) (R : List Char → List Char → Prop) (q q' : QState) : Prop where
  label : R q.initial q'.initial
  cum : q.cum = q'.cum
  comps : List.Forall₂ (fun p p' => SameName g p.1 p'.1 ∧ p.2 = p'.2) q.comps q'.comps
  classical : q.classical = q'.classical
  results : q.results = q'.results

/-- The same collection: the same identifiers, in the same order, for the same states. -/
def SameColl (g : Cfg) (R : List Char → List Char → Prop) (coll coll' : Coll) : Prop :=
  List.Forall₂ (fun p p' => p.1 = p'.1 ∧ SameState g R p.2 p'.2) coll coll'

/-- The same node. Nodes are equal, except that a function on collections may differ as long as it does the same to the same collections
(a function that makes states out of nothing is not allowed). -/
def SameNode (g : Cfg) (R : List Char → List Char → Prop) : Node → Node → Prop
  | .generic f, .generic f' =>
    (∀ coll coll', SameColl g R coll coll' → Both (SameColl g R) (f coll) (f' coll')) ∧ ∀ out, f [] = some out → out = []
  | .generic _, _ => False
  | n, n' => n = n'

/-- The same circuit under the other convention. -/
structure SameCircuit (R : List Char → List Char → Prop) (c c' : Circ) : Prop where
  g : c'.g = otherWay c.g
  m : c'.m = c.m
  thr : c'.thr = c.thr
  full : c'.full = c.full
  nodes : List.Forall₂ (SameNode c.g R) c.nodes c'.nodes

end Verif.Spec
