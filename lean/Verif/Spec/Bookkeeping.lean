/-
Specification for C134: states that differ only in what is kept for the records, the label ('initial_state') and the results of earlier measurements.
-/
import Verif.Model.Measurement

namespace Verif.Spec
open Verif

/-- Two states that are equal but for their labels, which are related by `R`, and but for earlier measurement results, which are related by `H`; `new`: the results they have in common. -/
structure SameButRecords (R : List Char → List Char → Prop) (H : List MRes → List MRes → Prop) (q q' : QState) : Prop where
  initial : R q.initial q'.initial
  cum : q'.cum = q.cum
  comps : q'.comps = q.comps
  classical : q'.classical = q.classical
  results : ∃ old old' new : List MRes, H old old' ∧ q.results = old ++ new ∧ q'.results = old' ++ new

/-- Two collections with the same identifiers in the same order and states that differ in their records only. -/
def CollSameButRecords (R : List Char → List Char → Prop) (H : List MRes → List MRes → Prop) (A B : Coll) : Prop :=
  List.Forall₂ (fun p p' => p'.1 = p.1 ∧ SameButRecords R H p.2 p'.2) A B

end Verif.Spec
