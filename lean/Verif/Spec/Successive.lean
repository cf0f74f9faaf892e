/-
Specification: the same state reached by one joint measurement or by two measurements one after the other.
-/
import Verif.Model.Measurement

namespace Verif.Spec
open Verif

/-- `a` was reached by two measurements, `b` by one joint measurement: label, cumulative probability, components and classical values
agree. Both have the same earlier history; the two results added last to `a` correspond to the one added to `b`: the classical values
are those of the later result and the probabilities multiply. -/
structure SameAsJoint (a b : QState) : Prop where
  initial : a.initial = b.initial
  cum : a.cum = b.cum
  comps : a.comps = b.comps
  classical : a.classical = b.classical
  history : ∃ h r₁ r₂ r, a.results = h ++ [r₁, r₂] ∧ b.results = h ++ [r] ∧ r.vals = r₂.vals ∧ r.prob = r₁.prob * r₂.prob

/-- `a` and `b` were both reached by two measurements, in different order: label, cumulative probability, components, classical values
and earlier history agree, the last recorded classical values agree, and the two probabilities have the same product. -/
structure SameInOtherOrder (a b : QState) : Prop where
  initial : a.initial = b.initial
  cum : a.cum = b.cum
  comps : a.comps = b.comps
  classical : a.classical = b.classical
  history : ∃ h r₁ r₂ s₁ s₂, a.results = h ++ [r₁, r₂] ∧ b.results = h ++ [s₁, s₂] ∧ r₂.vals = s₂.vals ∧ r₁.prob * r₂.prob = s₁.prob * s₂.prob

/-- The states of the two lists correspond to each other, up to their order. -/
def Corresponding (R : QState → QState → Prop) (a b : List QState) : Prop := ∃ b' : List QState, b'.Perm b ∧ List.Forall₂ R a b'

end Verif.Spec
