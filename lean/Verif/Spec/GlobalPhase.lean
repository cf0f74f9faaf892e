/-
Specification for C133: states that differ by a phase factor.
-/
import Verif.Model.Measurement

namespace Verif.Spec
open Verif

/-- The components with all amplitudes multiplied by `u`. -/
noncomputable def turned (u : ℂ) (c : Comps) : Comps := c.map (fun p => (p.1, ⟨u * p.2.amp, p.2.prob⟩))

/-- Two states that are equal but for a phase factor of the amplitudes. -/
structure UpToPhase (q q' : QState) : Prop where
  initial : q'.initial = q.initial
  cum : q'.cum = q.cum
  classical : q'.classical = q.classical
  results : q'.results = q.results
  comps : ∃ u : ℂ, ‖u‖ = 1 ∧ q'.comps = turned u q.comps

/-- Two collections with the same identifiers in the same order and states that are equal but for phase factors (which can differ from state to state). -/
def CollUpToPhase (A B : Coll) : Prop := List.Forall₂ (fun p p' => p'.1 = p.1 ∧ UpToPhase p.2 p'.2) A B

end Verif.Spec
