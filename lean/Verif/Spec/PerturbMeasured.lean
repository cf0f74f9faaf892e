/-
Specification for C139: statistics of recorded measurement outcomes with different thresholds.
-/
import Verif.Spec.Perturb

namespace Verif.Spec
open Verif

/-- The classical values recorded by the measurements, in order. -/
def recordOf (q : QState) : List (List ℝ) := q.results.map MRes.vals

/-- Nodes as in `Steady`, and measurements that write the photon numbers of their optical channels to as many different existing classical channels. -/
def SteadyOrMeasured (g : Cfg) (m : ℕ) : Node → Prop
  | .measurement opt cls => cls.length = opt.length ∧ cls.Nodup ∧ ∀ x ∈ cls, x < m
  | n => Steady g n

open Classical in
/-- Amplitude of a component in the states with an initial label and a record, weighted with the root of the cumulative probability (0 if there is no such state). -/
noncomputable def weightedAmp (coll : Coll) (label : List Char) (record : List (List ℝ)) (s : Name) : ℂ :=
  (coll.map (fun p => if p.2.initial = label ∧ recordOf p.2 = record then (Real.sqrt p.2.cum : ℂ) * ampOf p.2.comps s else 0)).sum

open Classical in
/-- Probability of an event, for the states started from `label`: that the measurements recorded certain values and that the photons are then found in certain components. Each state counts with its
cumulative probability times the squared moduli of the components that belong, with the record of the state, to the event. -/
noncomputable def eventProb (coll : Coll) (label : List Char) (event : List (List ℝ) → Name → Prop) : ℝ :=
  sumFrom label (fun q => q.cum * (q.comps.map (fun e => if event (recordOf q) e.1 then ‖e.2.amp‖ ^ 2 else 0)).sum) coll

end Verif.Spec
