/-
Independent specification of circuits with a quick time delay: conditions on the optical elements, and the probability of an outcome when several groups hold it.
-/
import Verif.Spec.Pipeline

namespace Verif.Spec
open Verif MvPolynomial

/-- Seen by any basis state with fewer photons than the cutoff, the optical elements have no transition probability between 0 and the threshold. -/
def KetsKeep (g : Cfg) (thr : ℝ) (gates : List Gate) : Prop :=
  ∀ (i : Option PInfo) (v w : Vals), Valid g v → v.sum < g.L → Valid g w → ‖amplitudeIn (opticsSubst gates (ketPoly i v)) i w‖ ^ 2 < thr → amplitudeIn (opticsSubst gates (ketPoly i v)) i w = 0

/-- The optical elements do not change a basis state into another basis state with a phase other than 1 (such a phase is lost at the measurement, see C53). -/
def NoBarePhase (g : Cfg) (gates : List Gate) : Prop :=
  ∀ (i : Option PInfo) (v w : Vals) (a : ℂ), Valid g v → v.sum < g.L → Valid g w → opticsSubst gates (ketPoly i v) = C a * ketPoly i w → a = 1

/-- The outcome `o` has probability `p` in the groups `ys`: the probabilities of the groups that hold the outcome add up to `p`. -/
def OutcomeTotal (ys : List (List Column)) (cls o : List ℕ) (p : ℝ) : Prop :=
  ∃ ps : List ℝ, List.Forall₂ (fun grp x => (GroupRecords cls o grp ∧ GroupProbability grp x) ∨ (grp ≠ [] ∧ ¬ GroupRecords cls o grp ∧ x = 0)) ys ps ∧ ps.sum = p

end Verif.Spec
