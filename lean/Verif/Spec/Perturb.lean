/-
Specification for C138: evaluation with different thresholds.
-/
import Verif.Spec.Conserve

namespace Verif.Spec
open Verif

/-- Nodes that neither measure nor call user code on the collection: unitary optical nodes on two different existing channels, unitary Fock matrices, functions of the classical
channels, wave plates controlled by classical channels on two different existing channels. -/
def Steady (g : Cfg) : Node → Prop
  | .optical M tl => M ∈ Matrix.unitaryGroup (Fin 2) ℂ ∧ TwoChannels g tl
  | .fockMatrix F => IsUnitary F
  | .classical _ _ _ => True
  | .controlled _ _ _ tl => TwoChannels g tl
  | .measurement _ _ => False
  | .generic _ => False
  | .bridge _ => False

/-- Two states with the same history, cumulative probability and classical values; the squared differences of their amplitudes, summed over any set of component names, are at most `δ ^ 2`. -/
structure CloseStates (δ : ℝ) (q q' : QState) : Prop where
  initial : q.initial = q'.initial
  cum : q.cum = q'.cum
  classical : q.classical = q'.classical
  results : q.results = q'.results
  amplitudes : ∀ S : Finset Name, ∑ s ∈ S, ‖ampOf q.comps s - ampOf q'.comps s‖ ^ 2 ≤ δ ^ 2

/-- One call of `evaluate_circuit` after another, each on the result of the previous one: `cs` are the circuits, `rnd n` the random numbers of the call after which `n` calls remain. -/
noncomputable def inCalls (rnd : ℕ → ℕ → ℕ → Bool → ℕ → ℕ → ℕ) : List Circ → Coll → Option Coll
  | [], coll => some coll
  | c :: cs, coll => (evalAll (fun _ => c) (rnd cs.length) (c.nodes.length + 1) 0 coll).bind (inCalls rnd cs)

/-- A call counts with its number of nodes times the root of `L^C * threshold`. -/
noncomputable def cutError (cs : List Circ) : ℝ :=
  (cs.map (fun c => c.nodes.length * Real.sqrt ((c.g.L ^ c.g.C : ℕ) * c.thr))).sum

end Verif.Spec
