/-
Independent specification: probability carried by a collection.
-/
import Verif.Spec.Evaluate
import Verif.Spec.Fock
import Verif.Model.TensorList

namespace Verif.Spec
open Verif

open Classical in
/-- Sum of `f` over the states of a collection that were started from the initial state `label`. -/
noncomputable def sumFrom (label : List Char) (f : QState → ℝ) (coll : Coll) : ℝ :=
  (coll.map (fun p => if p.2.initial = label then f p.2 else 0)).sum

/-- Probability to be in one of the states started from `label`: each counts with its cumulative probability times the sum of the
squared moduli of its amplitudes. -/
noncomputable def carried (label : List Char) (coll : Coll) : ℝ := sumFrom label (fun q => q.cum * totalProb q.comps) coll

/-- Sum of the cumulative probabilities of the states started from `label`. -/
noncomputable def listed (label : List Char) (coll : Coll) : ℝ := sumFrom label QState.cum coll

/-- A collection of valid states: different identifiers, every state measurable. -/
structure Sound (g : Cfg) (m : ℕ) (coll : Coll) : Prop where
  ids : (coll.map Prod.fst).Nodup
  states : ∀ p ∈ coll, Measurable g m p.2

/-- `tl` is the tensor list of two different existing channels. -/
def TwoChannels (g : Cfg) (tl : List ℕ) : Prop := ∃ h c, h < g.C ∧ c < g.C ∧ h ≠ c ∧ tensorList g.C [h, c] = some tl

/-- Nodes that should not lose probability: unitary optical or Fock matrices, classical functions, measurements with as many classical as
optical channels, controlled wave plates, and generic functions that conserve probability themselves. -/
def Lossless (g : Cfg) (m : ℕ) : Node → Prop
  | .optical M tl => M ∈ Matrix.unitaryGroup (Fin 2) ℂ ∧ TwoChannels g tl
  | .fockMatrix F => IsUnitary F
  | .classical _ _ _ => True
  | .measurement opt cls => cls.length = opt.length
  | .controlled _ _ _ tl => TwoChannels g tl
  | .generic f => ∀ coll out, Sound g m coll → f coll = some out →
      Sound g m out ∧ ∀ label, carried label out = carried label coll ∧ listed label out ≤ listed label coll
  | .bridge _ => False

/-- No state of the collection lists a component with amplitude 0. -/
def NoZeros (coll : Coll) : Prop := ∀ p ∈ coll, ∀ e ∈ p.2.comps, e.2.amp ≠ 0

/-- A generic function that fits: it raises no exception on valid states, gives no components with amplitude 0, and gives no state with a total
probability of the components below that of all states it was given. -/
def FitsGeneric (g : Cfg) (m : ℕ) (f : Coll → Option Coll) : Prop :=
  ∀ coll, Sound g m coll → NoZeros coll → ∃ out, f coll = some out ∧ NoZeros out ∧
    ∀ t : ℝ, (∀ p ∈ coll, t ≤ totalProb p.2.comps) → ∀ p ∈ out, t ≤ totalProb p.2.comps

/-- Nodes with arguments that fit a circuit: Fock matrices of the right size, classical functions that return one value per classical channel,
existing classical channels, a value for both angles of a controlled wave plate, and generic functions as above. (Bridges are left out.) -/
def Fits (g : Cfg) (m : ℕ) : Node → Prop
  | .optical _ _ => True
  | .fockMatrix F => F.size = g.L ^ g.C
  | .classical f v a => ∀ vals : List ℝ, vals.length = m → ∃ out, f vals v a = some out ∧ out.length = m
  | .measurement _ cls => ∀ n ∈ cls, n < m
  | .controlled vars channels defaults _ => vars.length = channels.length ∧ (∀ ch ∈ channels, 0 ≤ ch ∧ ch < m) ∧
      ∀ a : Angle, a ∈ vars ∨ a ∈ defaults.map Prod.fst
  | .generic f => FitsGeneric g m f
  | .bridge _ => False

end Verif.Spec
