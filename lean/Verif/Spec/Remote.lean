/-
Specification for C135: circuits that leave some channels alone.
-/
import Verif.Spec.Locality
import Verif.Spec.Conserve
import Verif.Spec.Dephasing

namespace Verif.Spec
open Verif

/-- A custom node given by a Fock matrix that does nothing with the channels `keep`: the matrix is unitary, its entries between basis states with different photon numbers in one of these channels
are 0, and its other entries do not depend on the photon numbers in these channels. (The two basis states of an entry are written with their photon numbers.) -/
structure ActsElsewhere (g : Cfg) (keep : List ℕ) (F : SqArr) : Prop where
  size : F.size = g.size
  unitary : IsUnitary F
  keeps : ∀ v w : List ℕ, Valid g v → Valid g w → (∃ j ∈ keep, v.getD j 0 ≠ w.getD j 0) → F.at_ (g.indexOf v) (g.indexOf w) = 0
  blind : ∀ v w v' w' : List ℕ, Valid g v → Valid g w → Valid g v' → Valid g w' → (∀ j ∈ keep, v.getD j 0 = w.getD j 0 ∧ v'.getD j 0 = w'.getD j 0) →
    (∀ j < g.C, j ∉ keep → v'.getD j 0 = v.getD j 0 ∧ w'.getD j 0 = w.getD j 0) → F.at_ (g.indexOf v') (g.indexOf w') = F.at_ (g.indexOf v) (g.indexOf w)

/-- A generic function that does nothing with the channels `keep`: from valid states it gives valid states, it conserves the probability of every initial state, and it does not change the reduced
density matrix of these channels. -/
def FunctionElsewhere (g : Cfg) (m : ℕ) (keep : List ℕ) (f : Coll → Option Coll) : Prop :=
  ∀ coll out, Sound g m coll → f coll = some out → Sound g m out ∧ ∀ label, carried label out = carried label coll ∧ listed label out ≤ listed label coll ∧
    ∀ dm dm', densityMatrix g coll label = some dm → densityMatrix g out label = some dm' → ∀ a b, reducedEntry g keep dm' a b = reducedEntry g keep dm a b

/-- A node that does nothing with the optical channels `keep`: a unitary optical element or a controlled wave plate given on two other channels, a custom node with a Fock matrix that acts elsewhere, a generic node with a function that acts elsewhere, a measurement of other channels, or any classical node. -/
def LeavesAlone (g : Cfg) (m : ℕ) (keep : List ℕ) : Node → Prop
  | .optical M tl => M ∈ Matrix.unitaryGroup (Fin 2) ℂ ∧ AwayFrom g keep (M, tl)
  | .fockMatrix F => ActsElsewhere g keep F
  | .classical _ _ _ => True
  | .measurement opt cls => cls.length = opt.length ∧ ∀ j ∈ opt, j < g.C ∧ j ∉ keep
  | .controlled _ _ _ tl => AwayFrom g keep (1, tl)
  | .generic f => FunctionElsewhere g m keep f
  | .bridge _ => False

/-- Probability to find the photon numbers `o` in the channels `channels`, for the states of a collection with the given label. -/
noncomputable def chance (g : Cfg) (label : List Char) (channels : List ℕ) (coll : Coll) (o : List ℕ) : ℝ :=
  sumFrom label (fun q => q.cum * outcomeProb g channels q.comps o) coll

end Verif.Spec
