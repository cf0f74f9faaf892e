/-
Independent specification of shifts: what the photon numbers are after the node.
-/
import Verif.Spec.State

namespace Verif.Spec
open Verif

/-- `w` is `v` with, in each channel, the sum of all shifts listed for that channel added modulo the length. -/
def Shifted (g : Cfg) (targets : List ℕ) (shifts : List ℤ) (v w : Vals) : Prop :=
  ∀ c < g.C, (w.getD c 0 : ℤ) = ((v.getD c 0 : ℤ) + (((shifts.zip targets).filter (fun q => q.2 = c)).map Prod.fst).sum) % (g.L : ℤ)

/-- `w` is `v` with, in each channel, the photon numbers of all its control channels added modulo the length. -/
def CShifted (g : Cfg) (controls targets : List ℕ) (v w : Vals) : Prop :=
  ∀ c < g.C, w.getD c 0 = (v.getD c 0 + (((controls.zip targets).filter (fun q => q.2 = c)).map (fun q => v.getD q.1 0)).sum) % g.L

/-- The matrix describes the transition `v → w` of basis states: entry 1 in column `v` and row `w` exactly for `R v w`, 0 elsewhere. -/
def TransitionMatrix (g : Cfg) (R : Vals → Vals → Prop) (M : SqArr) : Prop :=
  M.size = g.L ^ g.C ∧ ∀ v w, Valid g v → Valid g w →
    (R v w → M.at_ (g.indexOf w) (g.indexOf v) = 1) ∧ (¬ R v w → M.at_ (g.indexOf w) (g.indexOf v) = 0)

/-- `R` is a permutation of the valid photon-number lists. -/
def IsPermutation (g : Cfg) (R : Vals → Vals → Prop) : Prop :=
  (∀ v, Valid g v → ∃! w, Valid g w ∧ R v w) ∧ (∀ w, Valid g w → ∃! v, Valid g v ∧ R v w)

end Verif.Spec
