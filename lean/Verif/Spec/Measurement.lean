/-
Independent specification of measurement outcomes.
-/
import Verif.Model.Measurement
import Verif.Spec.State

namespace Verif.Spec
open Verif

/-- The photon numbers found in the measured channels of a basis state. -/
def Reads (opt : List ℕ) (v : Vals) (o : List ℕ) : Prop := o = opt.map (fun n => v.getD n 0)

/-- Some component of the state has this outcome. -/
def Occurs (g : Cfg) (opt : List ℕ) (c : Comps) (o : List ℕ) : Prop :=
  ∃ v s, Valid g v ∧ IsName g v s ∧ s ∈ c.map Prod.fst ∧ Reads opt v o

open Classical in
/-- Born probability of an outcome: the squared moduli of all components that have it. -/
noncomputable def outcomeProb (g : Cfg) (opt : List ℕ) (c : Comps) (o : List ℕ) : ℝ :=
  (c.map (fun p => if ∃ v, Valid g v ∧ IsName g v p.1 ∧ Reads opt v o then ‖p.2.amp‖ ^ 2 else 0)).sum

/-- A state that can be measured: valid components with the right stored probabilities, total probability at most 1,
cumulative probability between 0 and 1, one value for each of the `m` classical channels. -/
structure Measurable (g : Cfg) (m : ℕ) (q : QState) : Prop where
  wf : WellFormed g q.comps
  probs : ProbsAgree q.comps
  total : totalProb q.comps ≤ 1
  cum0 : 0 ≤ q.cum
  cum1 : q.cum ≤ 1
  classical : q.classical.length = m

end Verif.Spec
