/-
Specification of the Born rule for what is found in measured channels.
-/
import Verif.Spec.Creation
import Verif.Spec.Measurement
import Mathlib.Algebra.BigOperators.Finprod
import Mathlib.LinearAlgebra.UnitaryGroup

namespace Verif.Spec
open Verif

/-- The probability that photon numbers `o` are found in the channels `opt` of the state created by `P`: the squared moduli of the amplitudes of
all basis states with these photon numbers added up. Squared moduli below `thr` are left out; `thr = 0` is the Born rule. -/
noncomputable def findProb (g : Cfg) (thr : ℝ) (P : MvPolynomial Mode ℂ) (opt o : List ℕ) : ℝ :=
  ∑ᶠ w ∈ {w : Vals | Valid g w ∧ Reads opt w o ∧ thr ≤ ‖amplitudeIn P none w‖ ^ 2}, ‖amplitudeIn P none w‖ ^ 2

/-- The state `q` as polynomial in the creation operators, all photons identical. -/
noncomputable def statePolynomial (g : Cfg) (q : QState) : MvPolynomial Mode ℂ := statePoly g ⟨q, none⟩

/-- A state that can be sent through optical elements below the cutoff and measured: valid components with the right stored probabilities, total
probability at most 1, valid cumulative probability, one value for each classical channel, at least one component, fewer photons than the cutoff in every component. -/
structure Sendable (g : Cfg) (m : ℕ) (q : QState) : Prop where
  measurable : Measurable g m q
  nonempty : q.comps ≠ []
  few : ∀ p ∈ q.comps, ∀ v, IsName g v p.1 → Valid g v → v.sum < g.L

/-- The optical nodes are the given lossless elements. -/
def LosslessElements (g : Cfg) (gates : List Gate) (nodes : List (Opt × List ℕ)) : Prop :=
  List.Forall₂ (GateNode g) gates nodes ∧ ∀ e ∈ gates, e.M ∈ Matrix.unitaryGroup (Fin 2) ℂ

/-! ### A single photon -/

/-- Photon numbers with one photon in channel `j` of `C` channels. -/
def onePhoton (C j : ℕ) : Vals := (List.replicate C 0).set j 1

/-- What is found in the channels `opt` if the only photon is in channel `j`. -/
def foundFor (opt : List ℕ) (j : ℕ) : List ℕ := opt.map (fun x => if x = j then 1 else 0)

/-- What an optical element does to the amplitudes `u` of a field in the channels (the matrix acts transposed, see C54; this makes no difference
for the symmetric matrices of the elements provided by the package). -/
noncomputable def fieldStep (u : ℕ → ℂ) (e : Gate) : ℕ → ℂ := fun j =>
  if j = e.h then e.M 0 0 * u e.h + e.M 1 0 * u e.c else if j = e.c then e.M 0 1 * u e.h + e.M 1 1 * u e.c else u j

/-- The amplitudes of the field after all elements, the first one first. -/
noncomputable def fieldAfter (gates : List Gate) (u : ℕ → ℂ) : ℕ → ℂ := gates.foldl fieldStep u

/-- The state is a single photon with amplitude `u j` in channel `j`. -/
structure SinglePhoton (g : Cfg) (q : QState) (u : ℕ → ℂ) : Prop where
  one : ∀ p ∈ q.comps, ∀ v, Valid g v → IsName g v p.1 → v.sum = 1
  amp : ∀ j < g.C, ∀ nm, IsName g (onePhoton g.C j) nm → ampOf q.comps nm = u j

end Verif.Spec
