/-
Specification: what is left of a state after photon numbers were found in some channels, and feed-forward.
-/
import Verif.Spec.Born
import Verif.Model.OpticalNodes

namespace Verif.Spec
open Verif MvPolynomial

open Classical in
/-- The terms of `P` with the photon numbers `o` in the channels `opt`. -/
noncomputable def foundPart (opt o : List ℕ) (P : MvPolynomial Mode ℂ) : MvPolynomial Mode ℂ :=
  ∑ d ∈ P.support.filter (fun d => opt.map (fun x => d (x, none)) = o), monomial d (P.coeff d)

/-- The threshold removes no amplitude other than zero from the state created by `P`. -/
def NotDropped (g : Cfg) (thr : ℝ) (P : MvPolynomial Mode ℂ) : Prop := ∀ w, Valid g w → ‖amplitudeIn P none w‖ ^ 2 < thr → amplitudeIn P none w = 0

/-- `q'` is what is left of the state `q`, created by `P` when the channels `opt` are measured, if the photon numbers `o` are found and written to the classical channels `cls`. -/
structure FoundState (g : Cfg) (opt cls : List ℕ) (P : MvPolynomial Mode ℂ) (q : QState) (o : List ℕ) (q' : QState) : Prop where
  /-- the photon numbers can be found -/
  possible : findProb g 0 P opt o ≠ 0
  /-- the probability is the one of the Born rule -/
  cum : q'.cum = q.cum * findProb g 0 P opt o
  /-- the terms with these photon numbers are left, rescaled -/
  poly : statePolynomial g q' = C (1 / (Real.sqrt (findProb g 0 P opt o) : ℂ)) * foundPart opt o P
  initial : q'.initial = q.initial
  shown : ∀ i x : ℕ, cls[i]? = some x → q'.classical[x]? = (o[i]?).map (fun n : ℕ => (n : ℝ))
  kept : ∀ n : ℕ, n ∉ cls → q'.classical[n]? = q.classical[n]?
  length : q'.classical.length = q.classical.length

/-- `q'` is what a wave plate on the channels `h`, `v` makes of the state `q₁` when its two angles are read from the classical channels `x` and `y` after `f` has been applied
to the classical values. -/
structure FedState (g : Cfg) (f : List ℝ → Option (List ℝ)) (h v x y : ℕ) (q₁ q' : QState) : Prop where
  classical : f q₁.classical = some q'.classical
  poly : ∃ θ φ : ℝ, q'.classical[x]? = some θ ∧ q'.classical[y]? = some φ ∧ statePolynomial g q' = gateSubst (genericMatrix θ φ) h v (statePolynomial g q₁)
  cum : q'.cum = q₁.cum
  initial : q'.initial = q₁.initial

end Verif.Spec
