/-
Independent specification of circuits with optical elements and time delays: every element is a substitution of creation operators.
-/
import Verif.Spec.Creation
import Verif.Spec.Interference
import Verif.Spec.Spectral
import Verif.Model.Pipeline
import Mathlib.Algebra.MvPolynomial.Rename
import Mathlib.LinearAlgebra.UnitaryGroup

namespace Verif.Spec
open Verif MvPolynomial

/-- The optical and spectral elements of a circuit. -/
inductive Element where
  /-- optical elements, the first one first -/
  | optics (gates : List Gate)
  /-- a time delay of the channels `chs`; the delay is a number or the value of a classical channel; the pulse width of all photons is set to `w` -/
  | delay (chs : List ℕ) (d : DelaySource) (w : ℝ)
  /-- the pulse width of the photons in the channels `chs` is set to `w` -/
  | width (chs : List ℕ) (w : ℝ)

/-- The delay prescribed by an element when the classical channels have the values `cl`. -/
noncomputable def delayFor (cl : List ℝ) : DelaySource → ℝ
  | .value t => t
  | .classical ch => cl.getD ch 0

/-- A photon in channel `ch` after a delay. -/
noncomputable def delayMode (chs : List ℕ) (t w : ℝ) (m : Mode) : Mode := (m.1, some ⟨delayOf m.2 - (if m.1 ∈ chs then t else 0), w⟩)

/-- A photon in channel `ch` after setting the pulse width. -/
noncomputable def widthMode (chs : List ℕ) (w : ℝ) (m : Mode) : Mode := (m.1, some ⟨delayOf m.2, if m.1 ∈ chs then w else widthOf m.2⟩)

/-- What an element does to the state created by `P`. -/
noncomputable def elementSubst (cl : List ℝ) (P : MvPolynomial Mode ℂ) : Element → MvPolynomial Mode ℂ
  | .optics gates => opticsSubst gates P
  | .delay chs d w => rename (delayMode chs (delayFor cl d) w) P
  | .width chs w => rename (widthMode chs w) P

/-- Several elements, the first one first. -/
noncomputable def circuitSubst (cl : List ℝ) (es : List Element) (P : MvPolynomial Mode ℂ) : MvPolynomial Mode ℂ := es.foldl (elementSubst cl) P

/-- The step of the evaluation is the element: optical elements are lossless (unitary); the channels of a delay exist; a classical channel for the delay exists (`m` channels); the channels for
which the pulse width is set exist, and there is at least one; pulse widths are not zero. -/
def ElementStage (g : Cfg) (m : ℕ) : Element → Stage → Prop
  | .optics gates, .optics n l => List.Forall₂ (GateNode g) gates (n :: l) ∧ ∀ e ∈ gates, e.M ∈ Matrix.unitaryGroup (Fin 2) ℂ
  | .delay chs d w, .delay chs' d' w' => chs' = chs ∧ d' = d ∧ w' = w ∧ (∀ ch ∈ chs, ch < g.C) ∧ (∀ ch, d = .classical ch → ch < m) ∧ w ≠ 0
  | .width chs w, .width chs' w' => chs' = chs ∧ w' = w ∧ (∀ ch ∈ chs, ch < g.C) ∧ chs ≠ [] ∧ w ≠ 0
  | _, _ => False

/-- The node of a circuit is the element; an optical node is one optical element. The conditions are those of `ElementStage`. -/
def ElementNode (g : Cfg) (m : ℕ) : Element → SNode → Prop
  | .optics gates, .optical M tl => ∃ e, gates = [e] ∧ GateNode g e (M, tl) ∧ e.M ∈ Matrix.unitaryGroup (Fin 2) ℂ
  | .delay chs d w, .delay chs' d' w' => chs' = chs ∧ d' = d ∧ w' = w ∧ (∀ ch ∈ chs, ch < g.C) ∧ (∀ ch, d = .classical ch → ch < m) ∧ w ≠ 0
  | .width chs w, .width chs' w' => chs' = chs ∧ w' = w ∧ (∀ ch ∈ chs, ch < g.C) ∧ chs ≠ [] ∧ w ≠ 0
  | _, _ => False

/-- Optical elements that follow each other are taken together, the first one first. -/
def mergeOptics : List Element → List Element
  | [] => []
  | .optics a :: rest =>
    match mergeOptics rest with
    | .optics b :: es => .optics (a ++ b) :: es
    | es => .optics a :: es
  | e :: rest => e :: mergeOptics rest

/-- The first spectral element is a delay or sets the pulse width for some but not all channels (otherwise the states would not be given photon information, see C69). -/
def StartsResolved (g : Cfg) : List Element → Prop
  | [] => False
  | .optics _ :: es => StartsResolved g es
  | .delay _ _ _ :: _ => True
  | .width chs _ :: _ => ∃ ch < g.C, ch ∉ chs

/-- The photon information of a state of a collection. -/
def infoOf (s : AState) : Option PInfo := s.aux.bind Aux.info

/-- Optical elements applied to the collection `coll` do not produce amplitudes, other than zero, that are dropped because they are below the threshold. -/
def NothingDropped (g : Cfg) (thr : ℝ) (gates : List Gate) (coll : List AState) : Prop :=
  ∀ s ∈ coll, ∀ w, Valid g w → ‖amplitudeIn (opticsSubst gates (statePoly g ⟨s.q, infoOf s⟩)) (infoOf s) w‖ ^ 2 < thr →
    amplitudeIn (opticsSubst gates (statePoly g ⟨s.q, infoOf s⟩)) (infoOf s) w = 0

/-- An input state without photon information: valid names, normalised, no zero amplitudes, fewer photons than the cutoff, valid probability, `m` classical channels. A bare vacuum state
must have amplitude 1. -/
structure FreshState (g : Cfg) (m : ℕ) (s : AState) : Prop where
  aux : s.aux = none
  wf : WellFormed g s.q.comps
  probs : ProbsAgree s.q.comps
  norm : totalProb s.q.comps = 1
  nonzero : ∀ p ∈ s.q.comps, p.2.amp ≠ 0
  few : ∀ p ∈ s.q.comps, ∀ v, Valid g v → IsName g v p.1 → v.sum < g.L
  vacuum : ∀ p, s.q.comps = [p] → ∀ v, Valid g v → IsName g v p.1 → v.sum = 0 → p.2.amp = 1
  cum : 0 ≤ s.q.cum ∧ s.q.cum ≤ 1
  classical : s.q.classical.length = m

/-- During the evaluation of the circuit `es` (evaluated as `stages`) on the collection `l`, no optical element drops amplitudes other than zero. -/
def KeepsAll (c : Circ) (es : List Element) (stages : List Stage) (l : List AState) : Prop :=
  ∀ (k : ℕ) (gates : List Gate), es[k]? = some (.optics gates) → ∀ (fuel : ℕ) (l' : List AState), runStages c fuel (stages.take k) l = some l' → NothingDropped c.g c.thr gates l'

/-! ### A condition on the circuit -/

/-- The element gives every photon its own state: a delay, or a pulse width for some but not all channels. -/
def MakesPhotons (g : Cfg) : Element → Prop
  | .optics _ => False
  | .delay _ _ _ => True
  | .width chs _ => ∃ ch < g.C, ch ∉ chs

/-- Seen by a single photon, the optical elements have no transition probability between 0 and the threshold. -/
def SinglePhotonKeeps (thr : ℝ) (gates : List Gate) : Prop :=
  ∀ (m : Mode) (j : ℕ), ‖(opticsSubst gates (X m)).coeff (Finsupp.single (j, m.2) 1)‖ ^ 2 < thr → (opticsSubst gates (X m)).coeff (Finsupp.single (j, m.2) 1) = 0

end Verif.Spec
