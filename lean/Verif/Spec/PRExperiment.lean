/-
Independent specification of an experiment with Popescu-Rohrlich pairs: a list of two-channel optical elements, each acting either on the
two polarization channels of one photon of one pair or on two channels that belong to no pair.
-/
import Verif.Spec.PRGate
import Verif.Spec.Fock
import Verif.Spec.Measurement
import Verif.Model.TensorList
import Verif.Model.Evaluate

namespace Verif.Spec
open Verif

/-- One optical element with optical matrix `M`: on photon `s` (0: first, 1: second) of pair `k`, or on channels `h`, `c` elsewhere. -/
inductive LocalStep (n : ℕ)
  | photon (k : Fin n) (s : Fin 2) (M : Opt)
  | elsewhere (h c : ℕ) (M : Opt)

/-- The channel of photon `s` of pair `k` for polarization `i` (0: horizontal). -/
def photonChannel (boxes : List Box) (k : Fin boxes.length) (s i : Fin 2) : ℕ := (boxes.get k).channels.getD (2 * s.val + i.val) 0

/-- The channel belongs to no pair. -/
def Outside (boxes : List Box) (i : ℕ) : Prop := ∀ b ∈ boxes, i ∉ b.channels

/-- The two channels of a step. -/
def LocalStep.channels (boxes : List Box) : LocalStep boxes.length → ℕ × ℕ
  | .photon k s _ => (photonChannel boxes k s 0, photonChannel boxes k s 1)
  | .elsewhere h c _ => (h, c)

/-- The optical matrix of a step. -/
def LocalStep.matrix {n : ℕ} : LocalStep n → Opt
  | .photon _ _ M => M
  | .elsewhere _ _ M => M

/-- The node is the gate of this step: its optical matrix is unitary, its tensor list is the one computed for its channels, and the
channels are not of the form (h, 0) with h >= 2 (for which the tensor list addresses other channels, see C07). A step elsewhere is on
two different existing channels that belong to no pair. -/
structure StepNode (g : Cfg) (boxes : List Box) (step : LocalStep boxes.length) (node : Opt × List ℕ) : Prop where
  matrix : node.1 = step.matrix
  unitary : step.matrix ∈ Matrix.unitaryGroup (Fin 2) ℂ
  list : tensorList g.C [(step.channels boxes).1, (step.channels boxes).2] = some node.2
  order : ¬ (2 ≤ (step.channels boxes).1 ∧ (step.channels boxes).2 = 0)
  elsewhere : ∀ h c M, step = .elsewhere h c M → h < g.C ∧ c < g.C ∧ h ≠ c ∧ Outside boxes h ∧ Outside boxes c

/-- What one step does to a matrix of polarization amplitudes of photon `s` of pair `k`: an element with optical matrix `M` on this photon
takes polarization `j` to `i` with amplitude `M j i` (rows of the optical matrices belong to what enters), other elements do nothing. -/
def polarizationStep {n : ℕ} (k : Fin n) (s : Fin 2) (step : LocalStep n) (W : Matrix (Fin 2) (Fin 2) ℂ) : Matrix (Fin 2) (Fin 2) ℂ :=
  match step with
  | .photon k' s' M => if k' = k ∧ s' = s then M.transpose * W else W
  | .elsewhere _ _ _ => W

/-- What the steps do to the polarization of photon `s` of pair `k`: the entry `i j` is the amplitude to end in polarization `i` when
starting in `j`. -/
noncomputable def polarization {n : ℕ} (steps : List (LocalStep n)) (k : Fin n) (s : Fin 2) : Matrix (Fin 2) (Fin 2) ℂ :=
  steps.foldl (fun W step => polarizationStep k s step W) 1

/-- What one step does to the amplitudes `γ` of the channels outside the pairs. -/
noncomputable def outsideStep {n : ℕ} (L : ℕ) (step : LocalStep n) (γ : Vals → ℂ) : Vals → ℂ :=
  match step with
  | .photon _ _ _ => γ
  | .elsewhere h c M => fun w => ∑ a ∈ Finset.range L, ∑ b ∈ Finset.range L,
      gateAmp L M (w.getD h 0) (w.getD c 0) a b * γ ((w.set h a).set c b)

/-- Amplitudes of the channels outside the pairs after the steps. -/
noncomputable def outsideAmp {n : ℕ} (L : ℕ) (steps : List (LocalStep n)) (γ : Vals → ℂ) : Vals → ℂ :=
  steps.foldl (fun γ step => outsideStep L step γ) γ

/-- The photon numbers of two lists agree outside the pairs. -/
def AgreeOutside (boxes : List Box) (v w : Vals) : Prop := ∀ i, Outside boxes i → v[i]? = w[i]?

open Classical in
/-- Amplitudes of the channels outside the pairs before the steps: the amplitude of the component with these photon numbers. -/
noncomputable def outsideStart (g : Cfg) (boxes : List Box) (c : Comps) (w : Vals) : ℂ :=
  (c.map (fun p => if ∃ v, Valid g v ∧ IsName g v p.1 ∧ AgreeOutside boxes v w then p.2.amp else 0)).sum

/-- In `w` pair `k` is present with polarizations `o k`, for every pair. -/
def HasPairs (boxes : List Box) (o : Fin boxes.length → Fin 4) (w : Vals) : Prop :=
  ∀ (k : Fin boxes.length) (j c : ℕ), (boxes.get k).channels[j]? = some c → w[c]? = some (pairPhotons (o k) j)

/-- The amplitude to find photon numbers `w` with polarizations `o` when the configuration is `x`: the amplitude of the other channels times
the amplitudes of all photons. -/
noncomputable def endAmp (g : Cfg) (boxes : List Box) (c : Comps) (steps : List (LocalStep boxes.length)) (w : Vals) (o x : Fin boxes.length → Fin 4) : ℂ :=
  outsideAmp g.L steps (outsideStart g boxes c) w *
    ∏ k, (polarization steps k 0 (polA (o k)) (polA (x k)) * polarization steps k 1 (polB (o k)) (polB (x k)))

/-- An experiment: circuit settings, pairs with positive quantumness, a valid normalised state whose components differ outside the channels of
the pairs, optical elements with their nodes, and a positive pruning threshold that is not above any non-zero squared amplitude at the end. -/
structure Experiment (c : Circ) (boxes : List Box) (st : PRState) (steps : List (LocalStep boxes.length)) (nodes : List (Opt × List ℕ)) : Prop where
  ok : c.g.Ok
  two : 2 ≤ c.g.L
  boxes_ok : BoxesOk c.g boxes
  some_pair : boxes ≠ []
  quantum : ∀ k, 0 < (boxes.get k).K
  state : Measurable c.g c.m st.q
  normalised : totalProb st.q.comps = 1
  differ : DifferOutside c.g boxes st.q.comps
  gates : List.Forall₂ (StepNode c.g boxes) steps nodes
  thr : 0 < c.thr
  kept : ∀ w o x, Valid c.g w → HasPairs boxes o w → endAmp c.g boxes st.q.comps steps w o x ≠ 0 → c.thr ≤ ‖endAmp c.g boxes st.q.comps steps w o x‖ ^ 2

end Verif.Spec
