/-
Independent specification of the quick time delay.
-/
import Verif.Spec.Spectral

namespace Verif.Spec
open Verif

/-- The part of a column in which the pulses overlap: probability times `p`, all photons at time 0. -/
structure OverlapPart (p : ℝ) (c c' : Column) : Prop where
  amp : c'.amp = c.amp
  boson : c'.boson = c.boson
  id : c'.id = c.id
  gprob : c'.gprob = c.gprob * p
  states : List.Forall₂ (fun s s' : PState => s'.q.comps = s.q.comps ∧ s'.q.classical = s.q.classical ∧ s'.q.initial = s.q.initial ∧ s'.q.results = s.q.results ∧
    s'.q.cum = s.q.cum * p ∧ s'.info = some ⟨0, 1⟩) c.states c'.states

open Classical in
/-- A state with one component and the part of it with the photons in the channels `keep` only; the photons of the part are at time `t`. -/
structure StatePart (g : Cfg) (keep : ℕ → Prop) (t p : ℝ) (s s' : PState) : Prop where
  initial : s'.q.initial = s.q.initial
  classical : s'.q.classical = s.q.classical
  results : s'.q.results = s.q.results
  cum : s'.q.cum = s.q.cum * p
  info : s'.info = some ⟨t, 1⟩
  comps : ∃ (v v' : Vals) (n n' : Name) (k k' : Comp), Valid g v ∧ Valid g v' ∧ IsName g v n ∧ IsName g v' n' ∧ s.q.comps = [(n, k)] ∧ s'.q.comps = [(n', k')] ∧ k'.amp = k.amp ∧
    ∀ ch : ℕ, v'.getD ch 0 = if keep ch then v.getD ch 0 else 0

/-- The part of a column in which the pulses are separated: every state becomes two states, the photons left behind and the photons that were delayed. -/
structure SeparatedPart (g : Cfg) (chs : List ℕ) (p : ℝ) (c c' : Column) : Prop where
  amp : c'.amp = c.amp
  boson : c'.boson = c.boson
  id : c'.id = c.id
  gprob : c'.gprob = c.gprob * p
  states : ∃ pairs : List (PState × PState), c'.states = pairs.flatMap (fun x => [x.1, x.2]) ∧
    List.Forall₂ (fun s x => StatePart g (· ∉ chs) (-100) p s x.1 ∧ StatePart g (· ∈ chs) 100 p s x.2) c.states pairs

/-- One group before the quick delay and the two groups it is replaced by. `p` is the overlap probability for the delay `t` of the group. -/
def QuickParts (g : Cfg) (fuel : ℕ) (chs : List ℕ) (d : DelaySource) (w : ℝ) (cols over sep : List Column) : Prop :=
  ∃ split t, splitColumns g fuel cols = some split ∧ (∃ c ∈ split, ∃ s ∈ c.states, DelayIs d s.q t) ∧ List.Forall₂ (OverlapPart (Real.exp (-(Real.log 2) * (t / w) ^ 2))) split over ∧
    List.Forall₂ (SeparatedPart g chs (1 - Real.exp (-(Real.log 2) * (t / w) ^ 2))) split sep

/-- The groups `ys` of `G'` come, initial state by initial state, from the groups of `G`: group `x` of `G` is replaced by the groups `R x`. -/
def GroupsReplaced (R : List Column → List (List Column) → Prop) (G G' : Groups) : Prop :=
  List.Forall₂ (fun (e e' : List Char × Dict ℕ (List Column)) => e'.1 = e.1 ∧
    ∃ ys : List (List (List Column)), List.Forall₂ R (e.2.map Prod.snd) ys ∧ e'.2.map Prod.snd = ys.flatten) G G'

end Verif.Spec
