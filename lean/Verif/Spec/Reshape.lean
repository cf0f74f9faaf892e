/-
Independent specification of channel selections, for reduce / extend.
-/
import Verif.Spec.State
import Verif.Model.Collection

namespace Verif.Spec
open Verif

/-- The photon numbers of the listed channels, in the order of the list. -/
def select (channels : List ℕ) (v : Vals) : Vals := channels.map (fun c => v.getD c 0)

/-- An empty list of channels to keep means all of them (collection_of_states.py, documentation of `reduce`). -/
def orAll (n : ℕ) (channels : List ℕ) : List ℕ := if channels = [] then List.range n else channels

/-- `v` and `w` have the same photon numbers in every channel that is not kept. -/
def SameOutside (g : Cfg) (keep : List ℕ) (v w : Vals) : Prop := ∀ c < g.C, c ∉ keep → v.getD c 0 = w.getD c 0

open Classical in
/-- Probability, in a state with components `c`, of the photon numbers of `v` in the channels that are not kept: sum over all basis
states that agree with `v` there. -/
noncomputable def outsideProb (g : Cfg) (keep : List ℕ) (c : Comps) (v : Vals) : ℝ :=
  (c.map (fun p => if ∃ w, Valid g w ∧ IsName g w p.1 ∧ SameOutside g keep v w then ‖p.2.amp‖ ^ 2 else 0)).sum

/-- All lists of `n` photon numbers below `L`, last channel fastest. -/
def allLists (L : ℕ) : ℕ → List Vals
  | 0 => [[]]
  | n + 1 => (allLists L n).flatMap (fun e => (List.range L).map (fun x => e ++ [x]))

/-- Probability of the photon numbers `e` when each channel is filled independently with distribution `dist`. -/
noncomputable def weight (dist : List ℝ) (e : Vals) : ℝ := (e.map (fun x => dist.getD x 0)).prod

/-- The distribution used by `extend`: the given one, or the vacuum if none is given. -/
noncomputable def orVacuum (L : ℕ) (dist : List ℝ) : List ℝ := if dist = [] then 1 :: List.replicate (L - 1) 0 else dist

/-- `q'` is the state `q` with the extra photon numbers `e` appended (probability `w`) and `ec` extra classical zeros: same label and
history, and under every name the component that `q` had under the shorter name, in the same order. -/
def Extends (g g' : Cfg) (ec : ℕ) (w : ℝ) (e : Vals) (q q' : QState) : Prop :=
  q'.initial = q.initial ∧ q'.cum = q.cum * w ∧ q'.classical = q.classical ++ List.replicate ec 0 ∧ q'.results = q.results ∧
  List.Forall₂ (fun p p' => p'.2 = p.2 ∧ ∃ v, Valid g v ∧ IsName g v p.1 ∧ IsName g' (v ++ e) p'.1) q.comps q'.comps

/-- Cumulative probability stored under an identifier (0 if there is none). -/
noncomputable def cumOf (states : Coll) (i : List Char) : ℝ := (states.get? i).elim 0 QState.cum

/-- Sum of the cumulative probabilities of the states with the given initial state. -/
noncomputable def labelTotal (label : List Char) (states : Coll) : ℝ :=
  ((states.filter (fun p => p.2.initial = label)).map (fun p => p.2.cum)).sum

open Classical in
/-- Total probability of the components that reach the threshold. -/
noncomputable def keptProb (thr : ℝ) (c : Comps) : ℝ := (c.map (fun p => if thr ≤ ‖p.2.amp‖ ^ 2 then ‖p.2.amp‖ ^ 2 else 0)).sum

/-- Every component of the first state occurs in the second, with amplitude and probability that differ by less than the threshold. -/
def Resembles (thr : ℝ) (a b : Comps) : Prop :=
  ∀ s x, a.get? s = some x → ∃ y, b.get? s = some y ∧ |x.prob - y.prob| < thr ∧ ‖x.amp - y.amp‖ ^ 2 < thr

end Verif.Spec
