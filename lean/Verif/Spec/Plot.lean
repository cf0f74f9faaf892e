/-
Independent specification of histograms and correlations.
-/
import Verif.Model.Evaluate

namespace Verif.Spec
open Verif

/-- The summed cumulative probability of the states of a collection with some property. -/
noncomputable def probOf (coll : Coll) (P : QState → Prop) : ℝ :=
  open Classical in ((coll.filter (fun p => decide (P p.2))).map (fun p => p.2.cum)).sum

/-- The state is among the initial states asked for (an empty list asks for all). -/
def Asked (initials : List (List Char)) (s : QState) : Prop := initials = [] ∨ s.initial ∈ initials

/-- The classical channels shown in a histogram (an empty list means all `m` channels). -/
def shownChannels (m : ℕ) (channels : List ℤ) : List ℤ := if channels = [] then (List.range m).map (fun n : ℕ => (n : ℤ)) else channels

/-- The state has the values `v` in the given classical channels (`pyGet`: Python indexing, negative channels count from the end). -/
def Shown (channels : List ℤ) (s : QState) (v : List ℝ) : Prop :=
  List.Forall₂ (fun c x => pyGet s.classical c = some x) channels v

/-- The state has the natural numbers `v`, all below `L`, in the given classical channels. -/
def ShownNat (L : ℕ) (channels : List ℤ) (s : QState) (v : List ℕ) : Prop :=
  Shown channels s (v.map (fun n : ℕ => (n : ℝ))) ∧ ∀ n ∈ v, n < L

/-- The classical channels of the state contain natural numbers below `L`, for each of the `m` channels. -/
def HasNats (L m : ℕ) (s : QState) (v : List ℕ) : Prop :=
  s.classical = v.map (fun n : ℕ => (n : ℝ)) ∧ v.length = m ∧ ∀ n ∈ v, n < L

end Verif.Spec
