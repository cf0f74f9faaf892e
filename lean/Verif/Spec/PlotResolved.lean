/-
Independent specification of histograms of photon-resolved collections.
-/
import Verif.Spec.Plot
import Verif.Spec.Spectral

namespace Verif.Spec
open Verif

open Classical in
/-- The probability of a column (probability of the group times squared column amplitude) if its last state has some property, otherwise 0. -/
noncomputable def columnProb (P : QState → Prop) (c : Column) : ℝ := if ∃ s, c.states.getLast? = some s ∧ P s.q then c.gprob * ‖c.amp‖ ^ 2 else 0

/-- The summed probability of the columns with some property. -/
noncomputable def columnsProb (G : Groups) (P : QState → Prop) : ℝ := (G.map (fun e => (e.2.map (fun x => (x.2.map (columnProb P)).sum)).sum)).sum

/-- A state that can be split into its components: valid names, at least one component, normalised if there are several, no zero amplitudes. -/
structure Splits (g : Cfg) (c : Comps) : Prop where
  wf : WellFormed g c
  ne : c ≠ []
  norm : 2 ≤ c.length → totalProb c = 1 ∧ ∀ p ∈ c, p.2.amp ≠ 0

/-- The column can be shown as one state: it has states, whichever component is chosen for each of them the photon numbers add up to valid ones, and its probability lies
between 0 and 1. -/
structure Showable (g : Cfg) (c : Column) : Prop where
  ne : c.states ≠ []
  fits : ∀ (v : Vals) (vs : List Vals), List.Forall₂ (fun (s : PState) w => ∃ p ∈ s.q.comps, g.parse p.1 = some w) c.states (v :: vs) →
    Valid g (vs.foldl (fun acc w => List.zipWith (· + ·) w acc) v)
  prob : 0 ≤ c.gprob ∧ c.gprob * ‖c.amp‖ ^ 2 ≤ 1

/-- A group as a photon-resolved measurement leaves it: one probability `p` for all columns, column amplitudes normalised, all states with the values `v` in the shown channels. -/
structure SettledGroup (channels : List ℤ) (cols : List Column) (p : ℝ) (v : List ℝ) : Prop where
  prob : ∀ c ∈ cols, c.gprob = p
  norm : (cols.map (fun c => ‖c.amp‖ ^ 2)).sum = 1
  states : ∀ c ∈ cols, c.states ≠ [] ∧ ∀ s ∈ c.states, Shown channels s.q v

end Verif.Spec
