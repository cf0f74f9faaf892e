/-
Independent specification of photon columns: what a column of states means as a combination of products of creation operators.
A mode is a channel together with the properties of the photon (arrival time, pulse width); photons with different properties belong to different modes.
A polynomial in the modes stands for the state it creates from the vacuum, e.g. `X₀²/√2` is two identical photons in channel 0.
-/
import Verif.Model.Columns
import Mathlib.Algebra.MvPolynomial.Basic

namespace Verif.Spec
open Verif MvPolynomial

/-- Channel and photon information. -/
abbrev Mode := ℕ × Option PInfo

/-- The state with photon numbers `v` and photon information `info`: product over the channels of `X^n / √(n!)`. -/
noncomputable def ketPoly (info : Option PInfo) (v : Vals) : MvPolynomial Mode ℂ :=
  (v.zipIdx.map (fun p => C (1 / (Real.sqrt (Nat.factorial p.1) : ℂ)) * X (p.2, info) ^ p.1)).prod

/-- A state: sum of its components. -/
noncomputable def statePoly (g : Cfg) (s : PState) : MvPolynomial Mode ℂ :=
  (s.q.comps.map (fun p => C p.2.amp * ((g.parse p.1).map (ketPoly s.info)).getD 0)).sum

/-- A column: column amplitude, divided by the boson factor, times the product of its states. -/
noncomputable def columnPoly (g : Cfg) (c : Column) : MvPolynomial Mode ℂ :=
  C (c.amp / (c.boson : ℂ)) * (c.states.map (statePoly g)).prod

/-- An interference group: sum of its columns. -/
noncomputable def groupPoly (g : Cfg) (cols : List Column) : MvPolynomial Mode ℂ := (cols.map (columnPoly g)).sum

/-- Every state of the column has exactly one optical component. -/
def SingleComponents (c : Column) : Prop := ∀ s ∈ c.states, ∃ p : Name × Comp, s.q.comps = [p]

/-- Every state of the column has exactly one optical component and its amplitude is 1. -/
def SingleUnit (c : Column) : Prop := ∀ s ∈ c.states, ∃ p : Name × Comp, s.q.comps = [p] ∧ p.2.amp = 1

end Verif.Spec
