/-
Independent specification of ladder operators: linear operators on formal combinations of photon-number lists.
-/
import Verif.Model.Names
import Mathlib.LinearAlgebra.Finsupp.LinearCombination
import Mathlib.Analysis.Real.Sqrt
import Mathlib.Data.Complex.Basic

namespace Verif.Spec
open Verif

/-- Formal combinations of photon-number lists. -/
abbrev Fock := List ℕ →₀ ℂ

/-- The creation operator of channel `c`: |.., n, ..⟩ ↦ √(n+1) |.., n+1, ..⟩. -/
noncomputable def create (c : ℕ) : Fock →ₗ[ℂ] Fock :=
  Finsupp.linearCombination ℂ (fun v => Finsupp.single (v.set c (v.getD c 0 + 1)) (Real.sqrt (v.getD c 0 + 1) : ℂ))

/-- The annihilation operator of channel `c`: |.., n, ..⟩ ↦ √n |.., n-1, ..⟩. -/
noncomputable def annihilate (c : ℕ) : Fock →ₗ[ℂ] Fock :=
  Finsupp.linearCombination ℂ (fun v => Finsupp.single (v.set c (v.getD c 0 - 1)) (Real.sqrt (v.getD c 0) : ℂ))

/-- The operator of one command of a command string: '+' creates, '-' annihilates, any other character does nothing. -/
noncomputable def command (c : ℕ) (cmd : Char) : Fock →ₗ[ℂ] Fock :=
  if cmd = '+' then create c else if cmd = '-' then annihilate c else LinearMap.id

/-- The operator of a command string: the commands act one after the other, the first one first. -/
noncomputable def commands : List (ℕ × Char) → Fock →ₗ[ℂ] Fock
  | [] => LinearMap.id
  | x :: w => (commands w).comp (command x.1 x.2)

/-- The adjoint command string: reversed order, creation and annihilation exchanged. -/
def adjointWord (w : List (ℕ × Char)) : List (ℕ × Char) :=
  (w.map (fun x => (x.1, if x.2 = '+' then '-' else if x.2 = '-' then '+' else x.2))).reverse

end Verif.Spec
