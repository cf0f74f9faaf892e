/-
Independent specification of the action of a two-mode linear optical element on photon numbers.
-/
import Verif.Model.Fock
import Verif.Spec.Names
import Mathlib.Algebra.Polynomial.Basic
import Mathlib.Algebra.Polynomial.Coeff
import Mathlib.LinearAlgebra.UnitaryGroup

namespace Verif.Spec
open Verif Polynomial

/-- The generating polynomial of input `n` photons in the first and `m` in the second mode:
`(M00 X + M10)^n (M01 X + M11)^m`; `X` marks a photon leaving through the first mode. -/
noncomputable def genPoly (M : Opt) (n m : ℕ) : ℂ[X] :=
  (C (M 0 0) * X + C (M 1 0)) ^ n * (C (M 0 1) * X + C (M 1 1)) ^ m

/-- Bosonic transition amplitude between the photon numbers `(n, m)` and `(u, v)` of two modes for the optical matrix `M`
(zero unless the photon number is conserved). -/
noncomputable def bosonAmp (M : Opt) (n m u v : ℕ) : ℂ :=
  if n + m = u + v then
    (genPoly M n m).coeff u *
      (Real.sqrt ((u.factorial * v.factorial : ℕ) / ((n.factorial * m.factorial : ℕ) : ℝ)) : ℂ)
  else 0

/-- The same with the cutoff rule: with `L` or more photons in the two modes nothing happens. -/
noncomputable def gateAmp (L : ℕ) (M : Opt) (n m u v : ℕ) : ℂ :=
  if n + m < L then bosonAmp M n m u v else if n = u ∧ m = v then 1 else 0

/-- A square array as a Mathlib matrix. -/
def toMatrix (A : SqArr) : Matrix (Fin A.size) (Fin A.size) ℂ := fun i j => A.at_ i j

/-- The array is unitary. -/
def IsUnitary (A : SqArr) : Prop := toMatrix A ∈ Matrix.unitaryGroup (Fin A.size) ℂ

/-- All basis states in increasing index order (see `StandardOrder`, C05). -/
def standardKeys (g : Cfg) : List Vals := (List.range g.size).map g.valuesFromIndex

end Verif.Spec
