/-
Independent specification of Popescu-Rohrlich photon pairs: polarization amplitudes, overlap and correlation.
-/
import Mathlib.Analysis.SpecialFunctions.Pow.Real
import Mathlib.Analysis.Complex.Norm
import Mathlib.Algebra.BigOperators.Fin
import Mathlib.LinearAlgebra.UnitaryGroup

namespace Verif.Spec

/-- A configuration digit 0, 1, 2, 3 stands for the polarizations HH, HV, VH, VV: polarization of the first photon (0 = H). -/
def polA (q : Fin 4) : Fin 2 := ⟨q.val / 2, by omega⟩

/-- Polarization of the second photon. -/
def polB (q : Fin 4) : Fin 2 := ⟨q.val % 2, by omega⟩

/-- The digit with given polarizations. -/
def pol (i j : Fin 2) : Fin 4 := ⟨2 * i.val + j.val, by omega⟩

/-- Squared norm of polarization amplitudes. -/
noncomputable def polWeight (a : Fin 2 → ℂ) : ℝ := ‖a 0‖ ^ 2 + ‖a 1‖ ^ 2

/-- How well two polarizations are aligned: squared modulus of the normalised inner product, between 0 and 1. -/
noncomputable def overlap (a b : Fin 2 → ℂ) : ℝ := ‖star (a 0) * b 0 + star (a 1) * b 1‖ ^ 2 / (polWeight a * polWeight b)

/-- Correlation strength: the `1/K`-th power with the sign kept. -/
noncomputable def correlation (K x : ℝ) : ℝ := if 0 ≤ x then x ^ (1 / K) else -((-x) ^ (1 / K))

/-- Correlation of two polarizations: +1 for equal and -1 for orthogonal polarizations. -/
noncomputable def pairCorrelation (K : ℝ) (a b : Fin 2 → ℂ) : ℝ := correlation K (2 * overlap a b - 1)

end Verif.Spec
