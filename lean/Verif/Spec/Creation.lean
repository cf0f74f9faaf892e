/-
Independent specification of linear optics in terms of creation operators: an optical element replaces the creation operators of its two channels by linear combinations.
Polynomials in the modes stand for states (Spec/Columns).
-/
import Verif.Spec.Columns
import Verif.Spec.State
import Verif.Model.TensorList
import Verif.Model.Fock
import Mathlib.Algebra.MvPolynomial.Eval

namespace Verif.Spec
open Verif MvPolynomial

/-- The optical element with matrix `M` on the channels `h` and `c`: the creation operator of `h` becomes `M₀₀ a_h + M₀₁ a_c`, that of `c` becomes `M₁₀ a_h + M₁₁ a_c`; arrival time and
pulse width of a photon do not matter. -/
noncomputable def gateSubst (M : Opt) (h c : ℕ) : MvPolynomial Mode ℂ →ₐ[ℂ] MvPolynomial Mode ℂ :=
  aeval (fun m : Mode => if m.1 = h then C (M 0 0) * X (h, m.2) + C (M 0 1) * X (c, m.2)
    else if m.1 = c then C (M 1 0) * X (h, m.2) + C (M 1 1) * X (c, m.2) else X m)

/-- An optical element: matrix and the two channels. -/
structure Gate where
  M : Opt
  h : ℕ
  c : ℕ

/-- Several optical elements, the first one in the list first. -/
noncomputable def opticsSubst (gates : List Gate) (P : MvPolynomial Mode ℂ) : MvPolynomial Mode ℂ := gates.foldl (fun Q e => gateSubst e.M e.h e.c Q) P

/-- The optical node `n` is the element `e`: two different existing channels; the pairs of channels for which the code puts the channels in the wrong order (second channel 0, first channel
2 or higher, see C07) are excluded. -/
structure GateNode (g : Cfg) (e : Gate) (n : Opt × List ℕ) : Prop where
  h : e.h < g.C
  c : e.c < g.C
  ne : e.h ≠ e.c
  order : ¬ (2 ≤ e.h ∧ e.c = 0)
  matrix : n.1 = e.M
  list : tensorList g.C [e.h, e.c] = some n.2

/-- The monomial of the photon numbers `w` with photon information `info`. -/
noncomputable def monoOf (info : Option PInfo) (w : Vals) : Mode →₀ ℕ := ∑ ch ∈ Finset.range w.length, Finsupp.single (ch, info) (w.getD ch 0)

/-- The amplitude of the basis state with photon numbers `w` in the state created by `P`. -/
noncomputable def amplitudeIn (P : MvPolynomial Mode ℂ) (info : Option PInfo) (w : Vals) : ℂ :=
  P.coeff (monoOf info w) * ((Real.sqrt ((w.map Nat.factorial).prod : ℕ) : ℝ) : ℂ)

end Verif.Spec
