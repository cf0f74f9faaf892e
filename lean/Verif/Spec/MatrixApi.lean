/-
Independent specification: a state multiplied with a matrix.
-/
import Verif.Spec.Evaluate
import Verif.Spec.Fock

namespace Verif.Spec
open Verif

/-- `q'` is `q` with the amplitudes multiplied by the matrix `F`: the amplitude of the basis state with photon numbers `v` is the sum of the
entries of row number `index v` of `F` times the amplitudes of `q`; amplitudes with squared modulus below `thr` are left out; everything else
is as in `q`. -/
def MultipliedBy (g : Cfg) (thr : ℝ) (F : SqArr) (q q' : QState) : Prop :=
  q'.initial = q.initial ∧ q'.cum = q.cum ∧ q'.classical = q.classical ∧ q'.results = q.results ∧
  ∃ x : ℕ → ℂ, (∀ w s, Valid g w → IsName g w s → x (g.indexOf w) = ampOf q.comps s) ∧
    ∀ v s, Valid g v → IsName g v s →
      q'.comps.get? s =
        if ‖∑ j ∈ Finset.range F.size, F.at_ (g.indexOf v) j * x j‖ ^ 2 < thr then none
        else some ⟨∑ j ∈ Finset.range F.size, F.at_ (g.indexOf v) j * x j, ‖∑ j ∈ Finset.range F.size, F.at_ (g.indexOf v) j * x j‖ ^ 2⟩

end Verif.Spec
