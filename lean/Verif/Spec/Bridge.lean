/-
Independent specification of what a bridge between two circuits should do.
-/
import Verif.Spec.Evaluate
import Verif.Spec.Reshape

namespace Verif.Spec
open Verif

/-- Probability, in the state `q`, of the photon numbers of `v` in the channels of circuit `c` that circuit `next` does not have. -/
noncomputable def lostProb (c next : Circ) (q : QState) (v : Vals) : ℝ := outsideProb c.g (List.range next.g.C) q.comps v

/-- `q'` is what arrives in circuit `next` of the state `q` of circuit `c`, given the photon numbers of `v` in the channels that `next` does not
have: same initial state and history; cumulative probability times the probability of those photon numbers; the classical values of the
shared classical channels and 0 in new ones; and, normalised, the amplitudes of the basis states with those photon numbers, where the
shared channels keep their photon numbers and new channels are empty. (`select (List.range n) w` is `w`, cut off or filled up with zeros to
length `n`.) -/
structure Arrives (c next : Circ) (q : QState) (v : Vals) (q' : QState) : Prop where
  initial : q'.initial = q.initial
  results : q'.results = q.results
  cum : q'.cum = q.cum * lostProb c next q v
  classical : q'.classical = (List.range next.m).map (fun n => q.classical.getD n 0)
  normalised : totalProb q'.comps = 1
  amps : ∀ w s s', Valid c.g w → SameOutside c.g (List.range next.g.C) v w → Valid next.g (select (List.range next.g.C) w) → IsName c.g w s → IsName next.g (select (List.range next.g.C) w) s' →
    ampOf q'.comps s' = ampOf q.comps s * (Real.sqrt (1 / lostProb c next q v) : ℝ)

/-- All photon numbers of a collection are allowed in circuit `next`. -/
def PhotonsFit (c next : Circ) (coll : Coll) : Prop :=
  ∀ p ∈ coll, ∀ s ∈ p.2.comps.map Prod.fst, ∀ v, Valid c.g v → IsName c.g v s → ∀ x ∈ v, x < next.g.L

end Verif.Spec
