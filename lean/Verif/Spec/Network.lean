/-
Independent specification: circuits that hand states over to each other.
-/
import Verif.Spec.Conserve

namespace Verif.Spec
open Verif

/-- Circuit `next` can take over all states of circuit `c`: it uses the same naming convention, allows the photon numbers of `c`, and has a
classical channel if `c` has one. -/
structure TakesOver (c next : Circ) : Prop where
  naming : next.g.left = c.g.left
  photons : c.g.L ≤ next.g.L
  classical : 0 < next.m ∨ c.m = 0

/-- Circuit `next` has no channels that circuit `c` does not have. -/
def NoNewChannels (c next : Circ) : Prop := next.g.C ≤ c.g.C ∧ next.m ≤ c.m

/-- The circuits of a compound circuit do not lose probability: at least two channels, photon numbers that exist, a threshold that is not
negative, lossless nodes without bridges; and every circuit can take over the states of the one before it. -/
structure LosslessChain (cs : List Circ) : Prop where
  ok : ∀ c ∈ cs, c.g.Ok ∧ 0 ≤ c.thr
  nodes : ∀ c ∈ cs, ∀ n ∈ c.nodes, Lossless c.g c.m n
  takes : ∀ (i : ℕ) (c next : Circ), cs[i]? = some c → cs[i + 1]? = some next → TakesOver c next

/-- What a compound circuit may lose because of the threshold: for every node `threshold * L^C` of its circuit. -/
noncomputable def lossBound (cs : List Circ) : ℝ := (cs.map (fun c => (c.nodes.length : ℝ) * (((c.g.L ^ c.g.C : ℕ) : ℝ) * c.thr))).sum

/-- Circuits (any number, named by natural numbers) connected by bridges in any way, also in cycles, that do not lose probability. -/
structure LosslessNetwork (env : ℕ → Circ) : Prop where
  ok : ∀ k, (env k).g.Ok ∧ 0 ≤ (env k).thr
  nodes : ∀ k, ∀ n ∈ (env k).nodes, (∃ j, n = .bridge j ∧ TakesOver (env k) (env j)) ∨ Lossless (env k).g (env k).m n

end Verif.Spec
