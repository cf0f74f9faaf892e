/-
Independent specification used for the evaluation of circuits.
-/
import Verif.Model.Evaluate
import Verif.Spec.Measurement

namespace Verif.Spec
open Verif

/-- Node `i` of the circuit is an optical node. -/
def IsOptical (c : Circ) (i : ℕ) : Prop := ∃ M tl, c.nodes[i]? = some (.optical M tl)

/-- Node `i` of the circuit is a bridge. -/
def IsBridge (c : Circ) (i : ℕ) : Prop := ∃ k, c.nodes[i]? = some (.bridge k)

/-- The listed nodes exist and none of them is a bridge. -/
def ValidNodes (c : Circ) (l : List ℕ) : Prop := ∀ i ∈ l, i < c.nodes.length ∧ ¬ IsBridge c i

/-- A collection of valid normalised states: different identifiers, every state measurable with total probability 1. -/
structure Normalised (g : Cfg) (m : ℕ) (coll : Coll) : Prop where
  ids : (coll.map Prod.fst).Nodup
  states : ∀ p ∈ coll, Measurable g m p.2 ∧ totalProb p.2.comps = 1

/-- One stage after the other: `run i` is stage `i`, `between i` what happens between stages `i` and `i + 1`; `n` further stages. -/
def stages (run between : ℕ → Coll → Option Coll) : (i n : ℕ) → Coll → Option Coll
  | i, 0, coll => run i coll
  | i, n + 1, coll => (run i coll).bind (fun c => (between i c).bind (stages run between (i + 1) n))

end Verif.Spec
