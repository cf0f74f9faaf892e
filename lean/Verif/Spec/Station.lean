/-
Independent specification: a circuit as seen by one of several stations.
-/
import Verif.Model.Station

namespace Verif.Spec
open Verif

/-- The node has a channel that is present at the station. -/
def Has (s : Station) (n : GlobalNode) : Prop := (∃ c ∈ n.optical, c ∈ s.optical) ∨ ∃ c ∈ n.classical, c ∈ s.classical

/-- The node has to be connected between the two stations: both have a channel of it; for a measurement: there is a pair of a measured channel and the channel it is
written to of which both stations have one (a measurement of a channel of one station, written to a channel of the same station, is not connected to a station that
measures other channels with the same node). A bridge is not connected. -/
def Shared (s t : Station) (n : GlobalNode) : Prop :=
  match n.type with
  | .bridge => False
  | .measurement => ∃ p ∈ n.optical.zip n.classical, (p.1 ∈ s.optical ∨ p.2 ∈ s.classical) ∧ (p.1 ∈ t.optical ∨ p.2 ∈ t.classical)
  | .other => Has s n ∧ Has t n

/-- `m` is the node `n` as seen by the station `s`: of the same type, on those of the station's channels (numbered from 0 in the order of the station's list) that `n` has,
and naming exactly the other stations with which it is shared. -/
def SeenAs (s : Station) (all : List Station) (n : GlobalNode) (m : LocalNode) : Prop :=
  m.type = n.type ∧
  (∀ l, l ∈ m.optical ↔ ∃ c ∈ n.optical, s.optical[l]? = some c) ∧
  (∀ l, l ∈ m.classical ↔ ∃ c ∈ n.classical, s.classical[l]? = some c) ∧
  (∀ name, name ∈ m.named ↔ ∃ t ∈ all, t.name = name ∧ name ≠ s.name ∧ Shared s t n)

end Verif.Spec
