/-
Independent specification used for the sharing of component dictionaries.
-/
import Verif.Model.CompHeap

namespace Verif.Spec
open Verif

/-- The dictionary at address `r` belongs to a component of a state of the collection. -/
def UsesRec (h : EHeap) (coll : HColl) (r : ℕ) : Prop := ∃ p ∈ coll, ∃ o, h.objs[p.2]? = some o ∧ ∃ e ∈ o.comps, e.2 = r

/-- All references of the collection point to existing objects. -/
def Live (h : EHeap) (coll : HColl) : Prop :=
  ∀ p ∈ coll, ∃ o, h.objs[p.2]? = some o ∧ ∀ e ∈ o.comps, e.2 < h.recs.length

/-- Two collections have no State object and no dictionary of a component in common. -/
def Apart (h : EHeap) (A B : HColl) : Prop :=
  (∀ p ∈ A, ∀ p' ∈ B, p.2 ≠ p'.2) ∧ ∀ r, ¬ (UsesRec h A r ∧ UsesRec h B r)

/-- The collection has different identifiers and State objects, its states different component names, and every component its own
dictionary. -/
structure Unshared (h : EHeap) (coll : HColl) : Prop where
  live : Live h coll
  ids : (coll.map Prod.fst).Nodup
  objs : (coll.map Prod.snd).Nodup
  names : ∀ p ∈ coll, ∀ o, h.objs[p.2]? = some o → (o.comps.map Prod.fst).Nodup
  recs : ∀ p ∈ coll, ∀ p' ∈ coll, ∀ o o', h.objs[p.2]? = some o → h.objs[p'.2]? = some o' → ∀ e ∈ o.comps, ∀ e' ∈ o'.comps,
    e.2 = e'.2 → p = p' ∧ e = e'

end Verif.Spec
