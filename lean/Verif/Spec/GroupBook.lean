/-
Specification for C123: what building up an interference group means.
-/
import Verif.Model.GroupBook

namespace Verif.Spec

/-- The states that a call hands over to the group. -/
def handedOver : BookOp → List PState
  | .addColumn c _ => c.col.states
  | .addState s _ => [⟨s.q, s.aux.bind (·.info)⟩]
  | _ => []

/-- Identifiers under which the group can be asked for a column are different. -/
def DistinctIds (G : Book) : Prop := (G.cols.map Prod.fst).Nodup

/-- The column is still there: same identifier, same amplitude and boson factor, the same states, perhaps followed by new ones. -/
structure StillThere (c c' : BookColumn) : Prop where
  ident : c'.col.id = c.col.id
  amp : c'.col.amp = c.col.amp
  boson : c'.col.boson = c.col.boson
  states : c.col.states <+: c'.col.states

/-- Every column carries the identifier under which the group stores it. -/
def CarriesOwnId (G : Book) : Prop := ∀ (k : ℕ) (c : BookColumn), G.extract k = some c → c.col.id = k

/-- Every column carries the identifier of the group. -/
def CarryGroupId (G : Book) : Prop := ∀ (k : ℕ) (c : BookColumn), G.extract k = some c → c.gid = G.gid

/-- Every column carries the cumulative probability of the group (column_of_states.py line 31). -/
def CarryGroupProb (G : Book) : Prop := ∀ (k : ℕ) (c : BookColumn), G.extract k = some c → c.col.gprob = G.gprob

/-- The column identifier that a state brings along; a state without photon information brings none. -/
def ownId (s : AState) : Option ℕ := (s.aux.bind (·.col)).map (·.cid)

/-- The call names no identifier, or the one that the column or state has anyway. -/
def NamesOwnId : BookOp → Prop
  | .addColumn c k => k = none ∨ k = some c.col.id
  | .addState s k => k = none ∨ k = ownId s
  | _ => True

/-- States with photon information have a column identifier (states from a collection that went through a spectral node do). -/
def Placed : BookOp → Prop
  | .addState s none => ∀ a, s.aux = some a → a.col ≠ none
  | _ => True

end Verif.Spec
