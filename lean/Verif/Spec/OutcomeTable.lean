/-
Specification: probabilities of all outcomes, photon information.
-/
import Verif.Model.OutcomeTable
import Verif.Spec.Resolved
import Verif.Spec.Interference

namespace Verif.Spec
open Verif

/-- The stored name of the column is up to date: it is the name of the photon numbers that its photons have now. -/
def UpToDate (g : Cfg) (c : StoredColumn) : Prop := ∃ v nm, ColumnWith g c.col v ∧ IsName g v nm ∧ c.stored = some (some nm)

/-- The columns in which the photon numbers are `v`. -/
def columnsWith (g : Cfg) (v : Vals) (cols : List StoredColumn) : List Column := (cols.map (·.col)).filter (fun c => columnValues g c = some v)

/-- `d` lists the probabilities `p` of the outcomes `vs`, each one once. -/
structure ListsProbabilities (g : Cfg) (vs : List Vals) (p : Vals → ℝ) (d : Dict (Option Name) ℝ) : Prop where
  once : d.keys.Nodup
  names : ∀ k, k ∈ d.keys ↔ ∃ v ∈ vs, ∃ nm, IsName g v nm ∧ k = some nm
  probs : ∀ v ∈ vs, ∀ nm, IsName g v nm → d.get? (some nm) = some (p v)

/-- The photon numbers of the first component of the state are `v`. -/
def FirstNumbers (g : Cfg) (s : PState) (v : Vals) : Prop := ∃ n k rest, s.q.comps = (n, k) :: rest ∧ Valid g v ∧ IsName g v n

/-- Only the states are different in the two columns. -/
structure SameButStates (c c' : Column) : Prop where
  amp : c'.amp = c.amp
  boson : c'.boson = c.boson
  gprob : c'.gprob = c.gprob
  id : c'.id = c.id

/-- The state `s'` is `s` with the photon information `i`. -/
def OnlyInfo (i : Option PInfo) (s s' : PState) : Prop := s'.q = s.q ∧ s'.info = i

end Verif.Spec
