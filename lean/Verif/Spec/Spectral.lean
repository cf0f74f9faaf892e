/-
Independent specification for the spectral nodes.
-/
import Verif.Model.Spectral
import Verif.Spec.Resolved

namespace Verif.Spec
open Verif

/-- A group of columns as it can be stored in a collection: not empty, the columns are not empty and have different identifiers. -/
structure ProperGroup (ini : List Char) (cols : List Column) : Prop where
  nonempty : cols ≠ []
  ids : (cols.map (fun c => c.id)).Nodup
  columns : ∀ c ∈ cols, c.states ≠ []
  initial : ∀ c ∈ cols, ∀ s ∈ c.states, s.q.initial = ini

/-- Interference groups as they can be stored in a collection: every initial state once, every group identifier once per initial state. -/
structure Proper (G : Groups) : Prop where
  initials : (G.map Prod.fst).Nodup
  groups : ∀ e ∈ G, e.2 ≠ [] ∧ (e.2.map Prod.fst).Nodup ∧ ∀ x ∈ e.2, ProperGroup e.1 x.2

/-- The delay and width of a photon; without information: delay 0. -/
noncomputable def delayOf (i : Option PInfo) : ℝ := (i.map PInfo.delay).getD 0

/-- The width of a photon; without information: 1. -/
noncomputable def widthOf (i : Option PInfo) : ℝ := (i.map PInfo.width).getD 1

/-- Two columns with the same parameters whose states are related one by one. -/
structure SameColumn (R : PState → PState → Prop) (c c' : Column) : Prop where
  amp : c'.amp = c.amp
  boson : c'.boson = c.boson
  gprob : c'.gprob = c.gprob
  id : c'.id = c.id
  states : List.Forall₂ R c.states c'.states

/-- The same initial states and group identifiers, with groups related by `R`. -/
def GroupsRel (R : List Column → List Column → Prop) (G G' : Groups) : Prop :=
  List.Forall₂ (fun (e e' : List Char × Dict ℕ (List Column)) => e'.1 = e.1 ∧ List.Forall₂ (fun (x x' : ℕ × List Column) => x'.1 = x.1 ∧ R x.2 x'.2) e.2 e'.2) G G'

/-- The photon numbers `v` have a photon in one of the channels. -/
def HasPhotonIn (v : Vals) (chs : List ℕ) : Prop := ∃ ch ∈ chs, v.getD ch 0 ≠ 0

/-- The delay that a node prescribes for a state: a fixed number or the value of a classical channel. -/
def DelayIs (d : DelaySource) (q : QState) (t : ℝ) : Prop :=
  match d with
  | .value u => t = u
  | .classical ch => q.classical[ch]? = some t

open Classical in
/-- A single-photon state before and after a time delay: photons in the channels are delayed, the width is set. Delaying lowers the stored number (sign convention of the code). -/
def DelayedState (g : Cfg) (chs : List ℕ) (d : DelaySource) (w : ℝ) (s s' : PState) : Prop :=
  s'.q = s.q ∧ ∃ v t, firstValues g s = some v ∧ DelayIs d s.q t ∧ s'.info = some ⟨delayOf s.info - (if HasPhotonIn v chs then t else 0), w⟩

open Classical in
/-- A single-photon state before and after setting the pulse width of some channels. -/
def WidenedState (g : Cfg) (chs : List ℕ) (w : ℝ) (s s' : PState) : Prop :=
  s'.q = s.q ∧ ∃ v, firstValues g s = some v ∧ s'.info = some ⟨delayOf s.info, if HasPhotonIn v chs then w else widthOf s.info⟩

/-- A collection whose states have valid component names, each only once. -/
def WellFormedAll (g : Cfg) (l : List AState) : Prop := ∀ s ∈ l, WellFormed g s.q.comps

end Verif.Spec
