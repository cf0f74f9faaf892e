/-
Specification for C136: columns as objects.
-/
import Verif.Model.ColumnObjects

namespace Verif.Spec
open Verif

/-- The dictionary of the state has all five parameters, with the values of the column. -/
def Carries (s : StateObj) (p : ColInfo) : Prop := ∃ i, s.res = some ⟨i, some p.gid, some p.cid, some p.amp, some p.boson, some p.gprob⟩

/-- Every column has its states, and all of them carry the parameters of the column. -/
def Consistent (H : ColHeap) : Prop :=
  ∀ (c : ℕ) (o : ColObj), H.cols[c]? = some o → ∃ sts, H.members c = some sts ∧ ∀ s ∈ sts, Carries s o.par

/-- The State object belongs to a column. -/
def InColumn (H : ColHeap) (r : ℕ) : Prop := ∃ (c : ℕ) (o : ColObj) (l : List ℕ), H.cols[c]? = some o ∧ H.lists[o.lst]? = some l ∧ r ∈ l

/-- The step hands over to a column only State objects (and a list) that do not belong to a column yet. -/
def HandsOver (H : ColHeap) : ColOp → Prop
  | .ofList lst _ => (∀ o ∈ H.cols, o.lst ≠ lst) ∧ ∀ l, H.lists[lst]? = some l → l.Nodup ∧ ∀ r ∈ l, ¬ InColumn H r
  | .ofState r _ => ¬ InColumn H r
  | .addState _ r => ¬ InColumn H r
  | _ => True

/-- A program runs from `H` to `H'` and in every step hands over only objects that do not belong to a column. -/
def CleanRun (g : Cfg) (H : ColHeap) : List ColOp → ColHeap → Prop
  | [], H' => H' = H
  | op :: ops, H' => HandsOver H op ∧ ∃ H1, H.step g op = some H1 ∧ CleanRun g H1 ops H'

/-- The column on which a step is called. -/
def calledOn : ColOp → Option ℕ
  | .assign c _ => some c
  | .addState c _ => some c
  | .split c _ => some c
  | .singlePhotonStates c => some c
  | .condense c _ => some c
  | .setInfo c _ => some c
  | _ => none

/-- A column with another value for one of its parameters. -/
def withKey (k : ColKey) (b : BookColumn) : BookColumn :=
  match k with
  | .gid n => { b with gid := n }
  | .cid n => { b with col := { b.col with id := n } }
  | .amp z => { b with col := { b.col with amp := z } }
  | .boson r => { b with col := { b.col with boson := r } }
  | .gprob p => { b with col := { b.col with gprob := p } }

end Verif.Spec
