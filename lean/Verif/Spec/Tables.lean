/- Specification vocabulary for the name tables. -/
import Verif.Model.Tables
import Verif.Spec.Names

namespace Verif.Spec
open Verif Tables

/-- The operation only concerns standard names / valid photon-number lists of the circuit. -/
def StandardOp (g : Cfg) : Op → Prop
  | .getName s | .containsName s | .indexOfName s => ∃ v, Valid g v ∧ IsName g v s
  | .getVals v => Valid g v
  | _ => True

/-- The operation looks up the basis state `w` (by name or by photon numbers). -/
def LooksUp (g : Cfg) (w : Vals) : Op → Prop
  | .getName s | .containsName s | .indexOfName s => IsName g w s
  | .getVals v => v = w
  | _ => False

/-- The operation looks up no string whose length is not a multiple of the number of digits per channel. -/
def FullWidthOp (g : Cfg) : Op → Prop
  | .getName s | .containsName s | .indexOfName s => ∃ k, s.length = g.digits * k
  | _ => True

/-- `l` lists all basis states in increasing index order. -/
def StandardOrder (g : Cfg) (l : List Vals) : Prop :=
  (∀ v ∈ l, Valid g v) ∧ l.map g.indexOf = List.range (g.L ^ g.C)

end Verif.Spec
