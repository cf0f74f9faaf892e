/-
Independent specification of names and the basis.
-/
import Verif.Model.Names

namespace Verif.Spec
open Verif

/-- A photon-number list is valid for a circuit: one number below the length for each channel. -/
def Valid (g : Cfg) (v : Vals) : Prop := v.length = g.C ∧ ∀ x ∈ v, x < g.L

instance (g : Cfg) (v : Vals) : Decidable (Valid g v) := inferInstanceAs (Decidable (_ ∧ _))

/-- A string consists of decimal digits. -/
def AllDigits (s : Name) : Prop := ∀ c ∈ s, '0' ≤ c ∧ c ≤ '9'

/-- `s` is the standard name of `v`: it is the concatenation, in notation order, of one block per channel,
all blocks have the common width of the decimal representation of `L-1`, consist of digits, and denote the photon number in base ten. -/
def IsName (g : Cfg) (v : Vals) (s : Name) : Prop :=
  ∃ blocks : List (List Char),
    s = blocks.flatten ∧
    List.Forall₂ (fun b n => b.length = (Nat.toDigits 10 (g.L - 1)).length ∧ AllDigits b ∧
        Nat.ofDigits 10 (b.reverse.map (fun c => c.toNat - '0'.toNat)) = n)
      blocks (if g.left then v else v.reverse)

end Verif.Spec
