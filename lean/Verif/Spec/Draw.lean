/-
Independent specification: the order of the nodes in a drawing.
-/
import Verif.Model.Draw

namespace Verif.Spec
open Verif

/-- The node acts on this line of a drawing with `a` optical lines and below them `c` classical lines; a bridge acts on all of them. -/
def OnLine (a c : ℕ) : DrawNode → ℕ → Prop
  | .bridge, line => line < a + c
  | .node o k _ _, line => (line ∈ o ∧ line < a) ∨ ∃ ch ∈ k, ch < c ∧ line = a + ch

/-- A connection to another station is drawn. -/
def Linked : DrawNode → Prop
  | .bridge => False
  | .node _ _ linked gate => linked = true ∧ gate = none

/-- The symbol of the node covers the line: it reaches from the first line the node acts on to the last one, or down to the lowest line of the drawing if there is a
connection to another station. -/
def Covers (a c : ℕ) (n : DrawNode) (line : ℕ) : Prop :=
  line < a + c ∧ (∃ x ≤ line, OnLine a c n x) ∧ (Linked n ∨ ∃ y, line ≤ y ∧ OnLine a c n y)

/-- Every run of nodes of one combined gate fits on a page: it has at most `2 * w` nodes, where `w` is the number of positions on a page. -/
def GatesFit (w : ℕ) (l : List DrawNode) : Prop :=
  ∀ (i : ℕ) (g : List Char), ∃ j ≤ 2 * w, ∀ n, l[i + j]? = some n → n.gate ≠ some g

end Verif.Spec
