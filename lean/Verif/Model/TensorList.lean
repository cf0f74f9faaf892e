/-
Tensor lists.  Models src/fock_state_circuit/nodes/nodelist/node_list.py 164-212.
-/
import Mathlib.Data.List.Basic
import Mathlib.Data.Nat.Notation

namespace Verif

/-- node_list.py 195, 205, 207-208: `l[i], l[j] = l[j], l[i]`. `none`: IndexError. -/
def swapAt (l : List ℕ) (i j : ℕ) : Option (List ℕ) :=
  match l[i]?, l[j]? with
  | some x, some y => some ((l.set i y).set j x)
  | _, _ => none

/-- node_list.py 164-212: `_translate_channels_numbers_to_tensor_list` for a circuit with `C` optical channels.
`none` = an exception is raised (equal channels, more than two channels, channel out of range). -/
def tensorList (C : ℕ) (channels : List ℕ) : Option (List ℕ) :=
  let tl := List.range C
  match channels with
  | [] => some tl
  | [c] => if c ≠ 0 then swapAt tl 0 c else some tl
  | [h, v] =>
    if h = v then none
    else if h = 0 ∧ v = 1 then some tl
    else if h = 1 ∧ v = 0 then swapAt tl 0 1
    else (swapAt tl 0 h).bind (fun tl' => swapAt tl' 1 v)
  | _ => none

end Verif
