/-
Indexing and iterating a collection of states. Models src/fock_state_circuit/collection_of_states.py 352-372 (`__len__`, `__getitem__`, `items`, `keys`, `values`). There is no
`__iter__`, so `for state in collection` calls `__getitem__(0)`, `__getitem__(1)`, ... until an IndexError. Simplification: identifiers are strings or integers (the only ones that
`__getitem__` tells apart); the states are of any type.
-/
import Verif.Model.Evaluate

namespace Verif

/-- An identifier of a state: `add_state` (collection_of_states.py 404-419) takes any value; the annotation of the constructor asks for strings. -/
inductive Ident where
  | str (s : List Char)
  | int (n : ℤ)
  deriving DecidableEq

/-- collection_of_states.py 357-363: `__getitem__`. `none`: IndexError; `some none`: the value `None` is returned. -/
def getItem {α : Type*} (d : Dict Ident α) (i : Ident) : Option (Option α) :=
  match d.get? i with
  | some x => some (some x)
  | none =>
    match i with
    | .int n => (pyGet (d.map Prod.snd) n).map some
    | .str _ => some none

/-- Python's iteration by `__getitem__`, from number `k` on, at most `fuel` calls (`none`: not finished). -/
def iterFrom {α : Type*} (d : Dict Ident α) : (fuel : ℕ) → (k : ℕ) → Option (List (Option α))
  | 0, _ => none
  | fuel + 1, k =>
    match getItem d (.int k) with
    | none => some []
    | some x => (iterFrom d fuel (k + 1)).map (fun l => x :: l)

end Verif
