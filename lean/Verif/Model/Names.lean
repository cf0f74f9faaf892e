/-
Component names and photon-number lists.
Models src/fock_state_circuit/nodes/nodelist/optical_values_component_names.py (stateless part).
-/
import Verif.Model.Dict
import Mathlib.Data.Nat.Digits.Defs

namespace Verif

/-- A component name: a Python string, as list of characters. -/
abbrev Name := List Char

/-- Photon numbers per optical channel (a Python list/tuple of ints; naturals here). -/
abbrev Vals := List ℕ

/-- The settings of a circuit that determine its basis
(node_list.py 66-141: `length_of_fock_state`, `no_of_optical_channels`, `channel_0_left_in_state_name`). -/
structure Cfg where
  /-- length_of_fock_state: allowed photon numbers are 0 .. L-1 -/
  L : ℕ
  /-- no_of_optical_channels -/
  C : ℕ
  /-- channel_0_left_in_state_name -/
  left : Bool
deriving DecidableEq

/-- node_list.py 91-92: the constructor refuses `L < 1` or `C < 2`. -/
def Cfg.Ok (g : Cfg) : Prop := 1 ≤ g.L ∧ 2 ≤ g.C

instance (g : Cfg) : Decidable g.Ok := inferInstanceAs (Decidable (_ ∧ _))

/-- Python `str(n)` for a natural number. -/
def pyStr (n : ℕ) : List Char := Nat.toDigits 10 n

/-- optical_values_component_names.py 209: `digits_per_channel = len(str(length_of_fock_state-1))`. -/
def Cfg.digits (g : Cfg) : ℕ := (pyStr (g.L - 1)).length

/-- optical_values_component_names.py 210: `"{:0kd}".format(n)`: zero padded on the left to width `k`. -/
def fmt (k n : ℕ) : List Char := List.replicate (k - (pyStr n).length) '0' ++ pyStr n

/-- optical_values_component_names.py 211: `tuple_of_strings`. -/
def Cfg.tupleOfStrings (g : Cfg) : List (List Char) := (List.range g.L).map (fmt g.digits)

/-- optical_values_component_names.py 212: `size_of_basis`. -/
def Cfg.size (g : Cfg) : ℕ := g.L ^ g.C

/-- Python `int(s)`. Simplification: only non-empty strings of ASCII decimal digits are accepted
(Python also accepts signs, blanks and underscores). -/
def pyInt? (s : List Char) : Option ℕ :=
  if s ≠ [] ∧ s.all Char.isDigit then
    some (s.foldl (fun a c => 10 * a + (c.toNat - 48)) 0)
  else none

/-- optical_values_component_names.py 220: `[s[a:a+d] for a in range(0, len(s), d)]`. -/
def chunks (d : ℕ) (s : List Char) : List (List Char) :=
  (List.range ((s.length + d - 1) / d)).map (fun i => (s.drop (i * d)).take d)

/-- optical_values_component_names.py 220-222: the uncached translation name -> photon numbers
(`none`: `int` raises). -/
def Cfg.parse (g : Cfg) (s : Name) : Option Vals :=
  ((chunks g.digits s).mapM pyInt?).map (fun t => if g.left then t else t.reverse)

/-- optical_values_component_names.py 403-406 (and 278-282): the uncached translation
photon numbers -> name (`none`: index error in `tuple_of_strings`). -/
def Cfg.render (g : Cfg) (v : Vals) : Option Name :=
  ((if g.left then v else v.reverse).mapM (fun n => g.tupleOfStrings[n]?)).map List.flatten

/-- optical_values_component_names.py 271-272 and 435-436:
`sum([value*(L**index) for index,value in enumerate(values)])`. -/
def Cfg.indexOf (g : Cfg) (v : Vals) : ℕ := (v.mapIdx (fun i x => x * g.L ^ i)).sum

/-- optical_values_component_names.py 227-228: `_values_from_index` (also `OpticalValues.at_index` 438-442). -/
def Cfg.valuesFromIndex (g : Cfg) (n : ℕ) : Vals := (List.range g.C).map (fun c => n / g.L ^ c % g.L)

/-- optical_values_component_names.py 267-272: `ComponentNames.index_of` (uncached). -/
def Cfg.indexOfName (g : Cfg) (s : Name) : Option ℕ := (g.parse s).map g.indexOf

/-- optical_values_component_names.py 274-283: `ComponentNames.at_index`. -/
def Cfg.nameAt (g : Cfg) (n : ℕ) : Option Name := g.render (g.valuesFromIndex n)

/-- optical_values_component_names.py 420-421: `OpticalValues.__contains__` (list/tuple argument).
`min`/`max` of an empty list is not reached for `C >= 1`; naturals make `min >= 0` trivial. -/
def Cfg.containsVals (g : Cfg) (v : Vals) : Bool := v.length == g.C && v.all (· < g.L)

/-- optical_values_component_names.py 243-246: `ComponentNames.__contains__`
(`none`: `int` raises inside the lookup). -/
def Cfg.containsName (g : Cfg) (s : Name) : Option Bool := (g.parse s).map g.containsVals

/-- optical_values_component_names.py 445-455: `reorder(values, tensor_list)` =
`index_of([values[i] for i in tensor_list])` (`getD`: indices are in range whenever the code reaches this). -/
def Cfg.reorder (g : Cfg) (v : Vals) (tl : List ℕ) : ℕ := g.indexOf (tl.map (fun i => v.getD i 0))

end Verif
