/-
The two table objects of a circuit (ComponentNames and OpticalValues) with their caches.
Both objects start out sharing the same two dictionary objects; some methods replace one reference only.
The dictionaries therefore live on a small heap and the four attributes are references.
Models src/fock_state_circuit/nodes/nodelist/optical_values_component_names.py (stateful part).
-/
import Verif.Model.Names

namespace Verif

/-- Heap of dictionaries plus the four references held by the two objects. -/
structure Tables where
  /-- heap cells of dictionaries name -> photon numbers -/
  nd : List (Dict Name Vals)
  /-- heap cells of dictionaries photon numbers -> name -/
  vd : List (Dict Vals Name)
  /-- ComponentNames.dict_of_valid_component_names -/
  cnN : ℕ
  /-- ComponentNames.dict_of_optical_values -/
  cnV : ℕ
  /-- OpticalValues.dict_of_valid_component_names -/
  ovN : ℕ
  /-- OpticalValues.dict_of_optical_values -/
  ovV : ℕ

namespace Tables

/-- optical_values_component_names.py 203-213 and 385-396: construction; `OpticalValues` takes over the
dictionary objects of `ComponentNames`. -/
def new : Tables := ⟨[[]], [[]], 0, 0, 0, 0⟩

/-- dereference -/
def N (t : Tables) (r : ℕ) : Dict Name Vals := t.nd.getD r []
/-- dereference -/
def V (t : Tables) (r : ℕ) : Dict Vals Name := t.vd.getD r []

/-- in-place `.update({s: v})` on the name dictionary at reference `r` -/
def updN (t : Tables) (r : ℕ) (s : Name) (v : Vals) : Tables := { t with nd := t.nd.set r ((t.N r).set s v) }
/-- in-place `.update({v: s})` on the value dictionary at reference `r` -/
def updV (t : Tables) (r : ℕ) (v : Vals) (s : Name) : Tables := { t with vd := t.vd.set r ((t.V r).set v s) }

/-- optical_values_component_names.py 215-225: `ComponentNames.__getitem__`. Result `none` = exception. -/
def getName (g : Cfg) (t : Tables) (s : Name) : Tables × Option Vals :=
  match (t.N t.cnN).get? s with
  | some v => (t, some v)
  | none =>
    match g.parse s with
    | none => (t, none)
    | some v => ((t.updN t.cnN s v).updV t.cnV v s, some v)

/-- optical_values_component_names.py 398-409: `OpticalValues.__getitem__`. Result `none` = exception. -/
def getVals (g : Cfg) (t : Tables) (v : Vals) : Tables × Option Name :=
  match (t.V t.ovV).get? v with
  | some s => (t, some s)
  | none =>
    match g.render v with
    | none => (t, none)
    | some s => ((t.updV t.ovV v s).updN t.ovN s v, some s)

/-- optical_values_component_names.py 235: `list_of_fock_states`. -/
def listOfFockStates (g : Cfg) : List Vals := (List.range (g.L ^ g.C)).map g.valuesFromIndex

/-- optical_values_component_names.py 236-239: the freshly built dictionary name -> photon numbers.
(`getD`: the numbers are below `L`, the rendering never fails.) -/
def rebuilt (g : Cfg) : Dict Name Vals :=
  Dict.ofList ((listOfFockStates g).map (fun v => ((g.render v).getD [], v)))

/-- optical_values_component_names.py 230-241: `ComponentNames.__iter__`; what is iterated over is a list of names, or
(line 233) the keys of the *other* dictionary, which are photon-number tuples. -/
def iterNames (g : Cfg) (t : Tables) : Tables × List (Name ⊕ Vals) :=
  if (t.N t.cnN).length = g.size then (t, (t.V t.cnV).keys.map Sum.inr)
  else
    ({ t with nd := t.nd ++ [rebuilt g], cnN := t.nd.length }, (rebuilt g).keys.map Sum.inl)

/-- optical_values_component_names.py 257-260: `ComponentNames.items` (keys/values are its projections, 252-265). -/
def itemsNames (g : Cfg) (t : Tables) : Tables × List (Name × Vals) :=
  let t' := (iterNames g t).1
  (t', t'.N t'.cnN)

/-- optical_values_component_names.py 411-415: `OpticalValues.__iter__`. -/
def iterVals (g : Cfg) (t : Tables) : Tables × List Vals :=
  if (t.V t.ovV).length = g.size then (t, (t.V t.ovV).keys)
  else
    let r := itemsNames g t
    let d : Dict Vals Name := Dict.ofList (r.2.map (fun kv => (kv.2, kv.1)))
    ({ r.1 with vd := r.1.vd ++ [d], ovV := r.1.vd.length }, d.keys)

/-- optical_values_component_names.py 427-429: `OpticalValues.items` (keys/values are its projections, 423-433). -/
def itemsVals (g : Cfg) (t : Tables) : Tables × List (Vals × Name) :=
  let t' := (iterVals g t).1
  (t', t'.V t'.ovV)

/-- optical_values_component_names.py 243-246: `ComponentNames.__contains__` (goes through `__getitem__`). -/
def containsName (g : Cfg) (t : Tables) (s : Name) : Tables × Option Bool :=
  let r := getName g t s
  (r.1, r.2.map g.containsVals)

/-- optical_values_component_names.py 267-272: `ComponentNames.index_of` (goes through `__getitem__`). -/
def indexOfName (g : Cfg) (t : Tables) (s : Name) : Tables × Option ℕ :=
  let r := getName g t s
  (r.1, r.2.map g.indexOf)

/-- node_list.py 134: the constructor of a circuit looks up the vacuum once. -/
def init (g : Cfg) : Tables := (getVals g new (List.replicate g.C 0)).1

/-- The operations a user of the two objects can perform. -/
inductive Op where
  /-- `names[s]` -/
  | getName (s : Name)
  /-- `values[v]` -/
  | getVals (v : Vals)
  /-- `s in names` -/
  | containsName (s : Name)
  /-- `names.index_of(s)` -/
  | indexOfName (s : Name)
  /-- `for s in names` -/
  | iterNames
  /-- `names.keys()/items()/values()` -/
  | itemsNames
  /-- `for v in values` -/
  | iterVals
  /-- `values.keys()/items()/values()` -/
  | itemsVals
deriving DecidableEq

/-- Effect of one operation on the tables. -/
def step (g : Cfg) (t : Tables) : Op → Tables
  | .getName s => (getName g t s).1
  | .getVals v => (getVals g t v).1
  | .containsName s => (containsName g t s).1
  | .indexOfName s => (indexOfName g t s).1
  | .iterNames => (iterNames g t).1
  | .itemsNames => (itemsNames g t).1
  | .iterVals => (iterVals g t).1
  | .itemsVals => (itemsVals g t).1

/-- The tables of a circuit after a history of operations. -/
def run (g : Cfg) (h : List Op) : Tables := h.foldl (step g) (init g)

end Tables
end Verif
