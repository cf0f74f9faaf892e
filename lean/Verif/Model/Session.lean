/-
Working with compound circuits, and evaluation without an input collection.
Models src/fock_state_circuit/compound_circuit.py 49-147 and src/fock_state_circuit/circuit.py 304-322.
-/
import Verif.Model.Evaluate

namespace Verif

/-- compound_circuit.py 61, 80: a compound circuit: the list object in its attribute `list_of_circuits` and the numbers of the circuits in
`_list_of_circuits_with_bridges` (`none`: the attribute was deleted by `clear`). -/
structure CompoundObj where
  listRef : ℕ
  inner : Option (List ℕ)

/-- The objects of a session. `circs`: all circuits by number, with a mark for those made by the user (the others are made by `refresh` and only reachable through
the private attribute of a compound circuit); `lists`: Python lists of circuits, number 0 being the list object that is the default value in
compound_circuit.py 50; `comps`: compound circuits. -/
structure World where
  circs : List (Bool × Circ)
  lists : List (List ℕ)
  comps : List CompoundObj

/-- What the user does. -/
inductive Op where
  /-- node_list.py 66-139: a new circuit (with nodes that are added right away) -/
  | newCircuit (c : Circ)
  /-- node_list.py 162: a builder appends a node to circuit `k` -/
  | addNode (k : ℕ) (n : Node)
  /-- a new Python list of circuits -/
  | newList (l : List ℕ)
  /-- `list.append(circuit)` -/
  | append (ref k : ℕ)
  /-- compound_circuit.py 49-66, with a list or without -/
  | newCompound (ref : Option ℕ)
  /-- `compound.list_of_circuits = list` -/
  | setList (j ref : ℕ)
  /-- compound_circuit.py 76-100 -/
  | refresh (j : ℕ)
  /-- compound_circuit.py 102-108 -/
  | clear (j : ℕ)

/-- The session before the first call: the default list exists and is empty. -/
def World.start : World := ⟨[], [[]], []⟩

/-- The circuit with number `k` (numbers that do not occur: an arbitrary circuit). -/
def World.circ (w : World) (d : Circ) (k : ℕ) : Circ := ((w.circs[k]?).map Prod.snd).getD d

/-- compound_circuit.py 80-99: the new circuits, numbered from `base`: the `i`-th one gets the settings of the `i`-th circuit of the list, a copy of its list of nodes
and, unless it is the last one, a bridge to the next new one (bridge_nodes.py 38). -/
def bridged (base : ℕ) (cs : List Circ) : List (Bool × Circ) :=
  cs.zipIdx.map (fun ci => (false, { ci.1 with nodes := if ci.2 + 1 < cs.length then ci.1.nodes ++ [.bridge (base + ci.2 + 1)] else ci.1.nodes }))

/-- compound_circuit.py 76-100: `refresh` of compound circuit `j`. -/
def World.refresh (w : World) (d : Circ) (j : ℕ) : World :=
  match w.comps[j]? with
  | none => w
  | some o =>
    let l := (w.lists[o.listRef]?).getD []
    ⟨w.circs ++ bridged w.circs.length (l.map (w.circ d)), w.lists, w.comps.set j { o with inner := some (List.range' w.circs.length l.length) }⟩

/-- One step of the session. A step on an object that does not exist or is private changes nothing. -/
def World.step (d : Circ) (w : World) : Op → World
  | .newCircuit c => { w with circs := w.circs ++ [(true, c)] }
  | .addNode k n =>
    match w.circs[k]? with
    | some (true, c) => { w with circs := w.circs.set k (true, { c with nodes := c.nodes ++ [n] }) }
    | _ => w
  | .newList l => { w with lists := w.lists ++ [l] }
  | .append ref k => { w with lists := w.lists.modify ref (· ++ [k]) }
  | .newCompound ref => World.refresh { w with comps := w.comps ++ [⟨ref.getD 0, none⟩] } d w.comps.length
  | .setList j ref => { w with comps := w.comps.modify j (fun o => { o with listRef := ref }) }
  | .refresh j => w.refresh d j
  | .clear j => { w with comps := w.comps.modify j (fun o => { o with inner := none }) }

/-- A whole session. -/
def World.run (d : Circ) (w : World) (ops : List Op) : World := ops.foldl (World.step d) w

/-- compound_circuit.py 139-147: `evaluate_circuit` of compound circuit `j` (`none`: an exception, among others for an empty list or after `clear`). -/
noncomputable def World.evalCompound (w : World) (d : Circ) (rnd : ℕ → ℕ → Bool → ℕ → ℕ → ℕ) (fuel j : ℕ) (coll : Coll) : Option Coll := do
  let o ← w.comps[j]?
  let inner ← o.inner
  let k ← inner.head?
  evalAll (w.circ d) rnd fuel k coll

/-- circuit.py 304-322: `evaluate_circuit` with optional arguments: `nodes = none` stands for ['all'], `coll = none` for None. The result can be
None as well (`some none`). `names`: the component names in the order of the table. -/
noncomputable def evalOptional (env : ℕ → Circ) (rnd : ℕ → ℕ → Bool → ℕ → ℕ → ℕ) (fuel k : ℕ) (names : List Name) (nodes : Option (List ℕ)) (coll : Option Coll) :
    Option (Option Coll) :=
  let l := nodes.getD (List.range (env k).nodes.length)
  if l = [] then some coll
  else if ¬ l.all (· < (env k).nodes.length) then none
  else do
    let input ← match coll with
      | some c => some c
      | none => defaultColl (env k).g (env k).m names
    (evalNodes env rnd fuel k l input).map some

end Verif
