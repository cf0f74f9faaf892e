/-
Evaluation of a circuit.  Models src/fock_state_circuit/circuit.py 273-580 and 695-756 and
src/fock_state_circuit/compound_circuit.py.
Circuits are numbered objects: `env k` is the circuit with number `k`, and a bridge node names the number of the next circuit (so
shared and cyclic structures are possible, as in Python). The recursion of `evaluate_circuit` is cut off after `fuel` levels (Python's
recursion limit); running out of it is an exception. Exceptions are `none`.
Simplifications: 'spectrum' nodes are not modelled; states are values, so the contents of the measurement history after a later
in-place change of the classical values are not described here (see Model/Heap); collections have no 'photon_resolution' and no
'popescu_rohrlich_correlation' information, and are not empty when a measurement node is reached; the configuration of the collection is
that of the circuit.
-/
import Verif.Model.Reshape
import Verif.Model.OpticalNodes


namespace Verif

/-- Python list indexing `l[i]`: negative indices count from the end; `none`: IndexError. -/
def pyIndex (n : ℕ) (i : ℤ) : Option ℕ :=
  if 0 ≤ i then (if i < n then some i.toNat else none) else (if -(n : ℤ) ≤ i then some (i + n).toNat else none)

/-- Python `l[i]`. -/
def pyGet {α : Type*} (l : List α) (i : ℤ) : Option α := (pyIndex l.length i).bind (fun k => l[k]?)

/-- The two angles of a controlled node (controlled_nodes.py 87-90, 152-155). -/
inductive Angle where
  | theta
  | phi
  deriving DecidableEq

/-- An entry of `node_list`. -/
inductive Node where
  /-- 'optical': optical matrix and tensor list (optical_nodes.py, custom_nodes.py 98-141) -/
  | optical (M : Opt) (tl : List ℕ)
  /-- 'custom fock matrix' (custom_nodes.py 143-167) -/
  | fockMatrix (F : SqArr)
  /-- 'classical': function, new input values and affected channels (classical_nodes.py 76-82); `none`: the function raises -/
  | classical (f : List ℝ → List ℝ → List ℤ → Option (List ℝ)) (newValues : List ℝ) (affected : List ℤ)
  /-- 'measurement' (measurement_nodes.py 18-61) -/
  | measurement (opt cls : List ℕ)
  /-- 'controlled': variables, their classical channels, default values, tensor list (controlled_nodes.py 87-98, 152-163) -/
  | controlled (vars : List Angle) (channels : List ℤ) (defaults : List (Angle × ℝ)) (tl : List ℕ)
  /-- 'generic function on collection' (custom_nodes.py 535-612) -/
  | generic (f : Coll → Option Coll)
  /-- 'bridge' to the circuit with the given number (bridge_nodes.py 18-38) -/
  | bridge (next : ℕ)

/-- A circuit: configuration, number of classical channels, threshold, `use_full_fock_matrix` and list of nodes
(node_list.py 66-139). -/
structure Circ where
  g : Cfg
  m : ℕ
  thr : ℝ
  full : Bool
  nodes : List Node

/-- circuit.py 321-327: is the node of type 'optical'? -/
def Node.isOptical : Node → Bool
  | .optical _ _ => true
  | _ => false

/-- circuit.py 606-616: is the node of type 'measurement'? -/
def Node.isMeasurement : Node → Bool
  | .measurement _ _ => true
  | _ => false

/-- optical_values_component_names.py 235: the enumeration of the photon-number lists in the standard order. Simplification:
the component tables can list them in another order after direct look-ups (property C05); that order is not used here. -/
def basisKeys (g : Cfg) : List Vals := (List.range g.size).map g.valuesFromIndex

/-- circuit.py 721-736: the groups of states that use the same reduced Fock matrix. -/
noncomputable def opticalGroups (c : Circ) (coll : Coll) : Option (List (Sel × List (List Char))) :=
  if c.full then some [(Sel.all, coll.keys)] else
    (groupByPhotons c.g coll).map (fun d => d.map (fun p => (if p.1.2 then Sel.eq p.1.1 else Sel.le p.1.1, p.2)))

/-- circuit.py 721-753: `__apply_node_or_nodes_to_collection` for the optical nodes `n :: l`. -/
noncomputable def opticalColl (c : Circ) (n : Opt × List ℕ) (l : List (Opt × List ℕ)) (coll : Coll) : Option Coll := do
  let coll ← copyColl c.thr c.m coll
  let groups ← opticalGroups c coll
  groups.foldlM (fun (coll : Coll) gr => gr.2.foldlM (fun (coll : Coll) i => do
    let q ← coll.get? i
    let x ← toVector c.g q.comps
    let comps ← fromVector c.g c.thr (applyReduced (fockNodes c.g (basisKeys c.g) gr.1 n l) x)
    some (coll.set i { q with comps := comps })) coll) coll

/-- circuit.py 363-381: custom Fock matrix (`none`: wrong size). `r k`: random numbers for the identifier of the `k`-th new state. -/
noncomputable def customColl (c : Circ) (F : SqArr) (r : ℕ → ℕ → ℕ) (coll : Coll) : Option Coll :=
  coll.foldlM (fun (out : Coll) p => do
    let q ← copyState c.thr c.m p.2
    if F.size ≠ c.g.size then none
    let comps ← applyCustom c.g c.thr F p.2.comps
    some (addState out { q with comps := comps } none (r out.length))) []

/-- circuit.py 386-397: classical node; the setter (state.py 238-244) checks the length. -/
noncomputable def classicalColl (c : Circ) (f : List ℝ → List ℝ → List ℤ → Option (List ℝ)) (newValues : List ℝ) (affected : List ℤ)
    (coll : Coll) : Option Coll :=
  coll.mapM (fun p => do
    let vals ← f p.2.classical newValues affected
    if vals.length = c.m then some (p.1, { p.2 with classical := vals }) else none)

/-- circuit.py 476-480 and 489-495: the angles after reading values for some variables. -/
def setAngles (l : List (Angle × ℝ)) (tp : Option ℝ × Option ℝ) : Option ℝ × Option ℝ :=
  l.foldl (fun tp av => match av.1 with
    | .theta => (some av.2, tp.2)
    | .phi => (tp.1, some av.2)) tp

/-- circuit.py 460-513: controlled node. The angles of one state stay set for the following ones (Python variables); `none`: unequal
lengths, channel out of range, or an angle that was never set. -/
noncomputable def controlledColl (c : Circ) (vars : List Angle) (channels : List ℤ) (defaults : List (Angle × ℝ)) (tl : List ℕ)
    (coll : Coll) : Option Coll := do
  if vars.length ≠ channels.length then none
  let out ← coll.foldlM (fun (s : Coll × (Option ℝ × Option ℝ)) p => do
    let read ← (vars.zip channels).mapM (fun vc => (pyGet p.2.classical vc.2).map (fun x => (vc.1, x)))
    let tp := setAngles read s.2
    let th ← tp.1
    let ph ← tp.2
    let single ← opticalColl c (genericMatrix th ph, tl) [] [p]
    some (single.foldl (fun (out : Coll) e => out.set e.1 e.2) s.1, tp)) ([], setAngles defaults (none, none))
  some out.1

/-- circuit.py 556-576: reshaping for a bridge; `r`, `r'`: random numbers for identifiers. -/
noncomputable def reshape (c next : Circ) (r r' : ℕ → ℕ → ℕ) (coll : Coll) : Option Collection := do
  let states ← copyColl c.thr c.m coll
  let a : Collection := ⟨c.g, c.m, c.thr, states⟩
  let b ← if next.g.C > c.g.C then extendColl a (next.g.C - c.g.C) 0 [] r
    else if next.g.C < c.g.C then reduceColl a (List.range next.g.C) [] else some a
  let d ← if next.m > c.m then extendColl b 0 (next.m - c.m) [] r'
    else if next.m < c.m then reduceColl b [] (List.range next.m) else some b
  adjustLength d next.g.L

/-- circuit.py 323-338: the nodes left after the current one(s): nothing if the largest index has been reached (!). -/
def remaining (done nodes : List ℕ) : List ℕ :=
  if done.foldr max 0 ≥ nodes.foldr max 0 then [] else nodes.drop done.length

/-- circuit.py 323-328: the leading nodes of type 'optical', as indices. -/
def opticalRun (c : Circ) (nodes : List ℕ) : List ℕ := nodes.takeWhile (fun i => ((c.nodes[i]?).map Node.isOptical).getD false)

/-- The matrix and tensor list of the optical nodes with the given indices. -/
def opticalNodes (c : Circ) (is : List ℕ) : List (Opt × List ℕ) :=
  is.filterMap (fun i => match c.nodes[i]? with
    | some (Node.optical M tl) => some (M, tl)
    | _ => none)

/-- circuit.py 273-580: `evaluate_circuit` of circuit number `k` on a collection, for a list of node indices. `rnd k i`: random numbers
used by node `i` of circuit `k` (two streams). -/
noncomputable def evalNodes (env : ℕ → Circ) (rnd : ℕ → ℕ → Bool → ℕ → ℕ → ℕ) : ℕ → ℕ → List ℕ → Coll → Option Coll
  | 0, _, _, _ => none
  | fuel + 1, k, nodes, coll =>
    match nodes with
    | [] => some coll
    | i :: rest =>
      if ¬ (i :: rest).all (· < (env k).nodes.length) then none else
      match (env k).nodes[i]? with
      | none => none
      | some (.optical _ _) =>
        let run := opticalRun (env k) (i :: rest)
        match opticalNodes (env k) run with
        | [] => none
        | n :: l => (opticalColl (env k) n l coll).bind (evalNodes env rnd fuel k (remaining run (i :: rest)))
      | some (.fockMatrix F) =>
        (customColl (env k) F (rnd k i true) coll).bind (evalNodes env rnd fuel k (remaining [i] (i :: rest)))
      | some (.classical f v a) =>
        (classicalColl (env k) f v a coll).bind (evalNodes env rnd fuel k (remaining [i] (i :: rest)))
      | some (.measurement opt cls) =>
        (measureColl (env k).g (env k).thr (env k).m (measurementId ((env k).nodes.map Node.isMeasurement) i) opt cls coll).bind
          (evalNodes env rnd fuel k (remaining [i] (i :: rest)))
      | some (.controlled vars channels defaults tl) =>
        (controlledColl (env k) vars channels defaults tl coll).bind (evalNodes env rnd fuel k (remaining [i] (i :: rest)))
      | some (.generic f) => (f coll).bind (evalNodes env rnd fuel k (remaining [i] (i :: rest)))
      | some (.bridge next) =>
        (reshape (env k) (env next) (rnd k i true) (rnd k i false) coll).bind
          (fun d => evalNodes env rnd fuel next (List.range (env next).nodes.length) d.states)

/-- circuit.py 304-307: `evaluate_circuit` with the default `nodes_to_be_evaluated = ['all']`. -/
noncomputable def evalAll (env : ℕ → Circ) (rnd : ℕ → ℕ → Bool → ℕ → ℕ → ℕ) (fuel k : ℕ) (coll : Coll) : Option Coll :=
  evalNodes env rnd fuel k (List.range (env k).nodes.length) coll

/-- compound_circuit.py 76-100: `refresh`: the `i`-th circuit of the list with a bridge to the next one added to (a copy of) its list
of nodes; the last one gets no bridge. (Numbers that are not used are mapped to an arbitrary circuit.) -/
def compoundEnv (d : Circ) (cs : List Circ) (i : ℕ) : Circ :=
  { cs.getD i d with nodes := if i + 1 < cs.length then (cs.getD i d).nodes ++ [.bridge (i + 1)] else (cs.getD i d).nodes }

/-- compound_circuit.py 139-147: `evaluate_circuit` of a compound circuit. -/
noncomputable def evalCompound (d : Circ) (cs : List Circ) (rnd : ℕ → ℕ → Bool → ℕ → ℕ → ℕ) (fuel : ℕ) (coll : Coll) : Option Coll :=
  evalAll (compoundEnv d cs) rnd fuel 0 coll

end Verif
