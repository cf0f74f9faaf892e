/-
Object-level model of evaluation: State objects and the list objects that hold classical channel values live on a heap, so that sharing
between states, between a state and its measurement history, and between collections is visible.
Models src/fock_state_circuit/circuit.py 273-513 and 622-756, state.py 192-250 and 420-440, collection_of_states.py 596-614.
Simplifications: the dictionaries of optical components, the entries of the measurement history and the history list itself are values
(state.py 430-434 copies them, and evaluation replaces them but never writes into a shared one); 'generic function', 'spectrum' and
'bridge' nodes are not in this model; node lists are those of one circuit. Otherwise the same simplifications as Model/Evaluate.
-/
import Verif.Model.Evaluate

namespace Verif

/-- The `state` dictionary of a State object (state.py 119-178): `classical` and the history entries refer to list objects. -/
structure HState where
  initial : List Char
  cum : ℝ
  comps : Comps
  classical : ℕ
  results : List (ℕ × ℝ)

/-- The heap: list objects and State objects, by address. -/
structure Heap where
  lists : List (List ℝ)
  objs : List HState

/-- Content of a list object. -/
def Heap.list (h : Heap) (r : ℕ) : List ℝ := h.lists.getD r []

/-- The contents of a State object as seen by a reader. -/
def Heap.val (h : Heap) (s : HState) : QState :=
  ⟨s.initial, s.cum, s.comps, h.list s.classical, s.results.map (fun r => ⟨h.list r.1, r.2⟩)⟩

/-- The contents of the State object at an address. -/
def Heap.get (h : Heap) (a : ℕ) : Option QState := (h.objs[a]?).map h.val

/-- A collection: identifiers and addresses of State objects (collection_of_states.py 326-335). -/
abbrev HColl := Dict (List Char) ℕ

/-- The contents of a collection as seen by a reader (`none` never occurs for existing objects). -/
def Heap.view (h : Heap) (coll : HColl) : Option Coll := coll.mapM (fun p => (h.get p.2).map (fun q => (p.1, q)))

/-- state.py 420-440: `copy`: a new object and a new list object for the classical values; the entries of the history refer to the same
list objects as before. -/
noncomputable def hCopyState (thr : ℝ) (m : ℕ) (h : Heap) (a : ℕ) : Option (Heap × ℕ) := do
  let s ← h.objs[a]?
  let _ ← copyState thr m (h.val s)
  some (⟨h.lists ++ [h.list s.classical], h.objs ++ [{ s with classical := h.lists.length }]⟩, h.objs.length)

/-- collection_of_states.py 606-614: `copy` of a collection. -/
noncomputable def hCopyColl (thr : ℝ) (m : ℕ) (h : Heap) (coll : HColl) : Option (Heap × HColl) :=
  coll.foldlM (fun (s : Heap × HColl) p => do
    let ha ← hCopyState thr m s.1 p.2
    some (ha.1, s.2.set p.1 ha.2)) (h, [])

/-- state.py 565: `self.state['optical_components'] = ...` for the object at address `a`. -/
def Heap.setComps (h : Heap) (a : ℕ) (comps : Comps) : Heap :=
  { h with objs := h.objs.modify a (fun s => { s with comps := comps }) }

/-- circuit.py 721-753: optical nodes: the collection is copied, then the copies are changed. -/
noncomputable def hOptical (c : Circ) (n : Opt × List ℕ) (l : List (Opt × List ℕ)) (h : Heap) (coll : HColl) : Option (Heap × HColl) := do
  let hc ← hCopyColl c.thr c.m h coll
  let view ← hc.1.view hc.2
  let groups ← opticalGroups c view
  let h' ← groups.foldlM (fun (h : Heap) gr => gr.2.foldlM (fun (h : Heap) i => do
    let a ← hc.2.get? i
    let s ← h.objs[a]?
    let x ← toVector c.g s.comps
    let comps ← fromVector c.g c.thr (applyReduced (fockNodes c.g (basisKeys c.g) gr.1 n l) x)
    some (h.setComps a comps)) h) hc.1
  some (h', hc.2)

/-- circuit.py 363-381: custom Fock matrix: every state is copied, the copies are changed. -/
noncomputable def hCustom (c : Circ) (F : SqArr) (r : ℕ → ℕ → ℕ) (h : Heap) (coll : HColl) : Option (Heap × HColl) :=
  coll.foldlM (fun (s : Heap × HColl) p => do
    let ha ← hCopyState c.thr c.m s.1 p.2
    if F.size ≠ c.g.size then none
    let o ← s.1.objs[p.2]?
    let comps ← applyCustom c.g c.thr F o.comps
    some (ha.1.setComps ha.2 comps, s.2.set (freshId s.2.keys (r s.2.length)) ha.2)) (h, [])

/-- What a function for classical channels does with the list it is given: its content afterwards, and the returned list (`none`: the
same list object; otherwise the content of a new one). -/
structure ClsEffect where
  arg : List ℝ
  ret : Option (List ℝ)

/-- circuit.py 386-397: classical node: applied to the State objects of the given collection itself, no copy is made. -/
noncomputable def hClassical (m : ℕ) (f : List ℝ → List ℝ → List ℤ → Option ClsEffect) (v : List ℝ) (a : List ℤ) (h : Heap) (coll : HColl) :
    Option Heap :=
  coll.foldlM (fun (h : Heap) p => do
    let s ← h.objs[p.2]?
    let r ← f (h.list s.classical) v a
    match r.ret with
    | none => if r.arg.length = m then some { h with lists := h.lists.set s.classical r.arg } else none
    | some l => if l.length = m then
        some ⟨h.lists.set s.classical r.arg ++ [l], h.objs.set p.2 { s with classical := h.lists.length }⟩ else none) h

/-- classical_nodes.py 116-119: the function of `set_classical_channels` writes into the list it is given and returns it
(`none`: IndexError). -/
def setChannels (vals newValues : List ℝ) (channels : List ℤ) : Option (List ℝ) :=
  channels.zipIdx.foldlM (fun (vals : List ℝ) ci =>
    (pyIndex vals.length ci.1).bind (fun k => (newValues[ci.2]?).map (fun x => vals.set k x))) vals

/-- classical_nodes.py 116-119: the effect of `set_classical_channels`: in place. -/
def setChannelsEffect (vals newValues : List ℝ) (channels : List ℤ) : Option ClsEffect :=
  (setChannels vals newValues channels).map (fun l => ⟨l, none⟩)

/-- circuit.py 662-690: collapsed state of one outcome: the state is copied, the classical values of the copy are overwritten in place and
the new history entry refers to the list object that also holds the classical values of the new state. -/
noncomputable def hCollapse (g : Cfg) (thr : ℝ) (m : ℕ) (h : Heap) (a : ℕ) (cls : List ℕ) (o : List ℕ) (items : List (Vals × ℂ)) :
    Option (Heap × ℕ) := do
  let tot : ℝ := (items.map (fun p => p.2.re ^ 2 + p.2.im ^ 2)).sum
  if tot = 0 then none
  let ha ← hCopyState thr m h a
  let s ← ha.1.objs[ha.2]?
  let cum ← mulCum s.cum tot
  let classical ← writeClassical cls o (ha.1.list s.classical)
  let named ← items.mapM (fun p => do
    let nm ← g.render p.1
    let x : ℂ := p.2 / (Real.sqrt tot : ℂ)
    some (nm, (⟨x, x.re ^ 2 + x.im ^ 2⟩ : Comp)))
  let comps ← setFromDict g (Dict.ofList named)
  some (⟨ha.1.lists.set s.classical classical,
    ha.1.objs.set ha.2 ⟨s.initial, cum, comps, s.classical, s.results ++ [(s.classical, tot)]⟩⟩, ha.2)

/-- circuit.py 622-692: `_perform_measurement` on one State object. -/
noncomputable def hMeasure (g : Cfg) (thr : ℝ) (m : ℕ) (h : Heap) (a : ℕ) (opt cls : List ℕ) : Option (Heap × List ℕ) := do
  let cls := if cls.length > opt.length then cls.take opt.length else cls
  let s ← h.objs[a]?
  let items ← s.comps.mapM (fun p => (g.parse p.1).map (fun v => (v, p.2.amp)))
  (groupBy (fun p => outcomeOf opt p.1) items).foldlM (fun (st : Heap × List ℕ) og => do
    let ha ← hCollapse g thr m st.1 a cls og.1 og.2
    some (ha.1, st.2 ++ [ha.2])) (h, [])

/-- circuit.py 430-453: measurement node. -/
noncomputable def hMeasureColl (g : Cfg) (thr : ℝ) (m : ℕ) (mid : List Char) (opt cls : List ℕ) (h : Heap) (coll : HColl) : Option (Heap × HColl) :=
  coll.foldlM (fun (s : Heap × HColl) iq => do
    let r ← hMeasure g thr m s.1 iq.2 opt cls
    some (r.1, r.2.zipIdx.foldl (fun (out : HColl) ak => out.set (iq.1 ++ ['-', 'M'] ++ mid ++ marker ak.2) ak.1) s.2)) (h, [])

/-- circuit.py 460-513: controlled node: the optical matrix is made from the classical values, then applied to a collection with this
single state (which is copied there). -/
noncomputable def hControlled (c : Circ) (vars : List Angle) (channels : List ℤ) (defaults : List (Angle × ℝ)) (tl : List ℕ)
    (h : Heap) (coll : HColl) : Option (Heap × HColl) := do
  if vars.length ≠ channels.length then none
  let out ← coll.foldlM (fun (s : (Heap × HColl) × (Option ℝ × Option ℝ)) p => do
    let o ← s.1.1.objs[p.2]?
    let read ← (vars.zip channels).mapM (fun vc => (pyGet (s.1.1.list o.classical) vc.2).map (fun x => (vc.1, x)))
    let tp := setAngles read s.2
    let th ← tp.1
    let ph ← tp.2
    let single ← hOptical c (genericMatrix th ph, tl) [] s.1.1 [p]
    some ((single.1, single.2.foldl (fun (out : HColl) e => out.set e.1 e.2) s.1.2), tp)) ((h, []), setAngles defaults (none, none))
  some out.1

/-- An entry of `node_list`, with the object-level effect of classical functions. -/
inductive HNode where
  | optical (M : Opt) (tl : List ℕ)
  | fockMatrix (F : SqArr)
  | classical (f : List ℝ → List ℝ → List ℤ → Option ClsEffect) (newValues : List ℝ) (affected : List ℤ)
  | measurement (opt cls : List ℕ)
  | controlled (vars : List Angle) (channels : List ℤ) (defaults : List (Angle × ℝ)) (tl : List ℕ)

/-- The same node in the model where states are values (Model/Evaluate). -/
def HNode.node : HNode → Node
  | .optical M tl => .optical M tl
  | .fockMatrix F => .fockMatrix F
  | .classical f v a => .classical (fun vals v a => (f vals v a).map (fun r => r.ret.getD r.arg)) v a
  | .measurement opt cls => .measurement opt cls
  | .controlled vars channels defaults tl => .controlled vars channels defaults tl

/-- A circuit (node_list.py 66-139). -/
structure HCirc where
  g : Cfg
  m : ℕ
  thr : ℝ
  full : Bool
  nodes : List HNode

/-- The same circuit in the model where states are values. -/
def HCirc.circ (c : HCirc) : Circ := ⟨c.g, c.m, c.thr, c.full, c.nodes.map HNode.node⟩

/-- circuit.py 273-513: `evaluate_circuit` for a list of node indices, on the heap. -/
noncomputable def hEval (c : HCirc) (rnd : ℕ → ℕ → ℕ → ℕ) : ℕ → List ℕ → Heap × HColl → Option (Heap × HColl)
  | 0, _, _ => none
  | fuel + 1, nodes, hc =>
    match nodes with
    | [] => some hc
    | i :: rest =>
      if ¬ (i :: rest).all (· < c.nodes.length) then none else
      match c.nodes[i]? with
      | none => none
      | some (.optical _ _) =>
        let run := opticalRun c.circ (i :: rest)
        match opticalNodes c.circ run with
        | [] => none
        | n :: l => (hOptical c.circ n l hc.1 hc.2).bind (hEval c rnd fuel (remaining run (i :: rest)))
      | some (.fockMatrix F) => (hCustom c.circ F (rnd i) hc.1 hc.2).bind (hEval c rnd fuel (remaining [i] (i :: rest)))
      | some (.classical f v a) =>
        (hClassical c.m f v a hc.1 hc.2).bind (fun h => hEval c rnd fuel (remaining [i] (i :: rest)) (h, hc.2))
      | some (.measurement opt cls) =>
        (hMeasureColl c.g c.thr c.m (measurementId (c.circ.nodes.map Node.isMeasurement) i) opt cls hc.1 hc.2).bind
          (hEval c rnd fuel (remaining [i] (i :: rest)))
      | some (.controlled vars channels defaults tl) =>
        (hControlled c.circ vars channels defaults tl hc.1 hc.2).bind (hEval c rnd fuel (remaining [i] (i :: rest)))

end Verif
