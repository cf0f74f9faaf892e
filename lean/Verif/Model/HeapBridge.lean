/-
Object-level model of changing the shape of a collection and of compound circuits: State objects and the list objects that hold classical channel values, as in Model/Heap.
Models src/fock_state_circuit/collection_of_states.py 737-903 and 955-1063, circuit.py 556-578, compound_circuit.py 76-100 and 139-147. The simplifications of Model/Heap and Model/Reshape hold.
-/
import Verif.Model.Heap

namespace Verif

/-- A collection on the heap with its settings, as `Collection` in Model/Reshape. -/
structure HCollection where
  g : Cfg
  m : ℕ
  thr : ℝ
  states : HColl

/-- state.py 119-178 with a new list of classical values (collection_of_states.py 815, 1042): a new list object and a new State object, which has the history entries `res`. -/
def Heap.pushNew (h : Heap) (q : QState) (res : List (ℕ × ℝ)) : Heap :=
  ⟨h.lists ++ [q.classical], h.objs ++ [⟨q.initial, q.cum, q.comps, h.lists.length, res⟩]⟩

/-- collection_of_states.py 793-825 for one State object: the new states have new lists of classical values (line 815) and the history of the old state (line 820). -/
noncomputable def hReduceState (g : Cfg) (thr : ℝ) (keep ckeep : List ℕ) (st : Heap × HColl) (p : List Char × ℕ) : Option (Heap × HColl) :=
  (st.1.objs[p.2]?).bind (fun s => (groupTraced g keep s.comps).bind (fun d =>
    d.foldlM (fun (st' : Heap × HColl) tc =>
      (reducedState thr ckeep.length ckeep (st.1.val s) tc.2).map (fun q' => (st'.1.pushNew q' s.results, st'.2.set (p.1 ++ tc.1) st'.1.objs.length))) st))

/-- collection_of_states.py 737-835: `reduce`, see `reduceColl`. -/
noncomputable def hReduce (h : Heap) (cl : HCollection) (keep ckeep : List ℕ) : Option (Heap × HCollection) :=
  let keep := if keep = [] then List.range cl.g.C else keep
  let ckeep := if ckeep = [] then List.range cl.m else ckeep
  if ¬ keep.all (· < cl.g.C) ∨ ¬ ckeep.all (· < cl.m) then none else
  if ¬ (⟨cl.g.L, keep.length, cl.g.left⟩ : Cfg).Ok then none else
  (cl.states.foldlM (hReduceState cl.g cl.thr keep ckeep) (h, [])).map (fun st =>
    if cl.states = [] then (h, cl) else (st.1, ⟨⟨cl.g.L, keep.length, cl.g.left⟩, ckeep.length, cl.thr, st.2⟩))

/-- collection_of_states.py 880-884: the components of one state under the new names. -/
def adjustComps (g g' : Cfg) (newL : ℕ) (comps : Comps) : Option Comps :=
  comps.foldlM (fun (d : Comps) c => (g.parse c.1).bind (fun v => (g'.render (v.map (· % newL))).map (fun s => d.set s c.2))) []

/-- collection_of_states.py 877-894 for one State object: the new State object has the list object with the classical values of the old one (line 889). -/
noncomputable def hAdjustState (cl : HCollection) (g' : Cfg) (newL : ℕ) (st : Heap × HColl) (p : List Char × ℕ) : Option (Heap × HColl) :=
  (st.1.objs[p.2]?).bind (fun s => (adjustComps cl.g g' newL s.comps).bind (fun comps =>
    (newState cl.thr cl.m { st.1.val s with comps := comps }).map (fun _ =>
      (⟨st.1.lists, st.1.objs ++ [{ s with comps := comps }]⟩, st.2.set p.1 st.1.objs.length))))

/-- collection_of_states.py 844-903: `adjust_length_of_fock_state`, see `adjustLength`. -/
noncomputable def hAdjust (h : Heap) (cl : HCollection) (newL : ℕ) : Option (Heap × HCollection) :=
  let newL := if newL = 0 then cl.g.L else newL
  if ¬ (⟨newL, cl.g.C, cl.g.left⟩ : Cfg).Ok then none else
  (cl.states.foldlM (hAdjustState cl ⟨newL, cl.g.C, cl.g.left⟩ newL) (h, [])).map (fun st => (st.1, ⟨⟨newL, cl.g.C, cl.g.left⟩, cl.m, cl.thr, st.2⟩))

open Classical in
/-- collection_of_states.py 1032-1049 for one State object and one choice of the extra values: a new list of classical values (line 1042). -/
noncomputable def hExtendState (cl : HCollection) (g' : Cfg) (ec : ℕ) (prob : ℝ) (vals : Vals) (r : ℕ → ℕ → ℕ) (st : Heap × HColl) (p : List Char × ℕ) : Option (Heap × HColl) :=
  (st.1.objs[p.2]?).bind (fun s => (extendedState cl.g g' ec (st.1.val s) prob vals).bind (fun q =>
    if q.cum ≥ cl.thr then
      (newState cl.thr (cl.m + ec) q).map (fun q' => (st.1.pushNew q' s.results, st.2.set (freshId st.2.keys (r st.2.length)) st.1.objs.length))
    else some st))

/-- collection_of_states.py 955-1063: `extend`, see `extendColl`. -/
noncomputable def hExtend (h : Heap) (cl : HCollection) (eo ec : ℕ) (dist : List ℝ) (r : ℕ → ℕ → ℕ) : Option (Heap × HCollection) :=
  let dist := if dist = [] then (1 : ℝ) :: List.replicate (cl.g.L - 1) 0 else dist
  if dist.length ≠ cl.g.L then none else
  if eo = 0 ∧ ec = 0 then some (h, cl) else
  if ¬ (⟨cl.g.L, cl.g.C + eo, cl.g.left⟩ : Cfg).Ok then none else
  (extraValues cl.g dist eo).bind (fun extra =>
    (extra.foldlM (fun (st : Heap × HColl) e => cl.states.foldlM (hExtendState cl ⟨cl.g.L, cl.g.C + eo, cl.g.left⟩ ec e.2.1 e.2.2 r) st) (h, [])).map (fun st =>
      (st.1, ⟨⟨cl.g.L, cl.g.C + eo, cl.g.left⟩, cl.m + ec, cl.thr, st.2⟩)))

/-- circuit.py 556-576: reshaping for a bridge: the collection is copied, the copy is changed. -/
noncomputable def hReshape (c next : Circ) (r r' : ℕ → ℕ → ℕ) (h : Heap) (coll : HColl) : Option (Heap × HCollection) :=
  (hCopyColl c.thr c.m h coll).bind (fun a =>
    (if next.g.C > c.g.C then hExtend a.1 ⟨c.g, c.m, c.thr, a.2⟩ (next.g.C - c.g.C) 0 [] r
      else if next.g.C < c.g.C then hReduce a.1 ⟨c.g, c.m, c.thr, a.2⟩ (List.range next.g.C) [] else some (a.1, ⟨c.g, c.m, c.thr, a.2⟩)).bind (fun b =>
    (if next.m > c.m then hExtend b.1 b.2 0 (next.m - c.m) [] r'
      else if next.m < c.m then hReduce b.1 b.2 [] (List.range next.m) else some b).bind (fun d => hAdjust d.1 d.2 next.g.L)))

/-- compound_circuit.py 76-100: the circuit with a bridge at the end (or none), in the model where states are values. -/
def HCirc.withBridge (c : HCirc) (b : Option ℕ) : Circ := { c.circ with nodes := c.circ.nodes ++ b.toList.map .bridge }

/-- circuit.py 273-513 and 556-578: `evaluate_circuit` of circuit number `k` for a list of node indices, on the heap; `next k`: the circuit to which the bridge at the end of circuit `k` leads. -/
noncomputable def hEvalEnv (env : ℕ → HCirc) (next : ℕ → Option ℕ) (rnd : ℕ → ℕ → Bool → ℕ → ℕ → ℕ) : ℕ → ℕ → List ℕ → Heap × HColl → Option (Heap × HColl)
  | 0, _, _, _ => none
  | fuel + 1, k, nodes, hc =>
    match nodes with
    | [] => some hc
    | i :: rest =>
      if ¬ (i :: rest).all (· < ((env k).withBridge (next k)).nodes.length) then none else
      match (env k).nodes[i]? with
      | none => match next k with
        | none => none
        | some j => (hReshape ((env k).withBridge (next k)) ((env j).withBridge (next j)) (rnd k i true) (rnd k i false) hc.1 hc.2).bind
            (fun d => hEvalEnv env next rnd fuel j (List.range ((env j).withBridge (next j)).nodes.length) (d.1, d.2.states))
      | some (.optical _ _) =>
        let run := opticalRun ((env k).withBridge (next k)) (i :: rest)
        match opticalNodes ((env k).withBridge (next k)) run with
        | [] => none
        | n :: l => (hOptical ((env k).withBridge (next k)) n l hc.1 hc.2).bind (hEvalEnv env next rnd fuel k (remaining run (i :: rest)))
      | some (.fockMatrix F) => (hCustom ((env k).withBridge (next k)) F (rnd k i true) hc.1 hc.2).bind (hEvalEnv env next rnd fuel k (remaining [i] (i :: rest)))
      | some (.classical f v a) => (hClassical (env k).m f v a hc.1 hc.2).bind (fun h => hEvalEnv env next rnd fuel k (remaining [i] (i :: rest)) (h, hc.2))
      | some (.measurement opt cls) =>
        (hMeasureColl (env k).g (env k).thr (env k).m (measurementId (((env k).withBridge (next k)).nodes.map Node.isMeasurement) i) opt cls hc.1 hc.2).bind
          (hEvalEnv env next rnd fuel k (remaining [i] (i :: rest)))
      | some (.controlled vars channels defaults tl) =>
        (hControlled ((env k).withBridge (next k)) vars channels defaults tl hc.1 hc.2).bind (hEvalEnv env next rnd fuel k (remaining [i] (i :: rest)))

/-- compound_circuit.py 139-147: `evaluate_circuit` of a compound circuit, on the heap (`d`: any circuit, stands for numbers that are not used). -/
noncomputable def hCompound (d : HCirc) (cs : List HCirc) (rnd : ℕ → ℕ → Bool → ℕ → ℕ → ℕ) (fuel : ℕ) (hc : Heap × HColl) : Option (Heap × HColl) :=
  hEvalEnv (fun i => cs.getD i d) (fun i => if i + 1 < cs.length then some (i + 1) else none) rnd fuel 0
    (List.range ((cs.getD 0 d).withBridge (if 0 + 1 < cs.length then some (0 + 1) else none)).nodes.length) hc

end Verif
