/-
Object-level model of the optical components: the dictionaries `{'amplitude': ..., 'probability': ...}` of the components and the State
objects live on a heap, so that sharing of them between states and collections is visible.
Models src/fock_state_circuit/state.py 200-228, 420-440, 569-614, collection_of_states.py 404-419, 596-614, 906-953 and
nodes/custom_nodes.py 271-291, 342-358. Simplifications: identifiers, labels, classical values and measurement results are values (their
sharing is in Model/Heap); settings are those of one circuit. Exceptions are `none`.
-/
import Verif.Model.ShiftColl
import Verif.Model.Reshape
import Verif.Model.Heap

namespace Verif

/-- A State object (state.py 119-178): its components refer to dictionary objects, by address. -/
structure EState where
  initial : List Char
  cum : ℝ
  comps : Dict (List Char) ℕ
  classical : List ℝ
  results : List MRes

/-- The heap: the dictionaries with amplitude and probability, and the State objects, by address. -/
structure EHeap where
  recs : List Comp
  objs : List EState

/-- Content of the dictionary at an address. -/
noncomputable def EHeap.cell (h : EHeap) (r : ℕ) : Comp := h.recs.getD r ⟨0, 0⟩

/-- The components as seen by a reader. -/
noncomputable def EHeap.read (h : EHeap) (d : Dict (List Char) ℕ) : Comps := d.map (fun p => (p.1, h.cell p.2))

/-- The contents of a State object as seen by a reader. -/
noncomputable def EHeap.val (h : EHeap) (s : EState) : QState := ⟨s.initial, s.cum, h.read s.comps, s.classical, s.results⟩

/-- The contents of the State object at an address. -/
noncomputable def EHeap.get (h : EHeap) (a : ℕ) : Option QState := (h.objs[a]?).map h.val

/-- The contents of a collection (identifiers and addresses of State objects) as seen by a reader. -/
noncomputable def EHeap.view (h : EHeap) (coll : HColl) : Option Coll := coll.mapM (fun p => (h.get p.2).map (fun q => (p.1, q)))

/-- state.py 420-440: `copy`: a new State object with a new dictionary for every component (430). -/
noncomputable def eCopyState (thr : ℝ) (m : ℕ) (h : EHeap) (a : ℕ) : Option (EHeap × ℕ) := do
  let s ← h.objs[a]?
  let _ ← copyState thr m (h.val s)
  some (⟨h.recs ++ s.comps.map (fun p => h.cell p.2),
    h.objs ++ [{ s with comps := s.comps.zipIdx.map (fun p => (p.1.1, h.recs.length + p.2)) }]⟩, h.objs.length)

/-- collection_of_states.py 606-614: `copy` of a collection. -/
noncomputable def eCopyColl (thr : ℝ) (m : ℕ) (h : EHeap) (coll : HColl) : Option (EHeap × HColl) :=
  coll.foldlM (fun (s : EHeap × HColl) p => do
    let ha ← eCopyState thr m s.1 p.2
    some (ha.1, s.2.set p.1 ha.2)) (h, [])

/-- custom_nodes.py 277-289: the components under their new names: the dictionaries are those of the old state, they are not copied (278
copies only the outer dictionary); the setter (state.py 203-208) checks the names. -/
noncomputable def moveRefs (g : Cfg) (move : Vals → Option Vals) (h : EHeap) (d : Dict (List Char) ℕ) : Option (Dict (List Char) ℕ) := do
  let new ← d.foldlM (fun (d : Dict (List Char) ℕ) p => do
    let v ← g.parse p.1
    let w ← move v
    let s ← g.render w
    some (d.set s p.2)) []
  let _ ← setFromDict g (h.read new)
  some new

/-- custom_nodes.py 271-291 and 342-358: the function of `shift_direct` and `c_shift_direct`: the collection is copied (and the copy
cleared), every state is copied, and the copy gets the dictionaries of the original state under new names. -/
noncomputable def eMoveColl (c : Circ) (move : Vals → Option Vals) (r : ℕ → ℕ → ℕ) (h : EHeap) (coll : HColl) : Option (EHeap × HColl) := do
  let h0 ← eCopyColl c.thr c.m h coll
  coll.foldlM (fun (s : EHeap × HColl) p => do
    let o ← s.1.objs[p.2]?
    let ha ← eCopyState c.thr c.m s.1 p.2
    let comps ← moveRefs c.g move s.1 o.comps
    some ({ ha.1 with objs := ha.1.objs.modify ha.2 (fun s => { s with comps := comps }) },
      s.2.set (freshId s.2.keys (r s.2.length)) ha.2)) (h0.1, [])

/-- state.py 569-592: `_rescale_optical_components`: dictionaries with a probability below the threshold are overwritten in place (577, 578);
if the rest has to be scaled, the state gets new dictionaries. -/
noncomputable def eRescale (thr : ℝ) (h : EHeap) (a : ℕ) : Option EHeap := do
  let o ← h.objs[a]?
  let rt := o.comps.foldl (fun (s : List Comp × ℝ) p =>
    let e := s.1.getD p.2 ⟨0, 0⟩
    if e.prob < thr then (s.1.set p.2 ⟨0, 0⟩, s.2) else (s.1, s.2 + ‖e.amp‖ ^ 2)) (h.recs, 0)
  if |rt.2 - 1| ≥ thr then
    if Real.sqrt rt.2 = 0 then none
    else
      let f : ℂ := ((1 / Real.sqrt rt.2 : ℝ) : ℂ)
      let new := o.comps.foldl (fun (s : List Comp × Dict (List Char) ℕ) p =>
        let x : ℂ := f * (rt.1.getD p.2 ⟨0, 0⟩).amp
        if ‖x‖ ^ 2 ≥ thr then (s.1 ++ [⟨x, ‖x‖ ^ 2⟩], s.2.set p.1 s.1.length) else s) (rt.1, [])
      some ⟨new.1, h.objs.set a { o with comps := new.2 }⟩
  else some ⟨rt.1, h.objs⟩

open Classical in
/-- collection_of_states.py 927-940: rescale the states with the label and sort them into groups of similar states. -/
noncomputable def eCleanGroups (thr : ℝ) (label : List Char) (h : EHeap) (coll : HColl) :
    Option (EHeap × Dict (List Char) (List (List Char))) :=
  coll.foldlM (fun (s : EHeap × Dict (List Char) (List (List Char))) p => do
    let q ← s.1.get p.2
    if q.initial = label then
      let h' ← eRescale thr s.1 p.2
      let q' ← h'.get p.2
      match s.2.find? (fun o => decide (∃ a k, coll.get? o.1 = some a ∧ h'.get a = some k ∧ identicalComps thr q'.comps k.comps)) with
      | some o => some (h', s.2.set o.1 (o.2 ++ [p.1]))
      | none => some (h', s.2.set p.1 [])
    else some s) (h, [])

/-- collection_of_states.py 942-951: merge each group into its first state: the other ones are removed from the collection, and the
cumulative probability is set in the State object of the first one. -/
noncomputable def eMergeGroups (thr : ℝ) (groups : Dict (List Char) (List (List Char))) (h : EHeap) (coll : HColl) : Option (EHeap × HColl) :=
  groups.foldlM (fun (s : EHeap × HColl) ig => do
    let a ← s.2.get? ig.1
    let q ← s.1.get a
    let sc ← ig.2.foldlM (fun (sc : HColl × ℝ) j => do
      let b ← sc.1.get? j
      let k ← s.1.get b
      some (sc.1.erase j, sc.2 + k.cum)) (s.2, q.cum)
    if sc.2 ≥ thr then
      let cum ← setCum sc.2
      let a ← sc.1.get? ig.1
      some ({ s.1 with objs := s.1.objs.modify a (fun s => { s with cum := cum }) }, sc.1)
    else some (s.1, sc.1.erase ig.1)) (h, coll)

/-- collection_of_states.py 906-953: `clean_up`, for the labels in the given order. -/
noncomputable def eCleanUp (thr : ℝ) (labels : List (List Char)) (h : EHeap) (coll : HColl) : Option (EHeap × HColl) :=
  labels.foldlM (fun (s : EHeap × HColl) label => do
    let sg ← eCleanGroups thr label s.1 s.2
    eMergeGroups thr sg.2 sg.1 s.2) (h, coll)

end Verif
