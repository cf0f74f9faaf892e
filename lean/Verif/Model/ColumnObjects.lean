/-
Columns as Python objects. Models column_of_states.py 211-441, 442-566, 591-612, 636-658, 660-733 in src/fock_state_circuit/temporal_and_spectral_gate_functionality/ with State objects,
list objects and ColumnOfStates objects that refer to each other, because a column stores its parameters twice: in `column` and in `auxiliary_information['photon_resolution']` of every state.
Model/Columns, where they are stored once, is proved to describe the same (C136). Exceptions are `none`; what an operation did before it raised is not modelled. A reference is the
position of the object in the list of objects of its kind. Identifiers are natural numbers (the code uses -1 for a moment in `split`). `State.copy` (state.py 420-439) is a deep copy.
-/
import Verif.Model.GroupBook

namespace Verif

/-- `auxiliary_information['photon_resolution']` of a State object: 'photon_information' and the five column parameters (column_of_states.py 211-215), each of which can be missing. -/
structure ResKeys where
  info : Option PInfo
  gid : Option ℕ
  cid : Option ℕ
  amp : Option ℂ
  boson : Option ℝ
  gprob : Option ℝ

/-- A State object (`res = none`: no key 'photon_resolution'). -/
structure StateObj where
  q : QState
  res : Option ResKeys

/-- A ColumnOfStates object: the dictionary `column` and a reference to the list `list_of_states`. -/
structure ColObj where
  par : ColInfo
  lst : ℕ

/-- All State objects, list objects and ColumnOfStates objects. -/
structure ColHeap where
  states : List StateObj
  lists : List (List ℕ)
  cols : List ColObj

/-- One column parameter with a value. -/
inductive ColKey where
  | gid (n : ℕ)
  | cid (n : ℕ)
  | amp (z : ℂ)
  | boson (r : ℝ)
  | gprob (p : ℝ)

/-- column_of_states.py 347, 357, 367, 377, 387: the value is stored in the dictionary of the column. -/
def ColKey.inCol (k : ColKey) (c : ColInfo) : ColInfo :=
  match k with
  | .gid n => { c with gid := n }
  | .cid n => { c with cid := n }
  | .amp z => { c with amp := z }
  | .boson r => { c with boson := r }
  | .gprob p => { c with gprob := p }

/-- column_of_states.py 349, 359, 369, 379, 389: the value is stored in the dictionary of a state. -/
def ColKey.inKeys (k : ColKey) (d : ResKeys) : ResKeys :=
  match k with
  | .gid n => { d with gid := some n }
  | .cid n => { d with cid := some n }
  | .amp z => { d with amp := some z }
  | .boson r => { d with boson := some r }
  | .gprob p => { d with gprob := some p }

/-- column_of_states.py 348-349 and the like: one state (`none`: KeyError, no 'photon_resolution'). -/
def ColHeap.writeKey (k : ColKey) (H : ColHeap) (r : ℕ) : Option ColHeap :=
  (H.states[r]?).bind (fun s => s.res.map (fun d => { H with states := H.states.set r { s with res := some (k.inKeys d) } }))

/-- column_of_states.py 341-389: the five setters: the column and then every state of the column. -/
def ColHeap.assign (H : ColHeap) (c : ℕ) (k : ColKey) : Option ColHeap :=
  (H.cols[c]?).bind (fun o => (H.lists[o.lst]?).bind (fun l => l.foldlM (ColHeap.writeKey k) { H with cols := H.cols.set c { o with par := k.inCol o.par } }))

/-- column_of_states.py 276-278, 305-306 and 424-425: an empty dictionary if there is none. -/
def ColHeap.ensureRes (H : ColHeap) (r : ℕ) : ColHeap :=
  { H with states := H.states.modify r (fun s => { s with res := some (s.res.getD ⟨none, none, none, none, none, none⟩) }) }

/-- column_of_states.py 217: the argument `column_information`, a dictionary that can have some of the five keys. -/
structure ColArg where
  gid : Option ℕ := none
  cid : Option ℕ := none
  amp : Option ℂ := none
  boson : Option ℝ := none
  gprob : Option ℝ := none

/-- column_of_states.py 280-287 and 309-315: `used_column_information`: the argument, then the first state, then the default values (lines 211-215). -/
def usedInfo (a : ColArg) (d : ResKeys) : ColInfo :=
  ⟨a.gid.getD (d.gid.getD 0), a.cid.getD (d.cid.getD 0), a.amp.getD (d.amp.getD 1), a.boson.getD (d.boson.getD 1), a.gprob.getD (d.gprob.getD 1)⟩

/-- column_of_states.py 290-294, 318-322 and 333-337: the five assignments of the constructor. -/
def ColHeap.assignAll (H : ColHeap) (c : ℕ) (u : ColInfo) : Option ColHeap :=
  [ColKey.cid u.cid, .amp u.amp, .boson u.boson, .gid u.gid, .gprob u.gprob].foldlM (fun H k => H.assign c k) H

/-- column_of_states.py 262-296: `ColumnOfStates(list_of_states=l, column_information=a)` for a list that is not empty. The column keeps the list that it is given, line 272, not a copy. -/
def ColHeap.ofList (H : ColHeap) (lst : ℕ) (a : ColArg) : Option ColHeap :=
  (H.lists[lst]?).bind (fun l => (l.head?).bind (fun r0 =>
    let H1 := l.foldl ColHeap.ensureRes { H with cols := H.cols ++ [⟨⟨0, 0, 1, 1, 1⟩, lst⟩] }
    (H1.states[r0]?).bind (fun s => s.res.bind (fun d => H1.assignAll H.cols.length (usedInfo a d)))))

/-- column_of_states.py 297-322: `ColumnOfStates(state=s, column_information=a)`: a new list with this state. -/
def ColHeap.ofState (H : ColHeap) (r : ℕ) (a : ColArg) : Option ColHeap := ColHeap.ofList { H with lists := H.lists ++ [[r]] } H.lists.length a

/-- column_of_states.py 324-337: `ColumnOfStates(column_information=a)`: a new empty list. -/
def ColHeap.newEmpty (H : ColHeap) (a : ColArg) : Option ColHeap :=
  ColHeap.assignAll { H with lists := H.lists ++ [[]], cols := H.cols ++ [⟨⟨0, 0, 1, 1, 1⟩, H.lists.length⟩] } H.cols.length (usedInfo a ⟨none, none, none, none, none, none⟩)

/-- column_of_states.py 413-431: `add_state`: the state is appended to the list and takes the parameters of the column. -/
def ColHeap.addState (H : ColHeap) (c r : ℕ) : Option ColHeap :=
  (H.cols[c]?).bind (fun o => (H.lists[o.lst]?).bind (fun l =>
    [ColKey.cid o.par.cid, .amp o.par.amp, .boson o.par.boson, .gid o.par.gid, .gprob o.par.gprob].foldlM (fun H k => H.writeKey k r)
      (ColHeap.ensureRes { H with lists := H.lists.set o.lst (l ++ [r]) } r)))

/-- column_of_states.py 438-439: a copy of a state is added. -/
def ColHeap.addCopy (c : ℕ) (H : ColHeap) (r : ℕ) : Option ColHeap :=
  (H.states[r]?).bind (fun s => ColHeap.addState { H with states := H.states ++ [s] } c H.states.length)

/-- column_of_states.py 433-440: `copy`. -/
def ColHeap.copy (H : ColHeap) (c : ℕ) : Option ColHeap :=
  (H.cols[c]?).bind (fun o => (H.lists[o.lst]?).bind (fun l =>
    l.foldlM (ColHeap.addCopy H.cols.length) { H with lists := H.lists ++ [[]], cols := H.cols ++ [⟨o.par, H.lists.length⟩] }))

/-- Assign the optical components of a State object. -/
def ColHeap.setComps (H : ColHeap) (r : ℕ) (comps : Comps) : ColHeap :=
  { H with states := H.states.modify r (fun s => { s with q := { s.q with comps := comps } }) }

/-- The State objects of a column. -/
def ColHeap.members (H : ColHeap) (c : ℕ) : Option (List StateObj) :=
  (H.cols[c]?).bind (fun o => (H.lists[o.lst]?).bind (fun l => l.mapM (fun r => H.states[r]?)))

/-- What a user sees of a column: its parameters and, in order, its states with their photon information. -/
def ColHeap.view (H : ColHeap) (c : ℕ) : Option BookColumn :=
  (H.cols[c]?).bind (fun o => (H.members c).map (fun l =>
    ⟨{ states := l.map (fun s => ⟨s.q, s.res.bind (·.info)⟩), amp := o.par.amp, boson := o.par.boson, gprob := o.par.gprob, id := o.par.cid }, o.par.gid⟩))

/-- column_of_states.py 462-506: `split(new_column_identifier)`. The boolean tells whether a new column was made (`False`: the function returns `None`). See Model/Columns, `Column.split`, for the cases
in which it raises. -/
noncomputable def ColHeap.split (g : Cfg) (H : ColHeap) (c n : ℕ) : Option (ColHeap × Bool) :=
  (H.cols[c]?).bind (fun o => (H.lists[o.lst]?).bind (fun l => (l.mapM (fun r => H.states[r]?)).bind (fun sts =>
    match sts.findIdx? (fun s => s.q.comps.length ≠ 1) with
    | none => some (H, false)
    | some i => (H.copy c).bind (fun H1 => (H1.assign H.cols.length (.cid n)).bind (fun H2 =>
      (H2.cols[H.cols.length]?).bind (fun o2 => (H2.lists[o2.lst]?).bind (fun l2 =>
        match (sts[i]?).map (fun s => s.q.comps), l2[i]?, l[i]? with
        | some ((s0, k0) :: (s1, k1) :: rest), some rNew, some rOld =>
          (setFromList g [(s0, 1)]).bind (fun newComps =>
            if rest = [] then
              (setFromList g [(s1, 1)]).bind (fun rem =>
                (((H2.setComps rNew newComps).setComps rOld rem).assign c (.amp (o.par.amp * k1.amp))).bind (fun H3 =>
                  (H3.assign H.cols.length (.amp (o2.par.amp * k0.amp))).map (fun H4 => (H4, true))))
            else
              let r := Real.sqrt (1 - ‖k0.amp‖ ^ 2)
              if r = 0 then none
              else (setFromList g (((s1, k1) :: rest).map (fun p => (p.1, p.2.amp / (r : ℂ))))).bind (fun rem =>
                (((H2.setComps rNew newComps).setComps rOld rem).assign c (.amp (o.par.amp * (r : ℂ)))).bind (fun H3 =>
                  (H3.assign H.cols.length (.amp (o2.par.amp * k0.amp))).map (fun H4 => (H4, true)))))
        | _, _, _ => none)))))))

/-- column_of_states.py 563-564, 731-732: `self.list_of_states = new list` of new State objects, then the boson factor is assigned. -/
def ColHeap.replaceStates (H : ColHeap) (c : ℕ) (new : List StateObj) (b : ℝ) : Option ColHeap :=
  (H.cols[c]?).bind (fun o =>
    ColHeap.assign { states := H.states ++ new, lists := H.lists ++ [(List.range new.length).map (fun i => H.states.length + i)], cols := H.cols.set c { o with lst := H.lists.length } } c (.boson b))

/-- column_of_states.py 511-566: `single_photon_states`: every new state is a copy of a state of the column (with its dictionaries) with another component. `singlePhotons` (Model/Columns) gives the
components. -/
noncomputable def ColHeap.singlePhotonStates (g : Cfg) (H : ColHeap) (c : ℕ) : Option ColHeap :=
  (H.cols[c]?).bind (fun o => (H.members c).bind (fun sts =>
    (sts.mapM (fun s => (singlePhotons g ⟨s.q, none⟩).map (fun x => (x.1.map (fun p => ({ s with q := p.q } : StateObj)), x.2)))).bind (fun l =>
      H.replaceStates c (l.map Prod.fst).flatten (o.par.boson * (l.map Prod.snd).prod))))

/-- column_of_states.py 660-733: `condense_column_to_single_state(use_group_cumulative_probability_for_state)`: the new state is a copy of the last state of the column. -/
noncomputable def ColHeap.condense (g : Cfg) (H : ColHeap) (c : ℕ) (use : Bool) : Option ColHeap :=
  (H.cols[c]?).bind (fun o => (H.members c).bind (fun sts =>
    (sts.mapM (fun s => firstValues g ⟨s.q, none⟩)).bind (fun vs =>
      match vs with
      | [] => none
      | v0 :: rest =>
        let v := rest.foldl (fun acc w => List.zipWith (· + ·) w acc) v0
        (g.render v).bind (fun nm => (sts.getLast?).bind (fun last => (setFromList g [(nm, 1)]).bind (fun comps =>
          (if use then setCum (o.par.gprob * ‖o.par.amp‖ ^ 2) else some last.q.cum).bind (fun cum =>
            H.replaceStates c [{ last with q := { last.q with comps := comps, cum := cum } }] (o.par.boson * (vs.map bosonOf).prod / bosonOf v))))))))

/-- column_of_states.py 608-612: `set_photon_information(photon_information=i)`, no filter (`none`: KeyError). -/
def ColHeap.setInfo (H : ColHeap) (c : ℕ) (i : PInfo) : Option ColHeap :=
  (H.cols[c]?).bind (fun o => (H.lists[o.lst]?).bind (fun l => l.foldlM (fun (H : ColHeap) r =>
    (H.states[r]?).bind (fun s => s.res.map (fun d => { H with states := H.states.set r { s with res := some { d with info := some i } } }))) H))

/-- column_of_states.py 636-646: `all_states_single_photon_states` (`none`: KeyError, name that is not valid; the test stops at the first component with more photons). -/
def allSinglePhoton (g : Cfg) (c : Column) : Option Bool :=
  (c.states.flatMap (fun s => s.q.comps.keys)).foldlM (fun (b : Bool) nm => if b then (g.parse nm).map (fun v => decide (v.sum = 1 ∨ v.sum = 0)) else some false) true

open Classical in
/-- column_of_states.py 648-658: `all_states_single_optical_component`. `np.round(amplitude, 4) != 1` is false when real and imaginary part are within half a unit of the fourth decimal. -/
noncomputable def allSingleComponent (c : Column) : Bool :=
  c.states.all (fun s => match s.q.comps with
    | [(_, k)] => decide (|k.amp.re - 1| ≤ 5 / 100000 ∧ |k.amp.im| ≤ 5 / 100000)
    | _ => false)

/-- A step of a program that works with columns. -/
inductive ColOp where
  | newState (q : QState) (res : Option ResKeys)
  | newList (l : List ℕ)
  | ofList (lst : ℕ) (a : ColArg)
  | ofState (r : ℕ) (a : ColArg)
  | newEmpty (a : ColArg)
  | assign (c : ℕ) (k : ColKey)
  | addState (c r : ℕ)
  | copy (c : ℕ)
  | split (c n : ℕ)
  | singlePhotonStates (c : ℕ)
  | condense (c : ℕ) (use : Bool)
  | setInfo (c : ℕ) (i : PInfo)

/-- One step. New objects get the next free position. -/
noncomputable def ColHeap.step (g : Cfg) (H : ColHeap) : ColOp → Option ColHeap
  | .newState q res => some { H with states := H.states ++ [⟨q, res⟩] }
  | .newList l => some { H with lists := H.lists ++ [l] }
  | .ofList lst a => H.ofList lst a
  | .ofState r a => H.ofState r a
  | .newEmpty a => H.newEmpty a
  | .assign c k => H.assign c k
  | .addState c r => H.addState c r
  | .copy c => H.copy c
  | .split c n => (H.split g c n).map Prod.fst
  | .singlePhotonStates c => H.singlePhotonStates g c
  | .condense c use => H.condense g c use
  | .setInfo c i => H.setInfo c i

/-- A program: a list of steps, starting without any object. -/
noncomputable def ColHeap.run (g : Cfg) (ops : List ColOp) : Option ColHeap := ops.foldlM (fun H op => H.step g op) ⟨[], [], []⟩

end Verif
