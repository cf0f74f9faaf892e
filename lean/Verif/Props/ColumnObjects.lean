/-
Property C136: columns as objects: parameters stored in the column and in its states, copies, and what sharing of states does.
-/
import Verif.Lemmas.ColumnObjects3
import Verif.Props.Columns

namespace Verif.Props
open Verif Spec

/-- **C136 (partial)** Whatever a program does with columns (constructors, assignments to the five parameters, `add_state`, `copy`, `split`, `single_photon_states`, `condense_column_to_single_state`,
`set_photon_information`), in any order: every state of every column carries the current parameters of the column. Missing: programs that give a State object or a list to two columns
(`C136_shared_state_fails`, `C136_shared_list_fails`). -/
theorem C136_parameters_partial (g : Cfg) (ops : List ColOp) (H : ColHeap) (h : CleanRun g ⟨[], [], []⟩ ops H) : Consistent H := by
  intro c o ho
  obtain ⟨l, hG⟩ := (clean_inv ops colInv_empty h).good c o ho
  obtain ⟨sts, -, -, h3, -⟩ := hG.objs
  exact ⟨sts, h3, members_carry hG h3⟩

/-- **C136 (partial)** A step that is not called on a column does not change what this column shows: neither its parameters nor its states. In particular a copy and its original are independent. -/
theorem C136_others_partial (g : Cfg) (ops : List ColOp) (H H' : ColHeap) (h : CleanRun g ⟨[], [], []⟩ ops H) (op : ColOp) (ho : HandsOver H op) (hs : H.step g op = some H') (c : ℕ) (hc : c < H.cols.length)
    (hne : calledOn op ≠ some c) : H'.view c = H.view c := (step_good (clean_inv ops colInv_empty h) ho hs).2 c hc hne

/-- **C136** Assigning one of the five parameters never raises, changes this parameter of the column and nothing else. -/
theorem C136_assign (g : Cfg) (ops : List ColOp) (H : ColHeap) (h : CleanRun g ⟨[], [], []⟩ ops H) (c : ℕ) (hc : c < H.cols.length) (k : ColKey) :
    ∃ H' b, H.view c = some b ∧ H.step g (.assign c k) = some H' ∧ H'.view c = some (withKey k b) ∧ H'.cols.length = H.cols.length := by
  have hI := clean_inv ops colInv_empty h
  obtain ⟨l, hG⟩ := hI.good c _ (List.getElem?_eq_getElem hc)
  obtain ⟨sts, -, -, -, h4⟩ := hG.objs
  obtain ⟨H', h'⟩ := assign_defined (k := k) hG
  obtain ⟨o, l', -, -, -, -, a, b⟩ := assign_good hI h'
  exact ⟨H', _, h4, h', by rw [a, h4]; rfl, b⟩

/-- **C136** `copy` never raises and gives a new column that shows the same; the original shows the same as before. -/
theorem C136_copy (g : Cfg) (ops : List ColOp) (H : ColHeap) (h : CleanRun g ⟨[], [], []⟩ ops H) (c : ℕ) (hc : c < H.cols.length) :
    ∃ H' b, H.view c = some b ∧ H.step g (.copy c) = some H' ∧ H'.view c = some b ∧ H'.view H.cols.length = some b ∧ H'.cols.length = H.cols.length + 1 := by
  have hI := clean_inv ops colInv_empty h
  obtain ⟨H', h'⟩ := copy_defined hI hc
  obtain ⟨o, l, b, l0, c1, c2, c3, c4, c5, c6, c7, c8⟩ := copy_good hI h'
  exact ⟨H', b, c2, h', by rw [c5.view c1 c1.col_lt.ne, c2], c3, by rw [c8]; simp⟩

/-- **C136 (partial)** `add_state` of a state that belongs to no column appends the state, with its photon information, to the states of the column. -/
theorem C136_add_state_partial (g : Cfg) (ops : List ColOp) (H : ColHeap) (h : CleanRun g ⟨[], [], []⟩ ops H) (c r : ℕ) (hc : c < H.cols.length) (s : StateObj) (hr : H.states[r]? = some s) (hf : ¬ InColumn H r) :
    ∃ H' b, H.view c = some b ∧ H.step g (.addState c r) = some H' ∧ H'.view c = some { b with col := { b.col with states := b.col.states ++ [⟨s.q, s.res.bind (·.info)⟩] } } := by
  have hI := clean_inv ops colInv_empty h
  obtain ⟨l, hG⟩ := hI.good c _ (List.getElem?_eq_getElem hc)
  obtain ⟨H', h'⟩ := addState_defined hG (List.getElem?_eq_some_iff.1 hr).1
  obtain ⟨o, l', s', b, -, hs', -, -, -, e1, e2, -⟩ := addState_good hI hf h'
  obtain rfl : s = s' := Option.some.inj (hr.symm.trans hs')
  exact ⟨H', b, e1, h', e2⟩

/-- **C136 (partial)** The constructor with a list of states: the new column has these states in this order; each of the five parameters comes from the argument, else from the first state, else it has the default value
(amplitude, boson factor and probability 1, identifiers 0). -/
theorem C136_constructor_partial (g : Cfg) (ops : List ColOp) (H H' : ColHeap) (h : CleanRun g ⟨[], [], []⟩ ops H) (lst : ℕ) (a : ColArg) (hf : HandsOver H (.ofList lst a)) (hs : H.step g (.ofList lst a) = some H') :
    ∃ l s0 sts, H.lists[lst]? = some l ∧ l.map (fun r => H.states[r]?) = (s0 :: sts).map some ∧ H'.view H.cols.length = some
      ⟨{ states := (s0 :: sts).map (fun s => ⟨s.q, s.res.bind (·.info)⟩), amp := a.amp.getD ((s0.res.bind (·.amp)).getD 1), boson := a.boson.getD ((s0.res.bind (·.boson)).getD 1),
         gprob := a.gprob.getD ((s0.res.bind (·.gprob)).getD 1), id := a.cid.getD ((s0.res.bind (·.cid)).getD 0) }, a.gid.getD ((s0.res.bind (·.gid)).getD 0)⟩ := by
  obtain ⟨-, -, l, s0, sts, h1, h2, h3, -⟩ := ofList_good (clean_inv ops colInv_empty h) hf hs
  refine ⟨l, s0, sts, h1, h2, ?_⟩
  rw [h3]
  obtain ⟨q, res⟩ := s0
  cases res <;> rfl

/-- **C136** `set_photon_information` without filter: every state of the column gets the information, nothing else changes. -/
theorem C136_set_information (g : Cfg) (ops : List ColOp) (H H' : ColHeap) (h : CleanRun g ⟨[], [], []⟩ ops H) (c : ℕ) (i : PInfo) (hs : H.step g (.setInfo c i) = some H') :
    ∃ b, H.view c = some b ∧ H'.view c = some { b with col := { b.col with states := b.col.states.map (fun s => { s with info := some i }) } } := by
  obtain ⟨o, l, sts, hG, hm, -, -, h4, -⟩ := setInfo_good (clean_inv ops colInv_empty h) hs
  obtain ⟨sts', -, -, h3, h5⟩ := hG.objs
  obtain rfl : sts = sts' := Option.some.inj (hm.symm.trans h3)
  refine ⟨_, h5, ?_⟩
  rw [h4]
  simp [ColInfo.viewWith, StateObj.pst, Function.comp_def]

/-- **C136** `split` on the objects does what `Column.split` (the model of `split` used for C53 and all other theorems about columns) says: it raises, finds nothing to split, or makes a new column in the same
cases, and then both columns show the result, the new one with the given identifier. -/
theorem C136_split (g : Cfg) (ops : List ColOp) (H : ColHeap) (h : CleanRun g ⟨[], [], []⟩ ops H) (c n : ℕ) (b : BookColumn) (hb : H.view c = some b) :
    (b.col.split g = none → H.split g c n = none) ∧ (b.col.split g = some none → H.split g c n = some (H, false)) ∧
    ∀ new rem, b.col.split g = some (some (new, rem)) → ∃ H', H.split g c n = some (H', true) ∧ H'.view c = some { b with col := rem } ∧ H'.view H.cols.length = some { b with col := { new with id := n } } := by
  have hI := clean_inv ops colInv_empty h
  have main : ∀ x, H.split g c n = some x → (x.2 = false → x.1 = H ∧ b.col.split g = some none) ∧
      (x.2 = true → ∃ new rem, b.col.split g = some (some (new, rem)) ∧ x.1.view c = some { b with col := rem } ∧ x.1.view H.cols.length = some { b with col := { new with id := n } }) := by
    intro x hx
    obtain ⟨b', h1, -, -, h4, h5⟩ := split_good (H' := x.1) (made := x.2) hI hx
    obtain rfl : b = b' := Option.some.inj (hb.symm.trans h1)
    exact ⟨h4, fun hm => (h5 hm).2⟩
  refine ⟨?_, ?_, ?_⟩
  · intro hn
    cases hx : H.split g c n with
    | none => rfl
    | some x =>
      obtain ⟨m1, m2⟩ := main x hx
      cases hm : x.2 with
      | false => exact absurd (hn.symm.trans (m1 hm).2) (by simp)
      | true =>
        obtain ⟨new, rem, e, -⟩ := m2 hm
        exact absurd (hn.symm.trans e) (by simp)
  · intro hn
    obtain ⟨x, hx⟩ := objSplit_defined n hI hb (by rw [hn]; simp)
    obtain ⟨m1, m2⟩ := main x hx
    cases hm : x.2 with
    | false =>
      obtain ⟨e, -⟩ := m1 hm
      rw [hx, ← e, ← hm]
    | true =>
      obtain ⟨new, rem, e, -⟩ := m2 hm
      exact absurd (hn.symm.trans e) (by simp)
  · intro new rem hn
    obtain ⟨x, hx⟩ := objSplit_defined n hI hb (by rw [hn]; simp)
    obtain ⟨m1, m2⟩ := main x hx
    cases hm : x.2 with
    | false => exact absurd (hn.symm.trans (m1 hm).2) (by simp)
    | true =>
      obtain ⟨new', rem', e, e1, e2⟩ := m2 hm
      rw [hn] at e
      simp only [Option.some.injEq, Prod.mk.injEq] at e
      obtain ⟨rfl, rfl⟩ := e
      exact ⟨x.1, by rw [hx, ← hm], e1, e2⟩

/-- **C136** `single_photon_states` on the objects does what `Column.singlePhotonStates` says, and raises in the same cases. -/
theorem C136_single_photons (g : Cfg) (ops : List ColOp) (H : ColHeap) (h : CleanRun g ⟨[], [], []⟩ ops H) (c : ℕ) (b : BookColumn) (hb : H.view c = some b) :
    ((H.step g (.singlePhotonStates c)).isSome ↔ (b.col.singlePhotonStates g).isSome) ∧
    ∀ H', H.step g (.singlePhotonStates c) = some H' → ∃ col, b.col.singlePhotonStates g = some col ∧ H'.view c = some { b with col := col } := by
  have hI := clean_inv ops colInv_empty h
  have main : ∀ H', H.step g (.singlePhotonStates c) = some H' → ∃ col, b.col.singlePhotonStates g = some col ∧ H'.view c = some { b with col := col } := by
    intro H' h'
    obtain ⟨b1, b', e1, e2, e3, -⟩ := singlePhotonStates_good hI h'
    obtain rfl : b = b1 := Option.some.inj (hb.symm.trans e1)
    exact ⟨b', e2, e3⟩
  refine ⟨⟨fun hs => ?_, fun hs => ?_⟩, main⟩
  · obtain ⟨H', h'⟩ := Option.isSome_iff_exists.1 hs
    obtain ⟨col, e, -⟩ := main H' h'
    rw [e]; rfl
  · obtain ⟨col, e⟩ := Option.isSome_iff_exists.1 hs
    obtain ⟨H', h'⟩ := singlePhotonStates_defined hI hb e
    exact Option.isSome_iff_exists.2 ⟨H', h'⟩

/-- **C136** `condense_column_to_single_state` (default argument) on the objects does what `Column.condense` says, and raises in the same cases. -/
theorem C136_condense (g : Cfg) (ops : List ColOp) (H : ColHeap) (h : CleanRun g ⟨[], [], []⟩ ops H) (c : ℕ) (b : BookColumn) (hb : H.view c = some b) :
    ((H.step g (.condense c true)).isSome ↔ (b.col.condense g).isSome) ∧
    ∀ H', H.step g (.condense c true) = some H' → ∃ col, b.col.condense g = some col ∧ H'.view c = some { b with col := col } := by
  have hI := clean_inv ops colInv_empty h
  have main : ∀ H', H.step g (.condense c true) = some H' → ∃ col, b.col.condense g = some col ∧ H'.view c = some { b with col := col } := by
    intro H' h'
    obtain ⟨b1, b', e1, e2, e3, -⟩ := condense_good hI h'
    obtain rfl : b = b1 := Option.some.inj (hb.symm.trans e1)
    exact ⟨b', e3 rfl, e2⟩
  refine ⟨⟨fun hs => ?_, fun hs => ?_⟩, main⟩
  · obtain ⟨H', h'⟩ := Option.isSome_iff_exists.1 hs
    obtain ⟨col, e, -⟩ := main H' h'
    rw [e]; rfl
  · obtain ⟨col, e⟩ := Option.isSome_iff_exists.1 hs
    obtain ⟨H', h'⟩ := condense_defined hI hb e true
    exact Option.isSome_iff_exists.2 ⟨H', h'⟩

/-- **C136** With either argument the condensed column has one state: its component has all photons of the column together, and classical values, results, initial state and photon information are
those of the last state of the column; with the argument `False` also the probability is. -/
theorem C136_condense_state (g : Cfg) (ops : List ColOp) (H H' : ColHeap) (h : CleanRun g ⟨[], [], []⟩ ops H) (c : ℕ) (use : Bool) (hs : H.step g (.condense c use) = some H') :
    ∃ (b b' : BookColumn) (last s : PState) (v : Vals) (nm : Name) (k : Comp), H.view c = some b ∧ H'.view c = some b' ∧ b.col.states.getLast? = some last ∧ columnValues g b.col = some v ∧ g.render v = some nm ∧ b'.col.states = [s] ∧
      s.q.comps = [(nm, k)] ∧ s.q.classical = last.q.classical ∧ s.q.results = last.q.results ∧ s.q.initial = last.q.initial ∧ s.info = last.info ∧ (use = false → s.q.cum = last.q.cum) := by
  obtain ⟨b, b', e1, e2, -, ⟨last, v, nm, k, f1, f2, f3, f4, f5⟩, -⟩ := condense_good (clean_inv ops colInv_empty h) hs
  rcases hst : b'.states with _ | ⟨s, _ | ⟨t, l⟩⟩
  · rw [hst] at f4; simp at f4
  · rw [hst] at f4 f5
    simp only [List.map_cons, List.map_nil, List.cons.injEq, Prod.mk.injEq, and_true] at f4
    exact ⟨b, _, last, s, v, nm, k, e1, e2, f1, f2, f3, hst, f4.1, f4.2.1, f4.2.2.1, f4.2.2.2.1, f4.2.2.2.2, fun hu => f5 hu s (by simp)⟩
  · rw [hst] at f4; simp at f4

/-! ### The two tests -/

/-- **C136** `all_states_single_photon_states` answers the question in its name: for valid states it is true exactly when no component has more than one photon. -/
theorem C136_single_photon_test (g : Cfg) (c : Column) (hw : ∀ s ∈ c.states, WellFormed g s.q.comps) :
    ∃ b, allSinglePhoton g c = some b ∧ (b = true ↔ ∀ s ∈ c.states, ∀ p ∈ s.q.comps, ∀ v, Valid g v → IsName g v p.1 → v.sum ≤ 1) := by
  have hnames : ∀ nm ∈ c.states.flatMap (fun s => Dict.keys s.q.comps), ∃ v, Valid g v ∧ IsName g v nm := by
    intro nm hnm
    obtain ⟨s, hs, hk⟩ := List.mem_flatMap.1 hnm
    obtain ⟨p, hp, rfl⟩ := List.mem_map.1 hk
    exact (hw s hs).2 p hp
  have main : ∀ (l : List Name) (b0 : Bool), (∀ nm ∈ l, ∃ v, Valid g v ∧ IsName g v nm) →
      ∃ b, l.foldlM (fun (b : Bool) nm => if b then (g.parse nm).map (fun v => decide (v.sum = 1 ∨ v.sum = 0)) else some false) b0 = some b ∧ (b = true ↔ b0 = true ∧ ∀ nm ∈ l, ∀ v, Valid g v → IsName g v nm → v.sum ≤ 1) := by
    intro l
    induction l with
    | nil => exact fun b0 _ => ⟨b0, rfl, by simp⟩
    | cons nm l ih =>
      intro b0 hl
      obtain ⟨v, hv, hnm⟩ := hl nm List.mem_cons_self
      have hp : g.parse nm = some v := by
        rw [(isName_iff hv).1 hnm]
        exact g.parse_stdName hv.2
      have huniq : ∀ w, Valid g w → IsName g w nm → w = v := by
        intro w hw' hwn
        have := g.parse_stdName hw'.2
        rw [← (isName_iff hw').1 hwn, hp] at this
        exact (Option.some.inj this).symm
      have hl' : ∀ nm ∈ l, ∃ v, Valid g v ∧ IsName g v nm := fun x hx => hl x (List.mem_cons_of_mem _ hx)
      cases b0 with
      | false =>
        obtain ⟨b, h1, h2⟩ := ih false hl'
        refine ⟨b, by simp only [List.foldlM_cons, Option.bind_eq_bind, Bool.false_eq_true, if_false, Option.bind_some]; exact h1, ?_⟩
        rw [h2]
        simp
      | true =>
        obtain ⟨b, h1, h2⟩ := ih (decide (v.sum = 1 ∨ v.sum = 0)) hl'
        refine ⟨b, by simp only [List.foldlM_cons, Option.bind_eq_bind, if_true, hp, Option.map_some, Option.bind_some]; exact h1, ?_⟩
        rw [h2]
        simp only [decide_eq_true_eq, true_and, List.mem_cons, forall_eq_or_imp]
        refine and_congr_left fun _ => ⟨fun hs w hw' hwn => ?_, fun hs => ?_⟩
        · rw [huniq w hw' hwn]; omega
        · have := hs v hv hnm; omega
  obtain ⟨b, h1, h2⟩ := main _ true hnames
  refine ⟨b, h1, ?_⟩
  rw [h2]
  simp only [true_and]
  constructor
  · intro hh s hs p hp
    exact hh p.1 (List.mem_flatMap.2 ⟨s, hs, List.mem_map.2 ⟨p, hp, rfl⟩⟩)
  · intro hh nm hnm
    obtain ⟨s, hs, hk⟩ := List.mem_flatMap.1 hnm
    obtain ⟨p, hp, rfl⟩ := List.mem_map.1 hk
    exact hh s hs p hp

/-- **C136** After `single_photon_states` on a column whose states have one component of amplitude 1, both tests are true. -/
theorem C136_tests_after (g : Cfg) (c : Column) (hw : ∀ s ∈ c.states, WellFormed g s.q.comps) (hs : SingleUnit c) :
    allSingleComponent c = true ∧ ∃ c', c.singlePhotonStates g = some c' ∧ allSinglePhoton g c' = some true ∧ allSingleComponent c' = true := by
  have unit : ∀ c : Column, SingleUnit c → allSingleComponent c = true := by
    intro c hc
    unfold allSingleComponent
    rw [List.all_eq_true]
    intro s hs
    obtain ⟨⟨nm, k⟩, e, hk⟩ := hc s hs
    have hk' : k.amp = 1 := hk
    rw [e]
    simp only [decide_eq_true_eq, hk', Complex.one_re, sub_self, abs_zero, Complex.one_im]
    norm_num
  obtain ⟨c', h1, -, -, -, h5, h6⟩ := C53_single_photons g c hw hs
  refine ⟨unit c hs, c', h1, ?_, unit c' h5⟩
  have hw' : ∀ s ∈ c'.states, WellFormed g s.q.comps := by
    intro s hs'
    obtain ⟨p, e, -⟩ := h5 s hs'
    obtain ⟨v, hv, -, hn⟩ := h6 s hs'
    rw [e] at hn ⊢
    exact ⟨by simp, fun q hq => ⟨v, hv, hn q hq⟩⟩
  obtain ⟨b, e1, e2⟩ := C136_single_photon_test g c' hw'
  rw [e1]
  congr 1
  rw [e2]
  intro s hs' p hp w hww hwn
  obtain ⟨v, hv, hsum, hn⟩ := h6 s hs'
  have a1 := g.parse_stdName hww.2
  have a2 := g.parse_stdName hv.2
  rw [← (isName_iff hww).1 hwn] at a1
  rw [← (isName_iff hv).1 (hn p hp)] at a2
  obtain rfl : w = v := Option.some.inj (a1.symm.trans a2)
  exact hsum

/-! ### Where the full property fails -/

/-- **C136** A State object that is given to two columns: the second column overwrites the parameters in the state, so the state does not carry the parameters of the first column any more. -/
theorem C136_shared_state_fails (g : Cfg) (q : QState) : ∃ H : ColHeap, ColHeap.run g [.newState q none, .ofState 0 {}, .ofState 0 { amp := some 2 }] = some H ∧ ¬ Consistent H := by
  refine ⟨⟨[⟨q, some ⟨none, some 0, some 0, some 2, some 1, some 1⟩⟩], [[0], [0]], [⟨⟨0, 0, 1, 1, 1⟩, 0⟩, ⟨⟨0, 0, 2, 1, 1⟩, 1⟩]⟩, ?_, ?_⟩
  · have h1 : ColHeap.step g ⟨[⟨q, none⟩], [], []⟩ (.ofState 0 {}) = some ⟨[⟨q, some ⟨none, some 0, some 0, some 1, some 1, some 1⟩⟩], [[0]], [⟨⟨0, 0, 1, 1, 1⟩, 0⟩]⟩ := rfl
    have h2 : ColHeap.step g ⟨[⟨q, some ⟨none, some 0, some 0, some 1, some 1, some 1⟩⟩], [[0]], [⟨⟨0, 0, 1, 1, 1⟩, 0⟩]⟩ (.ofState 0 { amp := some 2 }) =
      some ⟨[⟨q, some ⟨none, some 0, some 0, some 2, some 1, some 1⟩⟩], [[0], [0]], [⟨⟨0, 0, 1, 1, 1⟩, 0⟩, ⟨⟨0, 0, 2, 1, 1⟩, 1⟩]⟩ := rfl
    have h0 : ColHeap.step g ⟨[], [], []⟩ (.newState q none) = some ⟨[⟨q, none⟩], [], []⟩ := rfl
    unfold ColHeap.run
    rw [List.foldlM_cons, h0, Option.bind_eq_bind, Option.bind_some, List.foldlM_cons, h1, Option.bind_eq_bind, Option.bind_some, List.foldlM_cons, h2]
    rfl
  · intro h
    obtain ⟨sts, h1, h2⟩ := h 0 ⟨⟨0, 0, 1, 1, 1⟩, 0⟩ rfl
    simp only [ColHeap.members, List.getElem?_cons_zero, Option.bind_some, List.mapM_cons, List.mapM_nil, Option.pure_def, Option.bind_eq_bind, Option.some.injEq] at h1
    subst h1
    obtain ⟨i, hi⟩ := h2 _ (List.mem_singleton.2 rfl)
    simp at hi

/-- **C136** The column keeps the list that it is given: with a second column made from the same list, a state added to one column appears in the other. -/
theorem C136_shared_list_fails (g : Cfg) (q1 q2 : QState) : ∃ (H H' : ColHeap) (b b' : BookColumn),
    ColHeap.run g [.newState q1 none, .newState q2 none, .newList [0], .ofList 0 {}, .ofList 0 {}] = some H ∧ H.step g (.addState 1 1) = some H' ∧
    H.view 0 = some b ∧ H'.view 0 = some b' ∧ b.col.states.map (·.q) = [q1] ∧ b'.col.states.map (·.q) = [q1, q2] := by
  refine ⟨⟨[⟨q1, some ⟨none, some 0, some 0, some 1, some 1, some 1⟩⟩, ⟨q2, none⟩], [[0]], [⟨⟨0, 0, 1, 1, 1⟩, 0⟩, ⟨⟨0, 0, 1, 1, 1⟩, 0⟩]⟩,
    ⟨[⟨q1, some ⟨none, some 0, some 0, some 1, some 1, some 1⟩⟩, ⟨q2, some ⟨none, some 0, some 0, some 1, some 1, some 1⟩⟩], [[0, 1]], [⟨⟨0, 0, 1, 1, 1⟩, 0⟩, ⟨⟨0, 0, 1, 1, 1⟩, 0⟩]⟩,
    ⟨{ states := [⟨q1, none⟩], amp := 1, boson := 1, gprob := 1, id := 0 }, 0⟩, ⟨{ states := [⟨q1, none⟩, ⟨q2, none⟩], amp := 1, boson := 1, gprob := 1, id := 0 }, 0⟩, ?_, ?_, ?_, ?_, rfl, rfl⟩
  · have h1 : ColHeap.step g ⟨[⟨q1, none⟩, ⟨q2, none⟩], [[0]], []⟩ (.ofList 0 {}) =
      some ⟨[⟨q1, some ⟨none, some 0, some 0, some 1, some 1, some 1⟩⟩, ⟨q2, none⟩], [[0]], [⟨⟨0, 0, 1, 1, 1⟩, 0⟩]⟩ := rfl
    have h2 : ColHeap.step g ⟨[⟨q1, some ⟨none, some 0, some 0, some 1, some 1, some 1⟩⟩, ⟨q2, none⟩], [[0]], [⟨⟨0, 0, 1, 1, 1⟩, 0⟩]⟩ (.ofList 0 {}) =
      some ⟨[⟨q1, some ⟨none, some 0, some 0, some 1, some 1, some 1⟩⟩, ⟨q2, none⟩], [[0]], [⟨⟨0, 0, 1, 1, 1⟩, 0⟩, ⟨⟨0, 0, 1, 1, 1⟩, 0⟩]⟩ := rfl
    have h0 : ColHeap.run g [.newState q1 none, .newState q2 none, .newList [0]] = some ⟨[⟨q1, none⟩, ⟨q2, none⟩], [[0]], []⟩ := rfl
    unfold ColHeap.run at h0 ⊢
    rw [show ([.newState q1 none, .newState q2 none, .newList [0], .ofList 0 {}, .ofList 0 {}] : List ColOp) = [.newState q1 none, .newState q2 none, .newList [0]] ++ [.ofList 0 {}, .ofList 0 {}] from rfl,
      List.foldlM_append, h0, Option.bind_eq_bind, Option.bind_some, List.foldlM_cons, h1, Option.bind_eq_bind, Option.bind_some, List.foldlM_cons, h2]
    rfl
  · simp [ColHeap.step, ColHeap.addState, ColHeap.ensureRes, ColHeap.writeKey, ColKey.inKeys]
  · simp [ColHeap.view, ColHeap.members]
  · simp [ColHeap.view, ColHeap.members]

/-- **C136** `single_photon_states` is documented to raise for a state with several components, but the test in the code never refuses: it succeeds for every column with valid states, and the result
is that of the column with only the first component of every state: the other components are lost without a message. -/
theorem C136_guard_fails (g : Cfg) (c : Column) (hw : ∀ s ∈ c.states, WellFormed g s.q.comps ∧ s.q.comps ≠ []) :
    ∃ c', c.singlePhotonStates g = some c' ∧ ({ c with states := c.states.map (fun s => { s with q := { s.q with comps := s.q.comps.take 1 } }) } : Column).singlePhotonStates g = some c' := by
  have h1 : ({ c with states := c.states.map (fun s => { s with q := { s.q with comps := s.q.comps.take 1 } }) } : Column).singlePhotonStates g = c.singlePhotonStates g := by
    unfold Column.singlePhotonStates
    rw [List.mapM_map]
    congr 2
    funext s
    obtain ⟨⟨i, cum, comps, cl, rs⟩, info⟩ := s
    cases comps <;> rfl
  rw [h1]
  have h2 : ∃ r, c.states.mapM (singlePhotons g) = some r := by
    have : ∀ l : List PState, (∀ s ∈ l, WellFormed g s.q.comps ∧ s.q.comps ≠ []) → ∃ r, l.mapM (singlePhotons g) = some r := by
      intro l
      induction l with
      | nil => exact fun _ => ⟨[], rfl⟩
      | cons s l ih =>
        intro h
        obtain ⟨r, hr⟩ := ih (fun x hx => h x (List.mem_cons_of_mem _ hx))
        obtain ⟨a, ha⟩ : ∃ a, singlePhotons g s = some a := by
          obtain ⟨w, hne⟩ := h s List.mem_cons_self
          have key : singlePhotons g { s with q := { s.q with comps := s.q.comps.take 1 } } = singlePhotons g s := by
            obtain ⟨⟨i, cum, comps, cl, rs⟩, info⟩ := s
            cases comps <;> rfl
          cases hc : s.q.comps with
          | nil => exact absurd hc hne
          | cons p t =>
            obtain ⟨v, hv, hn⟩ := w.2 p (by rw [hc]; exact List.mem_cons_self)
            obtain ⟨nm, k⟩ := p
            have e : nm = g.stdName v := (isName_iff hv).1 hn
            subst e
            rw [← key]
            exact ⟨_, singlePhotons_eq (s := { s with q := { s.q with comps := s.q.comps.take 1 } }) hv (by rw [hc]; rfl)⟩
        exact ⟨a :: r, by rw [List.mapM_cons, ha, hr]; rfl⟩
    exact this c.states hw
  obtain ⟨r, hr⟩ := h2
  exact ⟨_, by unfold Column.singlePhotonStates; rw [hr]; rfl, by unfold Column.singlePhotonStates; rw [hr]; rfl⟩

/-! ### The hypotheses are met -/

/-- The dictionary of a state in a column with these parameters. -/
noncomputable def colKeys (z : ℂ) : Option ResKeys := some ⟨none, some 0, some 0, some z, some 1, some 1⟩

/-- A program: a column from a state, a copy of it and another amplitude for the copy; no object is handed over twice. -/
theorem colRun_clean (q : QState) : CleanRun colCfg ⟨[], [], []⟩ [.newState q none, .ofState 0 {}, .copy 0, .assign 1 (.amp 2)]
    ⟨[⟨q, colKeys 1⟩, ⟨q, colKeys 2⟩], [[0], [1]], [⟨⟨0, 0, 1, 1, 1⟩, 0⟩, ⟨⟨0, 0, 2, 1, 1⟩, 1⟩]⟩ := by
  refine ⟨trivial, ⟨[⟨q, none⟩], [], []⟩, rfl, ?_, ⟨[⟨q, colKeys 1⟩], [[0]], [⟨⟨0, 0, 1, 1, 1⟩, 0⟩]⟩, rfl, trivial,
    ⟨[⟨q, colKeys 1⟩, ⟨q, colKeys 1⟩], [[0], [1]], [⟨⟨0, 0, 1, 1, 1⟩, 0⟩, ⟨⟨0, 0, 1, 1, 1⟩, 1⟩]⟩, rfl, trivial, _, rfl, rfl⟩
  rintro ⟨c, o, l, h, -⟩
  simp at h

/-- Each column has its own amplitude in its state; splitting the first column gives a third one and leaves the second as it is. -/
example : ∃ H H', CleanRun colCfg ⟨[], [], []⟩ [.newState colState3.q none, .ofState 0 {}, .copy 0, .assign 1 (.amp 2)] H ∧ Consistent H ∧ H.step colCfg (.split 0 7) = some H' ∧ H'.view 1 = H.view 1 ∧
    ∃ b, H'.view 2 = some b ∧ b.col.id = 7 := by
  have hr := colRun_clean colState3.q
  obtain ⟨hw, ht, hz⟩ := colState3_ok
  have hb : ColHeap.view ⟨[⟨colState3.q, colKeys 1⟩, ⟨colState3.q, colKeys 2⟩], [[0], [1]], [⟨⟨0, 0, 1, 1, 1⟩, 0⟩, ⟨⟨0, 0, 2, 1, 1⟩, 1⟩]⟩ 0 =
      some ⟨{ states := [⟨colState3.q, none⟩], amp := 1, boson := 1, gprob := 1, id := 0 }, 0⟩ := rfl
  have hsp : ∀ s ∈ ({ states := [⟨colState3.q, none⟩], amp := 1, boson := 1, gprob := 1, id := 0 } : Column).states, Splittable colCfg s.q.comps := by
    intro s hs
    obtain rfl := List.mem_singleton.1 hs
    exact ⟨hw, by simp [colState3], fun _ => ⟨ht, hz⟩⟩
  have h3 := C136_split colCfg _ _ hr 0 7 _ hb
  obtain ⟨r, hr2⟩ := split_defined hsp
  rcases r with _ | ⟨new, rem⟩
  · exfalso
    unfold Column.split at hr2
    have hidx : splitIndex [(⟨colState3.q, none⟩ : PState)] = some 0 := rfl
    simp only [hidx] at hr2
    simp only [List.getElem?_cons_zero, Option.map_some, colState3] at hr2
    obtain ⟨x, -, hx⟩ := Option.bind_eq_some_iff.1 hr2
    rw [if_neg (by simp)] at hx
    split_ifs at hx
    obtain ⟨y, -, hy⟩ := Option.map_eq_some_iff.1 hx
    cases hy
  · obtain ⟨H', a, -, b⟩ := h3.2.2 new rem hr2
    have hstep : ColHeap.step colCfg ⟨[⟨colState3.q, colKeys 1⟩, ⟨colState3.q, colKeys 2⟩], [[0], [1]], [⟨⟨0, 0, 1, 1, 1⟩, 0⟩, ⟨⟨0, 0, 2, 1, 1⟩, 1⟩]⟩ (.split 0 7) = some H' := by
      show Option.map Prod.fst (ColHeap.split colCfg _ 0 7) = _
      rw [a]
      rfl
    exact ⟨_, H', hr, C136_parameters_partial _ _ _ hr, hstep, C136_others_partial _ _ _ _ hr (.split 0 7) trivial hstep 1 (by simp) (by simp [calledOn]), _, b, rfl⟩

/-- A column with a state of three components: the documented exception is not raised. -/
example : allSingleComponent ⟨[colState3], 1, 1, 1, 0⟩ = false ∧ ∃ c', Column.singlePhotonStates colCfg ⟨[colState3], 1, 1, 1, 0⟩ = some c' := by
  refine ⟨rfl, ?_⟩
  obtain ⟨c', h, -⟩ := C136_guard_fails colCfg ⟨[colState3], 1, 1, 1, 0⟩ (by
    intro s hs
    obtain rfl := List.mem_singleton.1 hs
    exact ⟨colState3_ok.1, by simp [colState3]⟩)
  exact ⟨c', h⟩

end Verif.Props
