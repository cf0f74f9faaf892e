/-
C94, C95: working with compound circuits. C96: evaluation without an input collection.
-/
import Verif.Lemmas.Session
import Verif.Props.MatrixApi
import Verif.Props.Collection

namespace Verif.Props
open Verif Spec

/-! ### C94 -/

/-- The circuits a compound circuit lists at some moment. -/
def listed_circuits (d : Circ) (w : World) (o : CompoundObj) : List Circ := ((w.lists[o.listRef]?).getD []).map (w.circ d)

/-- **C94** In every session: a compound circuit that was refreshed evaluates the circuits it listed at that moment, with the nodes they had at that moment, connected by bridges, whatever is
done afterwards (new circuits and nodes, changes of lists, other compound circuits, refreshing those) short of refreshing or clearing it. If it listed nothing the evaluation raises. The circuits
of the list contain no bridges of their own. -/
theorem C94_last_refresh (d : Circ) (w : World) (j : ℕ) (o : CompoundObj) (hj : w.comps[j]? = some o)
    (hno : ∀ c ∈ listed_circuits d w o, ∀ k, Node.bridge k ∉ c.nodes)
    (later : List Op) (h1 : Op.refresh j ∉ later) (h2 : Op.clear j ∉ later) (rnd : ℕ → ℕ → Bool → ℕ → ℕ → ℕ) (fuel : ℕ) (coll : Coll) :
    ((w.step d (.refresh j)).run d later).evalCompound d rnd fuel j coll =
      if listed_circuits d w o = [] then none else evalCompound d (listed_circuits d w o) (fun k => rnd (w.circs.length + k)) fuel coll := by
  set l := (w.lists[o.listRef]?).getD [] with hl
  set cs := listed_circuits d w o with hcs
  have hlen : cs.length = l.length := by simp [hcs, listed_circuits, hl]
  have e1 : w.step d (.refresh j) = ⟨w.circs ++ bridged w.circs.length cs, w.lists, w.comps.set j { o with inner := some (List.range' w.circs.length l.length) }⟩ := by
    simp only [World.step, World.refresh, hj]
    rfl
  have hjl : j < w.comps.length := (List.getElem?_eq_some_iff.1 hj).1
  have c1 : (w.step d (.refresh j)).comps[j]? = some { o with inner := some (List.range' w.circs.length l.length) } := by
    rw [e1]; simp [hjl]
  obtain ⟨o', c2, c3⟩ := run_inner (d := d) later h1 h2 c1
  have c4 : ∀ i < cs.length, ((w.step d (.refresh j)).run d later).circ d (w.circs.length + i) =
      { compoundEnv d cs i with nodes := (compoundEnv d cs i).nodes.map (Node.shift w.circs.length) } := by
    intro i hi
    have : (w.step d (.refresh j)).circs[w.circs.length + i]? = some (false, { compoundEnv d cs i with nodes := (compoundEnv d cs i).nodes.map (Node.shift w.circs.length) }) := by
      rw [e1]
      simp only
      rw [List.getElem?_append_right (by omega), Nat.add_sub_cancel_left]
      exact bridged_get hno hi
    rw [World.circ, run_private later this]
    rfl
  simp only [World.evalCompound, c2, c3, Option.bind_eq_bind, Option.bind_some]
  by_cases hne : cs = []
  · have h0 : l.length = 0 := by rw [← hlen, hne]; rfl
    rw [if_pos hne, h0]; rfl
  · rw [if_neg hne]
    have hpos : 0 < cs.length := List.length_pos_iff.2 hne
    obtain ⟨n, hn⟩ : ∃ n, l.length = n + 1 := ⟨l.length - 1, by omega⟩
    rw [hn, List.range'_succ]
    simp only [List.head?_cons, Option.bind_some]
    unfold evalCompound evalAll
    have key := evalNodes_shift (env := compoundEnv d cs) (env' := ((w.step d (.refresh j)).run d later).circ d)
      (rnd := fun k => rnd (w.circs.length + k)) (rnd' := rnd) (b := w.circs.length) (n := cs.length) c4 (fun _ _ => rfl) (by
        intro k hk k' hm
        have hg : cs.getD k d ∈ cs := by simp [hk]
        simp only [compoundEnv] at hm
        split_ifs at hm with h
        · rcases List.mem_append.1 hm with h' | h'
          · exact absurd h' (hno _ hg k')
          · obtain rfl : k' = k + 1 := by simpa using h'
            exact h
        · exact absurd hm (hno _ hg k')) fuel 0 hpos
    have h0 : ((w.step d (.refresh j)).run d later).circ d w.circs.length = _ := c4 0 hpos
    rw [h0]
    simp only [List.length_map]
    exact key _ _

/-- **C94** The same for a new compound circuit: it evaluates the circuits its list had when it was created. -/
theorem C94_created (d : Circ) (w : World) (ref : ℕ) (hno : ∀ c ∈ listed_circuits d w ⟨ref, none⟩, ∀ k, Node.bridge k ∉ c.nodes)
    (later : List Op) (h1 : Op.refresh w.comps.length ∉ later) (h2 : Op.clear w.comps.length ∉ later) (rnd : ℕ → ℕ → Bool → ℕ → ℕ → ℕ) (fuel : ℕ) (coll : Coll) :
    ((w.step d (.newCompound (some ref))).run d later).evalCompound d rnd fuel w.comps.length coll =
      if listed_circuits d w ⟨ref, none⟩ = [] then none else evalCompound d (listed_circuits d w ⟨ref, none⟩) (fun k => rnd (w.circs.length + k)) fuel coll :=
  C94_last_refresh d { w with comps := w.comps ++ [⟨ref, none⟩] } w.comps.length ⟨ref, none⟩ (by simp) hno later h1 h2 rnd fuel coll

/-- **C94** Creating, refreshing and clearing compound circuits changes no circuit and no list: a circuit of the user changes only if a node is added to it, a list only if a circuit
is appended to it. -/
theorem C94_originals (d : Circ) (w : World) (op : Op) :
    (∀ k c, w.circs[k]? = some c → (∀ n, op ≠ .addNode k n) → (w.step d op).circs[k]? = some c) ∧
    (∀ ref l, w.lists[ref]? = some l → (∀ k, op ≠ .append ref k) → (w.step d op).lists[ref]? = some l) ∧
    (∀ k c n, op = .addNode k n → w.circs[k]? = some (true, c) → (w.step d op).circs[k]? = some (true, { c with nodes := c.nodes ++ [n] })) ∧
    ∀ ref l k, op = .append ref k → w.lists[ref]? = some l → (w.step d op).lists[ref]? = some (l ++ [k]) := by
  have hr : ∀ (w : World) (j : ℕ), (∀ (k : ℕ) c, w.circs[k]? = some c → (w.refresh d j).circs[k]? = some c) ∧ (w.refresh d j).lists = w.lists := by
    intro w j
    unfold World.refresh
    cases w.comps[j]? with
    | none => exact ⟨fun _ _ h => h, rfl⟩
    | some o => exact ⟨fun k c h => by simp only; rw [List.getElem?_append_left (List.getElem?_eq_some_iff.1 h).1]; exact h, rfl⟩
  refine ⟨?_, ?_, ?_, ?_⟩
  · intro k c h hne
    cases op with
    | newCircuit c' => simp only [World.step]; rw [List.getElem?_append_left (List.getElem?_eq_some_iff.1 h).1]; exact h
    | addNode k' n =>
      have e : k' ≠ k := fun e => hne n (by rw [e])
      simp only [World.step]
      split
      · simp only; rw [List.getElem?_set_ne e]; exact h
      · exact h
    | newList l => exact h
    | append ref k' => exact h
    | newCompound ref => exact (hr _ _).1 k c h
    | setList j ref => exact h
    | refresh j => exact (hr _ _).1 k c h
    | clear j => exact h
  · intro ref l h hne
    cases op with
    | newCircuit c' => exact h
    | addNode k' n => simp only [World.step]; split <;> exact h
    | newList l' => simp only [World.step]; rw [List.getElem?_append_left (List.getElem?_eq_some_iff.1 h).1]; exact h
    | append ref' k' =>
      have e : ref' ≠ ref := fun e => hne k' (by rw [e])
      simp only [World.step, List.getElem?_modify, h]
      simp [e]
    | newCompound ref' => simp only [World.step]; rw [(hr _ _).2]; exact h
    | setList j ref' => exact h
    | refresh j => simp only [World.step]; rw [(hr _ _).2]; exact h
    | clear j => exact h
  · rintro k c n rfl h
    have hk : k < w.circs.length := (List.getElem?_eq_some_iff.1 h).1
    simp only [World.step, h]
    simp [hk]
  · rintro ref l k rfl h
    simp only [World.step, List.getElem?_modify, h]
    simp

/-- **C94** After `clear` the evaluation raises until the next refresh. -/
theorem C94_clear (d : Circ) (w : World) (j : ℕ) (later : List Op) (h : Op.refresh j ∉ later) (hj : j < w.comps.length) (rnd : ℕ → ℕ → Bool → ℕ → ℕ → ℕ) (fuel : ℕ) (coll : Coll) :
    ((w.step d (.clear j)).run d later).evalCompound d rnd fuel j coll = none := by
  have key : ∀ (ops : List Op) (w : World) (o : CompoundObj), Op.refresh j ∉ ops → w.comps[j]? = some o → o.inner = none →
      ∃ o', (w.run d ops).comps[j]? = some o' ∧ o'.inner = none := by
    intro ops
    induction ops with
    | nil => intro w o _ h1 h2; exact ⟨o, h1, h2⟩
    | cons op ops ih =>
      intro w o hm h1 h2
      have hm' : Op.refresh j ∉ ops := fun h => hm (List.mem_cons_of_mem _ h)
      by_cases hc : op = .clear j
      · subst hc
        refine ih _ { o with inner := none } hm' ?_ rfl
        simp [World.step, h1]
      · obtain ⟨o1, e1, e2⟩ := step_inner (d := d) h1 (op := op) (by rintro rfl; simp at hm) hc
        exact ih _ o1 hm' e1 (e2.trans h2)
  obtain ⟨o, ho⟩ : ∃ o, w.comps[j]? = some o := ⟨_, List.getElem?_eq_getElem hj⟩
  obtain ⟨o', e1, e2⟩ := key later (w.step d (.clear j)) { o with inner := none } h (by simp [World.step, ho]) rfl
  simp only [World.evalCompound, e1, e2, Option.bind_eq_bind, Option.bind_some, Option.bind_none]

/-! ### C95 -/

/-- **C95** (partial) If nothing was appended to the list of a compound circuit created without arguments, then a compound circuit created without arguments is empty: evaluating it raises. -/
theorem C95_empty_partial (d : Circ) (earlier : List Op) (h : ∀ k, Op.append 0 k ∉ earlier) (later : List Op)
    (h1 : Op.refresh (World.start.run d earlier).comps.length ∉ later) (h2 : Op.clear (World.start.run d earlier).comps.length ∉ later)
    (rnd : ℕ → ℕ → Bool → ℕ → ℕ → ℕ) (fuel : ℕ) (coll : Coll) :
    (((World.start.run d earlier).step d (.newCompound none)).run d later).evalCompound d rnd fuel (World.start.run d earlier).comps.length coll = none := by
  have key : ∀ (ops : List Op) (w : World), (∀ k, Op.append 0 k ∉ ops) → w.lists[0]? = some [] → (w.run d ops).lists[0]? = some [] := by
    intro ops
    induction ops with
    | nil => intro w _ h; exact h
    | cons op ops ih =>
      intro w hm h
      exact ih _ (fun k hk => hm k (List.mem_cons_of_mem _ hk)) ((C94_originals d w op).2.1 0 [] h (by rintro k rfl; exact hm k (by simp)))
  have h0 := key earlier World.start h rfl
  have e : listed_circuits d (World.start.run d earlier) ⟨0, none⟩ = [] := by simp [listed_circuits, h0]
  have := C94_created d (World.start.run d earlier) 0 (by rw [e]; simp) later h1 h2 rnd fuel coll
  rw [e, if_pos rfl] at this
  exact this

/-- **C95** fails: after a circuit was appended to the list of one compound circuit created without arguments, the next one created without arguments is not empty: it evaluates that circuit. -/
theorem C95_fails (d c : Circ) (hc : ∀ k, Node.bridge k ∉ c.nodes) (rnd : ℕ → ℕ → Bool → ℕ → ℕ → ℕ) (fuel : ℕ) (coll : Coll) :
    (World.start.run d [.newCircuit c, .newCompound none, .append 0 0, .newCompound none]).evalCompound d rnd fuel 1 coll =
      evalCompound d [c] (fun k => rnd (1 + k)) fuel coll := by
  set w := World.start.run d [.newCircuit c, .newCompound none, .append 0 0] with hw
  have e1 : w.circs = [(true, c)] := rfl
  have e2 : w.lists = [[0]] := rfl
  have e3 : w.comps.length = 1 := rfl
  have e4 : listed_circuits d w ⟨0, none⟩ = [c] := rfl
  have := C94_created d w 0 (by rw [e4]; simpa using hc) [] (by simp) (by simp) rnd fuel coll
  rw [e4, if_neg (by simp), e3, e1] at this
  exact this

/-- An empty circuit with one channel, and the same with a measurement. -/
noncomputable def emptyOne : Circ := ⟨⟨2, 1, true⟩, 1, 0, false, []⟩

noncomputable def measuredOne : Circ := { emptyOne with nodes := [.measurement [0] [0]] }

/-- non-vacuity of C94: two circuits are listed; then a node is added to the first, the list is changed, another compound circuit is created from it and refreshed: the first compound circuit evaluates the two original circuits, the second one
the three changed ones. -/
example (rnd : ℕ → ℕ → Bool → ℕ → ℕ → ℕ) (fuel : ℕ) (coll : Coll) :
    let w := World.start.run emptyOne [.newCircuit emptyOne, .newCircuit measuredOne, .newList [0, 1], .newCompound (some 1)]
    let later : List Op := [.addNode 0 (.measurement [0] [0]), .append 1 0, .newCompound (some 1), .refresh 1]
    (w.run emptyOne later).evalCompound emptyOne rnd fuel 0 coll = evalCompound emptyOne [emptyOne, measuredOne] (fun k => rnd (2 + k)) fuel coll ∧
    (w.run emptyOne later).evalCompound emptyOne rnd fuel 1 coll = evalCompound emptyOne [measuredOne, measuredOne, measuredOne] (fun k => rnd (7 + k)) fuel coll := by
  have hn1 : ∀ k, Node.bridge k ∉ emptyOne.nodes := by simp [emptyOne]
  have hn2 : ∀ k, Node.bridge k ∉ measuredOne.nodes := by simp [measuredOne]
  constructor
  · have := C94_created emptyOne (World.start.run emptyOne [.newCircuit emptyOne, .newCircuit measuredOne, .newList [0, 1]]) 1
      (by rintro c hc; have : c ∈ [emptyOne, measuredOne] := hc; simp only [List.mem_cons, List.not_mem_nil, or_false] at this; rcases this with rfl | rfl <;> assumption)
      [.addNode 0 (.measurement [0] [0]), .append 1 0, .newCompound (some 1), .refresh 1] (by simp [World.run, World.step, World.start]) (by simp) rnd fuel coll
    exact this
  · have := C94_last_refresh emptyOne (World.start.run emptyOne [.newCircuit emptyOne, .newCircuit measuredOne, .newList [0, 1], .newCompound (some 1), .addNode 0 (.measurement [0] [0]), .append 1 0,
        .newCompound (some 1)]) 1 ⟨1, some [4, 5, 6]⟩ rfl
      (by rintro c hc; have : c ∈ [measuredOne, measuredOne, measuredOne] := hc; simp only [List.mem_cons, List.not_mem_nil, or_false, or_self] at this; rw [this]; assumption)
      [] (by simp) (by simp) rnd fuel coll
    exact this

/-! ### C96 -/

/-- Every basis state exactly once. -/
def Enumeration (g : Cfg) (names : List Name) : Prop := names.Nodup ∧ ∀ s, s ∈ names ↔ ∃ v, Valid g v ∧ IsName g v s

/-- **C96** (partial: at least one node to evaluate) Evaluating without an input collection is evaluating with the collection of all basis states, in the order of the enumeration: each with its name as label,
amplitude and probability 1, classical values 0; with a collection it is the evaluation of that collection. Node numbers that do not exist are refused. -/
theorem C96_default_partial (env : ℕ → Circ) (rnd : ℕ → ℕ → Bool → ℕ → ℕ → ℕ) (k : ℕ) (hg : (env k).g.Ok) {names : List Name} (hn : Enumeration (env k).g names) :
    ∃ input, Normalised (env k).g (env k).m input ∧
      input.map Prod.snd = names.map (fun s => (⟨s, 1, [(s, ⟨1, 1⟩)], List.replicate (env k).m 0, []⟩ : QState)) ∧
      ∀ fuel nodes, 1 ≤ fuel → nodes.getD (List.range (env k).nodes.length) ≠ [] →
      evalOptional env rnd fuel k names nodes none = evalOptional env rnd fuel k names nodes (some input) ∧
      ∀ coll, evalOptional env rnd fuel k names nodes (some coll) =
        (evalNodes env rnd fuel k (nodes.getD (List.range (env k).nodes.length)) coll).map some := by
  obtain ⟨input, h1, -, h3, h4⟩ := C36_default (env k).g hg (env k).m names hn.1 hn.2
  refine ⟨input, ⟨h3, ?_⟩, h4, fun fuel nodes hf hl => ⟨?_, ?_⟩⟩
  · intro p hp
    have : p.2 ∈ input.map Prod.snd := List.mem_map.2 ⟨p, hp, rfl⟩
    rw [h4] at this
    obtain ⟨s, hs, e⟩ := List.mem_map.1 this
    obtain ⟨v, hv, hvs⟩ := (hn.2 s).1 hs
    rw [← e]
    refine ⟨⟨⟨by simp, ?_⟩, ?_, by simp [totalProb], by simp, by simp, by simp⟩, by simp [totalProb]⟩
    · intro x hx
      obtain rfl : x = (s, ⟨1, 1⟩) := by simpa using hx
      exact ⟨v, hv, hvs⟩
    · intro x hx
      obtain rfl : x = (s, ⟨1, 1⟩) := by simpa using hx
      simp
  · simp only [evalOptional, h1, Option.bind_eq_bind, Option.bind_some, if_neg hl]
  · intro coll
    obtain ⟨fuel, rfl⟩ : ∃ f, fuel = f + 1 := ⟨fuel - 1, by omega⟩
    simp only [evalOptional, if_neg hl, Option.bind_eq_bind, Option.bind_some]
    split_ifs with h
    · rfl
    · generalize nodes.getD (List.range (env k).nodes.length) = l at hl h
      cases l with
      | nil => exact absurd rfl hl
      | cons i rest => simp only [evalNodes]; rw [if_pos h]; rfl

/-- **C96** The result of an evaluation without input tabulates the Fock matrix of the selected nodes: the state labelled with the name of a basis state has the entries of the column of that state
as amplitudes (those with squares below the threshold left out). -/
theorem C96_columns (env : ℕ → Circ) (rnd : ℕ → ℕ → Bool → ℕ → ℕ → ℕ) (k : ℕ) (hg : (env k).g.Ok) (ht : 0 ≤ (env k).thr) {names : List Name} (hn : Enumeration (env k).g names)
    (nodes : List ℕ) (hl : nodes ≠ []) (F : SqArr) (hF : getFockStateMatrix (env k) (.list nodes) = some F)
    (hch : ∀ i ∈ nodes, ∀ M tl, (env k).nodes[i]? = some (.optical M tl) → OnChannels (env k).g (M, tl))
    (hs : F.size = (env k).g.L ^ (env k).g.C) (fuel : ℕ) (hf : 2 ≤ fuel) :
    ∃ out, evalOptional env rnd fuel k names (some nodes) none = some (some out) ∧
      List.Forall₂ (fun s p => p.2.initial = s ∧ p.2.cum = 1 ∧ p.2.classical = List.replicate (env k).m 0 ∧ p.2.results = [] ∧
        ∀ v, Valid (env k).g v → IsName (env k).g v s → ∀ w t, Valid (env k).g w → IsName (env k).g w t →
          p.2.comps.get? t = if ‖F.at_ ((env k).g.indexOf w) ((env k).g.indexOf v)‖ ^ 2 < (env k).thr then none
            else some ⟨F.at_ ((env k).g.indexOf w) ((env k).g.indexOf v), ‖F.at_ ((env k).g.indexOf w) ((env k).g.indexOf v)‖ ^ 2⟩) names out := by
  obtain ⟨input, h1, h2, h3⟩ := C96_default_partial env rnd k hg hn
  obtain ⟨h4, h5⟩ := h3 fuel (some nodes) (by omega) (by simpa using hl)
  have hsize : ∀ i ∈ NodeArg.toList (env k) (.list nodes), ∀ F', (env k).nodes[i]? = some (.fockMatrix F') → F'.size = (env k).g.L ^ (env k).g.C := by
    intro i hi F' hF'
    rcases (C82_available (env k) (.list nodes)).1 ⟨F, hF⟩ with ⟨i', F'', e, h⟩ | ⟨-, h⟩
    · obtain rfl : nodes = [i'] := by cases e; rfl
      obtain rfl : i = i' := by simpa [NodeArg.toList] using hi
      have : F = F'' := by simpa [getFockStateMatrix, h] using hF.symm
      rw [hF'] at h; cases h; rw [← this]; exact hs
    · obtain ⟨M, tl, h'⟩ := h i hi
      rw [hF'] at h'; cases h'
  obtain ⟨out, e1, e2⟩ := C82_matrix_is_evaluation (rnd := rnd) k hg ht (.list nodes) F hF hch hsize input h1 fuel hf
  refine ⟨out, ?_, ?_⟩
  · rw [h4, h5]
    exact congrArg (Option.map some) e1
  · have e3 : List.Forall₂ (fun (q : QState) (p : List Char × QState) => MultipliedBy (env k).g (env k).thr F q p.2) (input.map Prod.snd) out := by
      rw [List.forall₂_map_left_iff]; exact e2
    rw [h2, List.forall₂_map_left_iff] at e3
    refine e3.imp ?_
    rintro s p ⟨m1, m2, m3, m4, x, hx, m5⟩
    refine ⟨m1, m2, m3, m4, ?_⟩
    intro v hv hvs w t hw ht'
    have hsum : ∑ j ∈ Finset.range F.size, F.at_ ((env k).g.indexOf w) j * x j = F.at_ ((env k).g.indexOf w) ((env k).g.indexOf v) := by
      rw [Finset.sum_eq_single ((env k).g.indexOf v)]
      · rw [hx v s hv hvs]
        simp [ampOf, Dict.get?]
      · intro j hj hne
        have hj' : j < (env k).g.size := by rw [Finset.mem_range, hs] at hj; exact hj
        have hvj : Valid (env k).g ((env k).g.valuesFromIndex j) := (env k).g.valid_valuesFromIndex hg.1 _
        have hxj := hx _ _ hvj ((isName_iff hvj).2 rfl)
        rw [(env k).g.indexOf_valuesFromIndex hj'] at hxj
        have hne' : (env k).g.stdName ((env k).g.valuesFromIndex j) ≠ s := by
          intro e
          rw [isName_iff hv] at hvs
          have := (env k).g.stdName_inj hvj.2 hv.2 (e.trans hvs)
          rw [← this, (env k).g.indexOf_valuesFromIndex hj'] at hne
          exact hne rfl
        rw [hxj]
        simp [ampOf, Dict.get?, Ne.symm hne']
      · intro h
        exfalso; apply h
        rw [Finset.mem_range, hs]
        exact (env k).g.indexOf_lt hv
    rw [m5 w t hw ht', hsum]

/-- **C96** fails for circuits without nodes and for an empty selection: without an input collection the result is None, not the collection of the basis states. -/
theorem C96_fails (env : ℕ → Circ) (rnd : ℕ → ℕ → Bool → ℕ → ℕ → ℕ) (fuel k : ℕ) (names : List Name) :
    evalOptional env rnd fuel k names (some []) none = some none ∧
    ((env k).nodes = [] → evalOptional env rnd fuel k names none none = some none) := by
  refine ⟨by simp [evalOptional], fun h => by simp [evalOptional, h]⟩

/-- The standard order is an enumeration. -/
theorem enumeration_standard {g : Cfg} (hg : g.Ok) : Enumeration g ((basisKeys g).map g.stdName) := by
  have hv : ∀ i, Valid g (g.valuesFromIndex i) := fun i => g.valid_valuesFromIndex hg.1 i
  constructor
  · rw [basisKeys, List.map_map]
    refine List.Nodup.map_on ?_ List.nodup_range
    intro i hi j hj h
    have := g.stdName_inj (hv i).2 (hv j).2 h
    rw [← g.indexOf_valuesFromIndex (List.mem_range.1 hi), this, g.indexOf_valuesFromIndex (List.mem_range.1 hj)]
  · intro s
    simp only [basisKeys, List.mem_map, List.mem_range]
    constructor
    · rintro ⟨v, ⟨i, hi, rfl⟩, rfl⟩
      exact ⟨_, hv i, (isName_iff (hv i)).2 rfl⟩
    · rintro ⟨v, h, hs⟩
      exact ⟨v, ⟨g.indexOf v, g.indexOf_lt h, g.valuesFromIndex_indexOf h⟩, ((isName_iff h).1 hs).symm⟩

/-- non-vacuity of C96: wave plates in a circuit with two channels -/
example (rnd : ℕ → ℕ → Bool → ℕ → ℕ → ℕ) : ∃ out, evalOptional (fun _ => plates) rnd 2 0 ((basisKeys plates.g).map plates.g.stdName) (some [1, 0, 1]) none = some (some out) ∧ out.length = 9 := by
  have hg : plates.g.Ok := by decide
  obtain ⟨F, hF⟩ := (C82_available plates (.list [1, 0, 1])).2 (Or.inr ⟨by simp [NodeArg.toList], fun i hi => by
      obtain ⟨M, h, d, tl, h', -⟩ := plates_ok i hi
      exact ⟨M, tl, h'⟩⟩)
  obtain ⟨hs, -⟩ := C82_unitary plates hg _ F hF plates_ok
  obtain ⟨out, h1, h2⟩ := C96_columns (fun _ => plates) rnd 0 hg (by norm_num [plates]) (enumeration_standard hg) [1, 0, 1] (by simp) F hF (by
    intro i hi M tl h
    obtain ⟨M', h', d, tl', e, -, r⟩ := plates_ok i hi
    have e' : plates.nodes[i]? = _ := h
    rw [e] at e'
    cases e'
    exact ⟨h', d, r⟩) hs 2 (le_refl _)
  refine ⟨out, h1, ?_⟩
  rw [← h2.length_eq]
  simp [basisKeys, plates, Cfg.size]

end Verif.Props
