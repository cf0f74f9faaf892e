/-
Properties C30, C32, C57: sharing of objects. Measurement histories, input collections and copies.
-/
import Verif.Lemmas.HeapEval
import Verif.Spec.Evaluate

namespace Verif.Props
open Verif Spec

/-! ### C30 -/

/-- **C30** (partial: no classical node that writes into its argument directly after a measurement; no generic functions; bridges: C30_compound_partial) Evaluation
never changes what earlier measurements have recorded: the history of every output state, as it can be read after the evaluation, starts
with the history of an input state as it could be read before. -/
theorem C30_partial (c : HCirc) (rnd : ℕ → ℕ → ℕ → ℕ) (fuel : ℕ) (l : List ℕ) (h : Heap) (coll : HColl) (C : Coll) (own : Bool)
    (hc : Closed h) (hids : (coll.map Prod.fst).Nodup) (hv : h.view coll = some C) (hsep : Separated own h coll)
    (hsafe : NoWriteAfterMeasurement c own l) (h' : Heap) (out : HColl) (he : hEval c rnd fuel l (h, coll) = some (h', out)) :
    ∃ O, h'.view out = some O ∧ ∀ P ∈ O, ∃ Q ∈ C, Q.2.results <+: P.2.results := by
  have key := hEval_sim c rnd fuel l own h coll C hsafe ⟨hc, view_iff.1 hv, hids, hsep⟩
  rw [he] at key
  cases hO : evalNodes (fun _ => c.circ) (fun _ i _ => rnd i) fuel 0 l C with
  | none => rw [hO] at key; cases key
  | some O =>
    rw [hO] at key
    exact ⟨O, view_iff.2 key.rep, ext_eval c _ fuel l C O hO⟩

/-- **C30** (partial: as above) The object-level evaluation gives exactly what evaluation with immutable states and histories gives: the same
states, classical values, probabilities and histories, and it raises in the same cases. -/
theorem C30_agrees_partial (c : HCirc) (rnd : ℕ → ℕ → ℕ → ℕ) (fuel : ℕ) (l : List ℕ) (h : Heap) (coll : HColl) (C : Coll) (own : Bool)
    (hc : Closed h) (hids : (coll.map Prod.fst).Nodup) (hv : h.view coll = some C) (hsep : Separated own h coll)
    (hsafe : NoWriteAfterMeasurement c own l) :
    (hEval c rnd fuel l (h, coll)).bind (fun r => r.1.view r.2) = evalNodes (fun _ => c.circ) (fun _ i _ => rnd i) fuel 0 l C ∧
    ∀ h' out, hEval c rnd fuel l (h, coll) = some (h', out) → Closed h' ∧ Separated true h' out := by
  have key := hEval_sim c rnd fuel l own h coll C hsafe ⟨hc, view_iff.1 hv, hids, hsep⟩
  cases he : hEval c rnd fuel l (h, coll) with
  | none =>
    rw [he] at key
    cases hO : evalNodes (fun _ => c.circ) (fun _ i _ => rnd i) fuel 0 l C with
    | none => exact ⟨rfl, fun h' out e => by cases e⟩
    | some O => rw [hO] at key; cases key
  | some r =>
    rw [he] at key
    cases hO : evalNodes (fun _ => c.circ) (fun _ i _ => rnd i) fuel 0 l C with
    | none => rw [hO] at key; cases key
    | some O =>
      rw [hO] at key
      refine ⟨view_iff.2 key.rep, ?_⟩
      intro h' out e
      obtain rfl := Option.some.inj e
      exact ⟨key.ok, key.sep⟩

/-- measure channel 0 into the classical channel; then set this classical channel to 7 with `set_classical_channels` -/
noncomputable def overwriting : HCirc := ⟨⟨2, 2, true⟩, 1, 0, false, [.measurement [0] [0], .classical setChannelsEffect [7] [0]]⟩

/-- one State object, its classical values in list object 0 -/
noncomputable def oneObj : Heap := ⟨[[0]], [⟨['1', '1'], 1, [(['1', '1'], ⟨1, 1⟩)], 0, []⟩]⟩

/-- the collection with this object -/
def oneColl : HColl := [(['a'], 0)]

/-- after the measurement of `oneObj`: the new state and its history entry share list object 1 -/
noncomputable def measuredObj : Heap := ⟨[[0], [1]], [⟨['1', '1'], 1, [(['1', '1'], ⟨1, 1⟩)], 0, []⟩, ⟨['1', '1'], 1, [(['1', '1'], ⟨1, 1⟩)], 1, [(1, 1)]⟩]⟩

/-- after `set_classical_channels` -/
noncomputable def overwrittenObj : Heap := ⟨[[0], [7]], [⟨['1', '1'], 1, [(['1', '1'], ⟨1, 1⟩)], 0, []⟩, ⟨['1', '1'], 1, [(['1', '1'], ⟨1, 1⟩)], 1, [(1, 1)]⟩]⟩

/-- the collection after the measurement -/
def measuredColl : HColl := [(['a', '-', 'M', '1', 'a'], 1)]

theorem overwriting_step1 (rnd : ℕ → ℕ → ℕ → ℕ) (fuel : ℕ) : hEval overwriting rnd (fuel + 2) [0] (oneObj, oneColl) = some (measuredObj, measuredColl) := by
  have h1 : Cfg.parse ⟨2, 2, true⟩ ['1', '1'] = some [1, 1] := by decide
  have h2 : Cfg.render ⟨2, 2, true⟩ [1, 1] = some ['1', '1'] := by decide
  have h3 : Cfg.containsName ⟨2, 2, true⟩ ['1', '1'] = some true := by decide
  have h4 : measurementId [true, false] 0 = ['1'] := by decide
  have h5 : marker 0 = ['a'] := by decide
  simp [hEval, overwriting, oneObj, oneColl, HCirc.circ, HNode.node, Node.isMeasurement, hMeasureColl, hMeasure, h1, groupBy, Dict.set, Dict.get?,
    hCollapse, hCopyState, copyState, CheckValid, Heap.val, Heap.list, mulCum, setCum, writeClassical, outcomeOf, h2, setFromDict, h3, Dict.ofList,
    h4, h5, remaining, measuredObj, measuredColl]

theorem overwriting_step2 (rnd : ℕ → ℕ → ℕ → ℕ) (fuel : ℕ) :
    hEval overwriting rnd (fuel + 2) [1] (measuredObj, measuredColl) = some (overwrittenObj, measuredColl) := by
  simp [hEval, overwriting, measuredObj, measuredColl, hClassical, setChannelsEffect, setChannels, pyIndex, Heap.list, remaining, overwrittenObj]

/-- **C30** fails in general: after a measurement and `set_classical_channels`, the recorded result of the measurement is no longer the outcome
(1) but the value that was set (7). -/
theorem C30_fails : ∃ (c : HCirc) (h : Heap) (coll : HColl) (C : Coll), c.g.Ok ∧ Closed h ∧ Separated false h coll ∧ h.view coll = some C ∧
    Normalised c.g c.m C ∧ ∀ rnd fuel, 2 ≤ fuel → ∃ h1 out h2 k P Q, hEval c rnd fuel [0] (h, coll) = some (h1, out) ∧
      hEval c rnd fuel [1] (h1, out) = some (h2, out) ∧ h1.view out = some [(k, P)] ∧ h2.view out = some [(k, Q)] ∧
      P.results = [⟨[1], 1⟩] ∧ Q.results = [⟨[7], 1⟩] := by
  refine ⟨overwriting, oneObj, oneColl, [(['a'], ⟨['1', '1'], 1, [(['1', '1'], ⟨1, 1⟩)], [0], []⟩)], by decide, ?_, ?_, ?_, ?_, ?_⟩
  · simp [Closed, oneObj]
  · refine ⟨?_, ?_⟩
    · simp [oneColl]
    · simp [oneColl, oneObj]
  · simp [Heap.view, Heap.get, oneColl, oneObj, Heap.val, Heap.list]
  · refine ⟨by simp, ?_⟩
    intro p hp
    obtain rfl := List.mem_singleton.1 hp
    refine ⟨⟨?_, ?_, by simp [totalProb], by simp, by simp, by simp [overwriting]⟩, by simp [totalProb]⟩
    · exact wf_enc (g := ⟨2, 2, true⟩) (l := [([1, 1], ⟨1, 1⟩)]) ⟨by simp, by intro p hp; simp at hp; subst hp; exact ⟨rfl, by decide⟩⟩
    · intro p hp
      obtain rfl : p = (['1', '1'], ⟨1, 1⟩) := by simpa using hp
      simp
  · intro rnd fuel hf
    obtain ⟨f, rfl⟩ : ∃ f, fuel = f + 2 := ⟨fuel - 2, by omega⟩
    refine ⟨measuredObj, measuredColl, overwrittenObj, ['a', '-', 'M', '1', 'a'], ⟨['1', '1'], 1, [(['1', '1'], ⟨1, 1⟩)], [1], [⟨[1], 1⟩]⟩,
      ⟨['1', '1'], 1, [(['1', '1'], ⟨1, 1⟩)], [7], [⟨[7], 1⟩]⟩, overwriting_step1 rnd f, overwriting_step2 rnd f, ?_, ?_, rfl, rfl⟩
    · simp [Heap.view, Heap.get, measuredColl, measuredObj, Heap.val, Heap.list]
    · simp [Heap.view, Heap.get, measuredColl, overwrittenObj, Heap.val, Heap.list]

/-- non-vacuity of C30_partial: the same two nodes with an optical node in between, and classical nodes with other functions, are allowed. -/
example : NoWriteAfterMeasurement ⟨⟨2, 2, true⟩, 1, 0, false, [.classical setChannelsEffect [7] [0], .measurement [0] [0],
      .classical (fun _ new _ => some ⟨[], some new⟩) [3] [0], .optical 1 [0, 1], .classical setChannelsEffect [7] [0]]⟩ false [0, 1, 3, 4] ∧
    NoWriteAfterMeasurement ⟨⟨2, 2, true⟩, 1, 0, false, [.measurement [0] [0], .classical (fun vals new _ => some ⟨vals, some new⟩) [3] [0]]⟩ false [0, 1] ∧
    ¬ NoWriteAfterMeasurement overwriting false [0, 1] := by
  refine ⟨by simp [NoWriteAfterMeasurement], ?_, ?_⟩
  · simp only [NoWriteAfterMeasurement, List.getElem?_cons_zero, List.getElem?_cons_succ, and_true]
    intro _ vals v a r e
    rw [← Option.some.inj e]
  · simp only [NoWriteAfterMeasurement, overwriting, List.getElem?_cons_zero, List.getElem?_cons_succ, and_true, forall_true_left]
    intro hk
    have := hk [0] [7] [0] ⟨[7], none⟩ (by simp [setChannelsEffect, setChannels, pyIndex])
    simp at this

example : ∃ (h : Heap) (coll : HColl) (C : Coll), Closed h ∧ (coll.map Prod.fst).Nodup ∧ h.view coll = some C ∧ Separated true h coll ∧
    ∃ P ∈ C, P.2.results ≠ [] := by
  refine ⟨measuredObj, measuredColl, [(['a', '-', 'M', '1', 'a'], ⟨['1', '1'], 1, [(['1', '1'], ⟨1, 1⟩)], [1], [⟨[1], 1⟩]⟩)], ?_, by simp [measuredColl], ?_,
    ⟨?_, ?_⟩, by simp⟩
  · simp [Closed, measuredObj]
  · simp [Heap.view, Heap.get, measuredColl, measuredObj, Heap.val, Heap.list]
  · simp [measuredColl]
  · simp [measuredColl]

/-! ### C32 -/

/-- **C32** (partial: the first node to be evaluated is not a classical node; no generic functions; bridges: C32_compound_partial) Evaluation does not change the
input collection, nor any other collection that existed before: they show the same contents afterwards. -/
theorem C32_partial (c : HCirc) (rnd : ℕ → ℕ → ℕ → ℕ) (fuel : ℕ) (l : List ℕ) (h : Heap) (coll : HColl) (hc : Closed h)
    (hl : ∀ p ∈ coll, p.2 < h.objs.length) (hfirst : ∀ i ∈ l.head?, ¬ IsClassical c i) (h' : Heap) (out : HColl)
    (he : hEval c rnd fuel l (h, coll) = some (h', out)) (other : HColl) (C : Coll) (hv : h.view other = some C) :
    h'.view other = some C := by
  have hle : h.Le h' := by
    cases fuel with
    | zero => cases he
    | succ fuel =>
      cases l with
      | nil =>
        obtain ⟨rfl, -⟩ := Prod.mk.inj (Option.some.inj he)
        exact Heap.Le.refl h
      | cons i rest =>
        exact hNode_above (Heap.Le.refl h) hc hl (hfirst i (by simp)) (hEval_above c rnd h fuel) he
  rw [view_iff] at hv ⊢
  exact forall₂_imp' (fun _ _ hp => hp.mono hle hc) hv

/-- **C32** fails in general: with a classical node as first node, the input collection itself is changed. -/
theorem C32_fails : ∃ (c : HCirc) (h : Heap) (coll : HColl) (C : Coll), c.g.Ok ∧ Closed h ∧ Separated false h coll ∧ h.view coll = some C ∧
    ∀ rnd fuel, 2 ≤ fuel → ∃ h' out C', hEval c rnd fuel [1] (h, coll) = some (h', out) ∧ h'.view coll = some C' ∧
      (C.map (fun p => p.2.classical)) = [[0]] ∧ (C'.map (fun p => p.2.classical)) = [[7]] := by
  refine ⟨overwriting, oneObj, oneColl, [(['a'], ⟨['1', '1'], 1, [(['1', '1'], ⟨1, 1⟩)], [0], []⟩)], by decide, ?_, ⟨?_, ?_⟩, ?_, ?_⟩
  · simp [Closed, oneObj]
  · simp [oneColl]
  · simp [oneColl, oneObj]
  · simp [Heap.view, Heap.get, oneColl, oneObj, Heap.val, Heap.list]
  · intro rnd fuel hf
    obtain ⟨f, rfl⟩ : ∃ f, fuel = f + 2 := ⟨fuel - 2, by omega⟩
    refine ⟨⟨[[7]], oneObj.objs⟩, oneColl, [(['a'], ⟨['1', '1'], 1, [(['1', '1'], ⟨1, 1⟩)], [7], []⟩)], ?_, ?_, rfl, rfl⟩
    · simp [hEval, overwriting, oneObj, oneColl, hClassical, setChannelsEffect, setChannels, pyIndex, Heap.list, remaining]
    · simp [Heap.view, Heap.get, oneColl, oneObj, Heap.val, Heap.list]

/-- non-vacuity of C32_partial: a measurement followed by `set_classical_channels`, on a collection with one state. -/
example (rnd : ℕ → ℕ → ℕ → ℕ) : ∃ h' out C, hEval overwriting rnd 2 [0] (oneObj, oneColl) = some (h', out) ∧
    (∀ i ∈ [0].head?, ¬ IsClassical overwriting i) ∧ Closed oneObj ∧ oneObj.view oneColl = some C ∧ C ≠ [] := by
  refine ⟨measuredObj, measuredColl, [(['a'], ⟨['1', '1'], 1, [(['1', '1'], ⟨1, 1⟩)], [0], []⟩)], overwriting_step1 rnd 0, ?_, ?_, ?_, by simp⟩
  · intro i hi
    obtain rfl : 0 = i := by simpa using hi
    rintro ⟨f, v, a, e⟩
    simp [overwriting] at e
  · simp [Closed, oneObj]
  · simp [Heap.view, Heap.get, oneColl, oneObj, Heap.val, Heap.list]

/-! ### C57 -/

/-- A classical node changes only the State objects of the collection and the list objects of their classical values: such nodes are
covered by the following theorems about copies. -/
theorem C57_classical_node (m : ℕ) (f : List ℝ → List ℝ → List ℤ → Option ClsEffect) (v : List ℝ) (a : List ℤ) (h : Heap) (coll : HColl)
    (hc : Closed h) (h' : Heap) (he : hClassical m f v a h coll = some h') : ChangesOnly coll h h' := by
  refine (hClassical_changes (fun _ hp => hp) hc ⟨fun _ _ _ => rfl, fun _ _ _ => rfl⟩ le_rfl ?_ he).1
  intro p _ s hs
  exact Or.inr ⟨s, hs, rfl⟩

/-- **C57** A copy of a collection shows the same contents as the original (same identifiers, states and histories), and the original and
all other collections are as before. -/
theorem C57_same_contents (thr : ℝ) (m : ℕ) (h : Heap) (coll : HColl) (C : Coll) (hc : Closed h) (hids : (coll.map Prod.fst).Nodup)
    (hv : h.view coll = some C) (h' : Heap) (copy : HColl) (he : hCopyColl thr m h coll = some (h', copy)) :
    h'.view copy = some C ∧ Closed h' ∧ ∀ other D, h.view other = some D → h'.view other = some D := by
  have hrep := view_iff.1 hv
  have key := hCopyColl_sim (thr := thr) (m := m) (own := false) hc (forall₂_imp' (fun _ _ hp => hp.toRepE hc) hrep)
  rw [he] at key
  cases hO : copyColl thr m C with
  | none => rw [hO] at key; cases key
  | some O =>
    rw [hO] at key
    have key : Good h _ false h' copy O := key
    obtain ⟨-, rfl⟩ := (copyColl_iff (by rw [← forall₂_keys hrep]; exact hids)).1 hO
    refine ⟨view_iff.2 key.rep, key.ok, ?_⟩
    intro other D hD
    rw [view_iff] at hD ⊢
    exact forall₂_imp' (fun _ _ hp => hp.mono key.le hc) hD

/-- **C57** Changing the copy never affects the original collection, nor any other collection that existed before the copy was made. -/
theorem C57_change_copy (thr : ℝ) (m : ℕ) (h : Heap) (coll : HColl) (hc : Closed h) (hl : ∀ p ∈ coll, p.2 < h.objs.length)
    (h' : Heap) (copy : HColl) (he : hCopyColl thr m h coll = some (h', copy)) (h'' : Heap) (hch : ChangesOnly copy h' h'')
    (other : HColl) (D : Coll) (hv : h.view other = some D) : h''.view other = some D := by
  obtain ⟨C, hC⟩ := exists_repE hc hl
  have hA := (hCopyColl_sim (thr := thr) (m := m) (own := false) hc hC).above he
  rw [view_iff] at hv ⊢
  refine forall₂_imp' ?_ hv
  intro p P hp
  obtain ⟨s, hs, hval⟩ := Heap.get_eq.1 hp.2
  have hmem := hc s (List.mem_of_getElem? hs)
  have hlt := (List.getElem?_eq_some_iff.1 hs).1
  refine changesOnly_rep hch hA.ok (hp.mono hA.le hc) ?_ ?_
  · intro q hq
    obtain ⟨t, -, h1, -⟩ := hA.new q hq
    omega
  · intro s' hs' q hq t ht
    have := hA.le.obj hs
    rw [hs'] at this
    obtain rfl := Option.some.inj this
    obtain ⟨t', ht', -, h2⟩ := hA.new q hq
    rw [ht] at ht'
    obtain rfl := Option.some.inj ht'
    refine ⟨by omega, ?_⟩
    intro r hr
    have := hmem.2 r hr
    omega

/-- **C57** (partial: in the original, no measurement history refers to the list object that holds the current classical values) Changing the
original does not affect the copy. -/
theorem C57_change_original_partial (thr : ℝ) (m : ℕ) (h : Heap) (coll : HColl) (hc : Closed h) (hl : ∀ p ∈ coll, p.2 < h.objs.length)
    (hsep : Separated false h coll) (h' : Heap) (copy : HColl) (he : hCopyColl thr m h coll = some (h', copy)) (h'' : Heap)
    (hch : ChangesOnly coll h' h'') (D : Coll) (hv : h'.view copy = some D) : h''.view copy = some D := by
  obtain ⟨C, hC⟩ := exists_repE' (h := h) (N := fun r => r < h.lists.length ∧ ∀ q ∈ coll, ∀ t, h.objs[q.2]? = some t → t.classical ≠ r) hl (by
    intro p hp s hs r hr
    refine ⟨(hc s (List.mem_of_getElem? hs)).2 r hr, ?_⟩
    intro q hq t ht e
    have := (hsep.history q hq p hp t s ht hs r hr e.symm).1
    cases this)
  have key := hCopyColl_sim (thr := thr) (m := m) (own := false) hc hC
  rw [he] at key
  cases hO : copyColl thr m C with
  | none => rw [hO] at key; cases key
  | some O =>
    rw [hO] at key
    have key : Good h _ false h' copy O := key
    rw [view_iff] at hv ⊢
    refine forall₂_imp_mem ?_ hv
    intro p P hp hpP
    obtain ⟨s, hs, h1, h2, h3⟩ := key.fresh p hp
    refine changesOnly_rep hch key.ok hpP ?_ ?_
    · intro q hq
      have := hl q hq
      omega
    · intro s' hs' q hq t ht
      rw [hs] at hs'
      obtain rfl := Option.some.inj hs'
      have hqo : h.objs[q.2]? = some t := by rw [← ht, prefix_getElem? key.le.2 (hl q hq)]
      have := (hc t (List.mem_of_getElem? hqo)).1
      refine ⟨by omega, ?_⟩
      intro r hr
      rcases h3 r hr with h3 | ⟨h3, -⟩
      · exact h3.2 q hq t hqo
      · cases h3

/-- `measuredObj` with a copy of the measured state: the copy has its own list object 2 for the classical values, but its history refers to list
object 1, the classical values of the original -/
noncomputable def copiedObj : Heap := ⟨[[0], [1], [1]], measuredObj.objs ++ [⟨['1', '1'], 1, [(['1', '1'], ⟨1, 1⟩)], 2, [(1, 1)]⟩]⟩

/-- **C57** fails in general: after a measurement, a copy is made of the collection; setting the classical channels of the original changes the
measurement result recorded in the copy. -/
theorem C57_fails : ∃ (m : ℕ) (thr : ℝ) (h : Heap) (coll : HColl) (h' : Heap) (copy : HColl) (h'' : Heap) (k : List Char) (P Q : QState),
    Closed h ∧ (coll.map Prod.fst).Nodup ∧ hCopyColl thr m h coll = some (h', copy) ∧
    hClassical m setChannelsEffect [7] [0] h' coll = some h'' ∧ ChangesOnly coll h' h'' ∧
    h'.view copy = some [(k, P)] ∧ h''.view copy = some [(k, Q)] ∧ P.results = [⟨[1], 1⟩] ∧ Q.results = [⟨[7], 1⟩] := by
  have hcl : hClassical 1 setChannelsEffect [7] [0] copiedObj measuredColl = some ⟨[[0], [7], [1]], copiedObj.objs⟩ := by
    simp [hClassical, setChannelsEffect, setChannels, pyIndex, Heap.list, copiedObj, measuredObj, measuredColl]
  refine ⟨1, 0, measuredObj, measuredColl, copiedObj, [(['a', '-', 'M', '1', 'a'], 2)], ⟨[[0], [7], [1]], copiedObj.objs⟩, ['a', '-', 'M', '1', 'a'],
    ⟨['1', '1'], 1, [(['1', '1'], ⟨1, 1⟩)], [1], [⟨[1], 1⟩]⟩, ⟨['1', '1'], 1, [(['1', '1'], ⟨1, 1⟩)], [1], [⟨[7], 1⟩]⟩, ?_, by simp [measuredColl], ?_,
    hcl, C57_classical_node _ _ _ _ _ _ ?_ _ hcl, ?_, ?_, rfl, rfl⟩
  · simp [Closed, measuredObj]
  · simp [hCopyColl, measuredColl, measuredObj, hCopyState, copyState, CheckValid, Heap.val, Heap.list, Dict.set, copiedObj]
  · simp [Closed, copiedObj, measuredObj]
  · simp [Heap.view, Heap.get, copiedObj, measuredObj, Heap.val, Heap.list]
  · simp [Heap.view, Heap.get, copiedObj, measuredObj, Heap.val, Heap.list]

/-- non-vacuity of the theorems about copies: a separated collection can be copied, and a classical node can change either. -/
example : ∃ h' copy h2 h3, Closed oneObj ∧ Separated false oneObj oneColl ∧ hCopyColl 0 1 oneObj oneColl = some (h', copy) ∧
    hClassical 1 setChannelsEffect [7] [0] h' copy = some h2 ∧ h2.view copy ≠ h'.view copy ∧
    hClassical 1 setChannelsEffect [7] [0] h' oneColl = some h3 ∧ h3.view oneColl ≠ h'.view oneColl := by
  refine ⟨⟨[[0], [0]], oneObj.objs ++ [⟨['1', '1'], 1, [(['1', '1'], ⟨1, 1⟩)], 1, []⟩]⟩, [(['a'], 1)],
    ⟨[[0], [7]], oneObj.objs ++ [⟨['1', '1'], 1, [(['1', '1'], ⟨1, 1⟩)], 1, []⟩]⟩,
    ⟨[[7], [0]], oneObj.objs ++ [⟨['1', '1'], 1, [(['1', '1'], ⟨1, 1⟩)], 1, []⟩]⟩, ?_, ⟨?_, ?_⟩, ?_, ?_, ?_, ?_, ?_⟩
  · simp [Closed, oneObj]
  · simp [oneColl]
  · simp [oneColl, oneObj]
  · simp [hCopyColl, oneColl, oneObj, hCopyState, copyState, CheckValid, Heap.val, Heap.list, Dict.set]
  · simp [hClassical, setChannelsEffect, setChannels, pyIndex, Heap.list, oneObj]
  · simp [Heap.view, Heap.get, oneObj, Heap.val, Heap.list]
  · simp [hClassical, setChannelsEffect, setChannels, pyIndex, Heap.list, oneObj, oneColl]
  · simp [Heap.view, Heap.get, oneObj, oneColl, Heap.val, Heap.list]

end Verif.Props
