/-
Properties C30 and C32 for compound circuits, C137: sharing of objects when the shape of a collection is changed.
-/
import Verif.Lemmas.HeapBridge3
import Verif.Spec.HeapBridge
import Verif.Props.Heap
import Verif.Props.Bookkeeping

namespace Verif.Props
open Verif Spec

/-! ### C30 and C32 for compound circuits -/

theorem withBridge_noGeneric (c : HCirc) (b : Option ℕ) (i : ℕ) (f : Coll → Option Coll) : (c.withBridge b).nodes[i]? ≠ some (Node.generic f) := by
  intro e
  have hm := List.mem_of_getElem? e
  unfold HCirc.withBridge HCirc.circ at hm
  rcases List.mem_append.1 hm with hm | hm
  · obtain ⟨n, -, hn⟩ := List.mem_map.1 hm
    cases n <;> cases hn
  · obtain ⟨j, -, hj⟩ := List.mem_map.1 hm
    cases hj

/-- **C30** for compound circuits (partial: no classical node that writes into its argument directly after a measurement of the same circuit; no generic functions) Evaluation of circuits that are
connected by bridges gives on objects exactly what evaluation with immutable states and histories gives, and it raises in the same cases. -/
theorem C30_compound_agrees_partial (c : HCirc) (cs : List HCirc) (rnd : ℕ → ℕ → Bool → ℕ → ℕ → ℕ) (fuel : ℕ) (h : Heap) (coll : HColl) (C : Coll) (own : Bool)
    (hc : Closed h) (hids : (coll.map Prod.fst).Nodup) (hv : h.view coll = some C) (hsep : Separated own h coll)
    (hfirst : NoWriteAfterMeasurement c own (List.range c.nodes.length)) (hsafe : ∀ c' ∈ cs, NoWriteAfterMeasurement c' false (List.range c'.nodes.length)) :
    (hCompound c (c :: cs) rnd fuel (h, coll)).bind (fun r => r.1.view r.2) = evalCompound c.circ ((c :: cs).map HCirc.circ) rnd fuel C ∧
    ∀ h' out, hCompound c (c :: cs) rnd fuel (h, coll) = some (h', out) → Closed h' ∧ Separated true h' out := by
  have key := hCompound_sim c (c :: cs) rnd fuel own h coll C hfirst hsafe ⟨hc, view_iff.1 hv, hids, hsep⟩
  cases he : hCompound c (c :: cs) rnd fuel (h, coll) with
  | none =>
    rw [he] at key
    cases hO : evalCompound c.circ ((c :: cs).map HCirc.circ) rnd fuel C with
    | none => exact ⟨rfl, fun h' out e => by cases e⟩
    | some O => rw [hO] at key; cases key
  | some r =>
    rw [he] at key
    cases hO : evalCompound c.circ ((c :: cs).map HCirc.circ) rnd fuel C with
    | none => rw [hO] at key; cases key
    | some O =>
      rw [hO] at key
      refine ⟨view_iff.2 key.rep, ?_⟩
      intro h' out e
      obtain rfl := Option.some.inj e
      exact ⟨key.ok, key.sep⟩

/-- **C30** for compound circuits (partial: as above) What earlier measurements have recorded is not changed by the rest of the circuits: the history of every output state, as it can be read after the
evaluation, starts with the history of an input state as it could be read before. -/
theorem C30_compound_partial (c : HCirc) (cs : List HCirc) (rnd : ℕ → ℕ → Bool → ℕ → ℕ → ℕ) (fuel : ℕ) (h : Heap) (coll : HColl) (C : Coll) (own : Bool)
    (hc : Closed h) (hids : (coll.map Prod.fst).Nodup) (hv : h.view coll = some C) (hsep : Separated own h coll)
    (hfirst : NoWriteAfterMeasurement c own (List.range c.nodes.length)) (hsafe : ∀ c' ∈ cs, NoWriteAfterMeasurement c' false (List.range c'.nodes.length))
    (h' : Heap) (out : HColl) (he : hCompound c (c :: cs) rnd fuel (h, coll) = some (h', out)) :
    ∃ O, h'.view out = some O ∧ ∀ P ∈ O, ∃ Q ∈ C, Q.2.results <+: P.2.results := by
  have key := (C30_compound_agrees_partial c cs rnd fuel h coll C own hc hids hv hsep hfirst hsafe).1
  rw [he, Option.bind_some] at key
  cases hO : evalCompound c.circ ((c :: cs).map HCirc.circ) rnd fuel C with
  | none =>
    have h1 := hCompound_sim c (c :: cs) rnd fuel own h coll C hfirst hsafe ⟨hc, view_iff.1 hv, hids, hsep⟩
    rw [he, hO] at h1
    cases h1
  | some O =>
    refine ⟨O, by rw [key, hO], ?_⟩
    unfold evalCompound evalAll at hO
    rw [← withBridge_compound] at hO
    obtain ⟨outB, -, hB⟩ := C134_histories (fun k => ((c :: cs).getD k c).withBridge (if k + 1 < (c :: cs).length then some (k + 1) else none)) rnd
      (fun k i f hf => absurd hf (withBridge_noGeneric _ _ i f)) fuel 0 _ C O hO
    intro P hP
    obtain ⟨Q, -, -, -, -, -, -, a, ha, e⟩ := forall₂_mem_left' hB hP
    exact ⟨a, ha, by rw [e]; exact List.prefix_append _ _⟩

/-- **C32** for compound circuits (partial: the first node of the first circuit is not a classical node; no generic functions) Evaluation does not change the input collection, nor any other collection that
existed before: they show the same contents afterwards. -/
theorem C32_compound_partial (c : HCirc) (cs : List HCirc) (rnd : ℕ → ℕ → Bool → ℕ → ℕ → ℕ) (fuel : ℕ) (h : Heap) (coll : HColl) (hc : Closed h) (hl : ∀ p ∈ coll, p.2 < h.objs.length)
    (hfirst : ¬ IsClassical c 0) (h' : Heap) (out : HColl) (he : hCompound c (c :: cs) rnd fuel (h, coll) = some (h', out)) (other : HColl) (C : Coll) (hv : h.view other = some C) :
    h'.view other = some C := by
  have hle : h.Le h' := hCompound_le c (c :: cs) rnd fuel h coll hc hl hfirst he
  rw [view_iff] at hv ⊢
  exact forall₂_imp' (fun _ _ hp => hp.mono hle hc) hv

/-- a circuit with a measurement of channel 0 into the classical channel -/
noncomputable def measuring : HCirc := ⟨⟨2, 2, true⟩, 1, 0, false, [.measurement [0] [0]]⟩

/-- a circuit that sets the classical channel to 7 -/
noncomputable def setting : HCirc := ⟨⟨2, 2, true⟩, 1, 0, false, [.classical setChannelsEffect [7] [0]]⟩

theorem measuring_setting (rnd : ℕ → ℕ → Bool → ℕ → ℕ → ℕ) : hCompound measuring [measuring, setting] rnd 4 (oneObj, oneColl) = some
    (⟨[[0], [1], [7]], measuredObj.objs ++ [⟨['1', '1'], 1, [(['1', '1'], ⟨1, 1⟩)], 2, [(1, 1)]⟩, ⟨['1', '1'], 1, [(['1', '1'], ⟨1, 1⟩)], 2, [(1, 1)]⟩]⟩, [(['a', '-', 'M', '1', 'a'], 3)]) := by
  have h1 : Cfg.parse ⟨2, 2, true⟩ ['1', '1'] = some [1, 1] := by decide
  have h2 : Cfg.render ⟨2, 2, true⟩ [1, 1] = some ['1', '1'] := by decide
  have h3 : Cfg.containsName ⟨2, 2, true⟩ ['1', '1'] = some true := by decide
  have h4 : measurementId [true, false] 0 = ['1'] := by decide
  have h5 : marker 0 = ['a'] := by decide
  have h6 : List.range 2 = [0, 1] := rfl
  have h7 : (⟨2, 2, true⟩ : Cfg).Ok := by decide
  simp [hCompound, hEvalEnv, measuring, setting, oneObj, oneColl, HCirc.circ, HCirc.withBridge, HNode.node, Node.isMeasurement, hMeasureColl, hMeasure, h1, groupBy, Dict.set, Dict.get?,
    hCollapse, hCopyState, copyState, CheckValid, Heap.val, Heap.list, mulCum, setCum, writeClassical, outcomeOf, h2, setFromDict, h3, Dict.ofList, hCopyColl, hReshape, hAdjust, hAdjustState, adjustComps, newState, h6, h7,
    h4, h5, remaining, measuredObj, hClassical, setChannelsEffect, setChannels, pyIndex]

/-- non-vacuity of the theorems about compound circuits: a measurement as last node of the first circuit and `set_classical_channels` as first node of the second one. (In one circuit the second node
would change the recorded result, see C30_fails.) -/
example (rnd : ℕ → ℕ → Bool → ℕ → ℕ → ℕ) : NoWriteAfterMeasurement measuring false (List.range measuring.nodes.length) ∧ (∀ c' ∈ [setting], NoWriteAfterMeasurement c' false (List.range c'.nodes.length)) ∧
    ¬ IsClassical measuring 0 ∧ Closed oneObj ∧ (oneColl.map Prod.fst).Nodup ∧ Separated false oneObj oneColl ∧
    ∃ h' out k P, hCompound measuring [measuring, setting] rnd 4 (oneObj, oneColl) = some (h', out) ∧ h'.view out = some [(k, P)] ∧ P.classical = [7] ∧ P.results = [⟨[1], 1⟩] := by
  refine ⟨?_, ?_, ?_, by simp [Closed, oneObj], by simp [oneColl], ⟨by simp [oneColl], by simp [oneColl, oneObj]⟩, _, _, ['a', '-', 'M', '1', 'a'], ⟨['1', '1'], 1, [(['1', '1'], ⟨1, 1⟩)], [7], [⟨[1], 1⟩]⟩, measuring_setting rnd, ?_, rfl, rfl⟩
  · simp [measuring, NoWriteAfterMeasurement]
  · simp [setting, NoWriteAfterMeasurement]
  · rintro ⟨f, v, a, e⟩
    simp [measuring] at e
  · simp [Heap.view, Heap.get, Heap.val, Heap.list, measuredObj]

/-! ### C137 -/

theorem _root_.Verif.SimC.reshaped {h : Heap} (ok : h.Ok) {nR : ℕ → Prop} {own : Bool} {x : Option (Heap × HCollection)} {X : Option Collection} (s : SimC h nR own x X) : ReshapedInPlace h x X := by
  match x, X, s with
  | none, none, _ => exact ⟨by simp, by simp⟩
  | some (h', cl), some D, s =>
    refine ⟨by simp, ?_⟩
    rintro _ _ e
    obtain ⟨rfl, rfl⟩ := Prod.mk.inj (Option.some.inj e)
    obtain ⟨h1, h2, h3, h4⟩ := s
    refine ⟨D, rfl, by simp only at h1 h2 h3; rw [h1, h2, h3], view_iff.2 h4.rep, h4.ok, ?_⟩
    intro other E hE
    rw [view_iff] at hE ⊢
    exact forall₂_imp' (fun _ _ hp => hp.mono h4.le ok) hE

/-- **C137** `reduce` gives on objects what it gives on values, and leaves every State object that existed before as it was. -/
theorem C137_reduce (g : Cfg) (m : ℕ) (thr : ℝ) (keep ckeep : List ℕ) (h : Heap) (coll : HColl) (C : Coll) (hc : Closed h) (hv : h.view coll = some C) :
    ReshapedInPlace h (hReduce h ⟨g, m, thr, coll⟩ keep ckeep) (reduceColl ⟨g, m, thr, C⟩ keep ckeep) :=
  SimC.reshaped hc (hReduce_simE (own := false) hc (cl := ⟨g, m, thr, C⟩) (forall₂_imp' (fun _ _ hp => hp.toRepE hc) (view_iff.1 hv)) keep ckeep)

/-- **C137** The same for `extend`. -/
theorem C137_extend (g : Cfg) (m : ℕ) (thr : ℝ) (eo ec : ℕ) (dist : List ℝ) (r : ℕ → ℕ → ℕ) (h : Heap) (coll : HColl) (C : Coll) (hc : Closed h) (hv : h.view coll = some C) :
    ReshapedInPlace h (hExtend h ⟨g, m, thr, coll⟩ eo ec dist r) (extendColl ⟨g, m, thr, C⟩ eo ec dist r) := by
  by_cases hne : eo = 0 ∧ ec = 0
  · unfold hExtend extendColl
    simp only [Option.bind_eq_bind]
    generalize (if dist = [] then (1 : ℝ) :: List.replicate (g.L - 1) 0 else dist) = dist
    rw [if_pos hne, if_pos hne]
    split
    · exact ⟨by simp, by simp⟩
    · refine ⟨by simp, ?_⟩
      rintro h' cl e
      obtain ⟨rfl, rfl⟩ := Prod.mk.inj (Option.some.inj e)
      exact ⟨_, rfl, rfl, hv, hc, fun _ _ hE => hE⟩
  · exact SimC.reshaped hc (hExtend_simE (own := false) hc (cl := ⟨g, m, thr, C⟩) (forall₂_imp' (fun _ _ hp => hp.toRepE hc) (view_iff.1 hv)) eo ec dist r hne)

/-- **C137** The same for `adjust_length_of_fock_state`. -/
theorem C137_adjust (g : Cfg) (m : ℕ) (thr : ℝ) (newL : ℕ) (h : Heap) (coll : HColl) (C : Coll) (hc : Closed h) (hv : h.view coll = some C) :
    ReshapedInPlace h (hAdjust h ⟨g, m, thr, coll⟩ newL) (adjustLength ⟨g, m, thr, C⟩ newL) := by
  have key := hAdjust_adj (cl := ⟨g, m, thr, C⟩) hc (view_iff.1 hv) newL
  revert key
  rcases hAdjust h ⟨g, m, thr, coll⟩ newL with _ | ⟨h', cl⟩ <;> rcases adjustLength ⟨g, m, thr, C⟩ newL with _ | D <;> intro key
  · exact ⟨by simp, by simp⟩
  · cases key
  · cases key
  · refine ⟨by simp, ?_⟩
    rintro _ _ e
    obtain ⟨rfl, rfl⟩ := Prod.mk.inj (Option.some.inj e)
    obtain ⟨h1, h2, h3, h4⟩ := key
    refine ⟨D, rfl, by simp only at h1 h2 h3; rw [h1, h2, h3], view_iff.2 h4.rep, h4.ok, ?_⟩
    intro other E hE
    rw [view_iff] at hE ⊢
    exact forall₂_imp' (fun _ _ hp => hp.mono h4.le hc) hE

theorem above_changes {h h' h'' : Heap} {coll : HColl} (hc : Closed h) (hA : Above h h' coll) (hch : ChangesOnly coll h' h'') {other : HColl} {E : Coll} (hv : h.view other = some E) :
    h''.view other = some E := by
  rw [view_iff] at hv ⊢
  refine forall₂_imp' ?_ hv
  intro p P hp
  obtain ⟨s, hs, hval⟩ := Heap.get_eq.1 hp.2
  have hmem := hc s (List.mem_of_getElem? hs)
  have hlt := (List.getElem?_eq_some_iff.1 hs).1
  refine changesOnly_rep hch hA.ok (hp.mono hA.le hc) ?_ ?_
  · intro q hq
    obtain ⟨t, -, h1, -⟩ := hA.new q hq
    omega
  · intro s' hs' q hq t ht
    have := hA.le.obj hs
    rw [hs'] at this
    obtain rfl := Option.some.inj this
    obtain ⟨t', ht', -, h2⟩ := hA.new q hq
    rw [ht] at ht'
    obtain rfl := Option.some.inj ht'
    refine ⟨by omega, ?_⟩
    intro r hr
    have := hmem.2 r hr
    omega

/-- **C137** After `reduce` or `extend` (by at least one channel) the collection consists of new State objects with new lists of classical values: changing them later never affects a State object that
existed before. -/
theorem C137_later_changes (g : Cfg) (m : ℕ) (thr : ℝ) (h : Heap) (coll : HColl) (hc : Closed h) (hl : ∀ p ∈ coll, p.2 < h.objs.length) (h' : Heap) (cl : HCollection)
    (he : (∃ keep ckeep, hReduce h ⟨g, m, thr, coll⟩ keep ckeep = some (h', cl)) ∨ (∃ eo ec dist r, ¬ (eo = 0 ∧ ec = 0) ∧ hExtend h ⟨g, m, thr, coll⟩ eo ec dist r = some (h', cl)))
    (h'' : Heap) (hch : ChangesOnly cl.states h' h'') (other : HColl) (E : Coll) (hv : h.view other = some E) : h''.view other = some E := by
  obtain ⟨C, hC⟩ := exists_repE hc hl
  rcases he with ⟨keep, ckeep, he⟩ | ⟨eo, ec, dist, r, hne, he⟩
  · exact above_changes hc ((hReduce_simE (own := false) hc (cl := ⟨g, m, thr, C⟩) hC keep ckeep).above he) hch hv
  · exact above_changes hc ((hExtend_simE (own := false) hc (cl := ⟨g, m, thr, C⟩) hC eo ec dist r hne).above he) hch hv

/-- **C137** fails for `adjust_length_of_fock_state`: the new State objects have the list of classical values of the old ones (line 889). Setting the classical channels of the adjusted collection changes
a State object that was taken from the collection before. -/
theorem C137_adjust_fails : ∃ (g : Cfg) (m : ℕ) (h : Heap) (coll : HColl) (h' : Heap) (cl : HCollection) (h'' : Heap) (k : List Char) (P Q : QState),
    Closed h ∧ (coll.map Prod.fst).Nodup ∧ Separated false h coll ∧ hAdjust h ⟨g, m, 0, coll⟩ 3 = some (h', cl) ∧ hClassical m setChannelsEffect [7] [0] h' cl.states = some h'' ∧ ChangesOnly cl.states h' h'' ∧
    h'.view coll = some [(k, P)] ∧ h''.view coll = some [(k, Q)] ∧ P.classical = [0] ∧ Q.classical = [7] := by
  have h1 : Cfg.parse ⟨2, 2, true⟩ ['1', '1'] = some [1, 1] := by decide
  have h2 : Cfg.render ⟨3, 2, true⟩ [1, 1] = some ['1', '1'] := by decide
  have h7 : (⟨3, 2, true⟩ : Cfg).Ok := by decide
  have hcl : hClassical 1 setChannelsEffect [7] [0] ⟨oneObj.lists, oneObj.objs ++ oneObj.objs⟩ [(['a'], 1)] = some ⟨[[7]], oneObj.objs ++ oneObj.objs⟩ := by
    simp [hClassical, setChannelsEffect, setChannels, pyIndex, Heap.list, oneObj]
  refine ⟨⟨2, 2, true⟩, 1, oneObj, oneColl, ⟨oneObj.lists, oneObj.objs ++ oneObj.objs⟩, ⟨⟨3, 2, true⟩, 1, 0, [(['a'], 1)]⟩, ⟨[[7]], oneObj.objs ++ oneObj.objs⟩, ['a'],
    ⟨['1', '1'], 1, [(['1', '1'], ⟨1, 1⟩)], [0], []⟩, ⟨['1', '1'], 1, [(['1', '1'], ⟨1, 1⟩)], [7], []⟩, ?_, by simp [oneColl], ⟨by simp [oneColl], by simp [oneColl, oneObj]⟩, ?_, hcl,
    C57_classical_node _ _ _ _ _ _ ?_ _ hcl, ?_, ?_, rfl, rfl⟩
  · simp [Closed, oneObj]
  · simp [hAdjust, hAdjustState, adjustComps, oneColl, oneObj, h1, h2, h7, newState, CheckValid, Heap.val, Heap.list, Dict.set]
  · simp [Closed, oneObj]
  · simp [Heap.view, Heap.get, oneObj, oneColl, Heap.val, Heap.list]
  · simp [Heap.view, Heap.get, oneObj, oneColl, Heap.val, Heap.list]

/-- non-vacuity of C137: a state that is extended by a classical channel and then changed. -/
example (r : ℕ → ℕ → ℕ) : ∃ h' cl h'', Closed oneObj ∧ (∀ p ∈ oneColl, p.2 < oneObj.objs.length) ∧ hExtend oneObj ⟨⟨2, 2, true⟩, 1, 0, oneColl⟩ 0 1 [] r = some (h', cl) ∧ cl.m = 2 ∧ cl.states ≠ [] ∧
    hClassical 2 setChannelsEffect [7] [1] h' cl.states = some h'' ∧ h''.view cl.states ≠ h'.view cl.states := by
  have h1 : Cfg.parse ⟨2, 2, true⟩ ['1', '1'] = some [1, 1] := by decide
  have h2 : Cfg.render ⟨2, 2, true⟩ [1, 1] = some ['1', '1'] := by decide
  have h7 : (⟨2, 2, true⟩ : Cfg).Ok := by decide
  refine ⟨⟨[[0], [0, 0]], oneObj.objs ++ [⟨['1', '1'], 1, [(['1', '1'], ⟨1, 1⟩)], 1, []⟩]⟩, ⟨⟨2, 2, true⟩, 2, 0, [(freshId [] (r 0), 1)]⟩,
    ⟨[[0], [0, 7]], oneObj.objs ++ [⟨['1', '1'], 1, [(['1', '1'], ⟨1, 1⟩)], 1, []⟩]⟩, ?_, ?_, ?_, rfl, by simp, ?_, ?_⟩
  · simp [Closed, oneObj]
  · simp [oneObj, oneColl]
  · simp [hExtend, hExtendState, extraValues, extendedState, oneColl, oneObj, h1, h2, h7, newState, CheckValid, Heap.val, Heap.list, Dict.set, Heap.pushNew, Dict.keys]
  · simp [hClassical, setChannelsEffect, setChannels, pyIndex, Heap.list, oneObj]
  · simp [Heap.view, Heap.get, oneObj, Heap.val, Heap.list]

end Verif.Props
