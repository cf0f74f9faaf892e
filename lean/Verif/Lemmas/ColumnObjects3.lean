/-
Lemmas for C136: when the operations do not raise.
-/
import Verif.Lemmas.ColumnObjects2

namespace Verif
open Spec

theorem writeKey_defined {k : ColKey} {H : ColHeap} {r : ℕ} (h : ∃ s d, H.states[r]? = some s ∧ s.res = some d) : ∃ H', H.writeKey k r = some H' := by
  obtain ⟨s, d, hs, hd⟩ := h
  exact ⟨_, by unfold ColHeap.writeKey; rw [hs, Option.bind_some, hd]; rfl⟩

theorem hasRes_upd {l : List ℕ} {k : ColKey} {S : List StateObj} {r : ℕ} (h : ∃ s d, S[r]? = some s ∧ s.res = some d) : ∃ s d, (updAt l (putKey k) S)[r]? = some s ∧ s.res = some d := by
  obtain ⟨s, d, hs, hd⟩ := h
  rw [updAt_get, hs]
  by_cases hr : r ∈ l
  · exact ⟨_, k.inKeys d, rfl, by simp [hr, putKey, hd]⟩
  · exact ⟨_, d, rfl, by simp [hr, hd]⟩

theorem writeKeys_defined {k : ColKey} : ∀ (l : List ℕ) {H : ColHeap}, (∀ r ∈ l, ∃ s d, H.states[r]? = some s ∧ s.res = some d) → ∃ H', l.foldlM (ColHeap.writeKey k) H = some H'
  | [], H, _ => ⟨H, rfl⟩
  | r :: l, H, h => by
    obtain ⟨H1, h1⟩ := writeKey_defined (k := k) (h r List.mem_cons_self)
    obtain ⟨e, -⟩ := writeKey_eq h1
    obtain ⟨H2, h2⟩ := writeKeys_defined (k := k) l (H := H1) (fun x hx => by rw [e]; exact hasRes_upd (h x (List.mem_cons_of_mem _ hx)))
    exact ⟨H2, by simp only [List.foldlM_cons, Option.bind_eq_bind, h1, Option.bind_some]; exact h2⟩

theorem GoodCol.hasRes {H : ColHeap} {c : ℕ} {o : ColObj} {l : List ℕ} (h : GoodCol H c o l) : ∀ r ∈ l, ∃ s d, H.states[r]? = some s ∧ s.res = some d := by
  intro r hr
  obtain ⟨s, hs, i, hi⟩ := h.carry r hr
  exact ⟨s, _, hs, hi⟩

theorem assign_defined {H : ColHeap} {c : ℕ} {k : ColKey} {o : ColObj} {l : List ℕ} (h : GoodCol H c o l) : ∃ H', H.assign c k = some H' := by
  unfold ColHeap.assign
  rw [h.col, Option.bind_some, h.list, Option.bind_some]
  exact writeKeys_defined l h.hasRes

theorem addState_defined {H : ColHeap} {c r : ℕ} {o : ColObj} {l : List ℕ} (h : GoodCol H c o l) (hr : r < H.states.length) : ∃ H', H.addState c r = some H' := by
  unfold ColHeap.addState
  rw [h.col, Option.bind_some, h.list, Option.bind_some]
  have start : ∃ s d, (ColHeap.ensureRes { H with lists := H.lists.set o.lst (l ++ [r]) } r).states[r]? = some s ∧ s.res = some d := by
    rw [ensureRes_eq]
    show ∃ s d, (updAt [r] ensured H.states)[r]? = some s ∧ s.res = some d
    rw [updAt_get, List.getElem?_eq_getElem hr]
    exact ⟨_, _, rfl, by simp only [List.mem_singleton, if_true]; rfl⟩
  have gen : ∀ (ks : List ColKey) (H1 : ColHeap), (∃ s d, H1.states[r]? = some s ∧ s.res = some d) → ∃ H', ks.foldlM (fun (H : ColHeap) k => H.writeKey k r) H1 = some H' := by
    intro ks
    induction ks with
    | nil => exact fun H1 _ => ⟨H1, rfl⟩
    | cons k ks ih =>
      intro H1 h1
      obtain ⟨H2, h2⟩ := writeKey_defined (k := k) h1
      obtain ⟨e, -⟩ := writeKey_eq h2
      obtain ⟨H3, h3⟩ := ih H2 (by rw [e]; exact hasRes_upd h1)
      exact ⟨H3, by simp only [List.foldlM_cons, Option.bind_eq_bind, h2, Option.bind_some]; exact h3⟩
  exact gen _ _ start

theorem addCopy_defined {H : ColHeap} {c r : ℕ} (hI : ColInv H) (hc : c < H.cols.length) (hr : r < H.states.length) : ∃ H', ColHeap.addCopy c H r = some H' := by
  unfold ColHeap.addCopy
  rw [List.getElem?_eq_getElem hr, Option.bind_some]
  obtain ⟨l, hG⟩ := hI.good c _ (List.getElem?_eq_getElem hc)
  have := grow_inv hI [H.states[r]] []
  simp only [List.append_nil] at this
  exact addState_defined (this.2 c _ l hG).1 (by simp)

theorem addCopies_defined {c : ℕ} : ∀ (l : List ℕ) {H : ColHeap}, ColInv H → c < H.cols.length → (∀ r ∈ l, r < H.states.length) → ∃ H', l.foldlM (ColHeap.addCopy c) H = some H'
  | [], H, _, _, _ => ⟨H, rfl⟩
  | r :: l, H, hI, hc, hl => by
    obtain ⟨H1, h1⟩ := addCopy_defined hI hc (hl r List.mem_cons_self)
    obtain ⟨o, l0, s, b, hs, a1, a2, a3, a4, a5, a6, a7, a8⟩ := addCopy_good hI h1
    obtain ⟨H2, h2⟩ := addCopies_defined l a1 (by rw [a7]; exact hc) (fun x hx => by
      have hx' := hl x (List.mem_cons_of_mem _ hx)
      have := a8 x hx'
      rw [List.getElem?_eq_getElem hx'] at this
      exact (List.getElem?_eq_some_iff.1 this).1)
    exact ⟨H2, by simp only [List.foldlM_cons, Option.bind_eq_bind, h1, Option.bind_some]; exact h2⟩

theorem copy_defined {H : ColHeap} {c : ℕ} (hI : ColInv H) (hc : c < H.cols.length) : ∃ H', H.copy c = some H' := by
  obtain ⟨l, hG⟩ := hI.good c _ (List.getElem?_eq_getElem hc)
  unfold ColHeap.copy
  rw [hG.col, Option.bind_some, hG.list, Option.bind_some]
  obtain ⟨n1, -, -, -⟩ := newCol_good hI (H.cols[c]).par
  exact addCopies_defined l n1 (by simp) (fun r hr => hG.lt hr)

theorem replaceStates_defined {H : ColHeap} {c : ℕ} {new : List StateObj} {b : ℝ} {o : ColObj} {l : List ℕ} (hG : GoodCol H c o l) (hnew : ∀ s ∈ new, Carries s o.par) :
    ∃ H', H.replaceStates c new b = some H' := by
  unfold ColHeap.replaceStates ColHeap.assign
  rw [hG.col, Option.bind_some]
  simp only [cols_set_get hG.col, Option.bind_some]
  have hl : (H.lists ++ [(List.range new.length).map (fun i => H.states.length + i)])[H.lists.length]? = some ((List.range new.length).map (fun i => H.states.length + i)) := by simp
  rw [hl, Option.bind_some]
  refine writeKeys_defined _ ?_
  intro r hr
  obtain ⟨i, hi, rfl⟩ := List.mem_map.1 hr
  have hi' := List.mem_range.1 hi
  obtain ⟨j, hj⟩ := hnew _ (List.getElem_mem hi')
  refine ⟨new[i], _, ?_, hj⟩
  show (H.states ++ new)[H.states.length + i]? = _
  rw [List.getElem?_append_right (by omega)]
  simp [hi']

theorem singlePhotonStates_defined {g : Cfg} {H : ColHeap} {c : ℕ} (hI : ColInv H) {b : BookColumn} {b' : Column} (hb : H.view c = some b) (h : b.col.singlePhotonStates g = some b') : ∃ H', H.singlePhotonStates g c = some H' := by
  unfold ColHeap.view at hb
  obtain ⟨o, ho, -⟩ := Option.bind_eq_some_iff.1 hb
  obtain ⟨l, hG⟩ := hI.good c o ho
  obtain ⟨sts, g1, g2, g3, g4⟩ := hG.objs
  obtain rfl : b = _ := Option.some.inj (hb.symm.trans g4)
  unfold Column.singlePhotonStates at h
  rw [show (o.par.viewWith (sts.map StateObj.pst)).col.states = sts.map StateObj.pst from rfl, singles_mapM, Option.map_map] at h
  obtain ⟨x, hx, -⟩ := Option.map_eq_some_iff.1 h
  unfold ColHeap.singlePhotonStates
  rw [ho, Option.bind_some, g3, Option.bind_some, hx, Option.bind_some]
  refine replaceStates_defined hG ?_
  intro s hs
  obtain ⟨y, hy, hsy⟩ := List.mem_flatten.1 hs
  obtain ⟨z, hz, rfl⟩ := List.mem_map.1 hy
  obtain ⟨t, ht, e⟩ := forall₂_mem_right (mapM_some_iff.1 hx) hz
  obtain ⟨w, -, rfl⟩ := Option.map_eq_some_iff.1 e
  obtain ⟨p, -, rfl⟩ := List.mem_map.1 hsy
  exact members_carry hG g3 t ht

theorem condense_defined {g : Cfg} {H : ColHeap} {c : ℕ} (hI : ColInv H) {b : BookColumn} {b' : Column} (hb : H.view c = some b) (h : b.col.condense g = some b') (use : Bool) : ∃ H', H.condense g c use = some H' := by
  unfold ColHeap.view at hb
  obtain ⟨o, ho, -⟩ := Option.bind_eq_some_iff.1 hb
  obtain ⟨l, hG⟩ := hI.good c o ho
  obtain ⟨sts, g1, g2, g3, g4⟩ := hG.objs
  obtain rfl : b = _ := Option.some.inj (hb.symm.trans g4)
  unfold Column.condense at h
  rw [show (o.par.viewWith (sts.map StateObj.pst)).col.states = sts.map StateObj.pst from rfl, firstValues_mapM] at h
  obtain ⟨vs, hvs, h⟩ := Option.bind_eq_some_iff.1 h
  obtain ⟨v, hv, h⟩ := Option.bind_eq_some_iff.1 h
  obtain ⟨nm, hnm, h⟩ := Option.bind_eq_some_iff.1 h
  obtain ⟨lastp, hlast, h⟩ := Option.bind_eq_some_iff.1 h
  obtain ⟨comps, hcomps, h⟩ := Option.bind_eq_some_iff.1 h
  obtain ⟨cum, hcum, -⟩ := Option.map_eq_some_iff.1 h
  rw [List.getLast?_map] at hlast
  obtain ⟨last, hl, rfl⟩ := Option.map_eq_some_iff.1 hlast
  unfold columnValues at hv
  rw [show (o.par.viewWith (sts.map StateObj.pst)).col.states = sts.map StateObj.pst from rfl, firstValues_mapM, hvs] at hv
  have hcum' : setCum (o.par.gprob * ‖o.par.amp‖ ^ 2) = some cum := hcum
  unfold ColHeap.condense
  rw [ho, Option.bind_some, g3, Option.bind_some, hvs, Option.bind_some]
  cases vs with
  | nil => simp at hv
  | cons v0 rest =>
    simp only [Option.bind_some, Option.some.injEq] at hv
    simp only [hv, hnm, Option.bind_some, hl, hcomps]
    have : ∃ x, (if use then setCum (o.par.gprob * ‖o.par.amp‖ ^ 2) else some last.q.cum) = some x := by
      cases use
      · exact ⟨_, rfl⟩
      · exact ⟨cum, hcum'⟩
    obtain ⟨x, hx⟩ := this
    rw [hx, Option.bind_some]
    refine replaceStates_defined hG ?_
    intro s hs
    rw [List.mem_singleton.1 hs]
    exact members_carry hG g3 last (List.mem_of_getLast? hl)

theorem objSplit_defined {g : Cfg} {H : ColHeap} {c : ℕ} (n : ℕ) (hI : ColInv H) {b : BookColumn} (hb : H.view c = some b) (h : b.col.split g ≠ none) : ∃ x, H.split g c n = some x := by
  unfold ColHeap.view at hb
  obtain ⟨o, ho, -⟩ := Option.bind_eq_some_iff.1 hb
  obtain ⟨l, hG⟩ := hI.good c o ho
  obtain ⟨sts, g1, g2, g3, g4⟩ := hG.objs
  obtain rfl : b = _ := Option.some.inj (hb.symm.trans g4)
  unfold Column.split at h
  rw [show (o.par.viewWith (sts.map StateObj.pst)).col.states = sts.map StateObj.pst from rfl, splitIndex_map] at h
  unfold ColHeap.split
  rw [ho, Option.bind_some, hG.list, Option.bind_some, g1, Option.bind_some]
  cases hf : sts.findIdx? (fun s => s.q.comps.length ≠ 1) with
  | none => exact ⟨_, rfl⟩
  | some i =>
    rw [hf] at h
    simp only at h ⊢
    obtain ⟨H1, h1⟩ := copy_defined hI hG.col_lt
    obtain ⟨o', l', b, l0, c1, c2, c3, c4, c5, c6, c7, c8⟩ := copy_good hI h1
    obtain ⟨rfl, rfl⟩ := hG.unique c1
    obtain ⟨H2, h2⟩ := assign_defined (k := .cid n) c6
    obtain ⟨o3, l3, d0, d1, d2, d3, d4, d5⟩ := assign_good c4 h2
    obtain ⟨rfl, rfl⟩ := c6.unique d0
    have hne : c ≠ H.cols.length := hG.col_lt.ne
    have hGc := d2.good (c5.good hG hne) hne
    rw [h1, Option.bind_some, h2, Option.bind_some, d3.col, Option.bind_some, d3.list, Option.bind_some]
    have hlen : sts.length = l.length := by simpa using (congrArg List.length g2).symm
    have tail : ∀ (rNew rOld : ℕ) (newComps rem : Comps) (z z' : ℂ), l[i]? = some rOld → l0[i]? = some rNew →
        ∃ x, (((H2.setComps rNew newComps).setComps rOld rem).assign c (.amp z)).bind (fun H3 => (H3.assign H.cols.length (.amp z')).map (fun H4 => (H4, true))) = some x := by
      intro rNew rOld newComps rem z z' q1 q2
      obtain ⟨a1, a2, a3, -⟩ := setComps_good newComps d1 d3 q2
      obtain ⟨b1, b2, b3, -⟩ := setComps_good rem a1 (a2.good hGc hne) q1
      obtain ⟨H3, h3⟩ := assign_defined (k := .amp z) b3
      obtain ⟨o4, l4, e0, e1, e2, e3, -⟩ := assign_good b1 h3
      obtain ⟨H4, h4⟩ := assign_defined (k := .amp z') (e2.good (b2.good a3 (Ne.symm hne)) (Ne.symm hne))
      exact ⟨(H4, true), by rw [h3, Option.bind_some, h4]; rfl⟩
    cases hsi : sts[i]? with
    | none =>
      rw [List.getElem?_map, hsi] at h
      simp at h
    | some s =>
      have hi : i < sts.length := (List.getElem?_eq_some_iff.1 hsi).1
      obtain ⟨rOld, q1⟩ : ∃ r, l[i]? = some r := ⟨_, List.getElem?_eq_getElem (by omega)⟩
      obtain ⟨rNew, q2⟩ : ∃ r, l0[i]? = some r := ⟨_, List.getElem?_eq_getElem (by omega)⟩
      rw [List.getElem?_map, hsi] at h
      simp only [Option.map_some, q1, q2] at h ⊢
      have hp : s.pst.q.comps = s.q.comps := rfl
      rw [hp] at h
      generalize s.q.comps = m at h
      match m, h with
      | [], h => exact absurd rfl h
      | [x], h => exact absurd rfl h
      | (s0, k0) :: (s1, k1) :: rest, h =>
        simp only at h ⊢
        cases hnc : setFromList g [(s0, 1)] with
        | none => rw [hnc] at h; exact absurd rfl h
        | some newComps =>
          rw [hnc] at h
          simp only [Option.bind_some] at h ⊢
          by_cases hrest : rest = []
          · rw [if_pos hrest] at h ⊢
            cases hrem : setFromList g [(s1, 1)] with
            | none => rw [hrem] at h; exact absurd rfl h
            | some rem => rw [Option.bind_some]; exact tail rNew rOld newComps rem _ _ q1 q2
          · rw [if_neg hrest] at h ⊢
            by_cases hr0 : Real.sqrt (1 - ‖k0.amp‖ ^ 2) = 0
            · rw [if_pos hr0] at h; exact absurd rfl h
            · rw [if_neg hr0] at h ⊢
              cases hrem : setFromList g (((s1, k1) :: rest).map (fun p => (p.1, p.2.amp / ((Real.sqrt (1 - ‖k0.amp‖ ^ 2) : ℝ) : ℂ)))) with
              | none => rw [hrem] at h; exact absurd rfl h
              | some rem => rw [Option.bind_some]; exact tail rNew rOld newComps rem _ _ q1 q2

end Verif
