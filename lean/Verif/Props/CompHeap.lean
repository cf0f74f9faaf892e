/-
Property C110: `clean_up` and the collections that share component dictionaries.
-/
import Verif.Lemmas.CompHeap5

namespace Verif.Props
open Verif Spec

/-- `clean_up` changes a component of another collection only if it belongs to both and is below the threshold; it is then zero -/
theorem cleanUp_other {thr : ℝ} {labels : List (List Char)} {h h' : EHeap} {A B B' : HColl} (hA : Live h A) (hno : ∀ p ∈ A, ∀ q ∈ B, p.2 ≠ q.2)
    (he : eCleanUp thr labels h B = some (h', B')) {p : List Char × ℕ} (hp : p ∈ A) :
    ∃ o, h.objs[p.2]? = some o ∧ h'.objs[p.2]? = some o ∧ ∀ e ∈ o.comps, h'.cell e.2 = h.cell e.2 ∨
      (UsesRec h B e.2 ∧ (h.cell e.2).prob < thr ∧ h'.cell e.2 = ⟨0, 0⟩) := by
  have t := eCleanUp_touches he
  obtain ⟨o, ho, hr⟩ := hA p hp
  refine ⟨o, ho, ?_, ?_⟩
  · rw [t.objs p.2 (List.getElem?_eq_some_iff.1 ho).1 ?_, ho]
    rintro ⟨q, hq, e⟩
    exact hno p hp q hq e.symm
  · intro e he
    rcases t.recs e.2 (hr e he) with g | ⟨g1, g2, g3⟩
    · exact Or.inl (EHeap.cell_congr g)
    · right
      refine ⟨g1, g2, ?_⟩
      unfold EHeap.cell
      rw [List.getD_eq_getElem?_getD, g3]
      rfl

/-- **C110** What `clean_up` does to the collection itself: if no two components share a dictionary, then the collection shows the contents that
`clean_up` gives for states as values (all theorems of C41 apply), and an exception occurs in the same cases. -/
theorem C110_itself (g : Cfg) (m : ℕ) (thr : ℝ) (labels : List (List Char)) (h : EHeap) (coll : HColl) (C : Coll) (hu : Unshared h coll)
    (hv : h.view coll = some C) :
    (∀ h' coll', eCleanUp thr labels h coll = some (h', coll') →
      ∃ C', cleanUp ⟨g, m, thr, C⟩ labels = some ⟨g, m, thr, C'⟩ ∧ h'.view coll' = some C' ∧ Unshared h' coll') ∧
    (eCleanUp thr labels h coll = none → cleanUp ⟨g, m, thr, C⟩ labels = none) := by
  have key := eCleanUp_sim (thr := thr) (labels := labels) hu hv
  have hc : cleanUp ⟨g, m, thr, C⟩ labels = (labels.foldlM (fun states label => (cleanGroups thr label states).bind (fun sg => mergeGroups thr sg.2 sg.1)) C).bind
      (fun C' => some ⟨g, m, thr, C'⟩) := rfl
  constructor
  · intro h' coll' he
    rw [he] at key
    cases hf : labels.foldlM (fun states label => (cleanGroups thr label states).bind (fun sg => mergeGroups thr sg.2 sg.1)) C with
    | none => rw [hf] at key; exact key.elim
    | some C' =>
      rw [hf] at key
      exact ⟨C', by rw [hc, hf]; rfl, key.1, key.2⟩
  · intro he
    rw [he] at key
    cases hf : labels.foldlM (fun states label => (cleanGroups thr label states).bind (fun sg => mergeGroups thr sg.2 sg.1)) C with
    | none => rw [hc, hf]; rfl
    | some C' => rw [hf] at key; exact key.elim

/-- **C110** (partial: the collections have no State object and no dictionary of a component in common) `clean_up` changes no other collection. -/
theorem C110_partial (thr : ℝ) (labels : List (List Char)) (h h' : EHeap) (other coll coll' : HColl) (hl : Live h other) (hap : Apart h other coll)
    (he : eCleanUp thr labels h coll = some (h', coll')) : h'.view other = h.view other := by
  apply EHeap.view_congr
  intro p hp
  obtain ⟨o, ho, ho', hc⟩ := cleanUp_other hl hap.1 he hp
  refine EHeap.get_congr ho ho' (fun e he => ?_)
  rcases hc e he with g | ⟨g, -, -⟩
  · exact g
  · exact absurd ⟨⟨p, hp, o, ho, e, he, rfl⟩, g⟩ (hap.2 e.2)

/-- **C110** Cleaning up a copy changes neither the original nor any other collection that existed before, and cleaning up the original does not
change the copy: it still shows the contents that were copied. -/
theorem C110_copy (thr thr' : ℝ) (m : ℕ) (labels : List (List Char)) (h h' h'' : EHeap) (coll copy coll' : HColl) (C : Coll) (hl : Live h coll)
    (hids : (coll.map Prod.fst).Nodup) (hv : h.view coll = some C) (hc : eCopyColl thr' m h coll = some (h', copy)) :
    (∀ other, Live h other → eCleanUp thr labels h' copy = some (h'', coll') → h''.view other = h.view other) ∧
    (eCleanUp thr labels h' coll = some (h'', coll') → h''.view copy = some C) := by
  obtain ⟨hle, hfr, hcp⟩ := eCopyColl_some hl hc
  constructor
  · intro other ho he
    rw [C110_partial thr labels h' h'' other copy coll' (hle.live ho) (hfr.apart hle ho) he]
    exact hle.view ho
  · intro he
    have hap := hfr.apart hle hl
    rw [C110_partial thr labels h' h'' copy coll coll' hfr.live ⟨fun p hp q hq e => hap.1 q hq p hp e.symm, fun r hr => hap.2 r hr.symm⟩ he]
    obtain ⟨O, hO, hv'⟩ := hcp C hv
    have hk : (C.map Prod.fst).Nodup := by rw [← show coll.map Prod.fst = C.map Prod.fst from (view_keys hv).1]; exact hids
    obtain ⟨-, rfl⟩ := (copyColl_iff hk).1 hO
    exact hv'

/-- **C110** `shift_direct` and `c_shift_direct` (any `move` of the photon numbers): the given collection is unchanged and the result shows the shifted
states (as in C42 and C43). -/
theorem C110_shift (c : Circ) (move : Vals → Option Vals) (r : ℕ → ℕ → ℕ) (h h' : EHeap) (coll out : HColl) (C : Coll) (hl : Live h coll)
    (hv : h.view coll = some C) (hs : eMoveColl c move r h coll = some (h', out)) :
    h'.view coll = some C ∧ ∃ O, moveColl c move r C = some O ∧ h'.view out = some O := by
  obtain ⟨hle, -, h3⟩ := eMoveColl_some hl hs
  exact ⟨by rw [hle.view hl, hv], h3 C hv⟩

/-- **C110** (partial: no component of the given collection has a probability below the threshold) Cleaning up the result of a direct shift does not
change the collection that was shifted. -/
theorem C110_shift_partial (c : Circ) (move : Vals → Option Vals) (r : ℕ → ℕ → ℕ) (labels : List (List Char)) (thr : ℝ) (h h' h'' : EHeap)
    (coll out out' : HColl) (C : Coll) (hl : Live h coll) (hv : h.view coll = some C) (hbig : ∀ P ∈ C, ∀ e ∈ P.2.comps, thr ≤ e.2.prob)
    (hs : eMoveColl c move r h coll = some (h', out)) (he : eCleanUp thr labels h' out = some (h'', out')) : h''.view coll = some C := by
  obtain ⟨hle, hb, -⟩ := eMoveColl_some hl hs
  have hvl : h'.view coll = some C := by rw [hle.view hl, hv]
  rw [← hvl]
  apply EHeap.view_congr
  intro p hp
  have hno : ∀ p ∈ coll, ∀ q ∈ out, p.2 ≠ q.2 := by
    intro p hp q hq e
    obtain ⟨o, ho, -⟩ := hl p hp
    have := (List.getElem?_eq_some_iff.1 ho).1
    have := (hb q hq).1
    omega
  obtain ⟨o, ho, ho', hc⟩ := cleanUp_other (hle.live hl) hno he hp
  refine EHeap.get_congr ho ho' (fun e he => ?_)
  rcases hc e he with g | ⟨-, g, -⟩
  · exact g
  · exfalso
    have hvp := hvl
    unfold EHeap.view at hvp
    rw [mapM_some_iff] at hvp
    obtain ⟨P, hP, hPe⟩ := forall₂_mem_left' hvp hp
    have hg : h'.get p.2 = some (h'.val o) := by unfold EHeap.get; rw [ho]; rfl
    rw [hg] at hPe
    obtain rfl := Option.some.inj hPe
    have := hbig _ hP (e.1, h'.cell e.2) (List.mem_map.2 ⟨e, he, rfl⟩)
    simp only at this
    linarith

/-- **C110** In general: after cleaning up the result of a direct shift, every State object of the shifted collection still has its label, probability,
classical values, results and component names, and every component is as before, or its probability was below the threshold and its amplitude and
probability are now 0. -/
theorem C110_shift_lost (c : Circ) (move : Vals → Option Vals) (r : ℕ → ℕ → ℕ) (labels : List (List Char)) (thr : ℝ) (h h' h'' : EHeap)
    (coll out out' : HColl) (hl : Live h coll)
    (hs : eMoveColl c move r h coll = some (h', out)) (he : eCleanUp thr labels h' out = some (h'', out')) (p : List Char × ℕ) (hp : p ∈ coll) :
    ∃ P Q, h.get p.2 = some P ∧ h''.get p.2 = some Q ∧ Q = { P with comps := Q.comps } ∧
      List.Forall₂ (fun (e e' : Name × Comp) => e.1 = e'.1 ∧ (e'.2 = e.2 ∨ (e.2.prob < thr ∧ e'.2 = ⟨0, 0⟩))) P.comps Q.comps := by
  obtain ⟨hle, hb, -⟩ := eMoveColl_some hl hs
  have hno : ∀ p ∈ coll, ∀ q ∈ out, p.2 ≠ q.2 := by
    intro p hp q hq e
    obtain ⟨o, ho, -⟩ := hl p hp
    have := (List.getElem?_eq_some_iff.1 ho).1
    have := (hb q hq).1
    omega
  obtain ⟨o, ho, ho', hc⟩ := cleanUp_other (hle.live hl) hno he hp
  obtain ⟨o1, ho1, hr1⟩ := hl p hp
  obtain rfl : o1 = o := by
    have := hle.obj ho1
    rw [ho] at this
    exact (Option.some.inj this).symm
  refine ⟨h.val o1, h''.val o1, by unfold EHeap.get; rw [ho1]; rfl, by unfold EHeap.get; rw [ho']; rfl, rfl, ?_⟩
  show List.Forall₂ _ (o1.comps.map _) (o1.comps.map _)
  rw [List.forall₂_map_left_iff, List.forall₂_map_right_iff, List.forall₂_same]
  intro e he
  refine ⟨rfl, ?_⟩
  have hcell : h'.cell e.2 = h.cell e.2 := hle.cell (hr1 e he)
  simp only
  rw [← hcell]
  rcases hc e he with g | ⟨-, g, g'⟩
  · exact Or.inl g
  · exact Or.inr ⟨g, g'⟩

/-- a state with a small component -/
noncomputable def smallRecs : List Comp :=
  [⟨((9999 / 10001 : ℝ) : ℂ), (9999 / 10001) ^ 2⟩, ⟨((200 / 10001 : ℝ) : ℂ), (200 / 10001) ^ 2⟩]

/-- the collection with this state -/
noncomputable def smallHeap : EHeap := ⟨smallRecs, [⟨"00".toList, 1, [("00".toList, 0), ("01".toList, 1)], [], []⟩]⟩

/-- length 3, two channels, the threshold 1/1000 -/
noncomputable def smallCirc : Circ := ⟨⟨3, 2, true⟩, 0, 1 / 1000, true, []⟩

/-- after `shift_direct`: the copy (1) that is discarded, and the result (2), with the dictionaries 0 and 1 of the original -/
noncomputable def shiftedHeap : EHeap := ⟨smallRecs ++ smallRecs ++ smallRecs,
  smallHeap.objs ++ [⟨"00".toList, 1, [("00".toList, 2), ("01".toList, 3)], [], []⟩, ⟨"00".toList, 1, [("10".toList, 0), ("11".toList, 1)], [], []⟩]⟩

theorem small_valid : CheckValid (1 / 1000) 0 ⟨"00".toList, 1, [("00".toList, ⟨((9999 / 10001 : ℝ) : ℂ), (9999 / 10001) ^ 2⟩),
    ("01".toList, ⟨((200 / 10001 : ℝ) : ℂ), (200 / 10001) ^ 2⟩)], [], []⟩ := by
  refine ⟨by norm_num, by norm_num, ?_, rfl⟩
  intro p hp
  simp only [List.mem_cons, List.not_mem_nil, or_false] at hp
  rcases hp with rfl | rfl <;> constructor <;> norm_num

theorem copyState_of {thr : ℝ} {m : ℕ} {h : EHeap} {a : ℕ} {s : EState} (hs : h.objs[a]? = some s) (hv : CheckValid thr m (h.val s)) :
    eCopyState thr m h a = some (⟨h.recs ++ s.comps.map (fun p => h.cell p.2),
      h.objs ++ [{ s with comps := s.comps.zipIdx.map (fun p => (p.1.1, h.recs.length + p.2)) }]⟩, h.objs.length) := by
  unfold eCopyState copyState
  simp only [Option.bind_eq_bind]
  rw [hs, Option.bind_some, if_pos hv]
  rfl

theorem small_copy : eCopyColl (1 / 1000) 0 smallHeap [("a".toList, 0)] = some (⟨smallRecs ++ smallRecs,
    smallHeap.objs ++ [⟨"00".toList, 1, [("00".toList, 2), ("01".toList, 3)], [], []⟩]⟩, [("a".toList, 1)]) := by
  unfold eCopyColl
  simp only [List.foldlM_cons, List.foldlM_nil, Option.bind_eq_bind]
  rw [copyState_of (h := smallHeap) rfl small_valid]
  rfl

theorem small_move : eMoveColl smallCirc (shiftValues 3 [0] [1]) (fun _ _ => 0) smallHeap [("a".toList, 0)] =
    some (shiftedHeap, [(freshId [] (fun _ => 0), 2)]) := by
  have hm : ∀ h : EHeap, moveRefs ⟨3, 2, true⟩ (shiftValues 3 [0] [1]) h [("00".toList, 0), ("01".toList, 1)] =
      some [("10".toList, 0), ("11".toList, 1)] := by
    intro h
    unfold moveRefs
    have h1 : List.foldlM (fun (d : Dict (List Char) ℕ) (p : List Char × ℕ) => do
        let v ← (⟨3, 2, true⟩ : Cfg).parse p.1
        let w ← shiftValues 3 [0] [1] v
        let s ← (⟨3, 2, true⟩ : Cfg).render w
        some (d.set s p.2)) [] [("00".toList, 0), ("01".toList, 1)] = some [("10".toList, 0), ("11".toList, 1)] := by rfl
    rw [h1]
    have c1 : (⟨3, 2, true⟩ : Cfg).containsName "10".toList = some true := by rfl
    have c2 : (⟨3, 2, true⟩ : Cfg).containsName "11".toList = some true := by rfl
    have h2 : setFromDict ⟨3, 2, true⟩ (h.read [("10".toList, 0), ("11".toList, 1)]) = some (h.read [("10".toList, 0), ("11".toList, 1)]) := by
      unfold setFromDict EHeap.read
      rw [if_pos]
      simp only [List.map_cons, List.map_nil, List.all_cons, List.all_nil, c1, c2]
      rfl
    simp only [Option.bind_eq_bind, Option.bind_some, h2]
  unfold eMoveColl
  simp only [Option.bind_eq_bind]
  rw [show smallCirc.thr = 1 / 1000 from rfl, show smallCirc.m = 0 from rfl, show smallCirc.g = ⟨3, 2, true⟩ from rfl, small_copy]
  simp only [Option.bind_some, List.foldlM_cons, List.foldlM_nil, Option.bind_eq_bind]
  have hcp := copyState_of (thr := 1 / 1000) (m := 0) (a := 0)
    (h := ⟨smallRecs ++ smallRecs, smallHeap.objs ++ [⟨"00".toList, 1, [("00".toList, 2), ("01".toList, 3)], [], []⟩]⟩)
    (s := ⟨"00".toList, 1, [("00".toList, 0), ("01".toList, 1)], [], []⟩) rfl small_valid
  rw [hcp]
  have ho : (smallHeap.objs ++ [⟨"00".toList, 1, [("00".toList, 2), ("01".toList, 3)], [], []⟩])[0]? =
    some ⟨"00".toList, 1, [("00".toList, 0), ("01".toList, 1)], [], []⟩ := rfl
  simp only [ho, Option.bind_some, hm]
  rfl

/-- after `clean_up` of the result: the dictionary 1 is zero -/
noncomputable def cleanedHeap : EHeap := { shiftedHeap with recs := shiftedHeap.recs.set 1 ⟨0, 0⟩ }

theorem small_clean (k : List Char) : eCleanUp (1 / 1000) ["00".toList] shiftedHeap [(k, 2)] = some (cleanedHeap, [(k, 2)]) := by
  have hn : ‖((9999 / 10001 : ℝ) : ℂ)‖ ^ 2 = (9999 / 10001) ^ 2 := by rw [Complex.norm_real, Real.norm_eq_abs, sq_abs]
  have hr : eRescale (1 / 1000) shiftedHeap 2 = some cleanedHeap := by
    rw [eRescale_eq]
    have ho : shiftedHeap.objs[2]? = some ⟨"00".toList, 1, [("10".toList, 0), ("11".toList, 1)], [], []⟩ := rfl
    rw [ho, Option.bind_some]
    have hz : List.foldl (zeroStep (1 / 1000)) (shiftedHeap.recs, 0) [("10".toList, 0), ("11".toList, 1)] =
        (cleanedHeap.recs, (9999 / 10001) ^ 2) := by
      rw [List.foldl_cons, List.foldl_cons, List.foldl_nil]
      have e0 : shiftedHeap.recs.getD 0 ⟨0, 0⟩ = ⟨((9999 / 10001 : ℝ) : ℂ), (9999 / 10001) ^ 2⟩ := rfl
      have e1 : shiftedHeap.recs.getD 1 ⟨0, 0⟩ = ⟨((200 / 10001 : ℝ) : ℂ), (200 / 10001) ^ 2⟩ := rfl
      have s0 : zeroStep (1 / 1000) (shiftedHeap.recs, 0) ("10".toList, 0) = (shiftedHeap.recs, (9999 / 10001) ^ 2) := by
        unfold zeroStep
        simp only [e0]
        rw [if_neg (by norm_num), hn, zero_add]
      rw [s0]
      unfold zeroStep
      simp only [e1]
      rw [if_pos (by norm_num)]
      rfl
    simp only [hz]
    rw [if_neg (by rw [ge_iff_le, not_le, abs_lt]; constructor <;> norm_num)]
    rfl
  have hg : eCleanGroups (1 / 1000) "00".toList shiftedHeap [(k, 2)] = some (cleanedHeap, [(k, [])]) := by
    unfold eCleanGroups
    simp only [List.foldlM_cons, List.foldlM_nil]
    have g1 : shiftedHeap.get 2 = some (shiftedHeap.val ⟨"00".toList, 1, [("10".toList, 0), ("11".toList, 1)], [], []⟩) := rfl
    have g2 : cleanedHeap.get 2 = some (cleanedHeap.val ⟨"00".toList, 1, [("10".toList, 0), ("11".toList, 1)], [], []⟩) := rfl
    simp only [g1, Option.bind_eq_bind, Option.bind_some]
    rw [if_pos (show (shiftedHeap.val ⟨"00".toList, 1, [("10".toList, 0), ("11".toList, 1)], [], []⟩).initial = "00".toList from rfl), hr]
    simp only [Option.bind_some, g2]
    rfl
  unfold eCleanUp
  simp only [List.foldlM_cons, List.foldlM_nil, Option.bind_eq_bind]
  rw [hg]
  simp only [Option.bind_some]
  unfold eMergeGroups
  simp only [List.foldlM_cons, List.foldlM_nil]
  have g2 : cleanedHeap.get 2 = some (cleanedHeap.val ⟨"00".toList, 1, [("10".toList, 0), ("11".toList, 1)], [], []⟩) := rfl
  have hk : Dict.get? [(k, 2)] k = some 2 := by simp [Dict.get?]
  have hc : (cleanedHeap.val ⟨"00".toList, 1, [("10".toList, 0), ("11".toList, 1)], [], []⟩).cum = 1 := rfl
  simp only [Option.bind_eq_bind, hk, Option.bind_some, g2, Option.pure_def, hc]
  rw [if_pos (by norm_num), show setCum 1 = some 1 by unfold setCum; norm_num]
  rfl

/-- **C110** fails in general: a collection with one state, with a component of probability 0.0004, is shifted with `shift_direct`; cleaning up the
result (threshold 0.001) sets this component to zero in the collection that was shifted. -/
theorem C110_fails : ∃ (c : Circ) (targets : List ℕ) (shifts : List ℤ) (r : ℕ → ℕ → ℕ) (h h' h'' : EHeap) (coll out out' : HColl) (C D : QState) (k : List Char),
    Unshared h coll ∧ h.view coll = some [(k, C)] ∧ CheckValid c.thr c.m C ∧ totalProb C.comps = 1 ∧
    eMoveColl c (shiftValues c.g.L targets shifts) r h coll = some (h', out) ∧ h'.view coll = some [(k, C)] ∧
    eCleanUp c.thr [C.initial] h' out = some (h'', out') ∧ h''.view coll = some [(k, D)] ∧
    ampOf C.comps "01".toList = 200 / 10001 ∧ ampOf D.comps "01".toList = 0 := by
  have hu : Unshared smallHeap [("a".toList, 0)] := by
    refine ⟨?_, by simp, by simp, ?_, ?_⟩
    · intro p hp
      obtain rfl := List.mem_singleton.1 hp
      exact ⟨_, rfl, by decide⟩
    · intro p hp o ho
      obtain rfl := List.mem_singleton.1 hp
      obtain rfl := Option.some.inj ho
      decide
    · intro p hp p' hp' o o' ho ho'
      obtain rfl := List.mem_singleton.1 hp
      obtain rfl := List.mem_singleton.1 hp'
      obtain rfl := Option.some.inj ho
      obtain rfl := Option.some.inj ho'
      decide
  have hv : smallHeap.view [("a".toList, 0)] = some [("a".toList, _)] := rfl
  refine ⟨smallCirc, [0], [1], fun _ _ => 0, smallHeap, shiftedHeap, cleanedHeap, [("a".toList, 0)], _, _, _, _, "a".toList, hu, hv, small_valid, ?_,
    small_move, rfl, small_clean _, rfl, ?_, ?_⟩
  · simp [totalProb, smallHeap, EHeap.val, EHeap.read, EHeap.cell, smallRecs]
    norm_num
  · simp [ampOf, smallHeap, EHeap.val, EHeap.read, EHeap.cell, smallRecs, Dict.get?]
  · simp [ampOf, smallHeap, EHeap.val, EHeap.read, EHeap.cell, smallRecs, Dict.get?, cleanedHeap, shiftedHeap]

/-- non-vacuity of the theorems about direct shifts and copies: the same collection, cleaned up with the threshold 1/1000000. -/
example : Live smallHeap [("a".toList, 0)] ∧ (∃ C, smallHeap.view [("a".toList, 0)] = some C ∧ ∀ P ∈ C, ∀ e ∈ P.2.comps, 1 / 1000000 ≤ e.2.prob) ∧
    (∃ h' out, eMoveColl smallCirc (shiftValues 3 [0] [1]) (fun _ _ => 0) smallHeap [("a".toList, 0)] = some (h', out) ∧
      Unshared h' out ∧ ∃ h'' out', eCleanUp (1 / 1000000) ["00".toList] h' out = some (h'', out')) ∧
    ∃ h' copy, eCopyColl (1 / 1000) 0 smallHeap [("a".toList, 0)] = some (h', copy) ∧ Apart h' copy [("a".toList, 0)] := by
  have hl : Live smallHeap [("a".toList, 0)] := by
    intro p hp
    obtain rfl := List.mem_singleton.1 hp
    exact ⟨_, rfl, by decide⟩
  refine ⟨hl, ⟨_, rfl, ?_⟩, ⟨_, _, small_move, ?_, ?_⟩, _, _, small_copy, ?_⟩
  · intro P hP e he
    obtain rfl := List.mem_singleton.1 hP
    change e ∈ [("00".toList, (⟨((9999 / 10001 : ℝ) : ℂ), (9999 / 10001) ^ 2⟩ : Comp)), ("01".toList, ⟨((200 / 10001 : ℝ) : ℂ), (200 / 10001) ^ 2⟩)] at he
    simp only [List.mem_cons, List.not_mem_nil, or_false] at he
    rcases he with rfl | rfl <;> norm_num
  · refine ⟨?_, by simp, by simp, ?_, ?_⟩
    · intro p hp
      obtain rfl := List.mem_singleton.1 hp
      exact ⟨_, rfl, by decide⟩
    · intro p hp o ho
      obtain rfl := List.mem_singleton.1 hp
      obtain rfl := Option.some.inj ho
      decide
    · intro p hp p' hp' o o' ho ho'
      obtain rfl := List.mem_singleton.1 hp
      obtain rfl := List.mem_singleton.1 hp'
      obtain rfl := Option.some.inj ho
      obtain rfl := Option.some.inj ho'
      intro e he e' he' hee
      refine ⟨rfl, ?_⟩
      simp only [List.mem_cons, List.not_mem_nil, or_false] at he he'
      rcases he with rfl | rfl <;> rcases he' with rfl | rfl <;> simp_all
  · generalize freshId [] (fun _ => 0) = k
    have hr : eRescale (1 / 1000000) shiftedHeap 2 = some shiftedHeap := by
      rw [eRescale_eq]
      have ho : shiftedHeap.objs[2]? = some ⟨"00".toList, 1, [("10".toList, 0), ("11".toList, 1)], [], []⟩ := rfl
      rw [ho, Option.bind_some]
      have hz : List.foldl (zeroStep (1 / 1000000)) (shiftedHeap.recs, 0) [("10".toList, 0), ("11".toList, 1)] = (shiftedHeap.recs, 1) := by
        rw [List.foldl_cons, List.foldl_cons, List.foldl_nil]
        have e0 : shiftedHeap.recs.getD 0 ⟨0, 0⟩ = ⟨((9999 / 10001 : ℝ) : ℂ), (9999 / 10001) ^ 2⟩ := rfl
        have e1 : shiftedHeap.recs.getD 1 ⟨0, 0⟩ = ⟨((200 / 10001 : ℝ) : ℂ), (200 / 10001) ^ 2⟩ := rfl
        have s0 : zeroStep (1 / 1000000) (shiftedHeap.recs, 0) ("10".toList, 0) = (shiftedHeap.recs, (9999 / 10001) ^ 2) := by
          unfold zeroStep
          simp only [e0]
          rw [if_neg (by norm_num), Complex.norm_real, Real.norm_eq_abs, sq_abs, zero_add]
        rw [s0]
        unfold zeroStep
        simp only [e1]
        rw [if_neg (by norm_num), Complex.norm_real, Real.norm_eq_abs, sq_abs]
        congr 1
        norm_num
      simp only [hz]
      rw [if_neg (by norm_num)]
    have g1 : shiftedHeap.get 2 = some (shiftedHeap.val ⟨"00".toList, 1, [("10".toList, 0), ("11".toList, 1)], [], []⟩) := rfl
    have hg : eCleanGroups (1 / 1000000) "00".toList shiftedHeap [(k, 2)] = some (shiftedHeap, [(k, [])]) := by
      unfold eCleanGroups
      simp only [List.foldlM_cons, List.foldlM_nil]
      simp only [g1, Option.bind_eq_bind, Option.bind_some]
      rw [if_pos (show (shiftedHeap.val ⟨"00".toList, 1, [("10".toList, 0), ("11".toList, 1)], [], []⟩).initial = "00".toList from rfl), hr]
      simp only [Option.bind_some, g1]
      rfl
    refine ⟨shiftedHeap, [(k, 2)], ?_⟩
    unfold eCleanUp
    simp only [List.foldlM_cons, List.foldlM_nil, Option.bind_eq_bind]
    rw [hg]
    simp only [Option.bind_some]
    unfold eMergeGroups
    simp only [List.foldlM_cons, List.foldlM_nil]
    have hk : Dict.get? [(k, 2)] k = some 2 := by simp [Dict.get?]
    have hc : (shiftedHeap.val ⟨"00".toList, 1, [("10".toList, 0), ("11".toList, 1)], [], []⟩).cum = 1 := rfl
    simp only [Option.bind_eq_bind, hk, Option.bind_some, g1, Option.pure_def, hc]
    rw [if_pos (by norm_num), show setCum 1 = some 1 by unfold setCum; norm_num]
    rfl
  · obtain ⟨hle, hfr, -⟩ := eCopyColl_some hl small_copy
    have hap := hfr.apart hle hl
    exact ⟨fun p hp q hq e => hap.1 q hq p hp e.symm, fun r hr => hap.2 r hr.symm⟩

end Verif.Props
