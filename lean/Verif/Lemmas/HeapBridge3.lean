/-
Lemmas for the object-level model of compound circuits (C30, C32).
-/
import Verif.Lemmas.HeapBridge2
import Verif.Lemmas.Evaluate

namespace Verif
open Spec Props

theorem withBridge_node (c : HCirc) (b : Option ℕ) (i : ℕ) (n : HNode) (h : c.nodes[i]? = some n) : (c.withBridge b).nodes[i]? = some n.node := by
  have hlt := (List.getElem?_eq_some_iff.1 h).1
  have hlen : i < c.circ.nodes.length := by simpa [HCirc.circ] using hlt
  show (c.circ.nodes ++ _)[i]? = _
  rw [List.getElem?_append_left hlen]
  simp [HCirc.circ, h]

theorem withBridge_end (c : HCirc) (b : Option ℕ) (i : ℕ) (h : c.nodes[i]? = none) (hi : i < (c.withBridge b).nodes.length) :
    ∃ j, b = some j ∧ (c.withBridge b).nodes[i]? = some (.bridge j) := by
  have hge := List.getElem?_eq_none_iff.1 h
  have hlen : c.circ.nodes.length = c.nodes.length := by simp [HCirc.circ]
  cases b with
  | none => simp [HCirc.withBridge, hlen] at hi; omega
  | some j =>
    refine ⟨j, rfl, ?_⟩
    simp only [HCirc.withBridge, Option.toList_some, List.map_cons, List.map_nil, List.length_append, List.length_singleton, hlen] at hi
    have : i = c.nodes.length := by omega
    subst this
    show (c.circ.nodes ++ _)[c.nodes.length]? = _
    rw [← hlen]
    simp

theorem withBridge_isOpt (c : HCirc) (b : Option ℕ) : isOpt (c.withBridge b) = isOpt c.circ := by
  funext i
  unfold isOpt
  by_cases hi : i < c.circ.nodes.length
  · show (((c.circ.nodes ++ _)[i]?).map _).getD _ = _
    rw [List.getElem?_append_left hi]
  · have h0 : c.circ.nodes[i]? = none := List.getElem?_eq_none (by omega)
    show (((c.circ.nodes ++ _)[i]?).map _).getD _ = _
    rw [List.getElem?_append_right (by omega), h0]
    cases b with
    | none => simp
    | some j =>
      simp only [Option.toList_some, List.map_cons, List.map_nil, List.getElem?_singleton]
      split <;> rfl

theorem noWrite_bridge (c : HCirc) (n : ℕ) (hn : c.nodes[n]? = none) : ∀ {l : List ℕ} {own : Bool}, NoWriteAfterMeasurement c own l → NoWriteAfterMeasurement c own (l ++ [n]) := by
  intro l
  induction l with
  | nil => intro own _; rw [List.nil_append]; unfold NoWriteAfterMeasurement; rw [hn]; trivial
  | cons i l ih =>
    intro own h
    rw [List.cons_append]
    unfold NoWriteAfterMeasurement at h ⊢
    cases hi : c.nodes[i]? with
    | none => rw [hi] at h; exact ih h
    | some m =>
      rw [hi] at h
      cases m with
      | classical f v a => exact ⟨h.1, ih h.2⟩
      | _ => exact ih h

theorem noWrite_withBridge (c : HCirc) (b : Option ℕ) {own : Bool} (h : NoWriteAfterMeasurement c own (List.range c.nodes.length)) :
    NoWriteAfterMeasurement c own (List.range (c.withBridge b).nodes.length) := by
  have hlen : c.circ.nodes.length = c.nodes.length := by simp [HCirc.circ]
  cases b with
  | none => simpa [HCirc.withBridge, hlen] using h
  | some j =>
    have : (c.withBridge (some j)).nodes.length = c.nodes.length + 1 := by simp [HCirc.withBridge, hlen]
    rw [this, List.range_succ]
    exact noWrite_bridge c _ (List.getElem?_eq_none le_rfl) h

theorem noWrite_dropRun (c : HCirc) (b : Option ℕ) {l : List ℕ} {own : Bool} (h : NoWriteAfterMeasurement c own l) :
    NoWriteAfterMeasurement c false (l.drop (opticalRun (c.withBridge b) l).length) := by
  have : opticalRun (c.withBridge b) l = l.takeWhile (isOpt c.circ) := by rw [← withBridge_isOpt c b]; rfl
  rw [this]
  exact noWrite_dropOptical c h

theorem hEvalEnv_sim (env : ℕ → HCirc) (next : ℕ → Option ℕ) (rnd : ℕ → ℕ → Bool → ℕ → ℕ → ℕ) (hsafe : ∀ k j, next k = some j → NoWriteAfterMeasurement (env j) false (List.range (env j).nodes.length))
    (fuel : ℕ) : ∀ (k : ℕ) (l : List ℕ) (own : Bool) (h : Heap) (coll : HColl) (C : Coll), NoWriteAfterMeasurement (env k) own l → Shows own h coll C →
    SimOut true (hEvalEnv env next rnd fuel k l (h, coll)) (evalNodes (fun k => (env k).withBridge (next k)) rnd fuel k l C) := by
  induction fuel with
  | zero => intro k l own h coll C _ _; trivial
  | succ fuel ih =>
    intro k l own h coll C hnw hs
    cases l with
    | nil => exact ⟨hs.ok, hs.rep, hs.keys, hs.sep.own⟩
    | cons i rest =>
      rw [hEvalEnv, evalNodes]
      by_cases hv : (i :: rest).all (· < ((env k).withBridge (next k)).nodes.length) = true
      · rw [if_neg (not_not.2 hv), if_neg (not_not.2 hv)]
        have hnw' := hnw
        unfold NoWriteAfterMeasurement at hnw'
        cases hn : (env k).nodes[i]? with
        | none =>
          obtain ⟨j, hj, hb⟩ := withBridge_end (env k) (next k) i hn (by have := List.all_eq_true.1 hv i (by simp); simpa using this)
          rw [hb]
          simp only
          generalize (env k).withBridge (next k) = B
          rw [hj]
          simp only
          have key := hReshape_sim (c := B) (next := (env j).withBridge (next j)) (r := rnd k i true) (r' := rnd k i false) hs.ok hs.repE
          revert key
          rcases hReshape B ((env j).withBridge (next j)) (rnd k i true) (rnd k i false) h coll with _ | ⟨h', cl'⟩ <;>
            rcases reshape B ((env j).withBridge (next j)) (rnd k i true) (rnd k i false) C with _ | d <;> intro key
          · trivial
          · cases key
          · cases key
          · exact ih j _ false h' cl'.states d.states (noWrite_withBridge (env j) (next j) (hsafe k j hj)) (Good.shows key.2.2.2)
        | some n =>
          rw [hn] at hnw'
          rw [withBridge_node (env k) (next k) i n hn]
          cases n with
          | optical M tl =>
            simp only [HNode.node]
            cases opticalNodes ((env k).withBridge (next k)) (opticalRun ((env k).withBridge (next k)) (i :: rest)) with
            | nil => trivial
            | cons n l =>
              refine (hOptical_sim (own := false) n l hs.ok hs.repE).bindOut ?_
              intro h' o O hs'
              exact ih _ _ false h' o O (noWrite_remaining (env k) (noWrite_dropRun (env k) (next k) hnw)) hs'
          | fockMatrix F =>
            simp only [HNode.node]
            refine (hCustom_sim (own := false) F (rnd k i true) hs.ok hs.repE).bindOut ?_
            intro h' o O hs'
            exact ih _ _ false h' o O (noWrite_remaining (env k) hnw') hs'
          | measurement opt cls =>
            simp only [HNode.node]
            refine (hMeasureColl_sim (env k).g (env k).thr (env k).m (measurementId (((env k).withBridge (next k)).nodes.map Node.isMeasurement) i) opt cls hs.ok hs.repE).bindOut ?_
            intro h' o O hs'
            exact ih _ _ true h' o O (noWrite_remaining (env k) hnw') hs'
          | controlled vars channels defaults tl =>
            simp only [HNode.node]
            refine (hControlled_sim (c := (env k).withBridge (next k)) (own := false) vars channels defaults tl hs.ok hs.repE).bindOut ?_
            intro h' o O hs'
            exact ih _ _ false h' o O (noWrite_remaining (env k) hnw') hs'
          | classical f v a =>
            simp only [HNode.node]
            rw [classicalColl_eq, hClassical_eq]
            have key := hClassical_sim (m := (env k).m) (v := v) (a := a) hs.keys hnw'.1 (fun _ hp => hp) hs.keys hs.ok hs.sep hs.rep
            revert key
            show _ → SimOut true _ ((List.mapM (m := Option) (fun (P : List Char × QState) => (clsVal (env k).m f v a P.2).map (fun q => (P.1, q))) C).bind _)
            cases List.foldlM (hClsStep (env k).m f v a) h coll with
            | none => cases List.mapM (m := Option) (fun (P : List Char × QState) => (clsVal (env k).m f v a P.2).map (fun q => (P.1, q))) C with
              | none => intro _; trivial
              | some T => intro hh; cases hh
            | some h' => cases List.mapM (m := Option) (fun (P : List Char × QState) => (clsVal (env k).m f v a P.2).map (fun q => (P.1, q))) C with
              | none => intro hh; cases hh
              | some T =>
                rintro ⟨ok', sep', rep', -⟩
                simp only [Option.bind_some]
                exact ih _ _ own h' coll T (noWrite_remaining (env k) hnw'.2) ⟨ok', rep', hs.keys, sep'⟩
      · rw [if_pos hv, if_pos hv]; trivial

/-- the environment of a compound circuit, as in Model/Evaluate -/
theorem withBridge_compound (d : HCirc) (cs : List HCirc) : (fun k => (cs.getD k d).withBridge (if k + 1 < cs.length then some (k + 1) else none)) = compoundEnv d.circ (cs.map HCirc.circ) := by
  funext k
  have h1 : (cs.map HCirc.circ).getD k d.circ = (cs.getD k d).circ := by
    simp only [List.getD_eq_getElem?_getD, List.getElem?_map]
    cases cs[k]? <;> rfl
  unfold HCirc.withBridge compoundEnv
  simp only [h1, List.length_map]
  split <;> simp

theorem hCompound_sim (d : HCirc) (cs : List HCirc) (rnd : ℕ → ℕ → Bool → ℕ → ℕ → ℕ) (fuel : ℕ) (own : Bool) (h : Heap) (coll : HColl) (C : Coll)
    (hfirst : NoWriteAfterMeasurement (cs.getD 0 d) own (List.range (cs.getD 0 d).nodes.length))
    (hsafe : ∀ c ∈ cs.tail, NoWriteAfterMeasurement c false (List.range c.nodes.length)) (hs : Shows own h coll C) :
    SimOut true (hCompound d cs rnd fuel (h, coll)) (evalCompound d.circ (cs.map HCirc.circ) rnd fuel C) := by
  unfold hCompound evalCompound evalAll
  rw [← withBridge_compound]
  refine hEvalEnv_sim _ _ rnd ?_ fuel 0 _ own h coll C (noWrite_withBridge _ _ hfirst) hs
  intro k j hj
  split at hj
  · rename_i hk
    obtain rfl := Option.some.inj hj
    refine hsafe _ ?_
    rw [List.getD_eq_getElem?_getD, List.getElem?_eq_getElem hk, Option.getD_some]
    rw [List.mem_iff_getElem?]
    exact ⟨k, by rw [List.getElem?_tail, List.getElem?_eq_getElem hk]⟩
  · cases hj

/-! ### what existed before stays as it was -/

theorem SimC.above {h : Heap} {nR : ℕ → Prop} {own : Bool} {x : Option (Heap × HCollection)} {X : Option Collection} (hx : SimC h nR own x X) {r : Heap × HCollection}
    (e : x = some r) : Above h r.1 r.2.states := by
  subst e
  cases X with
  | none => cases hx
  | some cl => exact Good.above hx.2.2.2

theorem hEnvNode_above {env : ℕ → HCirc} {next : ℕ → Option ℕ} {rnd : ℕ → ℕ → Bool → ℕ → ℕ → ℕ} {fuel k : ℕ} {i : ℕ} {rest : List ℕ} {h0 h : Heap} {coll : HColl} {r : Heap × HColl}
    (le : h0.Le h) (ok : h.Ok) (hl : ∀ p ∈ coll, p.2 < h.objs.length) (hc : ¬ IsClassical (env k) i)
    (ih : ∀ (k : ℕ) (l : List ℕ) (h1 : Heap) (o : HColl), Above h0 h1 o → ∀ r, hEvalEnv env next rnd fuel k l (h1, o) = some r → h0.Le r.1)
    (e : hEvalEnv env next rnd (fuel + 1) k (i :: rest) (h, coll) = some r) : h0.Le r.1 := by
  obtain ⟨C, hC⟩ := exists_repE ok hl
  rw [hEvalEnv] at e
  split at e
  · cases e
  · cases hn : (env k).nodes[i]? with
    | none =>
      rw [hn] at e
      simp only at e
      cases hj : next k with
      | none => rw [hj] at e; cases e
      | some j =>
        rw [hj] at e
        obtain ⟨r1, h1, e⟩ := Option.bind_eq_some_iff.1 e
        rw [← hj] at h1
        exact ih _ _ r1.1 r1.2.states ((hReshape_sim ok hC).above h1 |>.weaken le) r e
    | some n =>
      rw [hn] at e
      cases n with
      | optical M tl =>
        simp only at e
        cases hl : opticalNodes ((env k).withBridge (next k)) (opticalRun ((env k).withBridge (next k)) (i :: rest)) with
        | nil => rw [hl] at e; cases e
        | cons n l =>
          rw [hl] at e
          obtain ⟨r1, h1, e⟩ := Option.bind_eq_some_iff.1 e
          exact ih _ _ r1.1 r1.2 ((hOptical_sim (own := false) n l ok hC).above h1 |>.weaken le) r e
      | fockMatrix F =>
        obtain ⟨r1, h1, e⟩ := Option.bind_eq_some_iff.1 e
        exact ih _ _ r1.1 r1.2 ((hCustom_sim (own := false) F (rnd k i true) ok hC).above h1 |>.weaken le) r e
      | measurement opt cls =>
        obtain ⟨r1, h1, e⟩ := Option.bind_eq_some_iff.1 e
        exact ih _ _ r1.1 r1.2 ((hMeasureColl_sim (env k).g (env k).thr (env k).m _ opt cls ok hC).above h1 |>.weaken le) r e
      | controlled vars channels defaults tl =>
        obtain ⟨r1, h1, e⟩ := Option.bind_eq_some_iff.1 e
        exact ih _ _ r1.1 r1.2 ((hControlled_sim (own := false) vars channels defaults tl ok hC).above h1 |>.weaken le) r e
      | classical f v a => exact absurd ⟨f, v, a, hn⟩ hc

theorem hEvalEnv_above (env : ℕ → HCirc) (next : ℕ → Option ℕ) (rnd : ℕ → ℕ → Bool → ℕ → ℕ → ℕ) (h0 : Heap) (fuel : ℕ) : ∀ (k : ℕ) (l : List ℕ) (h : Heap) (coll : HColl), Above h0 h coll →
    ∀ r, hEvalEnv env next rnd fuel k l (h, coll) = some r → h0.Le r.1 := by
  induction fuel with
  | zero => intro k l h coll _ r e; cases e
  | succ fuel ih =>
    intro k l h coll hA r e
    cases l with
    | nil => obtain rfl := Option.some.inj e; exact hA.le
    | cons i rest =>
      by_cases hc : IsClassical (env k) i
      · obtain ⟨f, v, a, hn⟩ := hc
        rw [hEvalEnv] at e
        split at e
        · cases e
        · rw [hn] at e
          obtain ⟨h1, hh, e⟩ := Option.bind_eq_some_iff.1 e
          exact ih _ _ h1 coll (hClassical_above (fun _ hp => hp) hA hh) r e
      · exact hEnvNode_above hA.le hA.ok hA.live hc ih e

theorem hCompound_le (d : HCirc) (cs : List HCirc) (rnd : ℕ → ℕ → Bool → ℕ → ℕ → ℕ) (fuel : ℕ) (h : Heap) (coll : HColl) (ok : h.Ok) (hl : ∀ p ∈ coll, p.2 < h.objs.length)
    (hfirst : ¬ IsClassical (cs.getD 0 d) 0) {r : Heap × HColl} (e : hCompound d cs rnd fuel (h, coll) = some r) : h.Le r.1 := by
  unfold hCompound at e
  cases fuel with
  | zero => cases e
  | succ fuel =>
    rcases hr : List.range ((cs.getD 0 d).withBridge (if 0 + 1 < cs.length then some (0 + 1) else none)).nodes.length with _ | ⟨i, rest⟩
    · rw [hr] at e
      obtain rfl := Option.some.inj e
      exact Heap.Le.refl h
    · rw [hr] at e
      have hi : i = 0 := by
        have := congrArg (fun l : List ℕ => l[0]?) hr
        simp only [List.getElem?_cons_zero] at this
        obtain ⟨hlt, this⟩ := List.getElem?_eq_some_iff.1 this
        rw [← this, List.getElem_range]
      subst hi
      exact hEnvNode_above (env := fun i => cs.getD i d) (k := 0) (Heap.Le.refl h) ok hl hfirst (hEvalEnv_above _ _ rnd h fuel) e

end Verif
