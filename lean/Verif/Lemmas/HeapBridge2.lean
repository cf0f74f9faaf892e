/-
Lemmas for the object-level model of reshaping (C30, C32, C137): change of length, whole collections, bridges.
-/
import Verif.Lemmas.HeapBridge

namespace Verif
open Spec Props

/-! ### change of length -/

/-- `out` has new objects for objects of `src` with the same identifier, the same list object of classical values and the same history. -/
structure Adj (h h' : Heap) (src out : HColl) (O : Coll) : Prop where
  le : h.Le h'
  ok : h'.Ok
  rep : List.Forall₂ (Rep h') out O
  keys : (out.map Prod.fst).Nodup
  origin : ∀ p ∈ out, ∃ q ∈ src, p.1 = q.1 ∧ ∃ s t, h.objs[q.2]? = some s ∧ h'.objs[p.2]? = some t ∧ t.classical = s.classical ∧ t.results = s.results ∧ h.objs.length ≤ p.2

/-- both raise, or the results correspond -/
def SimAdj (h : Heap) (src : HColl) : Option (Heap × HColl) → Option Coll → Prop
  | some r, some O => Adj h r.1 src r.2 O
  | none, none => True
  | _, _ => False

theorem Adj.push {h h' : Heap} {src out : HColl} {O : Coll} (x : Adj h h' src out O) {p : List Char × ℕ} (hp : p ∈ src) {s : HState} (hs : h.objs[p.2]? = some s) (ok : h.Ok) (comps : Comps) :
    Adj h ⟨h'.lists, h'.objs ++ [{ s with comps := comps }]⟩ src (out.set p.1 h'.objs.length) (O.set p.1 { h'.val s with comps := comps }) := by
  have hle : h'.Le ⟨h'.lists, h'.objs ++ [{ s with comps := comps }]⟩ := ⟨List.prefix_rfl, List.prefix_append _ _⟩
  have hmem := List.mem_of_getElem? hs
  have hobj : (⟨h'.lists, h'.objs ++ [{ s with comps := comps }]⟩ : Heap).objs[h'.objs.length]? = some { s with comps := comps } := by simp
  have hlen := x.le.len
  have hok : Heap.Ok ⟨h'.lists, h'.objs ++ [{ s with comps := comps }]⟩ := by
    intro t ht
    rcases List.mem_append.1 ht with ht | ht
    · exact x.ok t ht
    · obtain rfl := List.mem_singleton.1 ht
      have := ok s hmem
      exact ⟨by show s.classical < h'.lists.length; omega, fun r hr => by have := this.2 r hr; show r.1 < h'.lists.length; omega⟩
  refine ⟨x.le.trans hle, hok, forall₂_set (forall₂_imp' (fun _ _ y => y.mono hle x.ok) x.rep) _ ?_, Dict.nodup_keys_set x.keys _ _, ?_⟩
  · rw [Heap.get, hobj]
    rfl
  · intro q hq
    rcases mem_hset hq with rfl | hq'
    · exact ⟨p, hp, rfl, s, _, hs, hobj, rfl, rfl, hlen.2⟩
    · have hq : q ∈ out := hq'.elim (fun h => h.1) id
      obtain ⟨q', h1, h2, s', t, h3, h4, h5⟩ := x.origin q hq
      exact ⟨q', h1, h2, s', t, h3, hle.obj h4, h5⟩

theorem hAdjustFold_sim {cl : HCollection} {g' : Cfg} {newL : ℕ} {h : Heap} (ok : h.Ok) {src : HColl} : ∀ {l : HColl} {L : Coll}, List.Forall₂ (Rep h) l L → (∀ p ∈ l, p ∈ src) →
    ∀ {h' : Heap} {out : HColl} {O : Coll}, Adj h h' src out O →
    SimAdj h src (l.foldlM (hAdjustState cl g' newL) (h', out)) (L.foldlM (fun (out : Coll) p =>
      (adjustComps cl.g g' newL p.2.comps).bind (fun comps => (newState cl.thr cl.m { p.2 with comps := comps }).bind (fun q => some (out.set p.1 q)))) O) := by
  intro l L hl
  induction hl with
  | nil => intro _ h' out O x; exact x
  | @cons p P l L hp _ ih =>
    intro hsub h' out O x
    obtain ⟨s, hs, hv⟩ := Heap.get_eq.1 hp.2
    have hs' := x.le.obj hs
    have hv' : h'.val s = P.2 := (x.le.val ok hs).trans hv
    have hcomps : P.2.comps = s.comps := by rw [← hv]; rfl
    rw [List.foldlM_cons, List.foldlM_cons]
    unfold hAdjustState
    rw [hs', Option.bind_some, hcomps]
    rcases adjustComps cl.g g' newL s.comps with _ | comps
    · trivial
    · simp only [Option.bind_some, hv']
      rcases hn : newState cl.thr cl.m { P.2 with comps := comps } with _ | q
      · trivial
      · obtain rfl := newState_eq hn
        simp only [Option.map_some, Option.bind_eq_bind, Option.bind_some]
        have := x.push (hsub p List.mem_cons_self) hs ok comps
        rw [hv'] at this
        rw [← hp.1]
        exact ih (fun q hq => hsub q (List.mem_cons_of_mem _ hq)) this

theorem Adj.good {h0 h h' : Heap} {nR : ℕ → Prop} {own : Bool} {src out : HColl} {S O : Coll} (g : Good h0 nR own h src S) (x : Adj h h' src out O) : Good h0 nR own h' out O := by
  refine ⟨g.le.trans x.le, x.ok, x.rep, x.keys, ?_, ?_⟩
  · intro p hp
    obtain ⟨q, hq, -, s, t, h1, h2, h3, h4, h5⟩ := x.origin p hp
    obtain ⟨s', k1, k2, k3, k4⟩ := g.fresh q hq
    rw [h1] at k1
    obtain rfl := Option.some.inj k1
    have := g.le.len
    refine ⟨t, h2, by omega, by omega, ?_⟩
    rw [h3, h4]
    exact k4
  · intro p hp p' hp' s t hs ht e
    obtain ⟨q, hq, e1, s1, t1, h1, h2, h3, -⟩ := x.origin p hp
    obtain ⟨q', hq', e1', s1', t1', h1', h2', h3', -⟩ := x.origin p' hp'
    rw [hs] at h2; rw [ht] at h2'
    obtain rfl := Option.some.inj h2
    obtain rfl := Option.some.inj h2'
    rw [e1, e1']
    exact g.inj q hq q' hq' s1 s1' h1 h1' (by rw [← h3, ← h3', e])

theorem Adj.shows {h h' : Heap} {own : Bool} {src out : HColl} {S O : Coll} (g : Shows own h src S) (x : Adj h h' src out O) : Shows own h' out O := by
  refine ⟨x.ok, x.rep, x.keys, ?_, ?_⟩
  · intro p hp p' hp' s t hs ht e
    obtain ⟨q, hq, e1, s1, t1, h1, h2, h3, -⟩ := x.origin p hp
    obtain ⟨q', hq', e1', s1', t1', h1', h2', h3', -⟩ := x.origin p' hp'
    rw [hs] at h2; rw [ht] at h2'
    obtain rfl := Option.some.inj h2
    obtain rfl := Option.some.inj h2'
    rw [e1, e1']
    exact g.sep.classical q hq q' hq' s1 s1' h1 h1' (by rw [← h3, ← h3', e])
  · intro p hp p' hp' s t hs ht r hr e
    obtain ⟨q, hq, e1, s1, t1, h1, h2, h3, -⟩ := x.origin p hp
    obtain ⟨q', hq', e1', s1', t1', h1', h2', -, h4', -⟩ := x.origin p' hp'
    rw [hs] at h2; rw [ht] at h2'
    obtain rfl := Option.some.inj h2
    obtain rfl := Option.some.inj h2'
    rw [e1, e1']
    exact g.sep.history q hq q' hq' s1 s1' h1 h1' r (by rw [← h4']; exact hr) (by rw [← h3]; exact e)

/-! ### collections with settings -/

/-- both raise, or the heap collection has the same settings and its states are new objects that show the states -/
def SimC (h0 : Heap) (nR : ℕ → Prop) (own : Bool) : Option (Heap × HCollection) → Option Collection → Prop
  | some r, some cl => r.2.g = cl.g ∧ r.2.m = cl.m ∧ r.2.thr = cl.thr ∧ Good h0 nR own r.1 r.2.states cl.states
  | none, none => True
  | _, _ => False

theorem SimC.bind {h0 h1 : Heap} {nR nR' : ℕ → Prop} {own own' : Bool} {x : Option (Heap × HCollection)} {X : Option Collection} (h : SimC h0 nR own x X)
    {f : Heap × HCollection → Option (Heap × HCollection)} {F : Collection → Option Collection}
    (hf : ∀ h (st : HColl) (cl : Collection), Good h0 nR own h st cl.states → SimC h1 nR' own' (f (h, ⟨cl.g, cl.m, cl.thr, st⟩)) (F cl)) : SimC h1 nR' own' (x.bind f) (X.bind F) := by
  match x, X, h with
  | some (h, ⟨g, m, thr, st⟩), some cl, hg =>
    obtain ⟨rfl, rfl, rfl, hg⟩ := hg
    exact hf h st cl hg
  | none, none, _ => trivial

theorem SimC.weaken {h0 h : Heap} {nR : ℕ → Prop} {own : Bool} (le : h0.Le h) {x : Option (Heap × HCollection)} {X : Option Collection} (hx : SimC h nR own x X) : SimC h0 nR own x X := by
  match x, X, hx with
  | some _, some _, hg => exact ⟨hg.1, hg.2.1, hg.2.2.1, Good.weaken le hg.2.2.2⟩
  | none, none, _ => trivial

theorem hReduce_simE {h : Heap} {nR : ℕ → Prop} {own : Bool} (ok : h.Ok) {cl : Collection} {st : HColl} (x : List.Forall₂ (RepE h nR) st cl.states) (keep ckeep : List ℕ) :
    SimC h nR own (hReduce h ⟨cl.g, cl.m, cl.thr, st⟩ keep ckeep) (reduceColl cl keep ckeep) := by
  unfold hReduce reduceColl
  simp only [Option.bind_eq_bind]
  generalize (if keep = [] then List.range cl.g.C else keep) = keep
  generalize (if ckeep = [] then List.range cl.m else ckeep) = ckeep
  split
  · trivial
  · split
    · trivial
    · have key := hReduceFold_sim (g := cl.g) (thr := cl.thr) (keep := keep) (ckeep := ckeep) (own := own) ok x
      revert key
      have hnil : st = [] ↔ cl.states = [] := by
        have := x.length_eq
        rw [← List.length_eq_zero_iff, ← List.length_eq_zero_iff, this]
      rcases List.foldlM (m := Option) (hReduceState cl.g cl.thr keep ckeep) (h, []) st with _ | ⟨h', o⟩ <;> rcases List.foldlM (m := Option) _ _ cl.states with _ | O <;> intro key
      · trivial
      · cases key
      · cases key
      · simp only [Option.map_some, Option.bind_some]
        by_cases hn : cl.states = []
        · rw [if_pos (hnil.2 hn), if_pos hn]
          refine ⟨rfl, rfl, rfl, ?_⟩
          rw [hn]
          obtain rfl := hnil.2 hn
          exact Good.nil (Heap.Le.refl h) ok
        · rw [if_neg (fun e => hn (hnil.1 e)), if_neg hn]
          exact ⟨rfl, rfl, rfl, key⟩

theorem hReduce_sim {h0 h : Heap} {nR : ℕ → Prop} {cl : Collection} {st : HColl} (x : Good h0 nR false h st cl.states) (keep ckeep : List ℕ) :
    SimC h0 nR false (hReduce h ⟨cl.g, cl.m, cl.thr, st⟩ keep ckeep) (reduceColl cl keep ckeep) := (hReduce_simE x.ok x.repE keep ckeep).weaken x.le

theorem hExtend_simE {h : Heap} {nR : ℕ → Prop} {own : Bool} (ok : h.Ok) {cl : Collection} {st : HColl} (x : List.Forall₂ (RepE h nR) st cl.states) (eo ec : ℕ) (dist : List ℝ) (r : ℕ → ℕ → ℕ)
    (hne : ¬ (eo = 0 ∧ ec = 0)) : SimC h nR own (hExtend h ⟨cl.g, cl.m, cl.thr, st⟩ eo ec dist r) (extendColl cl eo ec dist r) := by
  unfold hExtend extendColl
  simp only [Option.bind_eq_bind]
  generalize (if dist = [] then (1 : ℝ) :: List.replicate (cl.g.L - 1) 0 else dist) = dist
  rw [if_neg hne, if_neg hne]
  split
  · trivial
  · split
    · trivial
    · rcases extraValues cl.g dist eo with _ | extra
      · trivial
      · have key := hExtendFold_sim (cl := ⟨cl.g, cl.m, cl.thr, st⟩) (g' := ⟨cl.g.L, cl.g.C + eo, cl.g.left⟩) (ec := ec) (r := r) (own := own) ok x extra
        simp only [Option.bind_some]
        revert key
        generalize List.foldlM (m := Option) (fun (st' : Heap × HColl) e => _) (h, []) extra = y
        generalize List.foldlM (m := Option) _ ([] : Coll) extra = Y
        intro key
        rcases y with _ | ⟨h', o⟩ <;> rcases Y with _ | O
        · trivial
        · cases key
        · cases key
        · exact ⟨rfl, rfl, rfl, key⟩

theorem hExtend_sim {h0 h : Heap} {nR : ℕ → Prop} {cl : Collection} {st : HColl} (x : Good h0 nR false h st cl.states) (eo ec : ℕ) (dist : List ℝ) (r : ℕ → ℕ → ℕ) :
    SimC h0 nR false (hExtend h ⟨cl.g, cl.m, cl.thr, st⟩ eo ec dist r) (extendColl cl eo ec dist r) := by
  by_cases hne : eo = 0 ∧ ec = 0
  · unfold hExtend extendColl
    simp only [Option.bind_eq_bind]
    generalize (if dist = [] then (1 : ℝ) :: List.replicate (cl.g.L - 1) 0 else dist) = dist
    rw [if_pos hne, if_pos hne]
    split
    · trivial
    · exact ⟨rfl, rfl, rfl, x⟩
  · exact (hExtend_simE x.ok x.repE eo ec dist r hne).weaken x.le

theorem adjustLength_eq (cl : Collection) (newL : ℕ) : adjustLength cl newL =
    (if ¬ (⟨if newL = 0 then cl.g.L else newL, cl.g.C, cl.g.left⟩ : Cfg).Ok then none else
      (cl.states.foldlM (fun (out : Coll) p => (adjustComps cl.g ⟨if newL = 0 then cl.g.L else newL, cl.g.C, cl.g.left⟩ (if newL = 0 then cl.g.L else newL) p.2.comps).bind (fun comps =>
        (newState cl.thr cl.m { p.2 with comps := comps }).bind (fun q => some (out.set p.1 q)))) []).map (fun out =>
          ⟨⟨if newL = 0 then cl.g.L else newL, cl.g.C, cl.g.left⟩, cl.m, cl.thr, out⟩)) := by
  unfold adjustLength adjustComps
  simp only [Option.bind_eq_bind, Option.map_eq_bind, Function.comp_def]
  generalize (if newL = 0 then cl.g.L else newL) = newL
  by_cases h : (⟨newL, cl.g.C, cl.g.left⟩ : Cfg).Ok
  · rw [if_neg (not_not.2 h), if_neg (not_not.2 h)]
  · rw [if_pos h, if_pos h]
    rfl

theorem adj_nil {h : Heap} (ok : h.Ok) (src : HColl) : Adj h h src [] [] := ⟨Heap.Le.refl h, ok, List.Forall₂.nil, by simp, by simp⟩

theorem hAdjust_adj {h : Heap} (ok : h.Ok) {cl : Collection} {st : HColl} (x : List.Forall₂ (Rep h) st cl.states) (newL : ℕ) :
    match hAdjust h ⟨cl.g, cl.m, cl.thr, st⟩ newL, adjustLength cl newL with
    | some r, some D => r.2.g = D.g ∧ r.2.m = D.m ∧ r.2.thr = D.thr ∧ Adj h r.1 st r.2.states D.states
    | none, none => True
    | _, _ => False := by
  rw [adjustLength_eq]
  unfold hAdjust
  simp only
  generalize (if newL = 0 then cl.g.L else newL) = newL
  by_cases hg : (⟨newL, cl.g.C, cl.g.left⟩ : Cfg).Ok
  · rw [if_neg (not_not.2 hg), if_neg (not_not.2 hg)]
    have key := hAdjustFold_sim (cl := ⟨cl.g, cl.m, cl.thr, st⟩) (g' := ⟨newL, cl.g.C, cl.g.left⟩) (newL := newL) ok x (fun p hp => hp) (adj_nil ok st)
    revert key
    rcases List.foldlM (m := Option) (hAdjustState ⟨cl.g, cl.m, cl.thr, st⟩ ⟨newL, cl.g.C, cl.g.left⟩ newL) (h, []) st with _ | ⟨h', o⟩ <;> rcases List.foldlM (m := Option) _ ([] : Coll) cl.states with _ | O <;> intro key
    · trivial
    · cases key
    · cases key
    · exact ⟨rfl, rfl, rfl, key⟩
  · rw [if_pos hg, if_pos hg]
    trivial

theorem hAdjust_sim {h0 h : Heap} {nR : ℕ → Prop} {own : Bool} {cl : Collection} {st : HColl} (x : Good h0 nR own h st cl.states) (newL : ℕ) :
    SimC h0 nR own (hAdjust h ⟨cl.g, cl.m, cl.thr, st⟩ newL) (adjustLength cl newL) := by
  rw [adjustLength_eq]
  unfold hAdjust
  simp only
  generalize (if newL = 0 then cl.g.L else newL) = newL
  split
  · trivial
  · have key := hAdjustFold_sim (cl := ⟨cl.g, cl.m, cl.thr, st⟩) (g' := ⟨newL, cl.g.C, cl.g.left⟩) (newL := newL) x.ok x.rep (fun p hp => hp) (adj_nil x.ok st)
    revert key
    rcases List.foldlM (m := Option) (hAdjustState ⟨cl.g, cl.m, cl.thr, st⟩ ⟨newL, cl.g.C, cl.g.left⟩ newL) (h, []) st with _ | ⟨h', o⟩ <;> rcases List.foldlM (m := Option) _ ([] : Coll) cl.states with _ | O <;> intro key
    · trivial
    · cases key
    · cases key
    · exact ⟨rfl, rfl, rfl, Adj.good x key⟩

/-! ### bridges -/

theorem hreshape_value_eq (c next : Circ) (r r' : ℕ → ℕ → ℕ) (C : Coll) : reshape c next r r' C = (copyColl c.thr c.m C).bind (fun O =>
    (if next.g.C > c.g.C then extendColl ⟨c.g, c.m, c.thr, O⟩ (next.g.C - c.g.C) 0 [] r
      else if next.g.C < c.g.C then reduceColl ⟨c.g, c.m, c.thr, O⟩ (List.range next.g.C) [] else some ⟨c.g, c.m, c.thr, O⟩).bind (fun b =>
    (if next.m > c.m then extendColl b 0 (next.m - c.m) [] r' else if next.m < c.m then reduceColl b [] (List.range next.m) else some b).bind (fun d => adjustLength d next.g.L))) := by
  unfold reshape
  simp only [Option.bind_eq_bind]
  congr 1
  funext O
  split_ifs <;> rfl

theorem hReshape_sim {c next : Circ} {r r' : ℕ → ℕ → ℕ} {h0 : Heap} {nR : ℕ → Prop} (ok : h0.Ok) {coll : HColl} {C : Coll} (hrep : List.Forall₂ (RepE h0 nR) coll C) :
    SimC h0 nR false (hReshape c next r r' h0 coll) (reshape c next r r' C) := by
  rw [hreshape_value_eq]
  unfold hReshape
  have hc := hCopyColl_sim (thr := c.thr) (m := c.m) (own := false) ok hrep
  revert hc
  rcases hCopyColl c.thr c.m h0 coll with _ | ⟨h, o⟩ <;> rcases copyColl c.thr c.m C with _ | O <;> intro hc
  · trivial
  · cases hc
  · cases hc
  · simp only [Option.bind_some]
    have hc : Good h0 nR false h o O := hc
    have h1 : SimC h0 nR false (if next.g.C > c.g.C then hExtend h ⟨c.g, c.m, c.thr, o⟩ (next.g.C - c.g.C) 0 [] r
          else if next.g.C < c.g.C then hReduce h ⟨c.g, c.m, c.thr, o⟩ (List.range next.g.C) [] else some (h, ⟨c.g, c.m, c.thr, o⟩))
        (if next.g.C > c.g.C then extendColl ⟨c.g, c.m, c.thr, O⟩ (next.g.C - c.g.C) 0 [] r
          else if next.g.C < c.g.C then reduceColl ⟨c.g, c.m, c.thr, O⟩ (List.range next.g.C) [] else some ⟨c.g, c.m, c.thr, O⟩) := by
      split
      · exact hExtend_sim (cl := ⟨c.g, c.m, c.thr, O⟩) hc _ _ _ _
      · split
        · exact hReduce_sim (cl := ⟨c.g, c.m, c.thr, O⟩) hc _ _
        · exact ⟨rfl, rfl, rfl, hc⟩
    refine h1.bind (fun h st cl hg => ?_)
    have h2 : SimC h0 nR false (if next.m > c.m then hExtend h ⟨cl.g, cl.m, cl.thr, st⟩ 0 (next.m - c.m) [] r'
          else if next.m < c.m then hReduce h ⟨cl.g, cl.m, cl.thr, st⟩ [] (List.range next.m) else some (h, ⟨cl.g, cl.m, cl.thr, st⟩))
        (if next.m > c.m then extendColl cl 0 (next.m - c.m) [] r' else if next.m < c.m then reduceColl cl [] (List.range next.m) else some cl) := by
      split
      · exact hExtend_sim hg _ _ _ _
      · split
        · exact hReduce_sim hg _ _
        · exact ⟨rfl, rfl, rfl, hg⟩
    exact h2.bind (fun h st cl hg => hAdjust_sim hg _)

end Verif
