/-
Lemmas for the object-level model of reshaping (C30, C32, C137).
-/
import Verif.Model.HeapBridge
import Verif.Lemmas.HeapEval

namespace Verif
open Spec Props

theorem Heap.le_pushNew (h : Heap) (q : QState) (res : List (ℕ × ℝ)) : h.Le (h.pushNew q res) := ⟨List.prefix_append _ _, List.prefix_append _ _⟩

theorem Heap.pushNew_obj (h : Heap) (q : QState) (res : List (ℕ × ℝ)) : (h.pushNew q res).objs[h.objs.length]? = some ⟨q.initial, q.cum, q.comps, h.lists.length, res⟩ := by
  simp [Heap.pushNew]

theorem Heap.ok_pushNew {h : Heap} (ok : h.Ok) {s : HState} (hs : s ∈ h.objs) (q : QState) : (h.pushNew q s.results).Ok := by
  intro t ht
  rcases List.mem_append.1 ht with ht | ht
  · have := ok t ht
    simp only [Heap.pushNew, List.length_append, List.length_singleton]
    exact ⟨by omega, fun r hr => by have := this.2 r hr; omega⟩
  · obtain rfl := List.mem_singleton.1 ht
    simp only [Heap.pushNew, List.length_append, List.length_singleton]
    exact ⟨by omega, fun r hr => by have := (ok s hs).2 r hr; omega⟩

theorem Heap.pushNew_val {h : Heap} (ok : h.Ok) {s : HState} (hs : s ∈ h.objs) {q : QState} (hq : q.results = (h.val s).results) :
    (h.pushNew q s.results).val ⟨q.initial, q.cum, q.comps, h.lists.length, s.results⟩ = q := by
  have h1 : (h.pushNew q s.results).list h.lists.length = q.classical := by simp [Heap.list, Heap.pushNew]
  have h2 : s.results.map (fun r => (⟨(h.pushNew q s.results).list r.1, r.2⟩ : MRes)) = q.results := by
    rw [hq]
    refine List.map_congr_left (fun r hr => ?_)
    rw [(h.le_pushNew q s.results).list ((ok s hs).2 r hr)]
  unfold Heap.val
  simp only [h1, h2]

/-- A new object, made from an object of the source, joins the collection of new objects. -/
theorem Good.pushNew {h0 h : Heap} {nR : ℕ → Prop} {own : Bool} {o : HColl} {O : Coll} (x : Good h0 nR own h o O) {s : HState} (hs : s ∈ h.objs) (hr : ∀ r ∈ s.results, nR r.1)
    {q : QState} (hq : q.results = (h.val s).results) (k : List Char) : Good h0 nR own (h.pushNew q s.results) (o.set k h.objs.length) (O.set k q) := by
  have hok := Heap.ok_pushNew x.ok hs q
  refine (x.extend (h.le_pushNew q s.results) hok).set k ?_ ?_ ?_
  · rw [Heap.get, h.pushNew_obj, Option.map_some, Heap.pushNew_val x.ok hs hq]
  · exact ⟨_, h.pushNew_obj q s.results, x.le.len.2, x.le.len.1, fun r h' => Or.inl (hr r h')⟩
  · intro p hp s' t hs' ht
    rw [h.pushNew_obj] at hs'
    obtain rfl := Option.some.inj hs'
    obtain ⟨t', ht', -⟩ := x.fresh p hp
    have := (h.le_pushNew q s.results).obj ht'
    rw [ht] at this
    obtain rfl := Option.some.inj this
    have := (x.ok t (List.mem_of_getElem? ht')).1
    simp only
    omega

theorem Good.weaken {h0 h1 h : Heap} {nR : ℕ → Prop} {own : Bool} {o : HColl} {O : Coll} (le : h0.Le h1) (x : Good h1 nR own h o O) : Good h0 nR own h o O :=
  ⟨le.trans x.le, x.ok, x.rep, x.keys, fun p hp => (x.fresh p hp).weaken le, x.inj⟩

theorem Good.repE {h0 h : Heap} {nR : ℕ → Prop} {o : HColl} {O : Coll} (x : Good h0 nR false h o O) : List.Forall₂ (RepE h nR) o O := by
  refine forall₂_imp_mem ?_ x.rep
  intro p P hp hP
  obtain ⟨s, hs, -, -, h4⟩ := x.fresh p hp
  obtain ⟨s', hs', hv⟩ := Heap.get_eq.1 hP.2
  rw [hs] at hs'
  obtain rfl := Option.some.inj hs'
  exact ⟨hP.1, s, hs, hv, fun r hr => (h4 r hr).resolve_right (by simp)⟩

theorem mapM_foldl {α β γ : Type*} (f : α → Option β) (k : γ → β → γ) (l : List α) : ∀ b : γ, (l.mapM f).map (fun r => r.foldl k b) = l.foldlM (fun b x => (f x).map (k b)) b := by
  induction l with
  | nil => intro b; rfl
  | cons a l ih =>
    intro b
    rw [List.mapM_cons, List.foldlM_cons]
    rcases f a with _ | y
    · rfl
    · simp only [Option.bind_eq_bind, Option.bind_some, Option.map_some, Option.pure_def]
      rw [← ih (k b y)]
      rcases List.mapM (m := Option) f l with _ | r <;> rfl

/-! ### reduce -/

theorem reducedState_results {thr : ℝ} {m' : ℕ} {ckeep : List ℕ} {q q' : QState} {comps : Comps} (h : reducedState thr m' ckeep q comps = some q') : q'.results = q.results := by
  unfold reducedState at h
  simp only [Option.bind_eq_bind] at h
  split at h
  · cases h
  · obtain ⟨cl, -, h⟩ := Option.bind_eq_some_iff.1 h
    unfold newState at h
    split at h
    · rw [← Option.some.inj h]
    · cases h

theorem foldlM_sim {α : Type*} {h0 : Heap} {nR : ℕ → Prop} {own : Bool} (f : Heap × HColl → α → Option (Heap × HColl)) (F : Coll → α → Option Coll)
    (I : Heap → Prop) (l : List α) (step : ∀ h o O, ∀ a ∈ l, Good h0 nR own h o O → I h → Sim h0 nR own (f (h, o) a) (F O a) ∧ ∀ r, f (h, o) a = some r → I r.1) :
    ∀ h o O, Good h0 nR own h o O → I h → Sim h0 nR own (l.foldlM f (h, o)) (l.foldlM F O) := by
  induction l with
  | nil => intro h o O hg _; exact hg
  | cons a l ih =>
    intro h o O hg hi
    rw [List.foldlM_cons, List.foldlM_cons]
    obtain ⟨h1, h2⟩ := step h o O a List.mem_cons_self hg hi
    revert h1
    rcases hf : f (h, o) a with _ | ⟨h', o'⟩ <;> rcases F O a with _ | O' <;> intro h1
    · trivial
    · cases h1
    · cases h1
    · exact ih (fun h o O a ha => step h o O a (List.mem_cons_of_mem _ ha)) h' o' O' h1 (h2 _ hf)

theorem hReduceState_sim {g : Cfg} {thr : ℝ} {keep ckeep : List ℕ} {h0 h : Heap} {nR : ℕ → Prop} {own : Bool} {o : HColl} {O : Coll} {p : List Char × ℕ} {P : List Char × QState} (ok : h0.Ok)
    (hg : Good h0 nR own h o O) (hp : RepE h0 nR p P) :
    Sim h0 nR own (hReduceState g thr keep ckeep (h, o) p) ((reduceState g thr keep ckeep P.1 P.2).map (fun l => l.foldl (fun (out : Coll) e => out.set e.1 e.2) O)) := by
  obtain ⟨hk, s, hs, hv, hr⟩ := hp.mono hg.le ok
  unfold hReduceState reduceState
  rw [hs, Option.bind_some, ← hv, Option.bind_eq_bind]
  show Sim h0 nR own ((groupTraced g keep s.comps).bind _) (((groupTraced g keep s.comps).bind _).map _)
  rcases groupTraced g keep s.comps with _ | d
  · trivial
  · simp only [Option.bind_some]
    rw [mapM_foldl]
    refine foldlM_sim _ _ (fun h' => h.Le h') d ?_ h o O hg (Heap.Le.refl h)
    intro h' o' O' tc _ hg' hle
    rcases hq : reducedState thr ckeep.length ckeep (h.val s) tc.2 with _ | q'
    · exact ⟨trivial, fun r hr => by cases hr⟩
    · refine ⟨?_, ?_⟩
      · rw [← hk]
        have hmem : s ∈ h'.objs := List.mem_of_getElem? (hle.obj hs)
        exact hg'.pushNew hmem hr (by rw [reducedState_results hq, hle.val hg.ok hs]) _
      · intro r hr'
        obtain rfl := Option.some.inj hr'
        exact hle.trans (h'.le_pushNew _ _)

theorem hReduceFold_sim {g : Cfg} {thr : ℝ} {keep ckeep : List ℕ} {h0 : Heap} {nR : ℕ → Prop} {own : Bool} (ok : h0.Ok) {coll : HColl} {C : Coll} (hrep : List.Forall₂ (RepE h0 nR) coll C) :
    Sim h0 nR own (coll.foldlM (hReduceState g thr keep ckeep) (h0, []))
      (C.foldlM (fun (out : Coll) p => (reduceState g thr keep ckeep p.1 p.2).map (fun l => l.foldl (fun (out : Coll) e => out.set e.1 e.2) out)) []) :=
  fold_sim _ _ hrep (fun _ _ _ _ _ hg hp => hReduceState_sim ok hg hp) h0 [] [] (Good.nil (Heap.Le.refl _) ok)

/-! ### extend -/

theorem extendedState_results {g g' : Cfg} {ec : ℕ} {q q' : QState} {prob : ℝ} {vals : Vals} (h : extendedState g g' ec q prob vals = some q') : q'.results = q.results := by
  unfold extendedState at h
  simp only [Option.bind_eq_bind] at h
  obtain ⟨c, -, h⟩ := Option.bind_eq_some_iff.1 h
  rw [← Option.some.inj h]

theorem newState_eq {thr : ℝ} {m : ℕ} {q q' : QState} (h : newState thr m q = some q') : q' = q := by
  unfold newState at h
  split at h
  · exact (Option.some.inj h).symm
  · cases h

theorem hExtendState_sim {cl : HCollection} {g' : Cfg} {ec : ℕ} {prob : ℝ} {vals : Vals} {r : ℕ → ℕ → ℕ} {h0 h : Heap} {nR : ℕ → Prop} {own : Bool} {o : HColl} {O : Coll}
    {p : List Char × ℕ} {P : List Char × QState} (ok : h0.Ok) (hg : Good h0 nR own h o O) (hp : RepE h0 nR p P) :
    Sim h0 nR own (hExtendState cl g' ec prob vals r (h, o) p) ((extendedState cl.g g' ec P.2 prob vals).bind (fun q => if q.cum ≥ cl.thr then
      (newState cl.thr (cl.m + ec) q).bind (fun q' => some (addState O q' none (r O.length))) else some O)) := by
  obtain ⟨hk, s, hs, hv, hr⟩ := hp.mono hg.le ok
  unfold hExtendState
  rw [hs, Option.bind_some, hv]
  rcases hq : extendedState cl.g g' ec P.2 prob vals with _ | q
  · trivial
  · simp only [Option.bind_some]
    by_cases hc : q.cum ≥ cl.thr
    · rw [if_pos hc, if_pos hc]
      rcases hn : newState cl.thr (cl.m + ec) q with _ | q'
      · trivial
      · obtain rfl := newState_eq hn
        have hkeys : o.keys = O.keys := forall₂_keys hg.rep
        have hlen : o.length = O.length := hg.rep.length_eq
        simp only [Option.map_some, Option.bind_some, addState, Option.getD_none, ← hkeys, ← hlen]
        exact hg.pushNew (List.mem_of_getElem? hs) hr (by rw [extendedState_results hq, hv]) _
    · rw [if_neg hc, if_neg hc]
      exact hg

theorem foldlM_sim' {α : Type*} {h0 : Heap} {nR : ℕ → Prop} {own : Bool} (f : Heap × HColl → α → Option (Heap × HColl)) (F : Coll → α → Option Coll)
    (l : List α) (step : ∀ h o O a, Good h0 nR own h o O → Sim h0 nR own (f (h, o) a) (F O a)) :
    ∀ h o O, Good h0 nR own h o O → Sim h0 nR own (l.foldlM f (h, o)) (l.foldlM F O) :=
  fun h o O hg => foldlM_sim f F (fun _ => True) l (fun h o O a _ hg _ => ⟨step h o O a hg, fun _ _ => trivial⟩) h o O hg trivial

theorem hExtendFold_sim {cl : HCollection} {g' : Cfg} {ec : ℕ} {r : ℕ → ℕ → ℕ} {h0 : Heap} {nR : ℕ → Prop} {own : Bool} (ok : h0.Ok) {C : Coll} (hrep : List.Forall₂ (RepE h0 nR) cl.states C)
    (extra : Dict Name (ℝ × Vals)) :
    Sim h0 nR own (extra.foldlM (fun (st : Heap × HColl) e => cl.states.foldlM (hExtendState cl g' ec e.2.1 e.2.2 r) st) (h0, []))
      (extra.foldlM (fun (out : Coll) e => C.foldlM (fun (out : Coll) p => (extendedState cl.g g' ec p.2 e.2.1 e.2.2).bind (fun q => if q.cum ≥ cl.thr then
      (newState cl.thr (cl.m + ec) q).bind (fun q' => some (addState out q' none (r out.length))) else some out)) out) []) :=
  foldlM_sim' _ _ extra (fun h o O _ hg => fold_sim _ _ hrep (fun _ _ _ _ _ hg hp => hExtendState_sim ok hg hp) h o O hg) h0 [] [] (Good.nil (Heap.Le.refl _) ok)

end Verif
