/- Helper lemmas about the object-level model. -/
import Verif.Model.Heap
import Verif.Lemmas.Evaluate

namespace Verif

/-- all references point to existing list objects -/
def Heap.Ok (h : Heap) : Prop := ∀ s ∈ h.objs, s.classical < h.lists.length ∧ ∀ r ∈ s.results, r.1 < h.lists.length

/-- nothing that existed in `h` has changed in `h'` -/
def Heap.Le (h h' : Heap) : Prop := h.lists <+: h'.lists ∧ h.objs <+: h'.objs

theorem Heap.Le.refl (h : Heap) : h.Le h := ⟨List.prefix_rfl, List.prefix_rfl⟩

theorem Heap.Le.trans {h h' h'' : Heap} (a : h.Le h') (b : h'.Le h'') : h.Le h'' := ⟨a.1.trans b.1, a.2.trans b.2⟩

theorem Heap.Le.len {h h' : Heap} (a : h.Le h') : h.lists.length ≤ h'.lists.length ∧ h.objs.length ≤ h'.objs.length :=
  ⟨a.1.length_le, a.2.length_le⟩

theorem prefix_getElem? {α : Type*} {l l' : List α} (h : l <+: l') {i : ℕ} (hi : i < l.length) : l'[i]? = l[i]? := by
  obtain ⟨t, rfl⟩ := h
  rw [List.getElem?_append_left hi]

theorem Heap.Le.obj {h h' : Heap} (a : h.Le h') {i : ℕ} {s : HState} (hs : h.objs[i]? = some s) : h'.objs[i]? = some s := by
  have hi : i < h.objs.length := (List.getElem?_eq_some_iff.1 hs).1
  rw [prefix_getElem? a.2 hi, hs]

theorem Heap.Le.list {h h' : Heap} (a : h.Le h') {r : ℕ} (hr : r < h.lists.length) : h'.list r = h.list r := by
  unfold Heap.list
  rw [List.getD_eq_getElem?_getD, List.getD_eq_getElem?_getD, prefix_getElem? a.1 hr]

theorem Heap.val_congr {h h' : Heap} {s : HState} (hc : h'.list s.classical = h.list s.classical)
    (hr : ∀ r ∈ s.results, h'.list r.1 = h.list r.1) : h'.val s = h.val s := by
  unfold Heap.val
  rw [hc]
  congr 1
  apply List.map_congr_left
  intro r h1
  rw [hr r h1]

theorem Heap.Le.val {h h' : Heap} (a : h.Le h') (ok : h.Ok) {i : ℕ} {s : HState} (hs : h.objs[i]? = some s) : h'.val s = h.val s := by
  have := ok s (List.mem_of_getElem? hs)
  exact Heap.val_congr (a.list this.1) (fun r hr => a.list (this.2 r hr))

theorem Heap.Le.get {h h' : Heap} (a : h.Le h') (ok : h.Ok) {i : ℕ} {q : QState} (hq : h.get i = some q) : h'.get i = some q := by
  unfold Heap.get at *
  obtain ⟨s, hs, rfl⟩ := Option.map_eq_some_iff.1 hq
  rw [a.obj hs, Option.map_some, a.val ok hs]

theorem Heap.get_eq {h : Heap} {i : ℕ} {q : QState} : h.get i = some q ↔ ∃ s, h.objs[i]? = some s ∧ h.val s = q :=
  Option.map_eq_some_iff

/-! ### copying a state -/

/-- a copy of `s` -/
def Heap.push (h : Heap) (s : HState) : Heap := ⟨h.lists ++ [h.list s.classical], h.objs ++ [{ s with classical := h.lists.length }]⟩

theorem Heap.le_push (h : Heap) (s : HState) : h.Le (h.push s) := ⟨List.prefix_append _ _, List.prefix_append _ _⟩

theorem Heap.ok_push {h : Heap} (ok : h.Ok) {s : HState} (hs : s ∈ h.objs) : (h.push s).Ok := by
  intro t ht
  simp only [Heap.push, List.length_append, List.length_singleton, List.mem_append, List.mem_singleton] at *
  rcases ht with ht | rfl
  · exact ⟨by have := (ok t ht).1; omega, fun r hr => by have := (ok t ht).2 r hr; omega⟩
  · exact ⟨by simp, fun r hr => by have := (ok s hs).2 r hr; omega⟩

theorem Heap.push_obj (h : Heap) (s : HState) : (h.push s).objs[h.objs.length]? = some { s with classical := h.lists.length } := by
  simp [Heap.push]

theorem Heap.push_list (h : Heap) (s : HState) : (h.push s).list h.lists.length = h.list s.classical := by
  simp [Heap.push, Heap.list]

theorem Heap.push_val {h : Heap} (ok : h.Ok) {s : HState} (hs : s ∈ h.objs) :
    (h.push s).val { s with classical := h.lists.length } = h.val s := by
  unfold Heap.val
  simp only
  rw [h.push_list]
  congr 1
  apply List.map_congr_left
  intro r hr
  rw [(h.le_push s).list ((ok s hs).2 r hr)]

theorem hCopyState_eq {thr : ℝ} {m : ℕ} {h : Heap} {a : ℕ} {s : HState} (hs : h.objs[a]? = some s) :
    hCopyState thr m h a = (copyState thr m (h.val s)).map (fun _ => (h.push s, h.objs.length)) := by
  unfold hCopyState
  rw [hs]
  simp only [Option.bind_eq_bind, Option.bind_some]
  cases copyState thr m (h.val s) <;> rfl

theorem copyState_eq {thr : ℝ} {m : ℕ} {q q' : QState} (h : copyState thr m q = some q') : q' = q := by
  unfold copyState at h
  split at h
  · exact (Option.some.inj h).symm
  · cases h

/-! ### representation of collections -/

/-- the entry `p` of a heap collection shows the entry `P`; the lists of history entries satisfy `nR` -/
def RepE (h : Heap) (nR : ℕ → Prop) (p : List Char × ℕ) (P : List Char × QState) : Prop :=
  p.1 = P.1 ∧ ∃ s, h.objs[p.2]? = some s ∧ h.val s = P.2 ∧ ∀ r ∈ s.results, nR r.1

/-- the entry `p` shows the entry `P` -/
def Rep (h : Heap) (p : List Char × ℕ) (P : List Char × QState) : Prop := p.1 = P.1 ∧ h.get p.2 = some P.2

theorem RepE.mono {h h' : Heap} {nR : ℕ → Prop} {p : List Char × ℕ} {P : List Char × QState} (a : h.Le h') (ok : h.Ok) (x : RepE h nR p P) :
    RepE h' nR p P := by
  obtain ⟨e, s, hs, hv, hr⟩ := x
  exact ⟨e, s, a.obj hs, (a.val ok hs).trans hv, hr⟩

theorem Rep.mono {h h' : Heap} {p : List Char × ℕ} {P : List Char × QState} (a : h.Le h') (ok : h.Ok) (x : Rep h p P) : Rep h' p P :=
  ⟨x.1, a.get ok x.2⟩

theorem Rep.toRepE {h : Heap} (ok : h.Ok) {p : List Char × ℕ} {P : List Char × QState} (x : Rep h p P) : RepE h (· < h.lists.length) p P := by
  obtain ⟨s, hs, hv⟩ := Heap.get_eq.1 x.2
  exact ⟨x.1, s, hs, hv, (ok s (List.mem_of_getElem? hs)).2⟩

theorem forall₂_set {h : Heap} {o : HColl} {O : Coll} (hr : List.Forall₂ (Rep h) o O) (k : List Char) {a : ℕ} {q : QState} (hq : h.get a = some q) :
    List.Forall₂ (Rep h) (o.set k a) (O.set k q) := by
  induction hr with
  | nil => exact List.Forall₂.cons ⟨rfl, hq⟩ List.Forall₂.nil
  | @cons p P o O h1 h2 ih =>
    obtain ⟨i, b⟩ := p
    obtain ⟨j, B⟩ := P
    obtain ⟨rfl, hb⟩ : i = j ∧ _ := h1
    show List.Forall₂ (Rep h) (if i = k then (i, a) :: o else (i, b) :: Dict.set o k a) (if i = k then (i, q) :: O else (i, B) :: Dict.set O k q)
    by_cases e : i = k
    · rw [if_pos e, if_pos e]; exact List.Forall₂.cons ⟨rfl, hq⟩ h2
    · rw [if_neg e, if_neg e]; exact List.Forall₂.cons ⟨rfl, hb⟩ ih

theorem forall₂_keys {h : Heap} {o : HColl} {O : Coll} (hr : List.Forall₂ (Rep h) o O) : o.map Prod.fst = O.map Prod.fst := by
  induction hr with
  | nil => rfl
  | cons h1 _ ih => rw [List.map_cons, List.map_cons, ih, h1.1]

theorem forall₂_get? {h : Heap} {o : HColl} {O : Coll} (hr : List.Forall₂ (Rep h) o O) (k : List Char) :
    (∃ a q, o.get? k = some a ∧ O.get? k = some q ∧ h.get a = some q) ∨ (o.get? k = none ∧ O.get? k = none) := by
  induction hr with
  | nil => right; exact ⟨rfl, rfl⟩
  | @cons p P o O h1 h2 ih =>
    rw [Dict.get?_cons, Dict.get?_cons, ← h1.1]
    by_cases e : p.1 = k
    · rw [if_pos e, if_pos e]; left; exact ⟨_, _, rfl, rfl, h1.2⟩
    · rw [if_neg e, if_neg e]; exact ih

theorem view_iff {h : Heap} {o : HColl} {O : Coll} : h.view o = some O ↔ List.Forall₂ (Rep h) o O := by
  unfold Heap.view
  induction o generalizing O with
  | nil =>
    simp only [List.mapM_nil]
    constructor
    · intro e; obtain rfl := Option.some.inj e; exact List.Forall₂.nil
    · intro e; cases e; rfl
  | cons p o ih =>
    rw [List.mapM_cons]
    simp only [Option.bind_eq_bind]
    constructor
    · intro e
      obtain ⟨P, hP, e⟩ := Option.bind_eq_some_iff.1 e
      obtain ⟨O', hO, e⟩ := Option.bind_eq_some_iff.1 e
      obtain rfl := Option.some.inj e
      obtain ⟨q, hq, rfl⟩ := Option.map_eq_some_iff.1 hP
      exact List.Forall₂.cons ⟨rfl, hq⟩ (ih.1 hO)
    · intro e
      cases e with
      | @cons _ P _ O' h1 h2 =>
        rw [ih.2 h2, h1.2]
        simp only [Option.map_some, Option.bind_some]
        rw [h1.1]; rfl

/-- the object at `a` is new since `h0` and its history refers only to lists with `nR` (or, with `own`, to its own classical list) -/
def FreshAt (h0 : Heap) (nR : ℕ → Prop) (own : Bool) (h : Heap) (a : ℕ) : Prop :=
  ∃ s, h.objs[a]? = some s ∧ h0.objs.length ≤ a ∧ h0.lists.length ≤ s.classical ∧ ∀ r ∈ s.results, nR r.1 ∨ (own = true ∧ r.1 = s.classical)

theorem FreshAt.mono {h0 h h' : Heap} {nR : ℕ → Prop} {own : Bool} {a : ℕ} (le : h.Le h') (x : FreshAt h0 nR own h a) : FreshAt h0 nR own h' a := by
  obtain ⟨s, hs, h1⟩ := x
  exact ⟨s, le.obj hs, h1⟩

theorem FreshAt.weaken {h0 h1 h : Heap} {nR : ℕ → Prop} {own : Bool} {a : ℕ} (le : h0.Le h1) (x : FreshAt h1 nR own h a) : FreshAt h0 nR own h a := by
  obtain ⟨s, hs, h2, h3, h4⟩ := x
  exact ⟨s, hs, by have := le.len; omega, by have := le.len; omega, h4⟩

/-- a collection of new objects -/
structure Good (h0 : Heap) (nR : ℕ → Prop) (own : Bool) (h : Heap) (o : HColl) (O : Coll) : Prop where
  le : h0.Le h
  ok : h.Ok
  rep : List.Forall₂ (Rep h) o O
  keys : (o.map Prod.fst).Nodup
  fresh : ∀ p ∈ o, FreshAt h0 nR own h p.2
  inj : ∀ p ∈ o, ∀ q ∈ o, ∀ s t, h.objs[p.2]? = some s → h.objs[q.2]? = some t → s.classical = t.classical → p.1 = q.1

theorem Good.nil {h0 h : Heap} {nR : ℕ → Prop} {own : Bool} (le : h0.Le h) (ok : h.Ok) : Good h0 nR own h [] [] :=
  ⟨le, ok, List.Forall₂.nil, by simp, by simp, by simp⟩

theorem forall₂_imp' {α β : Type*} {R S : α → β → Prop} (hi : ∀ a b, R a b → S a b) {l : List α} {m : List β} (h : List.Forall₂ R l m) :
    List.Forall₂ S l m := by
  induction h with
  | nil => exact List.Forall₂.nil
  | cons h1 _ ih => exact List.Forall₂.cons (hi _ _ h1) ih

theorem Good.extend {h0 h h' : Heap} {nR : ℕ → Prop} {own : Bool} {o : HColl} {O : Coll} (x : Good h0 nR own h o O) (le : h.Le h') (ok : h'.Ok) :
    Good h0 nR own h' o O := by
  refine ⟨x.le.trans le, ok, forall₂_imp' (fun p P hp => hp.mono le x.ok) x.rep, x.keys, fun p hp => (x.fresh p hp).mono le, ?_⟩
  intro p hp q hq s t hs ht e
  obtain ⟨s', hs', -⟩ := x.fresh p hp
  obtain ⟨t', ht', -⟩ := x.fresh q hq
  have h1 := le.obj hs'
  have h2 := le.obj ht'
  rw [hs] at h1; rw [ht] at h2
  obtain rfl := Option.some.inj h1
  obtain rfl := Option.some.inj h2
  exact x.inj p hp q hq _ _ hs' ht' e

theorem mem_hset {o : HColl} {k : List Char} {a : ℕ} {p : List Char × ℕ} (h : p ∈ o.set k a) : p = (k, a) ∨ (p ∈ o ∧ p.1 ≠ k) ∨ p ∈ o := by
  rcases Dict.mem_set h with h | h
  · right; right; exact h
  · left; exact h

theorem Good.set {h0 h : Heap} {nR : ℕ → Prop} {own : Bool} {o : HColl} {O : Coll} (x : Good h0 nR own h o O) (k : List Char) {a : ℕ} {q : QState}
    (hq : h.get a = some q) (hf : FreshAt h0 nR own h a)
    (hd : ∀ p ∈ o, ∀ s t, h.objs[a]? = some s → h.objs[p.2]? = some t → s.classical ≠ t.classical) :
    Good h0 nR own h (o.set k a) (O.set k q) := by
  refine ⟨x.le, x.ok, forall₂_set x.rep k hq, Dict.nodup_keys_set x.keys k a, ?_, ?_⟩
  · intro p hp
    rcases mem_hset hp with rfl | ⟨hp, -⟩ | hp
    · exact hf
    · exact x.fresh p hp
    · exact x.fresh p hp
  · intro p hp p' hp' s t hs ht e
    rcases mem_hset hp with rfl | h1
    · rcases mem_hset hp' with rfl | h2
      · rfl
      · exact absurd e (hd p' (h2.elim (fun h => h.1) id) s t hs ht)
    · rcases mem_hset hp' with rfl | h2
      · exact absurd e.symm (hd p (h1.elim (fun h => h.1) id) t s ht hs)
      · exact x.inj p (h1.elim (fun h => h.1) id) p' (h2.elim (fun h => h.1) id) s t hs ht e

/-- the two results agree: both raise, or the heap result shows the value result -/
def Sim (h0 : Heap) (nR : ℕ → Prop) (own : Bool) : Option (Heap × HColl) → Option Coll → Prop
  | some r, some O => Good h0 nR own r.1 r.2 O
  | none, none => True
  | _, _ => False

theorem Sim.bind {h0 h1 : Heap} {nR nR' : ℕ → Prop} {own own' : Bool} {x : Option (Heap × HColl)} {X : Option Coll} (h : Sim h0 nR own x X)
    {f : Heap × HColl → Option (Heap × HColl)} {F : Coll → Option Coll}
    (hf : ∀ h o O, Good h0 nR own h o O → Sim h1 nR' own' (f (h, o)) (F O)) : Sim h1 nR' own' (x.bind f) (X.bind F) := by
  match x, X, h with
  | some (h, o), some O, hg => exact hf h o O hg
  | none, none, _ => trivial

theorem fold_sim {h0 : Heap} {nR : ℕ → Prop} {own : Bool} (f : Heap × HColl → List Char × ℕ → Option (Heap × HColl))
    (F : Coll → List Char × QState → Option Coll) {l : HColl} {L : Coll} (hrep : List.Forall₂ (RepE h0 nR) l L)
    (step : ∀ h o O p P, Good h0 nR own h o O → RepE h0 nR p P → Sim h0 nR own (f (h, o) p) (F O P)) :
    ∀ h o O, Good h0 nR own h o O → Sim h0 nR own (l.foldlM f (h, o)) (L.foldlM F O) := by
  induction hrep with
  | nil => intro h o O hg; exact hg
  | cons h1 _ ih =>
    intro h o O hg
    rw [List.foldlM_cons, List.foldlM_cons]
    exact (step h o O _ _ hg h1).bind (fun h o O hg => ih h o O hg)

/-- a copy of an input object, added to the collection of new objects -/
theorem Good.copy {h0 h : Heap} {nR : ℕ → Prop} {own : Bool} {o : HColl} {O : Coll} (x : Good h0 nR own h o O) (h0ok : h0.Ok) {p : List Char × ℕ}
    {P : List Char × QState} (hp : RepE h0 nR p P) :
    ∃ s, h.objs[p.2]? = some s ∧ h.val s = P.2 ∧ (h.push s).Ok ∧ h0.Le (h.push s) ∧ FreshAt h0 nR own (h.push s) h.objs.length ∧
      (h.push s).get h.objs.length = some P.2 ∧ Good h0 nR own (h.push s) o O ∧
      (∀ p ∈ o, ∀ s' t, (h.push s).objs[h.objs.length]? = some s' → (h.push s).objs[p.2]? = some t → s'.classical ≠ t.classical) := by
  obtain ⟨-, s, hs, hv, hr⟩ := hp.mono x.le h0ok
  have hmem := List.mem_of_getElem? hs
  have hok := h.ok_push x.ok hmem
  refine ⟨s, hs, hv, hok, x.le.trans (h.le_push s), ?_, ?_, x.extend (h.le_push s) hok, ?_⟩
  · refine ⟨_, h.push_obj s, x.le.len.2, x.le.len.1, fun r hr' => Or.inl (hr r hr')⟩
  · rw [Heap.get, h.push_obj s, Option.map_some, h.push_val x.ok hmem, hv]
  · intro p hp s' t hs' ht
    rw [h.push_obj s] at hs'
    obtain rfl := Option.some.inj hs'
    obtain ⟨t', ht', -⟩ := x.fresh p hp
    have := (h.le_push s).obj ht'
    rw [ht] at this
    obtain rfl := Option.some.inj this
    have := (x.ok t (List.mem_of_getElem? ht')).1
    simp only
    omega

theorem hCopyColl_sim {thr : ℝ} {m : ℕ} {h0 : Heap} {nR : ℕ → Prop} {own : Bool} (ok : h0.Ok) {coll : HColl} {C : Coll}
    (hrep : List.Forall₂ (RepE h0 nR) coll C) : Sim h0 nR own (hCopyColl thr m h0 coll) (copyColl thr m C) := by
  unfold hCopyColl copyColl selectStates
  refine fold_sim _ _ hrep ?_ h0 [] [] (Good.nil (Heap.Le.refl _) ok)
  intro h o O p P hg hp
  obtain ⟨s, hs, hv, -, -, hf, hget, hg', hd⟩ := hg.copy ok hp
  simp only [Option.bind_eq_bind, Option.bind_some, if_true, hCopyState_eq hs, hv]
  cases hc : copyState thr m P.2 with
  | none => trivial
  | some q =>
    have := copyState_eq hc
    subst this
    rw [← hp.1]
    exact hg'.set p.1 hget hf hd

/-- changing the components of a new object -/
theorem Good.setComps {h0 h : Heap} {nR : ℕ → Prop} {own : Bool} {o : HColl} {O : Coll} (x : Good h0 nR own h o O) {i : List Char} {a : ℕ} {q : QState}
    (ha : o.get? i = some a) (hq : O.get? i = some q) (comps : Comps) :
    Good h0 nR own (h.setComps a comps) o (O.set i { q with comps := comps }) := by
  have hmem : (i, a) ∈ o := Dict.get?_mem ha
  have hobj : ∀ b, (h.setComps a comps).objs[b]? = (h.objs[b]?).map (fun s => if a = b then { s with comps := comps } else s) := by
    intro b
    simp only [Heap.setComps, List.getElem?_modify]
    rfl
  have hlist : ∀ r, (h.setComps a comps).list r = h.list r := fun r => rfl
  have hval : ∀ s, (h.setComps a comps).val s = h.val s := fun s => rfl
  have hback : ∀ (b : ℕ) (s : HState), (h.setComps a comps).objs[b]? = some s → ∃ s' : HState, h.objs[b]? = some s' ∧ s.classical = s'.classical ∧ s.results = s'.results := by
    intro b s hs
    rw [hobj] at hs
    obtain ⟨s', hs', rfl⟩ := Option.map_eq_some_iff.1 hs
    refine ⟨s', hs', ?_⟩
    by_cases e : a = b
    · rw [if_pos e]; exact ⟨rfl, rfl⟩
    · rw [if_neg e]; exact ⟨rfl, rfl⟩
  have hfr : ∀ b, FreshAt h0 nR own h b → FreshAt h0 nR own (h.setComps a comps) b := by
    rintro b ⟨s, hs, h1, h2, h3⟩
    refine ⟨_, by rw [hobj, hs, Option.map_some], h1, ?_⟩
    by_cases e : a = b
    · rw [if_pos e]; exact ⟨h2, h3⟩
    · rw [if_neg e]; exact ⟨h2, h3⟩
  refine ⟨?_, ?_, ?_, x.keys, fun p hp => hfr _ (x.fresh p hp), ?_⟩
  · refine ⟨x.le.1, ?_⟩
    obtain ⟨s, hs, hle, -⟩ := x.fresh _ hmem
    obtain ⟨t, ht⟩ := x.le.2
    have hlen : ¬ a < h0.objs.length := by omega
    refine ⟨t.modify (a - h0.objs.length) (fun s => { s with comps := comps }), ?_⟩
    apply List.ext_getElem?
    intro j
    rw [hobj, ← ht]
    by_cases hj : j < h0.objs.length
    · rw [List.getElem?_append_left hj, List.getElem?_append_left hj]
      have : ¬ a = j := by omega
      simp [this]
    · rw [List.getElem?_append_right (by omega), List.getElem?_append_right (by omega), List.getElem?_modify]
      have : (a - h0.objs.length = j - h0.objs.length) ↔ a = j := by
        have : h0.objs.length ≤ a := hle
        omega
      simp only [this]; rfl
  · intro s hs
    obtain ⟨b, hb⟩ := List.getElem?_of_mem hs
    obtain ⟨s', hs', e1, e2⟩ := hback b s hb
    rw [e1, e2]
    exact x.ok s' (List.mem_of_getElem? hs')
  · -- the entry `i` gets the new components, the other ones are other objects
    have hne : ∀ p ∈ o, p.1 ≠ i → p.2 ≠ a := by
      intro p hp hpi e
      obtain ⟨s, hs, -⟩ := x.fresh p hp
      exact hpi (x.inj p hp (i, a) hmem s s hs (by simpa [e] using hs) rfl)
    have hgeta : (h.setComps a comps).get a = some { q with comps := comps } := by
      rcases forall₂_get? x.rep i with ⟨b, q', h1, h2, h3⟩ | ⟨h1, _⟩
      · rw [ha] at h1; rw [hq] at h2
        obtain rfl := Option.some.inj h1
        obtain rfl := Option.some.inj h2
        obtain ⟨s, hs, rfl⟩ := Heap.get_eq.1 h3
        rw [Heap.get, hobj, hs, Option.map_some, if_pos rfl]
        rfl
      · rw [ha] at h1; cases h1
    have hgetb : ∀ b, b ≠ a → (h.setComps a comps).get b = h.get b := by
      intro b hb
      have : ¬ a = b := fun e => hb e.symm
      simp only [Heap.get, hobj, this, if_false]
      cases h.objs[b]? <;> rfl
    have gen : ∀ (o : HColl) (O : Coll), List.Forall₂ (Rep h) o O → (∀ p ∈ o, p.1 ≠ i → p.2 ≠ a) → (o.map Prod.fst).Nodup →
        Dict.get? o i = some a ∨ i ∉ o.map Prod.fst →
        List.Forall₂ (Rep (h.setComps a comps)) o (if i ∈ o.map Prod.fst then O.set i { q with comps := comps } else O) := by
      intro o O hr
      induction hr with
      | nil => intro _ _ _; exact List.Forall₂.nil
      | @cons p P o O h1 h2 ih =>
        intro hn hnd hor
        rw [List.map_cons, List.nodup_cons] at hnd
        have ih := ih (fun p hp => hn p (by simp [hp])) hnd.2
        by_cases e : p.1 = i
        · have hi : i ∉ o.map Prod.fst := e ▸ hnd.1
          have ih := ih (Or.inr hi)
          rw [if_neg hi] at ih
          have hpa : p.2 = a := by
            rcases hor with h | h
            · rw [Dict.get?_cons, if_pos e] at h; exact Option.some.inj h
            · exact absurd (by simp [e]) h
          rw [if_pos (by simp [e])]
          show List.Forall₂ _ (p :: o) (if P.1 = i then (P.1, _) :: O else _)
          rw [if_pos (h1.1 ▸ e)]
          exact List.Forall₂.cons ⟨h1.1, by rw [hpa]; exact hgeta⟩ ih
        · have hiff : i ∈ (p :: o).map Prod.fst ↔ i ∈ o.map Prod.fst := by
            rw [List.map_cons, List.mem_cons]
            exact ⟨fun h => h.elim (fun h => absurd h.symm e) id, Or.inr⟩
          have hor' : Dict.get? o i = some a ∨ i ∉ o.map Prod.fst := by
            rcases hor with h | h
            · rw [Dict.get?_cons, if_neg e] at h; exact Or.inl h
            · exact Or.inr (fun h' => h (hiff.2 h'))
          have ih := ih hor'
          have hr1 : Rep (h.setComps a comps) p P := ⟨h1.1, by rw [hgetb _ (hn p (by simp) e)]; exact h1.2⟩
          by_cases hi : i ∈ o.map Prod.fst
          · rw [if_pos hi] at ih
            rw [if_pos (hiff.2 hi)]
            show List.Forall₂ _ (p :: o) (if P.1 = i then _ else (P.1, P.2) :: Dict.set O i _)
            rw [if_neg (h1.1 ▸ e)]
            exact List.Forall₂.cons hr1 ih
          · rw [if_neg hi] at ih
            rw [if_neg (fun h => hi (hiff.1 h))]
            exact List.Forall₂.cons hr1 ih
    have := gen o O x.rep hne x.keys (Or.inl ha)
    rwa [if_pos (List.mem_map.2 ⟨_, hmem, rfl⟩)] at this
  · intro p hp p' hp' s t hs ht e
    obtain ⟨s', hs', e1, -⟩ := hback _ _ hs
    obtain ⟨t', ht', e2, -⟩ := hback _ _ ht
    exact x.inj p hp p' hp' s' t' hs' ht' (by rw [← e1, ← e2, e])

/-- both raise, or the changed heap shows the changed collection -/
def SimH (h0 : Heap) (nR : ℕ → Prop) (own : Bool) (o : HColl) : Option Heap → Option Coll → Prop
  | some h, some O => Good h0 nR own h o O
  | none, none => True
  | _, _ => False

theorem SimH.bind {h0 : Heap} {nR : ℕ → Prop} {own : Bool} {o : HColl} {x : Option Heap} {X : Option Coll} (h : SimH h0 nR own o x X)
    {f : Heap → Option Heap} {F : Coll → Option Coll} (hf : ∀ h O, Good h0 nR own h o O → SimH h0 nR own o (f h) (F O)) :
    SimH h0 nR own o (x.bind f) (X.bind F) := by
  match x, X, h with
  | some h, some O, hg => exact hf h O hg
  | none, none, _ => trivial

theorem SimH.toSim {h0 : Heap} {nR : ℕ → Prop} {own : Bool} {o : HColl} {x : Option Heap} {X : Option Coll} (h : SimH h0 nR own o x X) :
    Sim h0 nR own (x.bind (fun h => some (h, o))) X := by
  match x, X, h with
  | some h, some O, hg => exact hg
  | none, none, _ => trivial

theorem set_set' {κ β : Type*} [DecidableEq κ] (d : Dict κ β) (k : κ) (v w : β) : Dict.set (Dict.set d k v) k w = Dict.set d k w := by
  induction d with
  | nil => simp [Dict.set]
  | cons p d ih =>
    obtain ⟨k', v'⟩ := p
    by_cases h : k' = k
    · simp [Dict.set, h]
    · simp [Dict.set, h, ih]

theorem foldH_sim {α : Type*} {h0 : Heap} {nR : ℕ → Prop} {own : Bool} {o : HColl} (f : Heap → α → Option Heap) (F : Coll → α → Option Coll)
    (step : ∀ h O a, Good h0 nR own h o O → SimH h0 nR own o (f h a) (F O a)) (l : List α) :
    ∀ h O, Good h0 nR own h o O → SimH h0 nR own o (l.foldlM f h) (l.foldlM F O) := by
  induction l with
  | nil => intro h O hg; exact hg
  | cons a l ih =>
    intro h O hg
    rw [List.foldlM_cons, List.foldlM_cons]
    exact (step h O a hg).bind ih

theorem hOptical_sim {c : Circ} (n : Opt × List ℕ) (l : List (Opt × List ℕ)) {h0 : Heap} {nR : ℕ → Prop} {own : Bool} (ok : h0.Ok) {coll : HColl} {C : Coll}
    (hrep : List.Forall₂ (RepE h0 nR) coll C) : Sim h0 nR own (hOptical c n l h0 coll) (opticalColl c n l C) := by
  unfold hOptical opticalColl
  simp only [Option.bind_eq_bind]
  refine (hCopyColl_sim (own := own) ok hrep).bind ?_
  intro h o O hg
  simp only [view_iff.2 hg.rep, Option.bind_some]
  cases opticalGroups c O with
  | none => trivial
  | some groups =>
    simp only [Option.bind_some]
    have key := foldH_sim (h0 := h0) (nR := nR) (own := own) (o := o)
      (fun (h : Heap) (gr : Sel × List (List Char)) => gr.2.foldlM (fun (h : Heap) i => (o.get? i).bind (fun a => (h.objs[a]?).bind (fun s =>
        (toVector c.g s.comps).bind (fun x => (fromVector c.g c.thr (applyReduced (fockNodes c.g (basisKeys c.g) gr.1 n l) x)).bind
          (fun comps => some (h.setComps a comps)))))) h)
      (fun (coll : Coll) (gr : Sel × List (List Char)) => gr.2.foldlM (fun (coll : Coll) i => (coll.get? i).bind (fun q =>
        (toVector c.g q.comps).bind (fun x => (fromVector c.g c.thr (applyReduced (fockNodes c.g (basisKeys c.g) gr.1 n l) x)).bind
          (fun comps => some (coll.set i { q with comps := comps }))))) coll)
      (by
        intro h O gr hg
        refine foldH_sim _ _ ?_ gr.2 h O hg
        intro h O i hg
        rcases forall₂_get? hg.rep i with ⟨a, q, h1, h2, h3⟩ | ⟨h1, h2⟩
        · obtain ⟨s, hs, hv⟩ := Heap.get_eq.1 h3
          have hcomps : s.comps = q.comps := by rw [← hv]; rfl
          simp only [h1, h2, hs, Option.bind_some, hcomps]
          cases toVector c.g q.comps with
          | none => trivial
          | some x =>
            simp only [Option.bind_some]
            cases fromVector c.g c.thr (applyReduced (fockNodes c.g (basisKeys c.g) gr.1 n l) x) with
            | none => trivial
            | some comps => exact hg.setComps h1 h2 comps
        · simp only [h1, h2]; trivial) groups h O hg
    exact key.toSim

theorem hCustom_sim {c : Circ} (F : SqArr) (r : ℕ → ℕ → ℕ) {h0 : Heap} {nR : ℕ → Prop} {own : Bool} (ok : h0.Ok) {coll : HColl} {C : Coll}
    (hrep : List.Forall₂ (RepE h0 nR) coll C) : Sim h0 nR own (hCustom c F r h0 coll) (customColl c F r C) := by
  unfold hCustom customColl
  refine fold_sim _ _ hrep ?_ h0 [] [] (Good.nil (Heap.Le.refl _) ok)
  intro h o O p P hg hp
  obtain ⟨s, hs, hv, -, -, hf, hget, hg', hd⟩ := hg.copy ok hp
  have hcomps : s.comps = P.2.comps := by rw [← hv]; rfl
  simp only [Option.bind_eq_bind, hCopyState_eq hs, hv]
  cases hc : copyState c.thr c.m P.2 with
  | none => trivial
  | some q =>
    have := copyState_eq hc
    subst this
    simp only [Option.map_some, Option.bind_some, hs, hcomps]
    by_cases hF : F.size = c.g.size
    · simp only [hF, ne_eq, not_true_eq_false, if_false]
      cases applyCustom c.g c.thr F P.2.comps with
      | none => trivial
      | some comps =>
        have hkeys : o.keys = O.keys := forall₂_keys hg.rep
        have hlen : o.length = O.length := hg.rep.length_eq
        have h1 := hg'.set (freshId o.keys (r o.length)) hget hf hd
        have h2 := h1.setComps (i := freshId o.keys (r o.length)) (a := h.objs.length) (q := P.2)
          (by rw [Dict.get?_set, if_pos rfl]) (by rw [Dict.get?_set, if_pos rfl]) comps
        rw [set_set'] at h2
        show Good h0 nR own _ _ _
        unfold addState
        rw [← hkeys, ← hlen]
        exact h2
    · simp only [hF, ne_eq, not_false_eq_true, if_true]
      trivial

/-! ### measurement -/

/-- a new object at `a` shows `q` -/
structure NewObj (h : Heap) (nR : ℕ → Prop) (own : Bool) (h' : Heap) (a : ℕ) (q : QState) : Prop where
  le : h.Le h'
  ok : h'.Ok
  get : h'.get a = some q
  fresh : FreshAt h nR own h' a

/-- both raise, or the heap result shows the value result -/
def SimS (h : Heap) (nR : ℕ → Prop) (own : Bool) : Option (Heap × ℕ) → Option QState → Prop
  | some r, some q => NewObj h nR own r.1 r.2 q
  | none, none => True
  | _, _ => False

theorem hCollapse_sim (g : Cfg) (thr : ℝ) (m : ℕ) {h : Heap} (ok : h.Ok) {a : ℕ} {s : HState} (hs : h.objs[a]? = some s) {nR : ℕ → Prop}
    (hr : ∀ r ∈ s.results, nR r.1) (cls o : List ℕ) (items : List (Vals × ℂ)) :
    SimS h nR true (hCollapse g thr m h a cls o items) (collapse g thr m (h.val s) cls o items) := by
  have hmem := List.mem_of_getElem? hs
  unfold hCollapse collapse
  simp only [Option.bind_eq_bind]
  by_cases ht : (items.map (fun p => p.2.re ^ 2 + p.2.im ^ 2)).sum = 0
  · simp only [ht, if_true]; trivial
  · simp only [ht, if_false, hCopyState_eq hs]
    cases hc : copyState thr m (h.val s) with
    | none => trivial
    | some q =>
      have := copyState_eq hc
      subst this
      simp only [Option.map_some, Option.bind_some, h.push_obj s, h.push_list s]
      show SimS h nR true _ ((mulCum s.cum _).bind _)
      cases hcum : mulCum s.cum (items.map (fun p => p.2.re ^ 2 + p.2.im ^ 2)).sum with
      | none => trivial
      | some cum =>
        simp only [Option.bind_some]
        show SimS h nR true _ ((writeClassical cls o (h.list s.classical)).bind _)
        cases writeClassical cls o (h.list s.classical) with
        | none => trivial
        | some classical =>
          simp only [Option.bind_some]
          cases List.mapM (m := Option) _ items with
          | none => trivial
          | some named =>
            simp only [Option.bind_some]
            cases setFromDict g (Dict.ofList named) with
            | none => trivial
            | some comps =>
              simp only [Option.bind_some]
              have e1 : (h.push s).lists.set h.lists.length classical = h.lists ++ [classical] := by
                simp [Heap.push]
              have e2 : ∀ t, (h.push s).objs.set h.objs.length t = h.objs ++ [t] := by
                intro t; simp [Heap.push]
              show NewObj h nR true _ _ _
              simp only [e1, e2]
              have hle : h.Le ⟨h.lists ++ [classical], h.objs ++ [⟨s.initial, cum, comps, h.lists.length,
                  s.results ++ [(h.lists.length, (items.map (fun p => p.2.re ^ 2 + p.2.im ^ 2)).sum)]⟩]⟩ :=
                ⟨List.prefix_append _ _, List.prefix_append _ _⟩
              have hlast : Heap.list ⟨h.lists ++ [classical], h.objs ++ [⟨s.initial, cum, comps, h.lists.length,
                  s.results ++ [(h.lists.length, (items.map (fun p => p.2.re ^ 2 + p.2.im ^ 2)).sum)]⟩]⟩ h.lists.length = classical := by
                simp [Heap.list]
              refine ⟨hle, ?_, ?_, ?_⟩
              · intro t ht
                simp only [List.length_append, List.length_singleton, List.mem_append, List.mem_singleton] at *
                rcases ht with ht | rfl
                · exact ⟨by have := (ok t ht).1; omega, fun r hr => by have := (ok t ht).2 r hr; omega⟩
                · refine ⟨by simp, fun r hr => ?_⟩
                  simp only [List.mem_append, List.mem_singleton] at hr
                  rcases hr with hr | rfl
                  · have := (ok s hmem).2 r hr; omega
                  · simp
              · rw [Heap.get_eq]
                refine ⟨_, List.getElem?_concat_length, ?_⟩
                unfold Heap.val
                simp only [hlast, List.map_append, List.map_cons, List.map_nil]
                congr 2
                apply List.map_congr_left
                intro r hr
                rw [hle.list ((ok s hmem).2 r hr)]
              · refine ⟨_, List.getElem?_concat_length, le_rfl, le_rfl, ?_⟩
                intro r hr'
                simp only [List.mem_append, List.mem_singleton] at hr'
                rcases hr' with hr' | rfl
                · exact Or.inl (hr r hr')
                · exact Or.inr ⟨rfl, rfl⟩

/-- new objects, one for each outcome -/
structure NewObjs (h : Heap) (nR : ℕ → Prop) (own : Bool) (h' : Heap) (as : List ℕ) (qs : List QState) : Prop where
  le : h.Le h'
  ok : h'.Ok
  get : List.Forall₂ (fun a q => h'.get a = some q) as qs
  fresh : ∀ a ∈ as, FreshAt h nR own h' a
  inj : as.Pairwise (fun a b => ∀ s t, h'.objs[a]? = some s → h'.objs[b]? = some t → s.classical ≠ t.classical)

theorem mapM_append_sim {α : Type*} (h : Heap) (nR : ℕ → Prop) (own : Bool) (f : Heap → α → Option (Heap × ℕ)) (F : α → Option QState)
    (step : ∀ h', h.Le h' → h'.Ok → ∀ x, SimS h' nR own (f h' x) (F x)) (l : List α) :
    ∀ (h' : Heap) (as : List ℕ) (qs : List QState), NewObjs h nR own h' as qs →
      match l.foldlM (fun (st : Heap × List ℕ) x => (f st.1 x).bind (fun ha => some (ha.1, st.2 ++ [ha.2]))) (h', as), l.mapM F with
      | some r, some new => NewObjs h nR own r.1 r.2 (qs ++ new)
      | none, none => True
      | _, _ => False := by
  induction l with
  | nil =>
    intro h' as qs hn
    simp only [List.foldlM_nil, List.mapM_nil]
    show NewObjs h nR own h' as (qs ++ [])
    rw [List.append_nil]; exact hn
  | cons x l ih =>
    intro h' as qs hn
    have hs := step h' hn.le hn.ok x
    rw [List.foldlM_cons, List.mapM_cons]
    simp only [Option.bind_eq_bind]
    revert hs
    cases f h' x with
    | none =>
      cases F x with
      | none => intro _; trivial
      | some q => intro hs; cases hs
    | some r =>
      cases F x with
      | none => intro hs; cases hs
      | some q =>
        intro hs
        have hs : NewObj h' nR own r.1 r.2 q := hs
        simp only [Option.bind_some]
        have hn' : NewObjs h nR own r.1 (as ++ [r.2]) (qs ++ [q]) := by
          refine ⟨hn.le.trans hs.le, hs.ok, ?_, ?_, ?_⟩
          · refine List.rel_append (R := fun a q => r.1.get a = some q) ?_ (List.Forall₂.cons hs.get List.Forall₂.nil)
            exact forall₂_imp' (fun a q ha => hs.le.get hn.ok ha) hn.get
          · intro a ha
            rcases List.mem_append.1 ha with ha | ha
            · exact (hn.fresh a ha).mono hs.le
            · rw [List.mem_singleton.1 ha]
              exact hs.fresh.weaken hn.le
          · rw [List.pairwise_append]
            refine ⟨?_, List.pairwise_singleton _ _, ?_⟩
            · refine List.Pairwise.imp_of_mem ?_ hn.inj
              intro a b ha hb hne s t hs1 ht1
              obtain ⟨s', hs', -⟩ := hn.fresh a ha
              obtain ⟨t', ht', -⟩ := hn.fresh b hb
              have e1 := hs.le.obj hs'
              have e2 := hs.le.obj ht'
              rw [hs1] at e1; rw [ht1] at e2
              obtain rfl := Option.some.inj e1
              obtain rfl := Option.some.inj e2
              exact hne _ _ hs' ht'
            · intro a ha b hb s t hs1 ht1
              rw [List.mem_singleton.1 hb] at ht1
              obtain ⟨s', hs', -⟩ := hn.fresh a ha
              have e1 := hs.le.obj hs'
              rw [hs1] at e1
              obtain rfl := Option.some.inj e1
              obtain ⟨t', ht', -, hge, -⟩ := hs.fresh
              rw [ht1] at ht'
              obtain rfl := Option.some.inj ht'
              have := (hn.ok s (List.mem_of_getElem? hs')).1
              omega
        have := ih r.1 (as ++ [r.2]) (qs ++ [q]) hn'
        revert this
        cases List.foldlM (fun (st : Heap × List ℕ) x => (f st.1 x).bind (fun ha => some (ha.1, st.2 ++ [ha.2]))) (r.1, as ++ [r.2]) l with
        | none => cases List.mapM F l with
          | none => intro _; trivial
          | some new => intro hh; exact hh
        | some r' => cases List.mapM F l with
          | none => intro hh; exact hh
          | some new =>
            intro hh
            show NewObjs h nR own r'.1 r'.2 (qs ++ (q :: new))
            have hh : NewObjs h nR own r'.1 r'.2 ((qs ++ [q]) ++ new) := hh
            rwa [List.append_assoc] at hh

theorem hMeasure_sim (g : Cfg) (thr : ℝ) (m : ℕ) {h : Heap} (ok : h.Ok) {a : ℕ} {s : HState} (hs : h.objs[a]? = some s) {nR : ℕ → Prop}
    (hr : ∀ r ∈ s.results, nR r.1) (opt cls : List ℕ) :
    match hMeasure g thr m h a opt cls, measure g thr m (h.val s) opt cls with
    | some r, some qs => NewObjs h nR true r.1 r.2 qs
    | none, none => True
    | _, _ => False := by
  unfold hMeasure measure
  simp only [Option.bind_eq_bind, hs, Option.bind_some]
  rw [show (h.val s).comps = s.comps from rfl]
  cases List.mapM (m := Option) (fun (p : Name × Comp) => Option.map (fun v => (v, p.2.amp)) (g.parse p.1)) s.comps with
  | none => trivial
  | some items =>
    simp only [Option.bind_some]
    have key := mapM_append_sim h nR true
      (fun h (og : List ℕ × List (Vals × ℂ)) => hCollapse g thr m h a (if cls.length > opt.length then cls.take opt.length else cls) og.1 og.2)
      (fun og => collapse g thr m (h.val s) (if cls.length > opt.length then cls.take opt.length else cls) og.1 og.2)
      (by
        intro h' hle hok og
        have := hCollapse_sim g thr m hok (hle.obj hs) hr (if cls.length > opt.length then cls.take opt.length else cls) og.1 og.2
        rwa [hle.val ok hs] at this)
      (groupBy (fun p => outcomeOf opt p.1) items) h [] []
      ⟨Heap.Le.refl h, ok, List.Forall₂.nil, by simp, List.Pairwise.nil⟩
    simpa using key

/-- adding several new objects to a collection of new objects -/
theorem Good.setAll {h0 h : Heap} {nR : ℕ → Prop} {own : Bool} {as : List ℕ} {qs : List QState}
    (hget : List.Forall₂ (fun a q => h.get a = some q) as qs) (hf : ∀ a ∈ as, FreshAt h0 nR own h a)
    (hi : as.Pairwise (fun a b => ∀ s t, h.objs[a]? = some s → h.objs[b]? = some t → s.classical ≠ t.classical)) (name : ℕ → List Char) (k : ℕ) :
    ∀ (o : HColl) (O : Coll), Good h0 nR own h o O →
    (∀ a ∈ as, ∀ p ∈ o, ∀ s t, h.objs[a]? = some s → h.objs[p.2]? = some t → s.classical ≠ t.classical) →
    Good h0 nR own h ((as.zipIdx k).foldl (fun (out : HColl) ak => out.set (name ak.2) ak.1) o)
      ((qs.zipIdx k).foldl (fun (out : Coll) qk => out.set (name qk.2) qk.1) O) := by
  induction hget generalizing k with
  | nil => intro o O hg _; exact hg
  | @cons a q as qs h1 h2 ih =>
    intro o O hg hd
    rw [List.zipIdx_cons, List.zipIdx_cons, List.foldl_cons, List.foldl_cons]
    rw [List.pairwise_cons] at hi
    refine ih (fun a ha => hf a (by simp [ha])) hi.2 (k + 1) _ _ (hg.set (name k) h1 (hf a (by simp)) (fun p hp s t => hd a (by simp) p hp s t)) ?_
    intro b hb p hp s t hs ht
    rcases mem_hset hp with rfl | hp
    · exact (hi.1 b hb t s ht hs).symm
    · exact hd b (by simp [hb]) p (hp.elim (fun h => h.1) id) s t hs ht

theorem hMeasureColl_sim (g : Cfg) (thr : ℝ) (m : ℕ) (mid : List Char) (opt cls : List ℕ) {h0 : Heap} {nR : ℕ → Prop} (ok : h0.Ok) {coll : HColl} {C : Coll}
    (hrep : List.Forall₂ (RepE h0 nR) coll C) : Sim h0 nR true (hMeasureColl g thr m mid opt cls h0 coll) (measureColl g thr m mid opt cls C) := by
  unfold hMeasureColl measureColl
  refine fold_sim _ _ hrep ?_ h0 [] [] (Good.nil (Heap.Le.refl _) ok)
  intro h o O p P hg hp
  obtain ⟨e, s, hs, hv, hr⟩ := hp.mono hg.le ok
  have key := hMeasure_sim g thr m hg.ok hs hr opt cls
  rw [hv] at key
  simp only [Option.bind_eq_bind]
  revert key
  cases hMeasure g thr m h p.2 opt cls with
  | none => cases measure g thr m P.2 opt cls with
    | none => intro _; trivial
    | some qs => intro hh; cases hh
  | some r => cases measure g thr m P.2 opt cls with
    | none => intro hh; cases hh
    | some qs =>
      intro key
      have key : NewObjs h nR true r.1 r.2 qs := key
      simp only [Option.bind_some]
      show Good h0 nR true _ _ _
      rw [← e]
      refine Good.setAll key.get (fun a ha => (key.fresh a ha).weaken hg.le) key.inj (fun k => p.1 ++ ['-', 'M'] ++ mid ++ marker k) 0 o O
        (hg.extend key.le key.ok) ?_
      intro a ha p' hp' s' t hs' ht
      obtain ⟨s'', hs'', -, hge, -⟩ := key.fresh a ha
      rw [hs'] at hs''
      obtain rfl := Option.some.inj hs''
      obtain ⟨t', ht', -⟩ := hg.fresh p' hp'
      have := key.le.obj ht'
      rw [ht] at this
      obtain rfl := Option.some.inj this
      have := (hg.ok t (List.mem_of_getElem? ht')).1
      omega

/-- merging two collections of new objects -/
theorem Good.merge {h0 h1 h : Heap} {nR : ℕ → Prop} {own : Bool} {o : HColl} {O : Coll} (hg : Good h0 nR own h1 o O) {o' : HColl} {O' : Coll}
    (hg' : Good h1 nR own h o' O') :
    Good h0 nR own h (o'.foldl (fun (out : HColl) e => out.set e.1 e.2) o) (O'.foldl (fun (out : Coll) e => out.set e.1 e.2) O) := by
  have gen : ∀ (o' : HColl) (O' : Coll), List.Forall₂ (Rep h) o' O' → (∀ p ∈ o', FreshAt h0 nR own h p.2) →
      o'.Pairwise (fun p q => ∀ s t, h.objs[p.2]? = some s → h.objs[q.2]? = some t → s.classical ≠ t.classical) →
      ∀ (o : HColl) (O : Coll), Good h0 nR own h o O →
      (∀ p ∈ o', ∀ q ∈ o, ∀ s t, h.objs[p.2]? = some s → h.objs[q.2]? = some t → s.classical ≠ t.classical) →
      Good h0 nR own h (o'.foldl (fun (out : HColl) e => out.set e.1 e.2) o) (O'.foldl (fun (out : Coll) e => out.set e.1 e.2) O) := by
    intro o' O' hr
    induction hr with
    | nil => intro _ _ o O hg _; exact hg
    | @cons p P o' O' h1 h2 ih =>
      intro hf hi o O hg hd
      rw [List.foldl_cons, List.foldl_cons, ← h1.1]
      rw [List.pairwise_cons] at hi
      refine ih (fun p hp => hf p (by simp [hp])) hi.2 _ _ (hg.set p.1 h1.2 (hf p (by simp)) (fun q hq s t => hd p (by simp) q hq s t)) ?_
      intro q hq r hr s t hs ht
      rcases mem_hset hr with rfl | hr
      · exact (hi.1 q hq t s ht hs).symm
      · exact hd q (by simp [hq]) r (hr.elim (fun h => h.1) id) s t hs ht
  refine gen o' O' hg'.rep (fun p hp => (hg'.fresh p hp).weaken hg.le) ?_ o O (hg.extend hg'.le hg'.ok) ?_
  · have hk := hg'.keys
    rw [List.nodup_iff_pairwise_ne, List.pairwise_map] at hk
    refine List.Pairwise.imp_of_mem ?_ hk
    intro p q hp hq hne s t hs ht e
    exact hne (hg'.inj p hp q hq s t hs ht e)
  · intro p hp q hq s t hs ht
    obtain ⟨s', hs', -, hge, -⟩ := hg'.fresh p hp
    rw [hs] at hs'
    obtain rfl := Option.some.inj hs'
    obtain ⟨t', ht', -⟩ := hg.fresh q hq
    have := hg'.le.obj ht'
    rw [ht] at this
    obtain rfl := Option.some.inj this
    have := (hg.ok t (List.mem_of_getElem? ht')).1
    omega

theorem hControlled_sim {c : Circ} (vars : List Angle) (channels : List ℤ) (defaults : List (Angle × ℝ)) (tl : List ℕ) {h0 : Heap} {nR : ℕ → Prop}
    {own : Bool} (ok : h0.Ok) {coll : HColl} {C : Coll} (hrep : List.Forall₂ (RepE h0 nR) coll C) :
    Sim h0 nR own (hControlled c vars channels defaults tl h0 coll) (controlledColl c vars channels defaults tl C) := by
  unfold hControlled controlledColl
  simp only [Option.bind_eq_bind]
  by_cases hv : vars.length = channels.length
  · simp only [hv, ne_eq, not_true_eq_false, if_false]
    have gen : ∀ (coll : HColl) (C : Coll), List.Forall₂ (RepE h0 nR) coll C → ∀ h o O tp, Good h0 nR own h o O →
        match coll.foldlM (fun (s : (Heap × HColl) × (Option ℝ × Option ℝ)) p => (s.1.1.objs[p.2]?).bind (fun o =>
          ((vars.zip channels).mapM (fun vc => (pyGet (s.1.1.list o.classical) vc.2).map (fun x => (vc.1, x)))).bind (fun read =>
          (setAngles read s.2).1.bind (fun th => (setAngles read s.2).2.bind (fun ph =>
          (hOptical c (genericMatrix th ph, tl) [] s.1.1 [p]).bind (fun single =>
          some ((single.1, single.2.foldl (fun (out : HColl) e => out.set e.1 e.2) s.1.2), setAngles read s.2))))))) ((h, o), tp),
        C.foldlM (fun (s : Coll × (Option ℝ × Option ℝ)) p =>
          ((vars.zip channels).mapM (fun vc => (pyGet p.2.classical vc.2).map (fun x => (vc.1, x)))).bind (fun read =>
          (setAngles read s.2).1.bind (fun th => (setAngles read s.2).2.bind (fun ph =>
          (opticalColl c (genericMatrix th ph, tl) [] [p]).bind (fun single =>
          some (single.foldl (fun (out : Coll) e => out.set e.1 e.2) s.1, setAngles read s.2)))))) (O, tp) with
        | some r, some R => Good h0 nR own r.1.1 r.1.2 R.1
        | none, none => True
        | _, _ => False := by
      intro coll C hrep
      induction hrep with
      | nil => intro h o O tp hg; exact hg
      | @cons p P coll C h1 h2 ih =>
        intro h o O tp hg
        rw [List.foldlM_cons, List.foldlM_cons]
        have hp := h1.mono hg.le ok
        obtain ⟨-, s, hs, hval, -⟩ := id hp
        have hcls : h.list s.classical = P.2.classical := by rw [← hval]; rfl
        simp only [Option.bind_eq_bind, hs, Option.bind_some, hcls]
        cases List.mapM (m := Option) (fun (vc : Angle × ℤ) => (pyGet P.2.classical vc.2).map (fun x => (vc.1, x))) (vars.zip channels) with
        | none => trivial
        | some read =>
          simp only [Option.bind_some]
          cases (setAngles read tp).1 with
          | none => trivial
          | some th =>
            simp only [Option.bind_some]
            cases (setAngles read tp).2 with
            | none => trivial
            | some ph =>
              simp only [Option.bind_some]
              have key := hOptical_sim (c := c) (genericMatrix th ph, tl) [] (own := own) (nR := nR) hg.ok (coll := [p]) (C := [P])
                (List.Forall₂.cons hp List.Forall₂.nil)
              revert key
              cases hOptical c (genericMatrix th ph, tl) [] h [p] with
              | none => cases opticalColl c (genericMatrix th ph, tl) [] [P] with
                | none => intro _; trivial
                | some S => intro hh; cases hh
              | some r => cases opticalColl c (genericMatrix th ph, tl) [] [P] with
                | none => intro hh; cases hh
                | some S =>
                  intro key
                  have key : Good h nR own r.1 r.2 S := key
                  simp only [Option.bind_some]
                  exact ih r.1 _ _ (setAngles read tp) (hg.merge key)
    have := gen coll C hrep h0 [] [] (setAngles defaults (none, none)) (Good.nil (Heap.Le.refl _) ok)
    revert this
    generalize List.foldlM (m := Option) _ ((h0, []), setAngles defaults (none, none)) coll = A
    generalize List.foldlM (m := Option) _ ([], setAngles defaults (none, none)) C = B
    intro this
    match A, B, this with
    | some r, some R, hg => exact hg
    | none, none, _ => trivial
  · simp only [hv, ne_eq, not_false_eq_true, if_true]; trivial

end Verif
