/- Helper lemmas: classical nodes and whole evaluations on the heap. -/
import Verif.Spec.Heap
import Verif.Lemmas.Heap

namespace Verif
open Spec

theorem list_set_eq (h : Heap) (i r : ℕ) (l : List ℝ) (hr : i < h.lists.length) :
    (⟨h.lists.set i l, h.objs⟩ : Heap).list r = if i = r then l else h.list r := by
  unfold Heap.list
  simp only [List.getD_eq_getElem?_getD, List.getElem?_set]
  split
  · simp
  · rfl

/-- one state in `hClassical` -/
noncomputable def hClsStep (m : ℕ) (f : List ℝ → List ℝ → List ℤ → Option ClsEffect) (v : List ℝ) (a : List ℤ) (h : Heap) (p : List Char × ℕ) :
    Option Heap := do
  let s ← h.objs[p.2]?
  let r ← f (h.list s.classical) v a
  match r.ret with
  | none => if r.arg.length = m then some { h with lists := h.lists.set s.classical r.arg } else none
  | some l => if l.length = m then
      some ⟨h.lists.set s.classical r.arg ++ [l], h.objs.set p.2 { s with classical := h.lists.length }⟩ else none

theorem hClassical_eq (m : ℕ) (f : List ℝ → List ℝ → List ℤ → Option ClsEffect) (v : List ℝ) (a : List ℤ) (h : Heap) (coll : HColl) :
    hClassical m f v a h coll = coll.foldlM (hClsStep m f v a) h := rfl

/-- what a classical node does to the heap, in general -/
theorem hClsStep_frame {m : ℕ} {f : List ℝ → List ℝ → List ℤ → Option ClsEffect} {v : List ℝ} {a : List ℤ} {h h' : Heap} {p : List Char × ℕ}
    (ok : h.Ok) (e : hClsStep m f v a h p = some h') :
    ∃ s s', h.objs[p.2]? = some s ∧ h'.objs = h.objs.set p.2 s' ∧ (s'.classical = s.classical ∨ s'.classical = h.lists.length) ∧ h'.Ok ∧
      h.lists.length ≤ h'.lists.length ∧ ∀ r < h.lists.length, r ≠ s.classical → h'.lists[r]? = h.lists[r]? := by
  unfold hClsStep at e
  simp only [Option.bind_eq_bind] at e
  obtain ⟨s, hs, e⟩ := Option.bind_eq_some_iff.1 e
  obtain ⟨r, hr, e⟩ := Option.bind_eq_some_iff.1 e
  have hmem := List.mem_of_getElem? hs
  have hlt := (List.getElem?_eq_some_iff.1 hs).1
  cases hret : r.ret with
  | none =>
    rw [hret] at e
    simp only at e
    by_cases hm : r.arg.length = m
    · rw [if_pos hm] at e
      obtain rfl := Option.some.inj e
      refine ⟨s, s, hs, ?_, Or.inl rfl, ?_, by simp, ?_⟩
      · rw [List.getElem?_eq_some_iff] at hs
        obtain ⟨_, hs⟩ := hs
        rw [← hs, List.set_getElem_self]
      · intro t ht; simpa using ok t ht
      · intro i _ hne
        simp only [List.getElem?_set]
        rw [if_neg (fun e => hne e.symm)]
    · rw [if_neg hm] at e; cases e
  | some l =>
    rw [hret] at e
    simp only at e
    by_cases hm : l.length = m
    · rw [if_pos hm] at e
      obtain rfl := Option.some.inj e
      refine ⟨s, _, hs, rfl, Or.inr rfl, ?_, by simp, ?_⟩
      · intro t ht
        simp only [List.length_append, List.length_set, List.length_singleton]
        rcases List.mem_or_eq_of_mem_set ht with ht | rfl
        · exact ⟨by have := (ok t ht).1; omega, fun r hr => by have := (ok t ht).2 r hr; omega⟩
        · exact ⟨by simp, fun r hr => by have := (ok s hmem).2 r hr; omega⟩
      · intro i hi hne
        simp only
        rw [List.getElem?_append_left (by simpa using hi), List.getElem?_set, if_neg (fun e => hne e.symm)]
    · rw [if_neg hm] at e; cases e

theorem getD_congr {l l' : List (List ℝ)} {r : ℕ} (h : l'[r]? = l[r]?) : l'.getD r [] = l.getD r [] := by
  rw [List.getD_eq_getElem?_getD, List.getD_eq_getElem?_getD, h]

theorem mem_key_unique {coll : HColl} (hk : (coll.map Prod.fst).Nodup) {p q : List Char × ℕ} (hp : p ∈ coll) (hq : q ∈ coll) (e : p.1 = q.1) : p = q := by
  have h1 := Dict.get?_of_mem hk (show (p.1, p.2) ∈ coll from hp)
  have h2 := Dict.get?_of_mem hk (show (q.1, q.2) ∈ coll from hq)
  rw [e, h2] at h1
  exact Prod.ext e (Option.some.inj h1).symm

/-- the value of one state after a classical function -/
noncomputable def clsVal (m : ℕ) (f : List ℝ → List ℝ → List ℤ → Option ClsEffect) (v : List ℝ) (a : List ℤ) (q : QState) : Option QState :=
  ((f q.classical v a).map (fun r => r.ret.getD r.arg)).bind (fun vals => if vals.length = m then some { q with classical := vals } else none)

/-- one step of a classical node on a separated collection -/
theorem hClsStep_sim {m : ℕ} {f : List ℝ → List ℝ → List ℤ → Option ClsEffect} {v : List ℝ} {a : List ℤ} {h : Heap} {own : Bool} {all : HColl}
    (ok : h.Ok) (hk : (all.map Prod.fst).Nodup) (sep : Separated own h all) (hf : own = true → KeepsArgument f) {p : List Char × ℕ} (hp : p ∈ all)
    {q : QState} (hq : h.get p.2 = some q) :
    match hClsStep m f v a h p, clsVal m f v a q with
    | some h', some q' => h'.Ok ∧ Separated own h' all ∧ h'.get p.2 = some q' ∧ (∀ p' ∈ all, p'.1 ≠ p.1 → h'.get p'.2 = h.get p'.2)
    | none, none => True
    | _, _ => False := by
  obtain ⟨s, hs, rfl⟩ := Heap.get_eq.1 hq
  have hmem := List.mem_of_getElem? hs
  have hlt := (List.getElem?_eq_some_iff.1 hs).1
  have hcl := (ok s hmem).1
  have hother : ∀ p' ∈ all, p'.1 ≠ p.1 → ∀ t, h.objs[p'.2]? = some t → t.classical ≠ s.classical ∧ ∀ r ∈ t.results, r.1 ≠ s.classical := by
    intro p' hp' hne t ht
    exact ⟨fun e => hne (sep.classical p' hp' p hp t s ht hs e), fun r hr e => hne (sep.history p hp p' hp' s t hs ht r hr e).2.symm⟩
  have hadr : ∀ p' ∈ all, p'.1 ≠ p.1 → p'.2 ≠ p.2 := by
    intro p' hp' hne e
    exact hne (sep.classical p' hp' p hp s s (by rw [e]; exact hs) hs rfl)
  unfold clsVal
  have e1 : hClsStep m f v a h p = (f (h.list s.classical) v a).bind (fun r => match r.ret with
    | none => if r.arg.length = m then some { h with lists := h.lists.set s.classical r.arg } else none
    | some l => if l.length = m then
        some ⟨h.lists.set s.classical r.arg ++ [l], h.objs.set p.2 { s with classical := h.lists.length }⟩ else none) := by
    unfold hClsStep; rw [hs]; rfl
  rw [e1, show (h.val s).classical = h.list s.classical from rfl]
  cases hr : f (h.list s.classical) v a with
  | none => trivial
  | some r =>
    have hown : own = true → r.arg = h.list s.classical := fun ho => hf ho _ _ _ _ hr
    simp only [Option.bind_some, Option.map_some]
    cases hret : r.ret with
    | none =>
      simp only [Option.getD_none]
      by_cases hm : r.arg.length = m
      · rw [if_pos hm, if_pos hm]
        simp only
        have hlist : ∀ x, (⟨h.lists.set s.classical r.arg, h.objs⟩ : Heap).list x = if s.classical = x then r.arg else h.list x :=
          fun x => list_set_eq h s.classical x r.arg hcl
        refine ⟨fun t ht => by simpa using ok t ht, ⟨sep.classical, sep.history⟩, ?_, ?_⟩
        · rw [Heap.get_eq]
          refine ⟨s, hs, ?_⟩
          unfold Heap.val
          rw [hlist, if_pos rfl]
          congr 1
          apply List.map_congr_left
          intro x hx
          rw [hlist]
          by_cases e : s.classical = x.1
          · have := (sep.history p hp p hp s s hs hs x hx e.symm).1
            rw [if_pos e, hown this, e]
          · rw [if_neg e]
        · intro p' hp' hne
          unfold Heap.get
          simp only
          cases ht : h.objs[p'.2]? with
          | none => rfl
          | some t =>
            obtain ⟨h1, h2⟩ := hother p' hp' hne t ht
            rw [Option.map_some, Option.map_some, Heap.val_congr]
            · rw [hlist, if_neg (fun e => h1 e.symm)]
            · intro x hx
              rw [hlist, if_neg (fun e => h2 x hx e.symm)]
      · rw [if_neg hm, if_neg hm]; trivial
    | some l =>
      simp only [Option.getD_some]
      by_cases hm : l.length = m
      · rw [if_pos hm, if_pos hm]
        simp only
        have hst : hClsStep m f v a h p = some ⟨h.lists.set s.classical r.arg ++ [l], h.objs.set p.2 { s with classical := h.lists.length }⟩ := by
          rw [e1, hr]; simp only [Option.bind_some, hret, if_pos hm]
        obtain ⟨_, _, _, _, _, hok', _, _⟩ := hClsStep_frame ok hst
        have hlist : ∀ x, x < h.lists.length → (⟨h.lists.set s.classical r.arg ++ [l], h.objs.set p.2 { s with classical := h.lists.length }⟩ : Heap).list x
            = if s.classical = x then r.arg else h.list x := by
          intro x hx
          rw [← list_set_eq h s.classical x r.arg hcl]
          unfold Heap.list
          apply getD_congr
          simp only
          rw [List.getElem?_append_left (by simpa using hx)]
        have hobj : ∀ b, (h.objs.set p.2 { s with classical := h.lists.length })[b]? = if p.2 = b then some { s with classical := h.lists.length } else h.objs[b]? := by
          intro b
          rw [List.getElem?_set]
          by_cases e : p.2 = b
          · rw [if_pos e, if_pos e, if_pos hlt]
          · rw [if_neg e, if_neg e]
        have hcase : ∀ p' ∈ all, ∀ t, (h.objs.set p.2 { s with classical := h.lists.length })[p'.2]? = some t →
            (p'.1 = p.1 ∧ t = { s with classical := h.lists.length }) ∨ (p'.1 ≠ p.1 ∧ h.objs[p'.2]? = some t) := by
          intro p' hp' t ht
          by_cases e : p'.1 = p.1
          · have := mem_key_unique hk hp' hp e
            subst this
            rw [hobj, if_pos rfl] at ht
            exact Or.inl ⟨rfl, (Option.some.inj ht).symm⟩
          · rw [hobj, if_neg (fun e' => hadr p' hp' e e'.symm)] at ht
            exact Or.inr ⟨e, ht⟩
        refine ⟨hok', ⟨?_, ?_⟩, ?_, ?_⟩
        · intro x hx y hy t u ht hu e
          rcases hcase x hx t ht with ⟨ex, rfl⟩ | ⟨ex, ht⟩
          · rcases hcase y hy u hu with ⟨ey, rfl⟩ | ⟨ey, hu⟩
            · rw [ex, ey]
            · have := (ok u (List.mem_of_getElem? hu)).1
              simp only at e; omega
          · rcases hcase y hy u hu with ⟨ey, rfl⟩ | ⟨ey, hu⟩
            · have := (ok t (List.mem_of_getElem? ht)).1
              simp only at e; omega
            · exact sep.classical x hx y hy t u ht hu e
        · intro x hx y hy t u ht hu z hz e
          have hz' : z.1 < h.lists.length := by
            rcases hcase y hy u hu with ⟨ey, rfl⟩ | ⟨ey, hu⟩
            · exact (ok s hmem).2 z hz
            · exact (ok u (List.mem_of_getElem? hu)).2 z hz
          rcases hcase x hx t ht with ⟨ex, rfl⟩ | ⟨ex, ht⟩
          · simp only at e; omega
          · rcases hcase y hy u hu with ⟨ey, rfl⟩ | ⟨ey, hu⟩
            · have := sep.history x hx p hp t s ht hs z hz e
              exact ⟨this.1, this.2.trans ey.symm⟩
            · exact sep.history x hx y hy t u ht hu z hz e
        · rw [Heap.get_eq]
          refine ⟨{ s with classical := h.lists.length }, by rw [hobj, if_pos rfl], ?_⟩
          unfold Heap.val
          simp only
          have : (⟨h.lists.set s.classical r.arg ++ [l], h.objs.set p.2 { s with classical := h.lists.length }⟩ : Heap).list h.lists.length = l := by
            simp [Heap.list]
          rw [this]
          congr 1
          apply List.map_congr_left
          intro x hx
          rw [hlist _ ((ok s hmem).2 x hx)]
          by_cases e : s.classical = x.1
          · have := (sep.history p hp p hp s s hs hs x hx e.symm).1
            rw [if_pos e, hown this, e]
          · rw [if_neg e]
        · intro p' hp' hne
          unfold Heap.get
          simp only
          rw [hobj, if_neg (fun e' => hadr p' hp' hne e'.symm)]
          cases ht : h.objs[p'.2]? with
          | none => rfl
          | some t =>
            obtain ⟨h1, h2⟩ := hother p' hp' hne t ht
            have htm := ok t (List.mem_of_getElem? ht)
            rw [Option.map_some, Option.map_some, Heap.val_congr]
            · rw [hlist _ htm.1, if_neg (fun e => h1 e.symm)]
            · intro x hx
              rw [hlist _ (htm.2 x hx), if_neg (fun e => h2 x hx e.symm)]
      · rw [if_neg hm, if_neg hm]; trivial

theorem hClassical_sim {m : ℕ} {f : List ℝ → List ℝ → List ℤ → Option ClsEffect} {v : List ℝ} {a : List ℤ} {own : Bool} {all : HColl}
    (hk : (all.map Prod.fst).Nodup) (hf : own = true → KeepsArgument f) {todo : HColl} {T : Coll} (hsub : ∀ p ∈ todo, p ∈ all)
    (hkt : (todo.map Prod.fst).Nodup) : ∀ {h : Heap}, h.Ok → Separated own h all → List.Forall₂ (Rep h) todo T →
    match todo.foldlM (hClsStep m f v a) h, T.mapM (fun P => (clsVal m f v a P.2).map (fun q => (P.1, q))) with
    | some h', some T' => h'.Ok ∧ Separated own h' all ∧ List.Forall₂ (Rep h') todo T' ∧
        (∀ p ∈ all, p.1 ∉ todo.map Prod.fst → h'.get p.2 = h.get p.2)
    | none, none => True
    | _, _ => False := by
  induction todo generalizing T with
  | nil =>
    intro h ok sep hr
    cases hr
    exact ⟨ok, sep, List.Forall₂.nil, fun _ _ _ => rfl⟩
  | cons p todo ih =>
    intro h ok sep hr
    cases hr with
    | @cons _ P _ T h1 h2 =>
      rw [List.map_cons, List.nodup_cons] at hkt
      rw [List.foldlM_cons, List.mapM_cons]
      simp only [Option.bind_eq_bind]
      have key := hClsStep_sim (m := m) (v := v) (a := a) ok hk sep hf (hsub p (by simp)) h1.2
      revert key
      cases hClsStep m f v a h p with
      | none => cases clsVal m f v a P.2 with
        | none => intro _; trivial
        | some q => intro hh; cases hh
      | some h' => cases clsVal m f v a P.2 with
        | none => intro hh; cases hh
        | some q =>
          rintro ⟨ok', sep', hget, hoth⟩
          simp only [Option.bind_some, Option.map_some]
          have hrt : List.Forall₂ (Rep h') todo T := by
            refine (forall₂_mem_congr ?_).1 h2
            intro x X hx
            unfold Rep
            rw [hoth x (hsub x (by simp [hx])) (fun e => hkt.1 (e ▸ List.mem_map.2 ⟨x, hx, rfl⟩))]
          have := ih (fun x hx => hsub x (by simp [hx])) hkt.2 ok' sep' hrt
          revert this
          cases List.foldlM (hClsStep m f v a) h' todo with
          | none => cases List.mapM (m := Option) (fun (P : List Char × QState) => (clsVal m f v a P.2).map (fun q => (P.1, q))) T with
            | none => intro _; trivial
            | some T' => intro hh; cases hh
          | some h'' => cases List.mapM (m := Option) (fun (P : List Char × QState) => (clsVal m f v a P.2).map (fun q => (P.1, q))) T with
            | none => intro hh; cases hh
            | some T' =>
              rintro ⟨ok'', sep'', hr'', hoth''⟩
              refine ⟨ok'', sep'', List.Forall₂.cons ⟨h1.1, ?_⟩ hr'', ?_⟩
              · rw [hoth'' p (hsub p (by simp)) hkt.1]; exact hget
              · intro x hx hnot
                rw [List.map_cons, List.mem_cons, not_or] at hnot
                rw [hoth'' x hx hnot.2, hoth x hx hnot.1]

theorem classicalColl_eq (c : Circ) (f : List ℝ → List ℝ → List ℤ → Option ClsEffect) (v : List ℝ) (a : List ℤ) (C : Coll) :
    classicalColl c (fun vals v a => (f vals v a).map (fun r => r.ret.getD r.arg)) v a C
      = C.mapM (fun P => (clsVal c.m f v a P.2).map (fun q => (P.1, q))) := by
  unfold classicalColl
  congr 1
  funext P
  unfold clsVal
  simp only [Option.bind_eq_bind]
  cases (f P.2.classical v a).map (fun r => r.ret.getD r.arg) with
  | none => rfl
  | some vals =>
    simp only [Option.bind_some]
    by_cases hm : vals.length = c.m
    · rw [if_pos hm, if_pos hm]; rfl
    · rw [if_neg hm, if_neg hm]; rfl

/-! ### whole evaluations -/

/-- a collection on the heap that shows `C` -/
structure Shows (own : Bool) (h : Heap) (coll : HColl) (C : Coll) : Prop where
  ok : h.Ok
  rep : List.Forall₂ (Rep h) coll C
  keys : (coll.map Prod.fst).Nodup
  sep : Separated own h coll

theorem Good.shows {h0 h : Heap} {own : Bool} {o : HColl} {O : Coll} (x : Good h0 (· < h0.lists.length) own h o O) : Shows own h o O := by
  refine ⟨x.ok, x.rep, x.keys, x.inj, ?_⟩
  intro p hp q hq s t hs ht r hr e
  obtain ⟨s', hs', -, h1, -⟩ := x.fresh p hp
  obtain ⟨t', ht', -, h2, h3⟩ := x.fresh q hq
  rw [hs] at hs'; rw [ht] at ht'
  obtain rfl := Option.some.inj hs'
  obtain rfl := Option.some.inj ht'
  rcases h3 r hr with h3 | ⟨h3, h4⟩
  · omega
  · exact ⟨h3, x.inj p hp q hq s t hs ht (e.symm.trans h4)⟩

theorem Spec.Separated.own {own : Bool} {h : Heap} {coll : HColl} (x : Separated own h coll) : Separated true h coll :=
  ⟨x.classical, fun p hp q hq s t hs ht r hr e => ⟨rfl, (x.history p hp q hq s t hs ht r hr e).2⟩⟩

theorem Shows.repE {own : Bool} {h : Heap} {coll : HColl} {C : Coll} (x : Shows own h coll C) : List.Forall₂ (RepE h (· < h.lists.length)) coll C :=
  forall₂_imp' (fun _ _ hp => hp.toRepE x.ok) x.rep

/-- both raise, or the heap result shows the value result -/
def SimOut (P : Bool) : Option (Heap × HColl) → Option Coll → Prop
  | some r, some O => Shows P r.1 r.2 O
  | none, none => True
  | _, _ => False

theorem Sim.bindOut {h0 : Heap} {own : Bool} {P : Bool} {x : Option (Heap × HColl)} {X : Option Coll} (h : Sim h0 (· < h0.lists.length) own x X)
    {f : Heap × HColl → Option (Heap × HColl)} {F : Coll → Option Coll}
    (hf : ∀ h o O, Shows own h o O → SimOut P (f (h, o)) (F O)) : SimOut P (x.bind f) (X.bind F) := by
  match x, X, h with
  | some (h, o), some O, hg => exact hf h o O (Good.shows hg)
  | none, none, _ => trivial

theorem noWrite_weaken (c : HCirc) : ∀ {l : List ℕ}, NoWriteAfterMeasurement c true l → NoWriteAfterMeasurement c false l := by
  intro l
  induction l with
  | nil => intro _; trivial
  | cons i l ih =>
    unfold NoWriteAfterMeasurement
    cases c.nodes[i]? with
    | none => exact id
    | some n =>
      cases n with
      | classical f v a => exact fun h => ⟨fun h' => (by cases h'), ih h.2⟩
      | _ => exact id

theorem noWrite_any (c : HCirc) {l : List ℕ} (h : ∃ b, NoWriteAfterMeasurement c b l) : NoWriteAfterMeasurement c false l := by
  obtain ⟨b, h⟩ := h
  cases b
  · exact h
  · exact noWrite_weaken c h

theorem noWrite_dropOptical (c : HCirc) : ∀ {l : List ℕ} {own : Bool}, NoWriteAfterMeasurement c own l →
    NoWriteAfterMeasurement c false (l.drop (l.takeWhile (isOpt c.circ)).length) := by
  intro l
  induction l with
  | nil => intro own _; trivial
  | cons i l ih =>
    intro own h
    by_cases ho : isOpt c.circ i = true
    · rw [List.takeWhile_cons_of_pos ho, List.length_cons, List.drop_succ_cons]
      unfold NoWriteAfterMeasurement at h
      unfold isOpt HCirc.circ at ho
      rw [List.getElem?_map] at ho
      cases hn : c.nodes[i]? with
      | none => rw [hn] at ho; cases ho
      | some n =>
        rw [hn] at ho h
        cases n with
        | optical M tl => exact ih h
        | _ => cases ho
    · rw [List.takeWhile_cons_of_neg ho]
      exact noWrite_any c ⟨own, h⟩

theorem noWrite_remaining (c : HCirc) {done l : List ℕ} {own : Bool} (h : NoWriteAfterMeasurement c own (l.drop done.length)) :
    NoWriteAfterMeasurement c own (remaining done l) := by
  unfold remaining
  split
  · trivial
  · exact h

theorem hEval_sim (c : HCirc) (rnd : ℕ → ℕ → ℕ → ℕ) (fuel : ℕ) : ∀ (l : List ℕ) (own : Bool) (h : Heap) (coll : HColl) (C : Coll),
    NoWriteAfterMeasurement c own l → Shows own h coll C →
    SimOut true (hEval c rnd fuel l (h, coll)) (evalNodes (fun _ => c.circ) (fun _ i _ => rnd i) fuel 0 l C) := by
  induction fuel with
  | zero => intro l own h coll C _ _; trivial
  | succ fuel ih =>
    intro l own h coll C hnw hs
    cases l with
    | nil => exact ⟨hs.ok, hs.rep, hs.keys, hs.sep.own⟩
    | cons i rest =>
      have hlen : c.circ.nodes.length = c.nodes.length := by simp [HCirc.circ]
      have hnode : c.circ.nodes[i]? = (c.nodes[i]?).map HNode.node := by simp [HCirc.circ]
      rw [hEval, evalNodes, hlen]
      by_cases hv : (i :: rest).all (· < c.nodes.length) = true
      · rw [if_neg (not_not.2 hv), if_neg (not_not.2 hv), hnode]
        cases hn : c.nodes[i]? with
        | none => trivial
        | some n =>
          simp only [Option.map_some]
          have hnw' := hnw
          unfold NoWriteAfterMeasurement at hnw'
          rw [hn] at hnw'
          cases n with
          | optical M tl =>
            simp only [HNode.node]
            cases opticalNodes c.circ (opticalRun c.circ (i :: rest)) with
            | nil => trivial
            | cons n l =>
              refine (hOptical_sim (own := false) n l hs.ok hs.repE).bindOut ?_
              intro h' o O hs'
              exact ih _ false h' o O (noWrite_remaining c (noWrite_dropOptical c hnw)) hs'
          | fockMatrix F =>
            simp only [HNode.node]
            refine (hCustom_sim (own := false) F (rnd i) hs.ok hs.repE).bindOut ?_
            intro h' o O hs'
            exact ih _ false h' o O (noWrite_remaining c hnw') hs'
          | measurement opt cls =>
            simp only [HNode.node]
            refine (hMeasureColl_sim c.g c.thr c.m (measurementId (c.circ.nodes.map Node.isMeasurement) i) opt cls hs.ok hs.repE).bindOut ?_
            intro h' o O hs'
            exact ih _ true h' o O (noWrite_remaining c hnw') hs'
          | controlled vars channels defaults tl =>
            simp only [HNode.node]
            refine (hControlled_sim (c := c.circ) (own := false) vars channels defaults tl hs.ok hs.repE).bindOut ?_
            intro h' o O hs'
            exact ih _ false h' o O (noWrite_remaining c hnw') hs'
          | classical f v a =>
            simp only [HNode.node]
            rw [classicalColl_eq, hClassical_eq]
            have key := hClassical_sim (m := c.m) (v := v) (a := a) hs.keys hnw'.1 (fun _ hp => hp) hs.keys hs.ok hs.sep hs.rep
            revert key
            show _ → SimOut true _ ((List.mapM (m := Option) (fun (P : List Char × QState) => (clsVal c.m f v a P.2).map (fun q => (P.1, q))) C).bind _)
            cases List.foldlM (hClsStep c.m f v a) h coll with
            | none => cases List.mapM (m := Option) (fun (P : List Char × QState) => (clsVal c.m f v a P.2).map (fun q => (P.1, q))) C with
              | none => intro _; trivial
              | some T => intro hh; cases hh
            | some h' => cases List.mapM (m := Option) (fun (P : List Char × QState) => (clsVal c.m f v a P.2).map (fun q => (P.1, q))) C with
              | none => intro hh; cases hh
              | some T =>
                rintro ⟨ok', sep', rep', -⟩
                simp only [Option.bind_some]
                exact ih _ own h' coll T (noWrite_remaining c hnw'.2) ⟨ok', rep', hs.keys, sep'⟩
      · rw [if_pos hv, if_pos hv]; trivial

/-! ### the history only grows (values) -/

/-- every state of `O` has a history that starts with the history of a state of `C` -/
def Ext (C O : Coll) : Prop := ∀ P ∈ O, ∃ Q ∈ C, Q.2.results <+: P.2.results

theorem Ext.refl (C : Coll) : Ext C C := fun P hP => ⟨P, hP, List.prefix_rfl⟩

theorem Ext.trans {C D O : Coll} (a : Ext C D) (b : Ext D O) : Ext C O := by
  intro P hP
  obtain ⟨Q, hQ, h1⟩ := b P hP
  obtain ⟨R, hR, h2⟩ := a Q hQ
  exact ⟨R, hR, h2.trans h1⟩

theorem foldlM_inv {α β : Type*} (I : β → Prop) (f : β → α → Option β) (l : List α) (step : ∀ b a b', a ∈ l → I b → f b a = some b' → I b') :
    ∀ b b', I b → l.foldlM f b = some b' → I b' := by
  induction l with
  | nil => intro b b' hb h; obtain rfl := Option.some.inj h; exact hb
  | cons a l ih =>
    intro b b' hb h
    rw [List.foldlM_cons] at h
    obtain ⟨c, hc, h⟩ := Option.bind_eq_some_iff.1 h
    exact ih (fun b a b' ha => step b a b' (by simp [ha])) c b' (step b a c (by simp) hb hc) h

theorem ext_set {C O : Coll} (h : Ext C O) {k : List Char} {q : QState} (hq : ∃ Q ∈ C, Q.2.results <+: q.results) : Ext C (O.set k q) := by
  intro P hP
  rcases Dict.mem_set hP with hP | rfl
  · exact h P hP
  · exact hq

theorem mem_mapM' {α β : Type*} {f : α → Option β} {l : List α} {r : List β} (h : l.mapM f = some r) {y : β} (hy : y ∈ r) :
    ∃ x ∈ l, f x = some y := by
  have := (mapM_some_iff.1 h).flip
  exact forall₂_mem_left' this hy

theorem ext_copy {thr : ℝ} {m : ℕ} {C O : Coll} (h : copyColl thr m C = some O) : Ext C O := by
  unfold copyColl selectStates at h
  refine foldlM_inv (Ext C) _ C ?_ [] O (by intro P hP; cases hP) h
  intro out p out' hp hout e
  simp only [Option.bind_eq_bind, Option.bind_some, if_true] at e
  obtain ⟨q, hq, e⟩ := Option.bind_eq_some_iff.1 e
  have := copyState_eq hq
  subst this
  obtain rfl := Option.some.inj e
  exact ext_set hout ⟨p, hp, List.prefix_rfl⟩

theorem ext_optical {c : Circ} {n : Opt × List ℕ} {l : List (Opt × List ℕ)} {C O : Coll} (h : opticalColl c n l C = some O) : Ext C O := by
  unfold opticalColl at h
  simp only [Option.bind_eq_bind] at h
  obtain ⟨D, hD, h⟩ := Option.bind_eq_some_iff.1 h
  obtain ⟨groups, -, h⟩ := Option.bind_eq_some_iff.1 h
  refine foldlM_inv (Ext C) _ groups ?_ D O (ext_copy hD) h
  intro out gr out' _ hout e
  refine foldlM_inv (Ext C) _ gr.2 ?_ out out' hout e
  intro out i out' _ hout e
  obtain ⟨q, hq, e⟩ := Option.bind_eq_some_iff.1 e
  obtain ⟨x, -, e⟩ := Option.bind_eq_some_iff.1 e
  obtain ⟨comps, -, e⟩ := Option.bind_eq_some_iff.1 e
  obtain rfl := Option.some.inj e
  exact ext_set hout (hout _ (Dict.get?_mem hq))

theorem ext_custom {c : Circ} {F : SqArr} {r : ℕ → ℕ → ℕ} {C O : Coll} (h : customColl c F r C = some O) : Ext C O := by
  unfold customColl at h
  refine foldlM_inv (Ext C) _ C ?_ [] O (by intro P hP; cases hP) h
  intro out p out' hp hout e
  simp only [Option.bind_eq_bind] at e
  obtain ⟨q, hq, e⟩ := Option.bind_eq_some_iff.1 e
  have := copyState_eq hq
  subst this
  split at e
  · cases e
  · obtain ⟨comps, hc, e⟩ := Option.bind_eq_some_iff.1 e
    obtain rfl := Option.some.inj e
    unfold addState
    exact ext_set hout ⟨p, hp, List.prefix_rfl⟩

theorem ext_classical {c : Circ} {f : List ℝ → List ℝ → List ℤ → Option (List ℝ)} {v : List ℝ} {a : List ℤ} {C O : Coll}
    (h : classicalColl c f v a C = some O) : Ext C O := by
  unfold classicalColl at h
  intro P hP
  obtain ⟨Q, hQ, e⟩ := mem_mapM' h hP
  simp only [Option.bind_eq_bind] at e
  obtain ⟨vals, -, e⟩ := Option.bind_eq_some_iff.1 e
  split at e
  · obtain rfl := Option.some.inj e
    exact ⟨Q, hQ, List.prefix_rfl⟩
  · cases e

theorem ext_measure {g : Cfg} {thr : ℝ} {m : ℕ} {mid : List Char} {opt cls : List ℕ} {C O : Coll}
    (h : measureColl g thr m mid opt cls C = some O) : Ext C O := by
  unfold measureColl at h
  refine foldlM_inv (Ext C) _ C ?_ [] O (by intro P hP; cases hP) h
  intro out p out' hp hout e
  simp only [Option.bind_eq_bind] at e
  obtain ⟨qs, hqs, e⟩ := Option.bind_eq_some_iff.1 e
  obtain rfl := Option.some.inj e
  have hall : ∀ q ∈ qs, p.2.results <+: q.results := by
    intro q hq
    unfold measure at hqs
    simp only [Option.bind_eq_bind] at hqs
    obtain ⟨items, -, hqs⟩ := Option.bind_eq_some_iff.1 hqs
    obtain ⟨og, -, e⟩ := mem_mapM' hqs hq
    unfold collapse at e
    simp only [Option.bind_eq_bind] at e
    split at e
    · cases e
    · obtain ⟨q', hq', e⟩ := Option.bind_eq_some_iff.1 e
      obtain ⟨cum, -, e⟩ := Option.bind_eq_some_iff.1 e
      obtain ⟨cl, -, e⟩ := Option.bind_eq_some_iff.1 e
      obtain ⟨named, -, e⟩ := Option.bind_eq_some_iff.1 e
      obtain ⟨comps, -, e⟩ := Option.bind_eq_some_iff.1 e
      obtain rfl := Option.some.inj e
      have := copyState_eq hq'
      subst this
      exact List.prefix_append _ _
  clear h hqs
  have : ∀ (l : List (QState × ℕ)) (out : Coll), (∀ x ∈ l, x.1 ∈ qs) → Ext C out →
      Ext C (l.foldl (fun (out : Coll) qk => out.set (p.1 ++ ['-', 'M'] ++ mid ++ marker qk.2) qk.1) out) := by
    intro l
    induction l with
    | nil => intro out _ h; exact h
    | cons x l ih =>
      intro out hx h
      exact ih _ (fun y hy => hx y (by simp [hy])) (ext_set h ⟨p, hp, hall _ (hx x (by simp))⟩)
  refine this _ out ?_ hout
  intro x hx
  obtain ⟨x1, x2⟩ := x
  exact (List.mem_zipIdx' hx).2 ▸ List.getElem_mem _

theorem ext_controlled {c : Circ} {vars : List Angle} {channels : List ℤ} {defaults : List (Angle × ℝ)} {tl : List ℕ} {C O : Coll}
    (h : controlledColl c vars channels defaults tl C = some O) : Ext C O := by
  unfold controlledColl at h
  simp only [Option.bind_eq_bind] at h
  split at h
  · cases h
  · obtain ⟨out, hout, h⟩ := Option.bind_eq_some_iff.1 h
    obtain rfl := Option.some.inj h
    refine foldlM_inv (fun (s : Coll × (Option ℝ × Option ℝ)) => Ext C s.1) _ C ?_ _ out (by intro P hP; cases hP) hout
    intro s p s' hp hs e
    obtain ⟨read, -, e⟩ := Option.bind_eq_some_iff.1 e
    obtain ⟨th, -, e⟩ := Option.bind_eq_some_iff.1 e
    obtain ⟨ph, -, e⟩ := Option.bind_eq_some_iff.1 e
    obtain ⟨single, hsg, e⟩ := Option.bind_eq_some_iff.1 e
    obtain rfl := Option.some.inj e
    have hx := ext_optical hsg
    have : ∀ (l : Coll), (∀ x ∈ l, ∃ Q ∈ C, Q.2.results <+: x.2.results) → ∀ out : Coll, Ext C out →
        Ext C (l.foldl (fun (out : Coll) e => out.set e.1 e.2) out) := by
      intro l
      induction l with
      | nil => intro _ out h; exact h
      | cons x l ih => intro hx out h; exact ih (fun y hy => hx y (by simp [hy])) _ (ext_set h (hx x (by simp)))
    refine this single ?_ s.1 hs
    intro x hxm
    obtain ⟨Q, hQ, e⟩ := hx x hxm
    rw [List.mem_singleton.1 hQ] at e
    exact ⟨p, hp, e⟩

theorem ext_eval (c : HCirc) (rnd : ℕ → ℕ → Bool → ℕ → ℕ → ℕ) (fuel : ℕ) : ∀ (l : List ℕ) (C O : Coll),
    evalNodes (fun _ => c.circ) rnd fuel 0 l C = some O → Ext C O := by
  induction fuel with
  | zero => intro l C O h; cases h
  | succ fuel ih =>
    intro l C O h
    cases l with
    | nil => obtain rfl := Option.some.inj h; exact Ext.refl C
    | cons i rest =>
      rw [evalNodes] at h
      split at h
      · cases h
      · have hnode : c.circ.nodes[i]? = (c.nodes[i]?).map HNode.node := by simp [HCirc.circ]
        rw [hnode] at h
        cases hn : c.nodes[i]? with
        | none => rw [hn] at h; cases h
        | some n =>
          rw [hn] at h
          cases n with
          | optical M tl =>
            simp only [Option.map_some, HNode.node] at h
            cases hl : opticalNodes c.circ (opticalRun c.circ (i :: rest)) with
            | nil => rw [hl] at h; cases h
            | cons n l =>
              rw [hl] at h
              obtain ⟨D, hD, h⟩ := Option.bind_eq_some_iff.1 h
              exact (ext_optical hD).trans (ih _ D O h)
          | fockMatrix F =>
            obtain ⟨D, hD, h⟩ := Option.bind_eq_some_iff.1 h
            exact (ext_custom hD).trans (ih _ D O h)
          | measurement opt cls =>
            obtain ⟨D, hD, h⟩ := Option.bind_eq_some_iff.1 h
            exact (ext_measure hD).trans (ih _ D O h)
          | controlled vars channels defaults tl =>
            obtain ⟨D, hD, h⟩ := Option.bind_eq_some_iff.1 h
            exact (ext_controlled hD).trans (ih _ D O h)
          | classical f v a =>
            obtain ⟨D, hD, h⟩ := Option.bind_eq_some_iff.1 h
            exact (ext_classical hD).trans (ih _ D O h)

/-! ### what existed before stays as it was -/

/-- the collection consists of objects that did not exist in `h0` -/
structure Above (h0 h : Heap) (coll : HColl) : Prop where
  le : h0.Le h
  ok : h.Ok
  new : ∀ p ∈ coll, ∃ s, h.objs[p.2]? = some s ∧ h0.objs.length ≤ p.2 ∧ h0.lists.length ≤ s.classical

theorem Good.above {h0 h : Heap} {nR : ℕ → Prop} {own : Bool} {o : HColl} {O : Coll} (x : Good h0 nR own h o O) : Above h0 h o :=
  ⟨x.le, x.ok, fun p hp => by obtain ⟨s, h1, h2, h3, -⟩ := x.fresh p hp; exact ⟨s, h1, h2, h3⟩⟩

theorem Above.weaken {h0 h1 h : Heap} {coll : HColl} (le : h0.Le h1) (x : Above h1 h coll) : Above h0 h coll :=
  ⟨le.trans x.le, x.ok, fun p hp => by
    obtain ⟨s, h2, h3, h4⟩ := x.new p hp
    exact ⟨s, h2, by have := le.len; omega, by have := le.len; omega⟩⟩

theorem exists_repE {h : Heap} (ok : h.Ok) {coll : HColl} (hl : ∀ p ∈ coll, p.2 < h.objs.length) :
    ∃ C, List.Forall₂ (RepE h (· < h.lists.length)) coll C := by
  induction coll with
  | nil => exact ⟨[], List.Forall₂.nil⟩
  | cons p coll ih =>
    obtain ⟨C, hC⟩ := ih (fun q hq => hl q (by simp [hq]))
    have hs : h.objs[p.2]? = some (h.objs[p.2]'(hl p (by simp))) := List.getElem?_eq_getElem _
    exact ⟨(p.1, h.val (h.objs[p.2]'(hl p (by simp)))) :: C, List.Forall₂.cons ⟨rfl, _, hs, rfl, (ok _ (List.mem_of_getElem? hs)).2⟩ hC⟩

theorem Above.live {h0 h : Heap} {coll : HColl} (x : Above h0 h coll) : ∀ p ∈ coll, p.2 < h.objs.length := by
  intro p hp
  obtain ⟨s, hs, -⟩ := x.new p hp
  exact (List.getElem?_eq_some_iff.1 hs).1

theorem Sim.above {h : Heap} {nR : ℕ → Prop} {own : Bool} {x : Option (Heap × HColl)} {X : Option Coll} (hx : Sim h nR own x X) {r : Heap × HColl}
    (e : x = some r) : Above h r.1 r.2 := by
  subst e
  cases X with
  | none => cases hx
  | some O => exact Good.above hx

theorem prefix_set {α : Type*} {l l' : List α} (h : l <+: l') {i : ℕ} (hi : l.length ≤ i) (x : α) : l <+: l'.set i x := by
  obtain ⟨t, rfl⟩ := h
  rw [List.set_append_right _ _ hi]
  exact List.prefix_append _ _

theorem prefix_of_getElem? {α : Type*} {l l' : List α} (h : ∀ i < l.length, l'[i]? = l[i]?) : l <+: l' := by
  rw [List.prefix_iff_getElem?]
  intro i hi
  rw [h i hi, List.getElem?_eq_getElem hi]

theorem hClassical_above {m : ℕ} {f : List ℝ → List ℝ → List ℤ → Option ClsEffect} {v : List ℝ} {a : List ℤ} {h0 : Heap} {all : HColl}
    {todo : HColl} (hsub : ∀ p ∈ todo, p ∈ all) : ∀ {h h' : Heap}, Above h0 h all → todo.foldlM (hClsStep m f v a) h = some h' → Above h0 h' all := by
  induction todo with
  | nil => intro h h' hA e; obtain rfl := Option.some.inj e; exact hA
  | cons p todo ih =>
    intro h h' hA e
    rw [List.foldlM_cons] at e
    obtain ⟨h1, he, e⟩ := Option.bind_eq_some_iff.1 e
    refine ih (fun q hq => hsub q (by simp [hq])) ?_ e
    obtain ⟨s, s', hs, hobjs, hcls, hok, hlen, hlists⟩ := hClsStep_frame hA.ok he
    obtain ⟨s'', hs'', hp1, hp2⟩ := hA.new p (hsub p (by simp))
    rw [hs] at hs''
    obtain rfl := Option.some.inj hs''
    have hl := hA.le.len
    refine ⟨⟨?_, ?_⟩, hok, ?_⟩
    · refine prefix_of_getElem? ?_
      intro i hi
      rw [hlists i (by omega) (by omega), prefix_getElem? hA.le.1 hi]
    · rw [hobjs]; exact prefix_set hA.le.2 hp1 _
    · intro q hq
      obtain ⟨t, ht, hq1, hq2⟩ := hA.new q hq
      have hlt := (List.getElem?_eq_some_iff.1 ht).1
      rw [hobjs, List.getElem?_set]
      by_cases e : p.2 = q.2
      · rw [if_pos e, if_pos (by omega)]
        refine ⟨s', rfl, hq1, ?_⟩
        rcases hcls with hc | hc <;> omega
      · rw [if_neg e]
        exact ⟨t, ht, hq1, hq2⟩

theorem hNode_above {c : HCirc} {rnd : ℕ → ℕ → ℕ → ℕ} {fuel : ℕ} {i : ℕ} {rest : List ℕ} {h0 h : Heap} {coll : HColl} {r : Heap × HColl}
    (le : h0.Le h) (ok : h.Ok) (hl : ∀ p ∈ coll, p.2 < h.objs.length) (hc : ¬ IsClassical c i)
    (ih : ∀ (l : List ℕ) (h1 : Heap) (o : HColl), Above h0 h1 o → ∀ r, hEval c rnd fuel l (h1, o) = some r → h0.Le r.1)
    (e : hEval c rnd (fuel + 1) (i :: rest) (h, coll) = some r) : h0.Le r.1 := by
  obtain ⟨C, hC⟩ := exists_repE ok hl
  rw [hEval] at e
  split at e
  · cases e
  · cases hn : c.nodes[i]? with
    | none => rw [hn] at e; cases e
    | some n =>
      rw [hn] at e
      cases n with
      | optical M tl =>
        simp only at e
        cases hl : opticalNodes c.circ (opticalRun c.circ (i :: rest)) with
        | nil => rw [hl] at e; cases e
        | cons n l =>
          rw [hl] at e
          obtain ⟨r1, h1, e⟩ := Option.bind_eq_some_iff.1 e
          exact ih _ r1.1 r1.2 ((hOptical_sim (own := false) n l ok hC).above h1 |>.weaken le) r e
      | fockMatrix F =>
        obtain ⟨r1, h1, e⟩ := Option.bind_eq_some_iff.1 e
        exact ih _ r1.1 r1.2 ((hCustom_sim (own := false) F (rnd i) ok hC).above h1 |>.weaken le) r e
      | measurement opt cls =>
        obtain ⟨r1, h1, e⟩ := Option.bind_eq_some_iff.1 e
        exact ih _ r1.1 r1.2 ((hMeasureColl_sim c.g c.thr c.m _ opt cls ok hC).above h1 |>.weaken le) r e
      | controlled vars channels defaults tl =>
        obtain ⟨r1, h1, e⟩ := Option.bind_eq_some_iff.1 e
        exact ih _ r1.1 r1.2 ((hControlled_sim (own := false) vars channels defaults tl ok hC).above h1 |>.weaken le) r e
      | classical f v a => exact absurd ⟨f, v, a, hn⟩ hc

theorem hEval_above (c : HCirc) (rnd : ℕ → ℕ → ℕ → ℕ) (h0 : Heap) (fuel : ℕ) : ∀ (l : List ℕ) (h : Heap) (coll : HColl), Above h0 h coll →
    ∀ r, hEval c rnd fuel l (h, coll) = some r → h0.Le r.1 := by
  induction fuel with
  | zero => intro l h coll _ r e; cases e
  | succ fuel ih =>
    intro l h coll hA r e
    cases l with
    | nil => obtain rfl := Option.some.inj e; exact hA.le
    | cons i rest =>
      by_cases hc : IsClassical c i
      · obtain ⟨f, v, a, hn⟩ := hc
        rw [hEval] at e
        split at e
        · cases e
        · rw [hn] at e
          obtain ⟨h1, hh, e⟩ := Option.bind_eq_some_iff.1 e
          exact ih _ h1 coll (hClassical_above (fun _ hp => hp) hA hh) r e
      · exact hNode_above hA.le hA.ok hA.live hc ih e


/-! ### copies -/

theorem forall₂_imp_mem {α β : Type*} {R S : α → β → Prop} {l : List α} {m : List β} (hi : ∀ a b, a ∈ l → R a b → S a b)
    (h : List.Forall₂ R l m) : List.Forall₂ S l m := by
  induction h with
  | nil => exact List.Forall₂.nil
  | cons h1 _ ih => exact List.Forall₂.cons (hi _ _ (by simp) h1) (ih (fun a b ha => hi a b (by simp [ha])))

theorem exists_repE' {h : Heap} {N : ℕ → Prop} {coll : HColl} (hl : ∀ p ∈ coll, p.2 < h.objs.length)
    (hN : ∀ p ∈ coll, ∀ s, h.objs[p.2]? = some s → ∀ r ∈ s.results, N r.1) :
    ∃ C, List.Forall₂ (RepE h N) coll C := by
  induction coll with
  | nil => exact ⟨[], List.Forall₂.nil⟩
  | cons p coll ih =>
    obtain ⟨C, hC⟩ := ih (fun q hq => hl q (by simp [hq])) (fun q hq => hN q (by simp [hq]))
    have hs : h.objs[p.2]? = some (h.objs[p.2]'(hl p (by simp))) := List.getElem?_eq_getElem _
    exact ⟨(p.1, h.val (h.objs[p.2]'(hl p (by simp)))) :: C, List.Forall₂.cons ⟨rfl, _, hs, rfl, hN p (by simp) _ hs⟩ hC⟩

theorem repE_rep {h : Heap} {N : ℕ → Prop} {coll : HColl} {C : Coll} (x : List.Forall₂ (RepE h N) coll C) : List.Forall₂ (Rep h) coll C := by
  refine forall₂_imp' ?_ x
  rintro p P ⟨h1, s, h2, h3, -⟩
  exact ⟨h1, Heap.get_eq.2 ⟨s, h2, h3⟩⟩

theorem rep_live {h : Heap} {coll : HColl} {C : Coll} (x : List.Forall₂ (Rep h) coll C) {p : List Char × ℕ} (hp : p ∈ coll) :
    ∃ s, h.objs[p.2]? = some s := by
  obtain ⟨P, -, h1⟩ := forall₂_mem_left' x hp
  obtain ⟨s, hs, -⟩ := Heap.get_eq.1 h1.2
  exact ⟨s, hs⟩

/-- a state that is not reached by the changes shows the same contents -/
theorem changesOnly_rep {coll : HColl} {h h' : Heap} (hc : ChangesOnly coll h h') (ok : h.Ok) {p : List Char × ℕ} {P : List Char × QState}
    (hp : Rep h p P) (h1 : ∀ q ∈ coll, q.2 ≠ p.2)
    (h2 : ∀ s, h.objs[p.2]? = some s → ∀ q ∈ coll, ∀ t, h.objs[q.2]? = some t → t.classical ≠ s.classical ∧ ∀ r ∈ s.results, t.classical ≠ r.1) :
    Rep h' p P := by
  obtain ⟨e, hg⟩ := hp
  obtain ⟨s, hs, hv⟩ := Heap.get_eq.1 hg
  have hmem := List.mem_of_getElem? hs
  have hlt := (List.getElem?_eq_some_iff.1 hs).1
  refine ⟨e, Heap.get_eq.2 ⟨s, ?_, ?_⟩⟩
  · rw [hc.objs p.2 hlt h1, hs]
  · rw [← hv]
    refine Heap.val_congr ?_ ?_
    · exact getD_congr (hc.lists _ (ok s hmem).1 (fun q hq t ht => (h2 s hs q hq t ht).1))
    · intro r hr
      exact getD_congr (hc.lists _ ((ok s hmem).2 r hr) (fun q hq t ht => (h2 s hs q hq t ht).2 r hr))

theorem hClassical_changes {m : ℕ} {f : List ℝ → List ℝ → List ℤ → Option ClsEffect} {v : List ℝ} {a : List ℤ} {h0 : Heap} {all : HColl}
    {todo : HColl} (hsub : ∀ p ∈ todo, p ∈ all) : ∀ {h h' : Heap}, h.Ok → ChangesOnly all h0 h → h0.lists.length ≤ h.lists.length →
    (∀ p ∈ all, ∀ s, h.objs[p.2]? = some s → h0.lists.length ≤ s.classical ∨ ∃ s0, h0.objs[p.2]? = some s0 ∧ s0.classical = s.classical) →
    todo.foldlM (hClsStep m f v a) h = some h' → ChangesOnly all h0 h' ∧ h'.Ok := by
  induction todo with
  | nil => intro h h' ok hA _ _ e; obtain rfl := Option.some.inj e; exact ⟨hA, ok⟩
  | cons p todo ih =>
    intro h h' ok hA hle hcl e
    rw [List.foldlM_cons] at e
    obtain ⟨h1, he, e⟩ := Option.bind_eq_some_iff.1 e
    obtain ⟨s, s', hs, hobjs, hcls, hok, hlen, hlists⟩ := hClsStep_frame ok he
    have hpall := hsub p (by simp)
    refine ih (fun q hq => hsub q (by simp [hq])) hok ⟨?_, ?_⟩ (by omega) ?_ e
    · intro b hb hne
      rw [hobjs, List.getElem?_set, if_neg (hne p hpall), hA.objs b hb hne]
    · intro r hr hne
      have : r ≠ s.classical := by
        rintro rfl
        rcases hcl p hpall s hs with h2 | ⟨s0, h2, h3⟩
        · omega
        · exact hne p hpall s0 h2 h3
      rw [hlists r (by omega) this, hA.lists r hr hne]
    · intro q hq t ht
      rw [hobjs, List.getElem?_set] at ht
      by_cases e : p.2 = q.2
      · rw [if_pos e] at ht
        split at ht
        · obtain rfl := Option.some.inj ht
          rcases hcls with hc | hc
          · rcases hcl p hpall s hs with h2 | h2
            · left; omega
            · right; rw [hc, ← e]; exact h2
          · left; omega
        · cases ht
      · rw [if_neg e] at ht
        exact hcl q hq t ht

end Verif
