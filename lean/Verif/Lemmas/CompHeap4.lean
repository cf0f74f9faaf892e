/- `clean_up` on the heap of component dictionaries does what `clean_up` of Model/Reshape does. -/
import Verif.Lemmas.CompHeap3
import Verif.Lemmas.HeapEval

namespace Verif
open Spec

theorem getD_set_other {α : Type*} {l : List α} {i j : ℕ} {a d : α} (h : i ≠ j) : (l.set i a).getD j d = l.getD j d := by
  rw [List.getD_eq_getElem?_getD, List.getElem?_set_ne h, ← List.getD_eq_getElem?_getD]

/-- the loop that sets small components to zero, for different dictionaries -/
theorem zero_fold {thr : ℝ} {l : Dict (List Char) ℕ} {recs : List Comp} {t : ℝ} (hd : (l.map Prod.snd).Nodup)
    (hl : ∀ e ∈ l, e.2 < recs.length) :
    (l.foldl (zeroStep thr) (recs, t)).2 =
      t + (l.map (fun e => if (recs.getD e.2 ⟨0, 0⟩).prob < thr then 0 else ‖(recs.getD e.2 ⟨0, 0⟩).amp‖ ^ 2)).sum ∧
    (∀ e ∈ l, (l.foldl (zeroStep thr) (recs, t)).1.getD e.2 ⟨0, 0⟩ =
      if (recs.getD e.2 ⟨0, 0⟩).prob < thr then ⟨0, 0⟩ else recs.getD e.2 ⟨0, 0⟩) ∧
    ∀ r, r ∉ l.map Prod.snd → (l.foldl (zeroStep thr) (recs, t)).1.getD r ⟨0, 0⟩ = recs.getD r ⟨0, 0⟩ := by
  induction l generalizing recs t with
  | nil => simp
  | cons p l ih =>
    rw [List.map_cons, List.nodup_cons] at hd
    have hne : ∀ e ∈ l, p.2 ≠ e.2 := fun e he c => hd.1 (c ▸ List.mem_map_of_mem he)
    rw [List.foldl_cons]
    by_cases hp : (recs.getD p.2 ⟨0, 0⟩).prob < thr
    · have hs : zeroStep thr (recs, t) p = (recs.set p.2 ⟨0, 0⟩, t) := by unfold zeroStep; rw [if_pos hp]
      rw [hs]
      obtain ⟨h1, h2, h3⟩ := ih (recs := recs.set p.2 ⟨0, 0⟩) (t := t) hd.2 (fun e he => by simpa using hl e (by simp [he]))
      refine ⟨?_, ?_, ?_⟩
      · rw [h1, List.map_cons, List.sum_cons, if_pos hp, zero_add]
        congr 2
        apply List.map_congr_left
        intro e he
        rw [getD_set_other (hne e he)]
      · intro e he
        rcases List.mem_cons.1 he with rfl | he
        · rw [h3 e.2 hd.1, if_pos hp, List.getD_eq_getElem?_getD, List.getElem?_set_self (hl e (by simp))]
          rfl
        · rw [h2 e he, getD_set_other (hne e he)]
      · intro r hr
        rw [List.map_cons, List.mem_cons, not_or] at hr
        rw [h3 r hr.2, getD_set_other (fun c => hr.1 c.symm)]
    · have hs : zeroStep thr (recs, t) p = (recs, t + ‖(recs.getD p.2 ⟨0, 0⟩).amp‖ ^ 2) := by unfold zeroStep; rw [if_neg hp]
      rw [hs]
      obtain ⟨h1, h2, h3⟩ := ih (recs := recs) (t := t + ‖(recs.getD p.2 ⟨0, 0⟩).amp‖ ^ 2) hd.2 (fun e he => hl e (by simp [he]))
      refine ⟨?_, ?_, ?_⟩
      · rw [h1, List.map_cons, List.sum_cons, if_neg hp, add_assoc]
      · intro e he
        rcases List.mem_cons.1 he with rfl | he
        · rw [h3 e.2 hd.1, if_neg hp]
        · exact h2 e he
      · intro r hr
        rw [List.map_cons, List.mem_cons, not_or] at hr
        exact h3 r hr.2

/-- the loop that makes the new dictionaries -/
theorem scale_fold (thr : ℝ) (f : ℂ) (recs : List Comp) (l : Dict (List Char) ℕ) (s : List Comp × Dict (List Char) ℕ) (objs : List EState)
    (hs : ∀ e ∈ s.2, e.2 < s.1.length) (hs2 : ∀ e ∈ s.2, ∀ e' ∈ s.2, e.2 = e'.2 → e = e') (hn : (s.2.map Prod.fst).Nodup) :
    (EHeap.mk (l.foldl (scaleStep thr f recs) s).1 objs).read (l.foldl (scaleStep thr f recs) s).2 =
      (l.map (fun e => (e.1, recs.getD e.2 ⟨0, 0⟩))).foldl (fun (d : Comps) p =>
        if ‖f * p.2.amp‖ ^ 2 ≥ thr then d.set p.1 ⟨f * p.2.amp, ‖f * p.2.amp‖ ^ 2⟩ else d) ((EHeap.mk s.1 objs).read s.2) ∧
    (∀ e ∈ (l.foldl (scaleStep thr f recs) s).2, ∀ e' ∈ (l.foldl (scaleStep thr f recs) s).2, e.2 = e'.2 → e = e') ∧
    ((l.foldl (scaleStep thr f recs) s).2.map Prod.fst).Nodup := by
  induction l generalizing s with
  | nil => exact ⟨rfl, hs2, hn⟩
  | cons p l ih =>
    rw [List.foldl_cons, List.map_cons, List.foldl_cons]
    by_cases hp : ‖f * (recs.getD p.2 ⟨0, 0⟩).amp‖ ^ 2 ≥ thr
    · have e1 : scaleStep thr f recs s p = (s.1 ++ [⟨f * (recs.getD p.2 ⟨0, 0⟩).amp, ‖f * (recs.getD p.2 ⟨0, 0⟩).amp‖ ^ 2⟩], s.2.set p.1 s.1.length) := by
        unfold scaleStep; rw [if_pos hp]
      rw [e1]
      have k1 : ∀ e ∈ s.2.set p.1 s.1.length, e.2 < (s.1 ++ [(⟨f * (recs.getD p.2 ⟨0, 0⟩).amp, ‖f * (recs.getD p.2 ⟨0, 0⟩).amp‖ ^ 2⟩ : Comp)]).length := by
        intro e he
        rcases Dict.mem_set he with he | rfl
        · have := hs e he; simp only [List.length_append, List.length_singleton]; omega
        · simp
      have k2 : ∀ e ∈ s.2.set p.1 s.1.length, ∀ e' ∈ s.2.set p.1 s.1.length, e.2 = e'.2 → e = e' := by
        intro e he e' he' hee
        rcases Dict.mem_set he with he | rfl <;> rcases Dict.mem_set he' with he' | rfl
        · exact hs2 e he e' he' hee
        · exact absurd (hs e he) (by simp only at hee; omega)
        · exact absurd (hs e' he') (by simp only at hee; omega)
        · rfl
      obtain ⟨g1, g2, g3⟩ := ih (s.1 ++ [⟨f * (recs.getD p.2 ⟨0, 0⟩).amp, ‖f * (recs.getD p.2 ⟨0, 0⟩).amp‖ ^ 2⟩], s.2.set p.1 s.1.length) k1 k2
        (Dict.nodup_keys_set hn _ _)
      refine ⟨?_, g2, g3⟩
      rw [g1]
      congr 1
      rw [if_pos hp, read_set]
      congr 1
      · apply EHeap.read_congr
        intro e he
        apply EHeap.cell_congr
        exact List.getElem?_append_left (hs e he)
      · simp [EHeap.cell]
    · have e1 : scaleStep thr f recs s p = s := by unfold scaleStep; rw [if_neg hp]
      rw [e1, if_neg hp]
      exact ih s hs hs2 hn

/-- the results agree: both fail, or both succeed with related results -/
def Agree {α β : Type*} (R : α → β → Prop) : Option α → Option β → Prop
  | some a, some b => R a b
  | none, none => True
  | _, _ => False

theorem agree_bind {α β γ δ : Type*} {R : α → β → Prop} {S : γ → δ → Prop} {x : Option α} {y : Option β} {f : α → Option γ} {k : β → Option δ}
    (h : Agree R x y) (hf : ∀ a b, x = some a → y = some b → R a b → Agree S (f a) (k b)) : Agree S (x.bind f) (y.bind k) := by
  cases x <;> cases y
  · trivial
  · exact h.elim
  · exact h.elim
  · exact hf _ _ rfl rfl h

/-- rescaling on the heap -/
theorem eRescale_sim {thr : ℝ} {h : EHeap} {a : ℕ} {o : EState} (ho : h.objs[a]? = some o) (hd : (o.comps.map Prod.snd).Nodup)
    (hl : ∀ e ∈ o.comps, e.2 < h.recs.length) :
    Agree (fun (h' : EHeap) (c : Comps) => ∃ o', h'.objs[a]? = some o' ∧ h'.val o' = { h.val o with comps := c } ∧
      (o'.comps = o.comps ∨ ((o'.comps.map Prod.fst).Nodup ∧ ∀ e ∈ o'.comps, ∀ e' ∈ o'.comps, e.2 = e'.2 → e = e')))
      (eRescale thr h a) (rescale thr (h.val o).comps) := by
  rw [eRescale_eq, ho, Option.bind_some]
  simp only
  unfold rescale
  obtain ⟨z1, z2, -⟩ := zero_fold (thr := thr) (t := 0) hd hl
  generalize o.comps.foldl (zeroStep thr) (h.recs, 0) = rt at z1 z2
  have htot : ((h.val o).comps.map (fun p => if p.2.prob < thr then 0 else ‖p.2.amp‖ ^ 2)).sum = rt.2 := by
    rw [z1, zero_add]
    show ((h.read o.comps).map _).sum = _
    unfold EHeap.read
    rw [List.map_map]
    rfl
  have hcs : (h.val o).comps.map (fun p => if p.2.prob < thr then (p.1, (⟨0, 0⟩ : Comp)) else p) =
      o.comps.map (fun e => (e.1, rt.1.getD e.2 ⟨0, 0⟩)) := by
    show (h.read o.comps).map _ = _
    unfold EHeap.read
    rw [List.map_map]
    apply List.map_congr_left
    intro e he
    simp only [Function.comp_apply]
    rw [z2 e he]
    unfold EHeap.cell
    split <;> rfl
  simp only [htot, hcs]
  split
  · split
    · trivial
    · obtain ⟨s1, s2, s3⟩ := scale_fold thr ((1 / Real.sqrt rt.2 : ℝ) : ℂ) rt.1 o.comps (rt.1, []) []
        (by intro e he; cases he) (by intro e he; cases he) List.nodup_nil
      refine ⟨_, List.getElem?_set_self (List.getElem?_eq_some_iff.1 ho).1, ?_, Or.inr ⟨s3, s2⟩⟩
      unfold EHeap.val
      simp only
      congr 1
  · exact ⟨o, ho, rfl, Or.inl rfl⟩

theorem unshared_nodup {h : EHeap} {coll : HColl} (hu : Unshared h coll) {p : List Char × ℕ} (hp : p ∈ coll) {o : EState}
    (ho : h.objs[p.2]? = some o) : (o.comps.map Prod.snd).Nodup := by
  rw [List.Nodup, List.pairwise_map]
  have hn : o.comps.Nodup := (hu.names p hp o ho).of_map
  refine List.Pairwise.imp_of_mem ?_ hn
  intro e e' he he' hne c
  exact hne (hu.recs p hp p hp o o ho ho e he e' he' c).2

theorem unshared_inj {h : EHeap} {coll : HColl} (hu : Unshared h coll) {p q : List Char × ℕ} (hp : p ∈ coll) (hq : q ∈ coll)
    (e : p.2 = q.2) : p = q := List.inj_on_of_nodup_map hu.objs hp hq e

/-- rescaling keeps the dictionaries of the collection apart, and changes no other state of it -/
theorem eRescale_unshared {thr : ℝ} {h h' : EHeap} {coll : HColl} {p : List Char × ℕ} (hp : p ∈ coll) (hu : Unshared h coll)
    (hres : eRescale thr h p.2 = some h') : Unshared h' coll ∧ ∀ q ∈ coll, q ≠ p → h'.get q.2 = h.get q.2 := by
  obtain ⟨o, ho, hl⟩ := hu.live p hp
  obtain ⟨t, hlen, o', ho', hn⟩ := eRescale_touches ho hres
  have hsim := eRescale_sim (thr := thr) ho (unshared_nodup hu hp ho) hl
  rw [hres] at hsim
  have hkind : o'.comps = o.comps ∨ ((o'.comps.map Prod.fst).Nodup ∧ ∀ e ∈ o'.comps, ∀ e' ∈ o'.comps, e.2 = e'.2 → e = e') := by
    cases hr : rescale thr (h.val o).comps with
    | none => rw [hr] at hsim; exact hsim.elim
    | some c =>
      rw [hr] at hsim
      obtain ⟨o2, ho2, -, hk⟩ := hsim
      rw [ho'] at ho2
      obtain rfl := Option.some.inj ho2
      exact hk
  have hother : ∀ q ∈ coll, q ≠ p → h'.objs[q.2]? = h.objs[q.2]? := by
    intro q hq hne
    obtain ⟨oq, hoq, -⟩ := hu.live q hq
    exact t.objs q.2 (List.getElem?_eq_some_iff.1 hoq).1 (fun e => hne (unshared_inj hu hq hp e))
  refine ⟨⟨?_, hu.ids, hu.objs, ?_, ?_⟩, ?_⟩
  · intro q hq
    by_cases hqp : q = p
    · subst hqp
      refine ⟨o', ho', fun e he => ?_⟩
      rcases hn e he with g | g
      · exact lt_of_lt_of_le (hl e g) t.recLen
      · exact g.2
    · obtain ⟨oq, hoq, hrq⟩ := hu.live q hq
      exact ⟨oq, (hother q hq hqp).trans hoq, fun e he => lt_of_lt_of_le (hrq e he) t.recLen⟩
  · intro q hq oq hoq
    by_cases hqp : q = p
    · subst hqp
      rw [ho'] at hoq
      obtain rfl := Option.some.inj hoq
      rcases hkind with g | g
      · rw [g]; exact hu.names q hp o ho
      · exact g.1
    · rw [hother q hq hqp] at hoq
      exact hu.names q hq oq hoq
  · intro q hq q' hq' oq oq' hoq hoq' e he e' he' hee
    by_cases hqp : q = p <;> by_cases hqp' : q' = p
    · rw [hqp] at hoq; rw [hqp'] at hoq'; rw [hqp, hqp']
      rw [ho'] at hoq hoq'
      obtain rfl := Option.some.inj hoq
      obtain rfl := Option.some.inj hoq'
      refine ⟨rfl, ?_⟩
      rcases hkind with g | g
      · rw [g] at he he'
        exact (hu.recs p hp p hp o o ho ho e he e' he' hee).2
      · exact g.2 e he e' he' hee
    · rw [hqp, ho'] at hoq
      rw [hqp]
      obtain rfl := Option.some.inj hoq
      rw [hother q' hq' hqp'] at hoq'
      rcases hn e he with g | g
      · exact hu.recs p hp q' hq' o oq' ho hoq' e g e' he' hee
      · obtain ⟨o1, ho1, hr1⟩ := hu.live q' hq'
        rw [ho1] at hoq'
        obtain rfl := Option.some.inj hoq'
        have := hr1 e' he'
        omega
    · rw [hqp', ho'] at hoq'
      rw [hqp']
      obtain rfl := Option.some.inj hoq'
      rw [hother q hq hqp] at hoq
      rcases hn e' he' with g | g
      · exact hu.recs q hq p hp oq o hoq ho e he e' g hee
      · obtain ⟨o1, ho1, hr1⟩ := hu.live q hq
        rw [ho1] at hoq
        obtain rfl := Option.some.inj hoq
        have := hr1 e he
        omega
    · rw [hother q hq hqp] at hoq
      rw [hother q' hq' hqp'] at hoq'
      exact hu.recs q hq q' hq' oq oq' hoq hoq' e he e' he' hee
  · intro q hq hqp
    obtain ⟨oq, hoq, hrq⟩ := hu.live q hq
    refine EHeap.get_congr hoq ((hother q hq hqp).trans hoq) (fun e he => ?_)
    rcases t.recs e.2 (hrq e he) with g | ⟨⟨e', he', hee⟩, -, -⟩
    · exact EHeap.cell_congr g
    · exact absurd (hu.recs q hq p hp oq o hoq ho e he e' he' hee.symm).1 hqp

theorem view_get? {h : EHeap} {coll : HColl} {C : Coll} (hv : h.view coll = some C) (i : List Char) :
    Dict.get? C i = (Dict.get? coll i).bind h.get := by
  unfold EHeap.view at hv
  rw [mapM_some_iff] at hv
  induction hv with
  | nil => rfl
  | cons h1 h2 ih =>
    rename_i p P l L
    obtain ⟨x, hx, rfl⟩ := Option.map_eq_some_iff.1 h1
    obtain ⟨a, b⟩ := p
    simp only [Dict.get?_cons]
    by_cases e : a = i
    · rw [if_pos e, if_pos e, Option.bind_some, hx]
    · rw [if_neg e, if_neg e, ih]

/-- changing one state of a collection -/
theorem view_update {h h' : EHeap} {coll : HColl} {C : Coll} (hids : (coll.map Prod.fst).Nodup) (hv : h.view coll = some C)
    {p : List Char × ℕ} (hp : p ∈ coll) {q : QState} (hq : h'.get p.2 = some q) (ho : ∀ x ∈ coll, x ≠ p → h'.get x.2 = h.get x.2) :
    h'.view coll = some (C.set p.1 q) := by
  unfold EHeap.view at *
  rw [mapM_some_iff] at *
  induction hv with
  | nil => cases hp
  | cons h1 h2 ih =>
    rename_i x X l L
    obtain ⟨y, hy, rfl⟩ := Option.map_eq_some_iff.1 h1
    rw [List.map_cons, List.nodup_cons] at hids
    rw [Dict.set]
    by_cases e : x = p
    · rw [e] at hids
      rw [if_pos (by rw [e]), e]
      refine .cons (by simp [hq]) ?_
      refine forall₂_imp_mem ?_ h2
      intro a A ha h3
      rw [ho a (by simp [ha]) (fun c => hids.1 (c ▸ List.mem_map_of_mem ha))]
      exact h3
    · have hpl : p ∈ l := by
        rcases List.mem_cons.1 hp with rfl | hp
        · exact absurd rfl e
        · exact hp
      rw [if_neg (fun c : x.1 = p.1 => hids.1 (c ▸ List.mem_map_of_mem hpl))]
      refine .cons (by rw [ho x (by simp) e, hy]; rfl) (ih hids.2 hpl (fun a ha => ho a (by simp [ha])))

end Verif
