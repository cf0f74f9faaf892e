/- Helper lemmas about the heap of component dictionaries. -/
import Verif.Spec.CompHeap
import Verif.Lemmas.Heap
import Verif.Lemmas.Dict
import Verif.Lemmas.Names

namespace Verif
open Spec

/-- only State objects in `O` have changed, and dictionaries in `R` with a small probability have been set to zero -/
structure Touches (thr : ℝ) (R O : ℕ → Prop) (h h' : EHeap) : Prop where
  recLen : h.recs.length ≤ h'.recs.length
  objLen : h.objs.length ≤ h'.objs.length
  recs : ∀ r < h.recs.length, h'.recs[r]? = h.recs[r]? ∨ (R r ∧ (h.cell r).prob < thr ∧ h'.recs[r]? = some ⟨0, 0⟩)
  objs : ∀ a < h.objs.length, ¬ O a → h'.objs[a]? = h.objs[a]?

theorem Touches.refl (thr : ℝ) (R O : ℕ → Prop) (h : EHeap) : Touches thr R O h h :=
  ⟨le_rfl, le_rfl, fun _ _ => Or.inl rfl, fun _ _ _ => rfl⟩

theorem EHeap.cell_congr {h h' : EHeap} {r : ℕ} (e : h'.recs[r]? = h.recs[r]?) : h'.cell r = h.cell r := by
  unfold EHeap.cell
  rw [List.getD_eq_getElem?_getD, List.getD_eq_getElem?_getD, e]

theorem Touches.trans {thr : ℝ} {R O R' O' : ℕ → Prop} {h h' h'' : EHeap} (a : Touches thr R O h h')
    (b : Touches thr R' O' h' h'') (hR : ∀ r < h.recs.length, R' r → R r) (hO : ∀ x < h.objs.length, O' x → O x) : Touches thr R O h h'' := by
  refine ⟨a.recLen.trans b.recLen, a.objLen.trans b.objLen, ?_, ?_⟩
  · intro r hr
    rcases b.recs r (by have := a.recLen; omega) with e | ⟨h1, h2, h3⟩
    · rcases a.recs r hr with e' | ⟨g1, g2, g3⟩
      · exact Or.inl (e.trans e')
      · exact Or.inr ⟨g1, g2, e.trans g3⟩
    · rcases a.recs r hr with e' | ⟨g1, g2, g3⟩
      · rw [EHeap.cell_congr e'] at h2
        exact Or.inr ⟨hR r hr h1, h2, h3⟩
      · exact Or.inr ⟨g1, g2, h3⟩
  · intro x hx hn
    rw [b.objs x (by have := a.objLen; omega) (fun c => hn (hO x hx c)), a.objs x hx hn]

/-- the loop that sets small components to zero -/
noncomputable def zeroStep (thr : ℝ) (s : List Comp × ℝ) (p : List Char × ℕ) : List Comp × ℝ :=
  if (s.1.getD p.2 ⟨0, 0⟩).prob < thr then (s.1.set p.2 ⟨0, 0⟩, s.2) else (s.1, s.2 + ‖(s.1.getD p.2 ⟨0, 0⟩).amp‖ ^ 2)

/-- the loop that makes the new dictionaries -/
noncomputable def scaleStep (thr : ℝ) (f : ℂ) (recs : List Comp) (s : List Comp × Dict (List Char) ℕ) (p : List Char × ℕ) :
    List Comp × Dict (List Char) ℕ :=
  if ‖f * (recs.getD p.2 ⟨0, 0⟩).amp‖ ^ 2 ≥ thr then
    (s.1 ++ [⟨f * (recs.getD p.2 ⟨0, 0⟩).amp, ‖f * (recs.getD p.2 ⟨0, 0⟩).amp‖ ^ 2⟩], s.2.set p.1 s.1.length) else s

theorem eRescale_eq (thr : ℝ) (h : EHeap) (a : ℕ) : eRescale thr h a = (h.objs[a]?).bind (fun o =>
    let rt := o.comps.foldl (zeroStep thr) (h.recs, 0)
    if |rt.2 - 1| ≥ thr then
      if Real.sqrt rt.2 = 0 then none
      else
        let new := o.comps.foldl (scaleStep thr ((1 / Real.sqrt rt.2 : ℝ) : ℂ) rt.1) (rt.1, [])
        some ⟨new.1, h.objs.set a { o with comps := new.2 }⟩
    else some ⟨rt.1, h.objs⟩) := rfl

theorem zero_recs (thr : ℝ) (l : Dict (List Char) ℕ) (recs : List Comp) (t : ℝ) :
    (l.foldl (zeroStep thr) (recs, t)).1.length = recs.length ∧
    ∀ r, r < recs.length → (l.foldl (zeroStep thr) (recs, t)).1[r]? = recs[r]? ∨
      ((∃ e ∈ l, e.2 = r) ∧ (recs.getD r ⟨0, 0⟩).prob < thr ∧ (l.foldl (zeroStep thr) (recs, t)).1[r]? = some ⟨0, 0⟩) := by
  induction l generalizing recs t with
  | nil => exact ⟨rfl, fun r _ => Or.inl rfl⟩
  | cons p l ih =>
    rw [List.foldl_cons]
    by_cases hp : (recs.getD p.2 ⟨0, 0⟩).prob < thr
    · have hs : zeroStep thr (recs, t) p = (recs.set p.2 ⟨0, 0⟩, t) := by unfold zeroStep; rw [if_pos hp]
      rw [hs]
      obtain ⟨h1, h2⟩ := ih (recs.set p.2 ⟨0, 0⟩) t
      refine ⟨by rw [h1, List.length_set], ?_⟩
      intro r hr
      by_cases e : p.2 = r
      · right
        refine ⟨⟨p, by simp, e⟩, e ▸ hp, ?_⟩
        rcases h2 r (by simpa using hr) with g | ⟨_, _, g⟩
        · rw [g, e, List.getElem?_set_self hr]
        · exact g
      · rcases h2 r (by simpa using hr) with g | ⟨⟨e', he', hr'⟩, g', g⟩
        · left
          rw [g, List.getElem?_set_ne e]
        · right
          refine ⟨⟨e', by simp [he'], hr'⟩, ?_, g⟩
          rwa [List.getD_eq_getElem?_getD, List.getElem?_set_ne e, ← List.getD_eq_getElem?_getD] at g'
    · have hs : zeroStep thr (recs, t) p = (recs, t + ‖(recs.getD p.2 ⟨0, 0⟩).amp‖ ^ 2) := by unfold zeroStep; rw [if_neg hp]
      rw [hs]
      obtain ⟨h1, h2⟩ := ih recs (t + ‖(recs.getD p.2 ⟨0, 0⟩).amp‖ ^ 2)
      refine ⟨h1, ?_⟩
      intro r hr
      rcases h2 r hr with g | ⟨⟨e', he', hr'⟩, g', g⟩
      · exact Or.inl g
      · exact Or.inr ⟨⟨e', by simp [he'], hr'⟩, g', g⟩

theorem scale_recs (thr : ℝ) (f : ℂ) (recs : List Comp) (l : Dict (List Char) ℕ) (s : List Comp × Dict (List Char) ℕ) :
    s.1 <+: (l.foldl (scaleStep thr f recs) s).1 ∧
    ∀ e ∈ (l.foldl (scaleStep thr f recs) s).2, e ∈ s.2 ∨ (s.1.length ≤ e.2 ∧ e.2 < (l.foldl (scaleStep thr f recs) s).1.length) := by
  induction l generalizing s with
  | nil => exact ⟨List.prefix_rfl, fun e he => Or.inl he⟩
  | cons p l ih =>
    rw [List.foldl_cons]
    by_cases hp : ‖f * (recs.getD p.2 ⟨0, 0⟩).amp‖ ^ 2 ≥ thr
    · have hs : scaleStep thr f recs s p = (s.1 ++ [⟨f * (recs.getD p.2 ⟨0, 0⟩).amp, ‖f * (recs.getD p.2 ⟨0, 0⟩).amp‖ ^ 2⟩], s.2.set p.1 s.1.length) := by
        unfold scaleStep; rw [if_pos hp]
      obtain ⟨h1, h2⟩ := ih (scaleStep thr f recs s p)
      generalize l.foldl (scaleStep thr f recs) (scaleStep thr f recs s p) = out at h1 h2 ⊢
      rw [hs] at h1 h2
      refine ⟨(List.prefix_append _ _).trans h1, ?_⟩
      have hl := h1.length_le
      simp only [List.length_append, List.length_singleton] at hl h2
      intro e he
      rcases h2 e he with g | g
      · rcases Dict.mem_set g with g | rfl
        · exact Or.inl g
        · exact Or.inr ⟨le_rfl, by simp only; omega⟩
      · exact Or.inr ⟨by omega, g.2⟩
    · have hs : scaleStep thr f recs s p = s := by unfold scaleStep; rw [if_neg hp]
      rw [hs]
      exact ih s

/-- what rescaling a State object changes -/
theorem eRescale_touches {thr : ℝ} {h h' : EHeap} {a : ℕ} {o : EState} (ho : h.objs[a]? = some o) (he : eRescale thr h a = some h') :
    Touches thr (fun r => ∃ e ∈ o.comps, e.2 = r) (fun b => b = a) h h' ∧ h'.objs.length = h.objs.length ∧
    ∃ o', h'.objs[a]? = some o' ∧ ∀ e ∈ o'.comps, e ∈ o.comps ∨ (h.recs.length ≤ e.2 ∧ e.2 < h'.recs.length) := by
  rw [eRescale_eq, ho, Option.bind_some] at he
  simp only at he
  obtain ⟨z1, z2⟩ := zero_recs thr o.comps h.recs 0
  generalize o.comps.foldl (zeroStep thr) (h.recs, 0) = rt at he z1 z2
  have ha := (List.getElem?_eq_some_iff.1 ho).1
  split at he
  · split at he
    · cases he
    · obtain ⟨s1, s2⟩ := scale_recs thr ((1 / Real.sqrt rt.2 : ℝ) : ℂ) rt.1 o.comps (rt.1, [])
      generalize o.comps.foldl (scaleStep thr ((1 / Real.sqrt rt.2 : ℝ) : ℂ) rt.1) (rt.1, []) = new at he s1 s2
      obtain rfl := Option.some.inj he
      have hl := s1.length_le
      simp only at hl
      refine ⟨⟨by simp only; omega, by simp, ?_, ?_⟩, by simp, { o with comps := new.2 }, ?_, ?_⟩
      · intro r hr
        show new.1[r]? = h.recs[r]? ∨ _
        rw [prefix_getElem? s1 (by simp only; omega)]
        exact z2 r hr
      · intro b hb hne
        exact List.getElem?_set_ne (fun e => hne e.symm)
      · exact List.getElem?_set_self ha
      · intro e he
        rcases s2 e he with g | g
        · cases g
        · right
          exact ⟨by have := g.1; simp only at this; omega, g.2⟩
  · obtain rfl := Option.some.inj he
    exact ⟨⟨by simp only; omega, le_rfl, z2, fun _ _ _ => rfl⟩, rfl, o, ho, fun e he => Or.inl he⟩

/-- every component of the collection refers to a dictionary in `R` or to a new one -/
def RefsIn (n : ℕ) (R : ℕ → Prop) (h : EHeap) (coll : HColl) : Prop :=
  ∀ p ∈ coll, ∀ o, h.objs[p.2]? = some o → ∀ e ∈ o.comps, R e.2 ∨ n ≤ e.2

theorem eRescale_step {thr : ℝ} {R O : ℕ → Prop} {h0 h h' : EHeap} {coll : HColl} {p : List Char × ℕ} (hp : p ∈ coll)
    (hO : ∀ p ∈ coll, O p.2) (ht : Touches thr R O h0 h) (hr : RefsIn h0.recs.length R h coll) (he : eRescale thr h p.2 = some h') :
    Touches thr R O h0 h' ∧ RefsIn h0.recs.length R h' coll := by
  cases ho : h.objs[p.2]? with
  | none => rw [eRescale_eq, ho] at he; cases he
  | some o =>
    obtain ⟨t, l, o', ho', hn⟩ := eRescale_touches ho he
    refine ⟨ht.trans t ?_ ?_, ?_⟩
    · rintro r hr' ⟨e, he, rfl⟩
      rcases hr p hp o ho e he with g | g
      · exact g
      · exact absurd hr' (by omega)
    · rintro x _ rfl
      exact hO p hp
    · intro q hq oq hoq e he
      by_cases hqp : q.2 = p.2
      · rw [hqp, ho'] at hoq
        obtain rfl := Option.some.inj hoq
        rcases hn e he with g | g
        · exact hr p hp o ho e g
        · right
          have := ht.recLen
          omega
      · have hlt := (List.getElem?_eq_some_iff.1 hoq).1
        rw [t.objs q.2 (by omega) hqp] at hoq
        exact hr q hq oq hoq e he

theorem eCleanGroups_step {thr : ℝ} {R O : ℕ → Prop} {label : List Char} {h0 h h' : EHeap} {coll : HColl}
    {gr : Dict (List Char) (List (List Char))} (hO : ∀ p ∈ coll, O p.2) (ht : Touches thr R O h0 h) (hr : RefsIn h0.recs.length R h coll)
    (he : eCleanGroups thr label h coll = some (h', gr)) : Touches thr R O h0 h' ∧ RefsIn h0.recs.length R h' coll := by
  unfold eCleanGroups at he
  suffices key : ∀ (l : HColl) (s : EHeap × Dict (List Char) (List (List Char))), (∀ p ∈ l, p ∈ coll) → Touches thr R O h0 s.1 →
      RefsIn h0.recs.length R s.1 coll → ∀ h' gr, l.foldlM (fun (s : EHeap × Dict (List Char) (List (List Char))) p => do
    let q ← s.1.get p.2
    if q.initial = label then
      let h' ← eRescale thr s.1 p.2
      let q' ← h'.get p.2
      match s.2.find? (fun o => @decide (∃ a k, coll.get? o.1 = some a ∧ h'.get a = some k ∧ identicalComps thr q'.comps k.comps) (Classical.propDecidable _)) with
      | some o => some (h', s.2.set o.1 (o.2 ++ [p.1]))
      | none => some (h', s.2.set p.1 [])
    else some s) s = some (h', gr) → Touches thr R O h0 h' ∧ RefsIn h0.recs.length R h' coll from
    key coll (h, []) (fun _ hp => hp) ht hr h' gr he
  intro l
  induction l with
  | nil =>
    intro s _ t r h' gr he
    obtain rfl := Option.some.inj he
    exact ⟨t, r⟩
  | cons p l ih =>
    intro s hl t r h' gr he
    rw [List.foldlM_cons] at he
    simp only [Option.bind_eq_bind] at he
    obtain ⟨s', hs', he⟩ := Option.bind_eq_some_iff.1 he
    obtain ⟨q, hq, hs'⟩ := Option.bind_eq_some_iff.1 hs'
    have hl' : ∀ p ∈ l, p ∈ coll := fun x hx => hl x (by simp [hx])
    split at hs'
    · obtain ⟨h1, hh1, hs'⟩ := Option.bind_eq_some_iff.1 hs'
      obtain ⟨q', hq', hs'⟩ := Option.bind_eq_some_iff.1 hs'
      obtain ⟨t', r'⟩ := eRescale_step (hl p (by simp)) hO t r hh1
      split at hs' <;> (obtain rfl := Option.some.inj hs'; exact ih _ hl' t' r' h' gr he)
    · obtain rfl := Option.some.inj hs'
      exact ih _ hl' t r h' gr he

theorem mem_erase_of {α β : Type*} [DecidableEq α] {d : Dict α β} {k : α} {p : α × β} (h : p ∈ d.erase k) : p ∈ d := by
  induction d with
  | nil => exact h
  | cons a d ih =>
    rw [Dict.erase] at h
    split at h
    · exact List.mem_cons_of_mem _ h
    · rcases List.mem_cons.1 h with rfl | h
      · simp
      · exact List.mem_cons_of_mem _ (ih h)

theorem eMergeGroups_step {thr : ℝ} {R O : ℕ → Prop} {h0 h h' : EHeap} {coll coll' : HColl}
    {gr : Dict (List Char) (List (List Char))} (hO : ∀ p ∈ coll, O p.2) (ht : Touches thr R O h0 h) (hr : RefsIn h0.recs.length R h coll)
    (he : eMergeGroups thr gr h coll = some (h', coll')) :
    Touches thr R O h0 h' ∧ RefsIn h0.recs.length R h' coll' ∧ ∀ p ∈ coll', p ∈ coll := by
  unfold eMergeGroups at he
  induction gr generalizing h coll with
  | nil =>
    obtain ⟨rfl, rfl⟩ := Prod.mk.inj (Option.some.inj he)
    exact ⟨ht, hr, fun _ hp => hp⟩
  | cons ig gr ih =>
    rw [List.foldlM_cons] at he
    simp only [Option.bind_eq_bind] at he
    obtain ⟨s', hs', he⟩ := Option.bind_eq_some_iff.1 he
    obtain ⟨a, ha, hs'⟩ := Option.bind_eq_some_iff.1 hs'
    obtain ⟨q, hq, hs'⟩ := Option.bind_eq_some_iff.1 hs'
    obtain ⟨sc, hsc, hs'⟩ := Option.bind_eq_some_iff.1 hs'
    have hsub : ∀ p ∈ sc.1, p ∈ coll := by
      clear hs' he
      suffices key : ∀ (l : List (List Char)) (s : HColl × ℝ), (∀ p ∈ s.1, p ∈ coll) → ∀ sc, l.foldlM (fun (sc : HColl × ℝ) j =>
          (sc.1.get? j).bind (fun b => (h.get b).bind (fun k => some (sc.1.erase j, sc.2 + k.cum)))) s = some sc → ∀ p ∈ sc.1, p ∈ coll from
        key ig.2 (coll, q.cum) (fun _ hp => hp) sc hsc
      intro l
      induction l with
      | nil => intro s hs sc hsc; obtain rfl := Option.some.inj hsc; exact hs
      | cons j l ih =>
        intro s hs sc hsc
        rw [List.foldlM_cons] at hsc
        simp only [Option.bind_eq_bind] at hsc
        obtain ⟨s', hs', hsc⟩ := Option.bind_eq_some_iff.1 hsc
        obtain ⟨b, _, hs'⟩ := Option.bind_eq_some_iff.1 hs'
        obtain ⟨k, _, hs'⟩ := Option.bind_eq_some_iff.1 hs'
        obtain rfl := Option.some.inj hs'
        exact ih _ (fun p hp => hs p (mem_erase_of hp)) sc hsc
    split at hs'
    · obtain ⟨cum, hcum, hs'⟩ := Option.bind_eq_some_iff.1 hs'
      obtain ⟨a', ha', hs'⟩ := Option.bind_eq_some_iff.1 hs'
      obtain rfl := Option.some.inj hs'
      have hmem : (ig.1, a') ∈ coll := hsub _ (Dict.get?_mem ha')
      have ht' : Touches thr R O h0 { h with objs := h.objs.modify a' (fun s => { s with cum := cum }) } := by
        refine ht.trans (R' := R) (O' := O) ⟨le_rfl, by simp, fun _ _ => Or.inl rfl, ?_⟩ (fun _ _ hx => hx) (fun _ _ hx => hx)
        intro b _ hb
        have hne : a' ≠ b := fun e => hb (e ▸ hO _ hmem)
        simp [hne]
      have hr' : RefsIn h0.recs.length R { h with objs := h.objs.modify a' (fun s => { s with cum := cum }) } sc.1 := by
        intro p hp o ho e he
        simp only [List.getElem?_modify] at ho
        obtain ⟨o1, ho1, rfl⟩ := Option.map_eq_some_iff.1 ho
        refine hr p (hsub p hp) o1 ho1 e ?_
        split at he <;> exact he
      obtain ⟨h1, h2, h3⟩ := ih (fun p hp => hO p (hsub p hp)) ht' hr' he
      exact ⟨h1, h2, fun p hp => hsub p (h3 p hp)⟩
    · obtain rfl := Option.some.inj hs'
      have hsub' : ∀ p ∈ sc.1.erase ig.1, p ∈ coll := fun p hp => hsub p (mem_erase_of hp)
      obtain ⟨h1, h2, h3⟩ := ih (h := h) (coll := sc.1.erase ig.1) (fun p hp => hO p (hsub' p hp)) ht
        (fun p hp => hr p (hsub' p hp)) he
      exact ⟨h1, h2, fun p hp => hsub' p (h3 p hp)⟩

/-- what `clean_up` changes -/
theorem eCleanUp_touches {thr : ℝ} {labels : List (List Char)} {h h' : EHeap} {coll coll' : HColl}
    (he : eCleanUp thr labels h coll = some (h', coll')) :
    Touches thr (UsesRec h coll) (fun a => ∃ p ∈ coll, p.2 = a) h h' := by
  suffices key : ∀ (labels : List (List Char)) (s : EHeap × HColl), (∀ p ∈ s.2, p ∈ coll) →
      Touches thr (UsesRec h coll) (fun a => ∃ p ∈ coll, p.2 = a) h s.1 → RefsIn h.recs.length (UsesRec h coll) s.1 s.2 →
      ∀ out, labels.foldlM (fun (s : EHeap × HColl) label => (eCleanGroups thr label s.1 s.2).bind (fun sg => eMergeGroups thr sg.2 sg.1 s.2)) s = some out →
        Touches thr (UsesRec h coll) (fun a => ∃ p ∈ coll, p.2 = a) h out.1 from
    key labels (h, coll) (fun _ hp => hp) (Touches.refl _ _ _ _) (fun p hp o ho e he => Or.inl ⟨p, hp, o, ho, e, he, rfl⟩) _ he
  intro labels
  induction labels with
  | nil => intro s _ t _ out e; obtain rfl := Option.some.inj e; exact t
  | cons label labels ih =>
    intro s hs t r out e
    rw [List.foldlM_cons] at e
    simp only [Option.bind_eq_bind] at e
    obtain ⟨s', hs', e⟩ := Option.bind_eq_some_iff.1 e
    obtain ⟨sg, hsg, hm⟩ := Option.bind_eq_some_iff.1 hs'
    have hO : ∀ p ∈ s.2, ∃ p' ∈ coll, p'.2 = p.2 := fun p hp => ⟨p, hs p hp, rfl⟩
    obtain ⟨t1, r1⟩ := eCleanGroups_step (O := fun a => ∃ p ∈ coll, p.2 = a) hO t r hsg
    obtain ⟨t2, r2, h3⟩ := eMergeGroups_step (O := fun a => ∃ p ∈ coll, p.2 = a) hO t1 r1 hm
    exact ih s' (fun p hp => hs p (h3 p hp)) t2 r2 out e

theorem EHeap.read_congr {h h' : EHeap} {d : Dict (List Char) ℕ} (e : ∀ p ∈ d, h'.cell p.2 = h.cell p.2) : h'.read d = h.read d := by
  unfold EHeap.read
  exact List.map_congr_left (fun p hp => by rw [e p hp])

theorem EHeap.get_congr {h h' : EHeap} {a : ℕ} {o : EState} (ho : h.objs[a]? = some o) (ho' : h'.objs[a]? = some o)
    (e : ∀ p ∈ o.comps, h'.cell p.2 = h.cell p.2) : h'.get a = h.get a := by
  unfold EHeap.get EHeap.val
  rw [ho, ho', Option.map_some, Option.map_some, EHeap.read_congr e]

theorem EHeap.view_congr {h h' : EHeap} {coll : HColl} (e : ∀ p ∈ coll, h'.get p.2 = h.get p.2) : h'.view coll = h.view coll := by
  unfold EHeap.view
  induction coll with
  | nil => rfl
  | cons p coll ih =>
    rw [List.mapM_cons, List.mapM_cons, e p (by simp), ih (fun q hq => e q (by simp [hq]))]

end Verif
