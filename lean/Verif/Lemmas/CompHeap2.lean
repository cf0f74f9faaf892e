/- Copying and shifting on the heap of component dictionaries. -/
import Verif.Lemmas.CompHeap

namespace Verif
open Spec

/-- nothing that existed in `h` has changed in `h'` -/
def EHeap.Le (h h' : EHeap) : Prop := h.recs <+: h'.recs ∧ h.objs <+: h'.objs

theorem EHeap.Le.refl (h : EHeap) : h.Le h := ⟨List.prefix_rfl, List.prefix_rfl⟩

theorem EHeap.Le.trans {h h' h'' : EHeap} (a : h.Le h') (b : h'.Le h'') : h.Le h'' := ⟨a.1.trans b.1, a.2.trans b.2⟩

theorem EHeap.Le.obj {h h' : EHeap} (a : h.Le h') {i : ℕ} {s : EState} (hs : h.objs[i]? = some s) : h'.objs[i]? = some s := by
  rw [prefix_getElem? a.2 (List.getElem?_eq_some_iff.1 hs).1, hs]

theorem EHeap.Le.cell {h h' : EHeap} (a : h.Le h') {r : ℕ} (hr : r < h.recs.length) : h'.cell r = h.cell r :=
  EHeap.cell_congr (prefix_getElem? a.1 hr)

theorem EHeap.Le.view {h h' : EHeap} (a : h.Le h') {coll : HColl} (hl : Live h coll) : h'.view coll = h.view coll := by
  apply EHeap.view_congr
  intro p hp
  obtain ⟨o, ho, hr⟩ := hl p hp
  exact EHeap.get_congr ho (a.obj ho) (fun e he => a.cell (hr e he))

theorem EHeap.Le.live {h h' : EHeap} (a : h.Le h') {coll : HColl} (hl : Live h coll) : Live h' coll := by
  intro p hp
  obtain ⟨o, ho, hr⟩ := hl p hp
  exact ⟨o, a.obj ho, fun e he => lt_of_lt_of_le (hr e he) a.1.length_le⟩

/-- the copy of a State object -/
theorem eCopyState_some {thr : ℝ} {m : ℕ} {h h' : EHeap} {a b : ℕ} (he : eCopyState thr m h a = some (h', b)) :
    ∃ s, h.objs[a]? = some s ∧ CheckValid thr m (h.val s) ∧ h.Le h' ∧ b = h.objs.length ∧
      h'.recs.length = h.recs.length + s.comps.length ∧ h'.objs.length = h.objs.length + 1 ∧
      h'.objs[b]? = some { s with comps := s.comps.zipIdx.map (fun p => (p.1.1, h.recs.length + p.2)) } ∧
      ∀ p ∈ s.comps.zipIdx, h'.cell (h.recs.length + p.2) = h.cell p.1.2 := by
  unfold eCopyState at he
  simp only [Option.bind_eq_bind] at he
  obtain ⟨s, hs, he⟩ := Option.bind_eq_some_iff.1 he
  obtain ⟨q, hq, he⟩ := Option.bind_eq_some_iff.1 he
  obtain ⟨rfl, rfl⟩ := Prod.mk.inj (Option.some.inj he)
  refine ⟨s, hs, ?_, ⟨List.prefix_append _ _, List.prefix_append _ _⟩, rfl, by simp, by simp, by simp, ?_⟩
  · unfold copyState at hq
    split at hq
    · assumption
    · cases hq
  · intro p hp
    have := List.mem_zipIdx_iff_getElem?.1 hp
    unfold EHeap.cell
    rw [List.getD_eq_getElem?_getD, List.getElem?_append_right (by omega)]
    simp [this]

theorem eCopyState_get {thr : ℝ} {m : ℕ} {h h' : EHeap} {a b : ℕ} (he : eCopyState thr m h a = some (h', b)) : h'.get b = h.get a := by
  obtain ⟨s, hs, -, -, -, -, -, ho, hc⟩ := eCopyState_some he
  unfold EHeap.get EHeap.val EHeap.read
  rw [hs, ho, Option.map_some, Option.map_some]
  congr 2
  rw [List.map_map]
  have e1 : s.comps = s.comps.zipIdx.map Prod.fst := (List.zipIdx_map_fst 0 s.comps).symm
  conv_rhs => rw [e1, List.map_map]
  apply List.map_congr_left
  intro p hp
  simp only [Function.comp_apply, hc p hp]

/-- the states of a collection are above a given heap -/
def FreshStates (h h' : EHeap) (coll : HColl) : Prop :=
  ∀ p ∈ coll, h.objs.length ≤ p.2 ∧ ∃ o, h'.objs[p.2]? = some o ∧ ∀ e ∈ o.comps, h.recs.length ≤ e.2 ∧ e.2 < h'.recs.length

theorem FreshStates.live {h h' : EHeap} {coll : HColl} (ha : FreshStates h h' coll) : Live h' coll := by
  intro p hp
  obtain ⟨_, o, ho, hr⟩ := ha p hp
  exact ⟨o, ho, fun e he => (hr e he).2⟩

theorem FreshStates.mono {h h' h'' : EHeap} {coll : HColl} (ha : FreshStates h h' coll) (hle : h'.Le h'') : FreshStates h h'' coll := by
  intro p hp
  obtain ⟨h1, o, ho, hr⟩ := ha p hp
  exact ⟨h1, o, hle.obj ho, fun e he => ⟨(hr e he).1, lt_of_lt_of_le (hr e he).2 hle.1.length_le⟩⟩

theorem FreshStates.apart {h h' : EHeap} {coll other : HColl} (ha : FreshStates h h' coll) (hle : h.Le h') (ho : Live h other) : Apart h' other coll := by
  constructor
  · intro p hp p' hp' e
    obtain ⟨o, hob, -⟩ := ho p hp
    have := (List.getElem?_eq_some_iff.1 hob).1
    have := (ha p' hp').1
    omega
  · rintro r ⟨⟨p, hp, o, hob, e, he, rfl⟩, p', hp', o', hob', e', he', hre⟩
    obtain ⟨o1, ho1, hr1⟩ := ho p hp
    rw [hle.obj ho1] at hob
    obtain rfl := Option.some.inj hob
    obtain ⟨-, o2, ho2, hr2⟩ := ha p' hp'
    rw [ho2] at hob'
    obtain rfl := Option.some.inj hob'
    have := hr1 e he
    have := (hr2 e' he').1
    omega

theorem EHeap.view_set {h : EHeap} {coll : HColl} {C : Coll} {k : List Char} {a : ℕ} {q : QState} (hv : h.view coll = some C)
    (hq : h.get a = some q) : h.view (coll.set k a) = some (C.set k q) := by
  unfold EHeap.view at *
  rw [mapM_some_iff] at *
  induction hv with
  | nil => exact .cons (by simp [hq]) .nil
  | cons h1 h2 ih =>
    rename_i p P l L
    obtain ⟨x, hx, rfl⟩ := Option.map_eq_some_iff.1 h1
    rw [Dict.set, Dict.set]
    by_cases e : p.1 = k
    · rw [if_pos e, if_pos e]
      exact .cons (by simp [hq]) h2
    · rw [if_neg e, if_neg e]
      exact .cons h1 ih

/-- copying a collection: nothing existing changes, the copy consists of new objects, and is the copy of the contents -/
theorem eCopyColl_some {thr : ℝ} {m : ℕ} {h h' : EHeap} {coll copy : HColl} (hl : Live h coll)
    (he : eCopyColl thr m h coll = some (h', copy)) :
    h.Le h' ∧ FreshStates h h' copy ∧ ∀ C, h.view coll = some C → ∃ O, copyColl thr m C = some O ∧ h'.view copy = some O := by
  unfold eCopyColl at he
  suffices key : ∀ (l : HColl) (s : EHeap × HColl), Live h l → h.Le s.1 → FreshStates h s.1 s.2 → ∀ out,
      l.foldlM (fun (s : EHeap × HColl) p => (eCopyState thr m s.1 p.2).bind (fun ha => some (ha.1, s.2.set p.1 ha.2))) s = some out →
      h.Le out.1 ∧ FreshStates h out.1 out.2 ∧ ∀ L, h.view l = some L → ∀ C0, s.1.view s.2 = some C0 →
        ∃ O, L.foldlM (fun (new : Coll) P => (copyState thr m P.2).bind (fun q => some (new.set P.1 q))) C0 = some O ∧ out.1.view out.2 = some O by
    obtain ⟨h1, h2, h3⟩ := key coll (h, []) hl (EHeap.Le.refl h) (by intro p hp; cases hp) _ he
    refine ⟨h1, h2, ?_⟩
    intro C hC
    obtain ⟨O, hO, hv⟩ := h3 C hC [] rfl
    refine ⟨O, ?_, hv⟩
    rw [← hO]
    unfold copyColl selectStates
    rfl
  intro l
  induction l with
  | nil =>
    intro s _ h1 h2 out e
    obtain rfl := Option.some.inj e
    refine ⟨h1, h2, ?_⟩
    intro L hL C0 hC0
    obtain rfl : L = [] := by simpa [EHeap.view] using hL.symm
    exact ⟨C0, rfl, hC0⟩
  | cons p l ih =>
    intro s hlv hle hab out e
    rw [List.foldlM_cons] at e
    simp only [Option.bind_eq_bind] at e
    obtain ⟨s', hs', e⟩ := Option.bind_eq_some_iff.1 e
    obtain ⟨⟨h1, b⟩, hc, hs'⟩ := Option.bind_eq_some_iff.1 hs'
    obtain rfl := Option.some.inj hs'
    obtain ⟨o, ho, hval, hle1, rfl, hrl, hol, hob, hcell⟩ := eCopyState_some hc
    have hg := eCopyState_get hc
    simp only at hg hob hle1 hcell hrl hol e
    have habove : FreshStates h h1 (s.2.set p.1 s.1.objs.length) := by
      intro x hx
      rcases Dict.mem_set hx with hx | rfl
      · exact hab.mono hle1 x hx
      · refine ⟨hle.2.length_le, _, hob, ?_⟩
        intro e he
        simp only [List.mem_map] at he
        obtain ⟨y, hy, rfl⟩ := he
        have := (List.mem_zipIdx hy).2.1
        have := hle.1.length_le
        simp only
        constructor <;> omega
    obtain ⟨g1, g2, g3⟩ := ih (h1, s.2.set p.1 s.1.objs.length) (fun x hx => hlv x (by simp [hx])) (hle.trans hle1) habove out e
    refine ⟨g1, g2, ?_⟩
    intro L hL C0 hC0
    unfold EHeap.view at hL
    rw [mapM_some_iff] at hL
    cases hL with
    | cons hP hL' =>
      rename_i P L'
      obtain ⟨q, hq, rfl⟩ := Option.map_eq_some_iff.1 hP
      obtain ⟨oh, hoh, hrh⟩ := hlv p (by simp)
      have hq1 : s.1.get p.2 = h.get p.2 := EHeap.get_congr hoh (hle.obj hoh) (fun e he => hle.cell (hrh e he))
      rw [hq1, hq] at hg
      have hv1 : h1.view (s.2.set p.1 s.1.objs.length) = some (C0.set p.1 q) := by
        apply EHeap.view_set _ hg
        rw [hle1.view hab.live]
        exact hC0
      obtain ⟨O, hO, hv⟩ := g3 L' (by unfold EHeap.view; rw [mapM_some_iff]; exact hL') _ hv1
      refine ⟨O, ?_, hv⟩
      have hqe : s.1.val o = q := by
        have : s.1.get p.2 = some (s.1.val o) := by unfold EHeap.get; rw [ho]; rfl
        rw [hq1, hq] at this
        exact (Option.some.inj this).symm
      rw [List.foldlM_cons]
      simp only [Option.bind_eq_bind]
      unfold copyState
      rw [hqe] at hval
      rw [if_pos hval]
      exact hO

/-- the components of the result of a direct shift are dictionaries of the old state -/
theorem moveRefs_sub {g : Cfg} {move : Vals → Option Vals} {h : EHeap} {d d' : Dict (List Char) ℕ} (he : moveRefs g move h d = some d') :
    ∀ e ∈ d', ∃ e' ∈ d, e'.2 = e.2 := by
  unfold moveRefs at he
  simp only [Option.bind_eq_bind] at he
  obtain ⟨new, hn, he⟩ := Option.bind_eq_some_iff.1 he
  obtain ⟨x, _, he⟩ := Option.bind_eq_some_iff.1 he
  obtain rfl := Option.some.inj he
  suffices key : ∀ (l : Dict (List Char) ℕ) (s : Dict (List Char) ℕ), (∀ e ∈ l, e ∈ d) → (∀ e ∈ s, ∃ e' ∈ d, e'.2 = e.2) → ∀ out,
      l.foldlM (fun (d : Dict (List Char) ℕ) p => (g.parse p.1).bind (fun v => (move v).bind (fun w => (g.render w).bind (fun s => some (d.set s p.2))))) s = some out →
      ∀ e ∈ out, ∃ e' ∈ d, e'.2 = e.2 from key d [] (fun _ he => he) (by intro e he; cases he) _ hn
  intro l
  induction l with
  | nil => intro s _ hs out e; obtain rfl := Option.some.inj e; exact hs
  | cons p l ih =>
    intro s hl hs out e
    rw [List.foldlM_cons] at e
    simp only [Option.bind_eq_bind] at e
    obtain ⟨s', hs', e⟩ := Option.bind_eq_some_iff.1 e
    obtain ⟨v, _, hs'⟩ := Option.bind_eq_some_iff.1 hs'
    obtain ⟨w, _, hs'⟩ := Option.bind_eq_some_iff.1 hs'
    obtain ⟨nm, _, hs'⟩ := Option.bind_eq_some_iff.1 hs'
    obtain rfl := Option.some.inj hs'
    refine ih _ (fun x hx => hl x (by simp [hx])) ?_ out e
    intro x hx
    rcases Dict.mem_set hx with hx | rfl
    · exact hs x hx
    · exact ⟨p, hl p (by simp), rfl⟩

theorem read_set (h : EHeap) (d : Dict (List Char) ℕ) (k : List Char) (r : ℕ) : h.read (d.set k r) = (h.read d).set k (h.cell r) := by
  unfold EHeap.read
  induction d with
  | nil => rfl
  | cons p d ih =>
    rw [Dict.set, List.map_cons, Dict.set]
    by_cases e : p.1 = k
    · rw [if_pos e, if_pos e, List.map_cons]
    · rw [if_neg e, if_neg e, List.map_cons, ih]

/-- moving the references is moving the components -/
theorem moveRefs_read (g : Cfg) (move : Vals → Option Vals) (h : EHeap) (d : Dict (List Char) ℕ) :
    (moveRefs g move h d).map h.read = moveComps g move (h.read d) := by
  unfold moveRefs moveComps
  simp only [Option.bind_eq_bind]
  have key : ∀ (l s : Dict (List Char) ℕ),
      (l.foldlM (fun (d : Dict (List Char) ℕ) p => (g.parse p.1).bind (fun v => (move v).bind (fun w => (g.render w).bind (fun s => some (d.set s p.2))))) s).map h.read =
      (h.read l).foldlM (fun (d : Comps) p => (g.parse p.1).bind (fun v => (move v).bind (fun w => (g.render w).bind (fun s => some (d.set s p.2))))) (h.read s) := by
    intro l
    induction l with
    | nil => intro s; rfl
    | cons p l ih =>
      intro s
      have hr : h.read (p :: l) = (p.1, h.cell p.2) :: h.read l := rfl
      rw [hr, List.foldlM_cons, List.foldlM_cons]
      simp only [Option.bind_eq_bind]
      cases g.parse p.1 with
      | none => rfl
      | some v =>
        simp only [Option.bind_some]
        cases move v with
        | none => rfl
        | some w =>
          simp only [Option.bind_some]
          cases g.render w with
          | none => rfl
          | some nm =>
            simp only [Option.bind_some]
            rw [ih, read_set]
  have hnil : h.read [] = [] := rfl
  rw [← hnil, ← key]
  cases d.foldlM (fun (d : Dict (List Char) ℕ) p => (g.parse p.1).bind (fun v => (move v).bind (fun w => (g.render w).bind (fun s => some (d.set s p.2))))) [] with
  | none => rfl
  | some new =>
    simp only [Option.bind_some, Option.map_some]
    unfold setFromDict
    split
    · rfl
    · rfl

end Verif
