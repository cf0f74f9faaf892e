/- Direct shifts and `clean_up` on the heap of component dictionaries. -/
import Verif.Lemmas.CompHeap2

namespace Verif
open Spec

/-- one step of a direct shift -/
noncomputable def eMoveStep (c : Circ) (move : Vals → Option Vals) (r : ℕ → ℕ → ℕ) (s : EHeap × HColl) (p : List Char × ℕ) : Option (EHeap × HColl) :=
  (s.1.objs[p.2]?).bind (fun o => (eCopyState c.thr c.m s.1 p.2).bind (fun ha => (moveRefs c.g move s.1 o.comps).bind (fun comps =>
    some ({ ha.1 with objs := ha.1.objs.modify ha.2 (fun s => { s with comps := comps }) }, s.2.set (freshId s.2.keys (r s.2.length)) ha.2))))

/-- one step of a direct shift, states as values -/
noncomputable def moveStep (c : Circ) (move : Vals → Option Vals) (r : ℕ → ℕ → ℕ) (out : Coll) (P : List Char × QState) : Option Coll :=
  (copyState c.thr c.m P.2).bind (fun q => (moveComps c.g move P.2.comps).bind (fun comps =>
    some (addState out { q with comps := comps } none (r out.length))))

/-- the states of a collection are new objects whose dictionaries belong to `coll` -/
def Borrowed (h h' : EHeap) (coll out : HColl) : Prop :=
  ∀ p ∈ out, h.objs.length ≤ p.2 ∧ ∃ o, h'.objs[p.2]? = some o ∧ ∀ e ∈ o.comps, UsesRec h coll e.2

theorem Borrowed.mono {h h' h'' : EHeap} {coll out : HColl} (hb : Borrowed h h' coll out) (hle : h'.Le h'') : Borrowed h h'' coll out := by
  intro p hp
  obtain ⟨h1, o, ho, hr⟩ := hb p hp
  exact ⟨h1, o, hle.obj ho, hr⟩

theorem usesRec_lt {h : EHeap} {coll : HColl} (hl : Live h coll) {r : ℕ} (hu : UsesRec h coll r) : r < h.recs.length := by
  obtain ⟨p, hp, o, ho, e, he, rfl⟩ := hu
  obtain ⟨o1, ho1, hr⟩ := hl p hp
  rw [ho1] at ho
  obtain rfl := Option.some.inj ho
  exact hr e he

theorem Borrowed.live {h h' : EHeap} {coll out : HColl} (hb : Borrowed h h' coll out) (hl : Live h coll) (hle : h.Le h') : Live h' out := by
  intro p hp
  obtain ⟨_, o, ho, hr⟩ := hb p hp
  exact ⟨o, ho, fun e he => lt_of_lt_of_le (usesRec_lt hl (hr e he)) hle.1.length_le⟩

theorem view_keys {h : EHeap} {coll : HColl} {C : Coll} (hv : h.view coll = some C) : Dict.keys coll = Dict.keys C ∧ coll.length = C.length := by
  unfold EHeap.view at hv
  rw [mapM_some_iff] at hv
  induction hv with
  | nil => exact ⟨rfl, rfl⟩
  | cons h1 _ ih =>
    rename_i p P l L
    obtain ⟨x, hx, rfl⟩ := Option.map_eq_some_iff.1 h1
    exact ⟨by simp only [Dict.keys, List.map_cons] at *; rw [ih.1], by simp [ih.2]⟩

theorem modify_append_length {α : Type*} (l t : List α) (f : α → α) : (l ++ t).modify l.length f = l ++ t.modify 0 f := by
  induction l with
  | nil => rfl
  | cons a l ih => simp [ih]

/-- shifting a collection directly: nothing existing changes, the result consists of new State objects with the dictionaries of the given
collection, and is the shifted collection -/
theorem eMoveColl_some {c : Circ} {move : Vals → Option Vals} {r : ℕ → ℕ → ℕ} {h h' : EHeap} {coll out : HColl} (hl : Live h coll)
    (he : eMoveColl c move r h coll = some (h', out)) :
    h.Le h' ∧ Borrowed h h' coll out ∧ ∀ C, h.view coll = some C → ∃ O, moveColl c move r C = some O ∧ h'.view out = some O := by
  unfold eMoveColl at he
  simp only [Option.bind_eq_bind] at he
  obtain ⟨⟨h0, copy⟩, h0c, he⟩ := Option.bind_eq_some_iff.1 he
  obtain ⟨hle0, -, hcopy⟩ := eCopyColl_some hl h0c
  simp only at he
  suffices key : ∀ (l : HColl) (s : EHeap × HColl), (∀ p ∈ l, p ∈ coll) → h.Le s.1 → Borrowed h s.1 coll s.2 → ∀ fin,
      l.foldlM (eMoveStep c move r) s = some fin →
      h.Le fin.1 ∧ Borrowed h fin.1 coll fin.2 ∧ ∀ L, h.view l = some L → ∀ C0, s.1.view s.2 = some C0 →
        ∃ O, L.foldlM (moveStep c move r) C0 = some O ∧ fin.1.view fin.2 = some O by
    obtain ⟨h1, h2, h3⟩ := key coll (h0, []) (fun _ hp => hp) hle0 (by intro p hp; cases hp) _ he
    refine ⟨h1, h2, ?_⟩
    intro C hC
    obtain ⟨O, hO, hv⟩ := h3 C hC [] rfl
    refine ⟨O, ?_, hv⟩
    obtain ⟨O', hO', -⟩ := hcopy C hC
    unfold moveColl
    simp only [Option.bind_eq_bind]
    rw [hO', Option.bind_some]
    exact hO
  intro l
  induction l with
  | nil =>
    intro s _ h1 h2 fin e
    obtain rfl := Option.some.inj e
    refine ⟨h1, h2, ?_⟩
    intro L hL C0 hC0
    obtain rfl : L = [] := by simpa [EHeap.view] using hL.symm
    exact ⟨C0, rfl, hC0⟩
  | cons p l ih =>
    intro s hsub hle hb fin e
    rw [List.foldlM_cons] at e
    simp only [Option.bind_eq_bind] at e
    obtain ⟨s', hs', e⟩ := Option.bind_eq_some_iff.1 e
    unfold eMoveStep at hs'
    obtain ⟨o, ho, hs'⟩ := Option.bind_eq_some_iff.1 hs'
    obtain ⟨⟨h1, b⟩, hc, hs'⟩ := Option.bind_eq_some_iff.1 hs'
    obtain ⟨comps, hcomps, hs'⟩ := Option.bind_eq_some_iff.1 hs'
    obtain rfl := Option.some.inj hs'
    obtain ⟨o', ho', hval, hle1, rfl, hrl, hol, hob, hcell⟩ := eCopyState_some hc
    rw [ho] at ho'
    obtain rfl := Option.some.inj ho'
    simp only at hob hle1 hcell hrl hol e
    obtain ⟨oh, hoh, hrh⟩ := hl p (hsub p (by simp))
    have hoo : oh = o := by
      have := hle.obj hoh
      rw [ho] at this
      exact (Option.some.inj this).symm
    subst hoo
    have hle2 : s.1.Le { h1 with objs := h1.objs.modify s.1.objs.length (fun s => { s with comps := comps }) } := by
      refine ⟨hle1.1, ?_⟩
      obtain ⟨t, ht⟩ := hle1.2
      refine ⟨t.modify 0 (fun s => { s with comps := comps }), ?_⟩
      simp only
      rw [← ht, modify_append_length]
    have hmove := moveRefs_sub hcomps
    have hnew : (h1.objs.modify s.1.objs.length (fun s => { s with comps := comps }))[s.1.objs.length]? =
        some { oh with comps := comps } := by
      rw [List.getElem?_modify_eq, hob]
      rfl
    have hbor : Borrowed h { h1 with objs := h1.objs.modify s.1.objs.length (fun s => { s with comps := comps }) } coll
        (s.2.set (freshId s.2.keys (r s.2.length)) s.1.objs.length) := by
      intro x hx
      rcases Dict.mem_set hx with hx | rfl
      · exact hb.mono hle2 x hx
      · refine ⟨hle.2.length_le, _, hnew, ?_⟩
        intro e he
        obtain ⟨e', he', hee⟩ := hmove e he
        exact ⟨p, hsub p (by simp), oh, hoh, e', he', hee⟩
    obtain ⟨g1, g2, g3⟩ := ih ({ h1 with objs := h1.objs.modify s.1.objs.length (fun s => { s with comps := comps }) }, _)
      (fun x hx => hsub x (by simp [hx])) (hle.trans hle2) hbor fin e
    refine ⟨g1, g2, ?_⟩
    intro L hL C0 hC0
    unfold EHeap.view at hL
    rw [mapM_some_iff] at hL
    cases hL with
    | cons hP hL' =>
      rename_i P L'
      obtain ⟨q, hq, rfl⟩ := Option.map_eq_some_iff.1 hP
      have hq1 : s.1.get p.2 = h.get p.2 := EHeap.get_congr hoh (hle.obj hoh) (fun e he => hle.cell (hrh e he))
      have hqe : s.1.val oh = q := by
        have : s.1.get p.2 = some (s.1.val oh) := by unfold EHeap.get; rw [ho]; rfl
        rw [hq1, hq] at this
        exact (Option.some.inj this).symm
      have hmc : moveComps c.g move q.comps = some (s.1.read comps) := by
        rw [← hqe]
        show moveComps c.g move (s.1.read oh.comps) = _
        rw [← moveRefs_read, hcomps]
        rfl
      have hgn : EHeap.get { h1 with objs := h1.objs.modify s.1.objs.length (fun s => { s with comps := comps }) } s.1.objs.length =
          some { q with comps := s.1.read comps } := by
        unfold EHeap.get
        show Option.map _ ((h1.objs.modify s.1.objs.length (fun s => { s with comps := comps }))[s.1.objs.length]?) = _
        rw [hnew, Option.map_some, ← hqe]
        unfold EHeap.val
        congr 2
        refine EHeap.read_congr (fun e he => ?_)
        obtain ⟨e', he', hee⟩ := hmove e he
        apply hle2.cell
        rw [← hee]
        exact lt_of_lt_of_le (hrh e' he') hle.1.length_le
      have hv1 := EHeap.view_set (k := freshId s.2.keys (r s.2.length)) (by rw [hle2.view (hb.live hl hle)]; exact hC0) hgn
      obtain ⟨O, hO, hv⟩ := g3 L' (by unfold EHeap.view; rw [mapM_some_iff]; exact hL') _ hv1
      refine ⟨O, ?_, hv⟩
      rw [List.foldlM_cons]
      simp only [Option.bind_eq_bind]
      unfold moveStep
      simp only
      rw [hqe] at hval
      rw [show copyState c.thr c.m q = some q by unfold copyState; rw [if_pos hval], Option.bind_some, hmc, Option.bind_some, Option.bind_some]
      rw [← hO]
      unfold addState
      rw [← (view_keys hC0).1, ← (view_keys hC0).2]
      rfl

end Verif
