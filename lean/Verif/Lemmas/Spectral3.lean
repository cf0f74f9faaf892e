/- Helper lemmas about spectral nodes: the nodes on a collection. -/
import Verif.Lemmas.Spectral2
import Verif.Props.Resolved

namespace Verif
open Spec Props

theorem toPhotons_out {g : Cfg} {fuel : ℕ} {cols out : List Column} {ini : List Char} (hw : WfCols g cols) (hp : ProperGroup ini cols) (h : toPhotons g fuel cols = some out) :
    ProperGroup ini out ∧ ∀ c ∈ out, ∀ s ∈ c.states, PhotonState g s := by
  unfold toPhotons at h
  obtain ⟨mid, h1, h2⟩ := Option.bind_eq_some_iff.1 h
  obtain ⟨k1, k2, k3⟩ := splitColumns_skel fuel h1 hw hp.ids
  obtain ⟨_, w2, w3⟩ := splitColumns_poly fuel h1 hw
  have hf : List.Forall₂ (fun c c' : Column => c'.id = c.id ∧ (c.states ≠ [] → c'.states ≠ []) ∧ ∀ t ∈ c'.states, PhotonState g t ∧ ∃ s ∈ c.states, skel t = skel s) mid out := by
    refine ((List.forall₂_and_left mid out).2 ⟨fun c hc => hc, mapM_some_iff.1 h2⟩).imp ?_
    rintro c c' ⟨hc, e⟩
    unfold Column.singlePhotonStates at e
    obtain ⟨l, e1, e2⟩ := Option.map_eq_some_iff.1 e
    have e1 := mapM_some_iff.1 e1
    rw [← e2]
    refine ⟨rfl, ?_, ?_⟩
    · intro hne
      rcases hst : c.states with _ | ⟨s, sts⟩
      · exact absurd hst hne
      · rw [hst] at e1
        cases e1 with
        | @cons _ x _ l' f1 f2 =>
          have := (singlePhotons_out (w2 c hc s (by rw [hst]; simp)) (w3 c hc s (by rw [hst]; simp)) (l := x.1) (b := x.2) f1).1
          simp [this]
    · intro t ht
      simp only [List.mem_flatten, List.mem_map] at ht
      obtain ⟨_, ⟨x, hx, rfl⟩, ht⟩ := ht
      obtain ⟨s, hs, hsx⟩ := forall2_left_mem e1.flip x hx
      have hsx : singlePhotons g s = some (x.1, x.2) := hsx
      obtain ⟨q1, q2⟩ := (singlePhotons_out (w2 c hc s hs) (w3 c hc s hs) hsx).2 t ht
      exact ⟨q1, s, hs, q2⟩
  have hder : ∀ c ∈ mid, c.states ≠ [] ∧ ∀ s ∈ c.states, s.q.initial = ini := by
    intro c hc
    obtain ⟨d, hd, e, _⟩ := k1 c hc
    constructor
    · intro h0
      rw [h0] at e
      exact hp.columns d hd (by simpa using e.symm)
    · intro s hs
      have : skel s ∈ d.states.map skel := by rw [← e]; exact List.mem_map_of_mem hs
      obtain ⟨t, ht, hts⟩ := List.mem_map.1 this
      have hi := hp.initial d hd t ht
      have : t.q.initial = s.q.initial := congrArg (fun x : QState × Option PInfo => x.1.initial) hts
      rw [← this, hi]
  refine ⟨⟨?_, ?_, ?_, ?_⟩, ?_⟩
  · intro h0
    rw [h0] at hf
    rw [List.forall₂_nil_right_iff.1 hf] at k3
    simp at k3
    exact hp.nonempty k3
  · have : out.map (fun c => c.id) = mid.map (fun c => c.id) := by
      clear h2 hder k1 w2 w3 k2 k3 h1 h
      rename_i hx
      clear hx
      induction hf with
      | nil => rfl
      | cons h1 _ ih => rw [List.map_cons, List.map_cons, h1.1, ih]
    rw [this]; exact k2
  · intro c' hc'
    obtain ⟨c, hc, q⟩ := forall2_left_mem hf.flip c' hc'
    have q : c'.id = c.id ∧ (c.states ≠ [] → c'.states ≠ []) ∧ ∀ t ∈ c'.states, PhotonState g t ∧ ∃ s ∈ c.states, skel t = skel s := q
    exact q.2.1 (hder c hc).1
  · intro c' hc' t ht
    obtain ⟨c, hc, q⟩ := forall2_left_mem hf.flip c' hc'
    have q : c'.id = c.id ∧ (c.states ≠ [] → c'.states ≠ []) ∧ ∀ t ∈ c'.states, PhotonState g t ∧ ∃ s ∈ c.states, skel t = skel s := q
    obtain ⟨_, s, hs, e⟩ := q.2.2 t ht
    have : t.q.initial = s.q.initial := congrArg (fun x : QState × Option PInfo => x.1.initial) e
    rw [this]
    exact (hder c hc).2 s hs
  · intro c' hc' t ht
    obtain ⟨c, hc, q⟩ := forall2_left_mem hf.flip c' hc'
    have q : c'.id = c.id ∧ (c.states ≠ [] → c'.states ≠ []) ∧ ∀ t ∈ c'.states, PhotonState g t ∧ ∃ s ∈ c.states, skel t = skel s := q
    exact (q.2.2 t ht).1

/-! Groups -/

theorem groups_mapM {f : List Column → Option (List Column)} {G G' : Groups} : G.mapM f = some G' ↔ GroupsRel (fun x y => f x = some y) G G' := by
  unfold Groups.mapM GroupsRel
  rw [mapM_some_iff]
  constructor
  · intro h
    refine h.imp ?_
    intro e e' he
    obtain ⟨y, hy, rfl⟩ := Option.map_eq_some_iff.1 he
    refine ⟨rfl, (mapM_some_iff.1 hy).imp ?_⟩
    intro x x' hx
    obtain ⟨z, hz, rfl⟩ := Option.map_eq_some_iff.1 hx
    exact ⟨rfl, hz⟩
  · intro h
    refine h.imp ?_
    rintro ⟨i, d⟩ ⟨i', d'⟩ ⟨he, hd⟩
    simp only at he hd
    rw [he, Option.map_eq_some_iff]
    refine ⟨d', mapM_some_iff.2 (hd.imp ?_), rfl⟩
    rintro ⟨n, x⟩ ⟨n', x'⟩ ⟨h1, h2⟩
    simp only at h1 h2
    rw [h1, h2]
    rfl

theorem _root_.Verif.Spec.GroupsRel.imp {R S : List Column → List Column → Prop} {G G' : Groups} (h : GroupsRel R G G') (hi : ∀ x y, R x y → S x y) : GroupsRel S G G' :=
  List.Forall₂.imp (fun _ _ h => ⟨h.1, h.2.imp (fun _ _ q => ⟨q.1, hi _ _ q.2⟩)⟩) h

/-- All groups. -/
def allGroups (G : Groups) : List (List Column) := List.flatMap (fun (e : List Char × Dict ℕ (List Column)) => e.2.map Prod.snd) G

theorem mem_allGroups {G : Groups} {cols : List Column} : cols ∈ allGroups G ↔ ∃ e ∈ G, ∃ x ∈ e.2, x.2 = cols := by
  unfold allGroups
  rw [List.mem_flatMap]
  constructor
  · rintro ⟨e, he, h⟩
    obtain ⟨x, hx, rfl⟩ := List.mem_map.1 h
    exact ⟨e, he, x, hx, rfl⟩
  · rintro ⟨e, he, x, hx, rfl⟩
    exact ⟨e, he, List.mem_map_of_mem hx⟩

theorem groupsRel_and {R : List Column → List Column → Prop} {P : List Char → List Column → Prop} {G G' : Groups} (h : GroupsRel R G G') (hp : ∀ e ∈ G, ∀ x ∈ e.2, P e.1 x.2) :
    List.Forall₂ (fun (e e' : List Char × Dict ℕ (List Column)) => e'.1 = e.1 ∧ List.Forall₂ (fun (x x' : ℕ × List Column) => x'.1 = x.1 ∧ P e.1 x.2 ∧ R x.2 x'.2) e.2 e'.2) G G' := by
  refine ((List.forall₂_and_left G G').2 ⟨hp, h⟩).imp ?_
  rintro e e' ⟨h1, h2, h3⟩
  refine ⟨h2, ((List.forall₂_and_left e.2 e'.2).2 ⟨h1, h3⟩).imp ?_⟩
  rintro x x' ⟨q1, q2, q3⟩
  exact ⟨q2, q1, q3⟩

theorem forall2_keys {α β : Type*} {l l' : List (α × β)} {R : α × β → α × β → Prop} (h : List.Forall₂ (fun x x' => x'.1 = x.1 ∧ R x x') l l') : l'.map Prod.fst = l.map Prod.fst := by
  induction h with
  | nil => rfl
  | cons h _ ih => rw [List.map_cons, List.map_cons, h.1, ih]

/-- A node that maps proper groups to proper groups gives proper groups. -/
theorem groupsRel_proper {R : List Column → List Column → Prop} {G G' : Groups} (hG : Proper G) (h : GroupsRel R G G') (hR : ∀ e ∈ G, ∀ x ∈ e.2, ∀ y, R x.2 y → ProperGroup e.1 y) : Proper G' := by
  refine ⟨?_, ?_⟩
  · rw [forall2_keys (l := G) (l' := G') (R := fun e e' => List.Forall₂ (fun (x x' : ℕ × List Column) => x'.1 = x.1 ∧ R x.2 x'.2) e.2 e'.2) h]
    exact hG.initials
  · intro e' he'
    obtain ⟨e, he, h1, h2⟩ := forall2_left_mem (List.Forall₂.flip h) e' he'
    obtain ⟨g1, g2, g3⟩ := hG.groups e he
    refine ⟨?_, ?_, ?_⟩
    · intro h0
      rw [h0] at h2
      exact g1 (List.forall₂_nil_right_iff.1 h2)
    · rw [forall2_keys (R := fun (x x' : ℕ × List Column) => R x.2 x'.2) h2]
      exact g2
    · intro x' hx'
      obtain ⟨x, hx, q1, q2⟩ := forall2_left_mem h2.flip x' hx'
      rw [h1]
      exact hR e he x hx x'.2 q2

theorem mem_addToColumns {s t : PState} {ci : ColInfo} {cols : List Column} {c : Column} (hc : c ∈ addToColumns s ci cols) (ht : t ∈ c.states) : t = s ∨ ∃ d ∈ cols, t ∈ d.states := by
  induction cols with
  | nil =>
    obtain rfl := List.mem_singleton.1 hc
    exact Or.inl (List.mem_singleton.1 ht)
  | cons d cols ih =>
    unfold addToColumns at hc
    by_cases e : d.id = ci.cid
    · rw [if_pos e] at hc
      rcases List.mem_cons.1 hc with rfl | hc
      · rcases List.mem_append.1 ht with ht | ht
        · exact Or.inr ⟨d, List.mem_cons_self, ht⟩
        · exact Or.inl (List.mem_singleton.1 ht)
      · exact Or.inr ⟨c, List.mem_cons_of_mem _ hc, ht⟩
    · rw [if_neg e] at hc
      rcases List.mem_cons.1 hc with rfl | hc
      · exact Or.inr ⟨c, List.mem_cons_self, ht⟩
      · rcases ih hc with h | ⟨x, hx, h⟩
        · exact Or.inl h
        · exact Or.inr ⟨x, List.mem_cons_of_mem _ hx, h⟩

/-- The states of the groups are those of the collection. -/
theorem readGroups_states {l : List AState} {G : Groups} (h : readGroups l = some G) :
    ∀ e ∈ G, ∀ x ∈ e.2, ∀ c ∈ x.2, ∀ t ∈ c.states, ∃ s ∈ l, s.q = t.q := by
  have key : ∀ (l : List AState) (G0 G : Groups) (P : PState → Prop), (∀ s ∈ l, ∀ i, P ⟨s.q, i⟩) → (∀ e ∈ G0, ∀ x ∈ e.2, ∀ c ∈ x.2, ∀ t ∈ c.states, P t) → l.foldlM readState G0 = some G →
      ∀ e ∈ G, ∀ x ∈ e.2, ∀ c ∈ x.2, ∀ t ∈ c.states, P t := by
    intro l
    induction l with
    | nil =>
      intro G0 G P _ h0 h
      simp only [List.foldlM_nil, Option.pure_def, Option.some.injEq] at h
      rw [← h]; exact h0
    | cons s l ih =>
      intro G0 G P hP h0 h
      rw [List.foldlM_cons] at h
      obtain ⟨G1, h1, h2⟩ := Option.bind_eq_some_iff.1 h
      refine ih G1 G P (fun s hs => hP s (List.mem_cons_of_mem _ hs)) ?_ h2
      have hs := hP s List.mem_cons_self
      have upd : ∀ (ini : List Char) (gid : ℕ) (cols : List Column), (∀ c ∈ cols, ∀ t ∈ c.states, P t) → ∀ e ∈ G0.set ini (((G0.get? ini).getD []).set gid cols), ∀ x ∈ e.2, ∀ c ∈ x.2, ∀ t ∈ c.states, P t := by
        intro ini gid cols hc e he x hx
        rcases Dict.mem_set he with he | rfl
        · exact h0 e he x hx
        · rcases Dict.mem_set hx with hx | rfl
          · rcases hg : G0.get? ini with _ | d
            · rw [hg] at hx; cases hx
            · rw [hg] at hx
              exact h0 (ini, d) (Dict.get?_mem hg) x hx
          · exact hc
      obtain ⟨q, aux⟩ := s
      unfold readState at h1
      rcases aux with _ | ⟨info, _ | ci⟩
      · simp only [Option.some.injEq] at h1
        rw [← h1]
        refine upd _ _ _ ?_
        intro c hc t ht
        obtain rfl := List.mem_singleton.1 hc
        rw [List.mem_singleton.1 ht]
        exact hs none
      · simp at h1
      · simp only [Option.some.injEq] at h1
        rw [← h1]
        refine upd _ _ _ ?_
        intro c hc t ht
        rcases mem_addToColumns hc ht with rfl | ⟨d, hd, htd⟩
        · exact hs info
        · rcases hg : G0.get? q.initial with _ | dd
          · rw [hg] at hd; cases hd
          · rcases hdd : dd.get? ci.gid with _ | cols
            · simp [hg, hdd] at hd
            · simp only [hg, hdd, Option.getD_some] at hd
              exact h0 (q.initial, dd) (Dict.get?_mem hg) (ci.gid, cols) (Dict.get?_mem hdd) d hd t htd
  exact key l [] G (fun t => ∃ s ∈ l, s.q = t.q) (fun s hs i => ⟨s, hs, rfl⟩) (by simp) h

/-! Delays and widths -/

theorem photonIn_some {v : Vals} {chs : List ℕ} {b : Bool} (h : photonIn v chs = some b) : b = true ↔ HasPhotonIn v chs := by
  induction chs with
  | nil =>
    simp only [photonIn, Option.some.injEq] at h
    subst h
    simp [HasPhotonIn]
  | cons ch chs ih =>
    unfold photonIn at h
    obtain ⟨n, h1, h2⟩ := Option.bind_eq_some_iff.1 h
    have hn : v.getD ch 0 = n := by rw [List.getD_eq_getElem?_getD, h1]; rfl
    by_cases h0 : n ≠ 0
    · rw [if_pos h0] at h2
      obtain rfl := Option.some.inj h2
      simp only [true_iff]
      exact ⟨ch, List.mem_cons_self, by rw [hn]; exact h0⟩
    · rw [if_neg h0] at h2
      rw [ih h2]
      unfold HasPhotonIn
      rw [List.exists_mem_cons_iff, hn]
      simp [not_not.1 h0]

theorem photonIn_defined {v : Vals} {chs : List ℕ} (h : ∀ ch ∈ chs, ch < v.length) : ∃ b, photonIn v chs = some b := by
  induction chs with
  | nil => exact ⟨false, rfl⟩
  | cons ch chs ih =>
    unfold photonIn
    rw [List.getElem?_eq_getElem (h ch List.mem_cons_self), Option.bind_some]
    by_cases h0 : v[ch]'(h ch List.mem_cons_self) ≠ 0
    · exact ⟨true, by rw [if_pos h0]⟩
    · rw [if_neg h0]
      exact ih (fun c hc => h c (List.mem_cons_of_mem _ hc))

theorem delayIs_iff {d : DelaySource} {q : QState} {t : ℝ} : d.read q = some t ↔ DelayIs d q t := by
  cases d with
  | value u => simp [DelaySource.read, DelayIs, eq_comm]
  | classical ch => rfl

theorem delayState_some {g : Cfg} {chs : List ℕ} {d : DelaySource} {w : ℝ} {s s' : PState} (h : delayState g chs d w s = some s') : DelayedState g chs d w s s' := by
  unfold delayState at h
  obtain ⟨t, h1, h⟩ := Option.bind_eq_some_iff.1 h
  obtain ⟨v, h2, h⟩ := Option.bind_eq_some_iff.1 h
  obtain ⟨b, h3, h⟩ := Option.map_eq_some_iff.1 h
  rw [← h]
  refine ⟨rfl, v, t, h2, delayIs_iff.1 h1, ?_⟩
  have hb := photonIn_some h3
  have hd : (s.info.getD ⟨0, w⟩).delay = delayOf s.info := by
    unfold delayOf
    rcases s.info with _ | i <;> rfl
  simp only [hd]
  congr 2
  by_cases hh : HasPhotonIn v chs
  · rw [if_pos hh, if_pos (hb.2 hh)]; ring
  · rw [if_neg hh, if_neg (fun e => hh (hb.1 e))]; ring

theorem widthState_some {g : Cfg} {chs : List ℕ} {w : ℝ} {s s' : PState} (h : widthState g chs w s = some s') : WidenedState g chs w s s' := by
  unfold widthState at h
  obtain ⟨v, h2, h⟩ := Option.bind_eq_some_iff.1 h
  obtain ⟨b, h3, h⟩ := Option.map_eq_some_iff.1 h
  rw [← h]
  refine ⟨rfl, v, h2, ?_⟩
  have hb := photonIn_some h3
  have hd : (s.info.getD ⟨0, 1⟩).delay = delayOf s.info := by
    unfold delayOf
    rcases s.info with _ | i <;> rfl
  have hd' : (s.info.getD ⟨0, 1⟩).width = widthOf s.info := by
    unfold widthOf
    rcases s.info with _ | i <;> rfl
  simp only [hd, hd']
  congr 2
  by_cases hh : HasPhotonIn v chs
  · rw [if_pos hh, if_pos (hb.2 hh)]
  · rw [if_neg hh, if_neg (fun e => hh (hb.1 e))]

theorem mapStates_some {f : PState → Option PState} {cols out : List Column} : mapStates f cols = some out ↔ List.Forall₂ (SameColumn (fun s s' => f s = some s')) cols out := by
  unfold mapStates
  rw [mapM_some_iff]
  constructor
  · intro h
    refine h.imp ?_
    intro c c' e
    obtain ⟨sts, e1, rfl⟩ := Option.map_eq_some_iff.1 e
    exact ⟨rfl, rfl, rfl, rfl, mapM_some_iff.1 e1⟩
  · intro h
    refine h.imp ?_
    intro c c' e
    rw [mapM_some_iff.2 e.states, Option.map_some]
    obtain ⟨st, a, b, p, i⟩ := c'
    have := e.amp; have := e.boson; have := e.gprob; have := e.id
    simp_all

theorem sameColumn_imp {R S : PState → PState → Prop} {c c' : Column} (h : SameColumn R c c') (hi : ∀ s s', R s s' → S s s') : SameColumn S c c' :=
  ⟨h.amp, h.boson, h.gprob, h.id, h.states.imp hi⟩

/-- A change of the photon information keeps the group proper and the states photon states. -/
theorem sameColumns_proper {g : Cfg} {R : PState → PState → Prop} (hR : ∀ s s', R s s' → s'.q = s.q) {ini : List Char} {cols out : List Column} (h : List.Forall₂ (SameColumn R) cols out)
    (hp : ProperGroup ini cols) (hph : ∀ c ∈ cols, ∀ s ∈ c.states, PhotonState g s) : ProperGroup ini out ∧ ∀ c ∈ out, ∀ s ∈ c.states, PhotonState g s := by
  have hst : ∀ c' ∈ out, c'.states ≠ [] ∧ ∀ s' ∈ c'.states, s'.q.initial = ini ∧ PhotonState g s' := by
    intro c' hc'
    obtain ⟨c, hc, e⟩ := forall2_left_mem h.flip c' hc'
    have e : SameColumn R c c' := e
    constructor
    · intro h0
      have h1 := e.states
      rw [h0] at h1
      exact hp.columns c hc (List.forall₂_nil_right_iff.1 h1)
    · intro s' hs'
      obtain ⟨s, hs, r⟩ := forall2_left_mem e.states.flip s' hs'
      have r := hR s s' r
      refine ⟨by rw [r]; exact hp.initial c hc s hs, ?_⟩
      unfold PhotonState
      rw [r]
      exact hph c hc s hs
  refine ⟨⟨?_, ?_, fun c hc => (hst c hc).1, fun c hc s hs => ((hst c hc).2 s hs).1⟩, fun c hc s hs => ((hst c hc).2 s hs).2⟩
  · intro h0
    rw [h0] at h
    exact hp.nonempty (List.forall₂_nil_right_iff.1 h)
  · have : out.map (fun c => c.id) = cols.map (fun c => c.id) := by
      clear hst hp hph
      induction h with
      | nil => rfl
      | cons h1 _ ih => rw [List.map_cons, List.map_cons, h1.id, ih]
    rw [this]; exact hp.ids

end Verif
