/-
Lemmas for circuits with optical elements and time delays: collections, step by step.
-/
import Verif.Lemmas.Pipeline6
import Verif.Lemmas.Evaluate

namespace Verif
open Spec Props MvPolynomial

/-! ### More rounds do not change the result -/

theorem splitColumns_succ {g : Cfg} (fuel : ℕ) {cols out : List Column} (h : splitColumns g fuel cols = some out) : splitColumns g (fuel + 1) cols = some out := by
  induction fuel generalizing cols with
  | zero => cases h
  | succ fuel ih =>
    unfold splitColumns at h ⊢
    rcases ho : splitOnce g cols with _ | _ | ⟨cols', new⟩
    · rw [ho] at h; cases h
    · rw [ho] at h; exact h
    · rw [ho] at h
      simp only [Option.bind_some] at h ⊢
      exact ih h

theorem splitColumns_mono {g : Cfg} {a b : ℕ} (hab : a ≤ b) {cols out : List Column} (h : splitColumns g a cols = some out) : splitColumns g b cols = some out := by
  induction hab with
  | refl => exact h
  | step _ ih => exact splitColumns_succ _ ih

theorem toPhotons_mono {g : Cfg} {a b : ℕ} (hab : a ≤ b) {cols out : List Column} (h : toPhotons g a cols = some out) : toPhotons g b cols = some out := by
  unfold toPhotons at h ⊢
  obtain ⟨mid, h1, h2⟩ := Option.bind_eq_some_iff.1 h
  rw [splitColumns_mono hab h1, Option.bind_some, h2]

/-- A function on every group after making single photons, with `fuel` rounds. -/
noncomputable def onPhotons (g : Cfg) (fuel : ℕ) (f : List Column → Option (List Column)) (l : List AState) : Option (List AState) :=
  (readGroups l).bind (fun G => (G.mapM (fun cols => (toPhotons g fuel cols).bind f)).map writeGroups)

theorem onPhotons_mono {g : Cfg} {a b : ℕ} (hab : a ≤ b) {f : List Column → Option (List Column)} {l l' : List AState} (h : onPhotons g a f l = some l') : onPhotons g b f l = some l' := by
  unfold onPhotons at h ⊢
  obtain ⟨G, h1, h2⟩ := Option.bind_eq_some_iff.1 h
  obtain ⟨G', h3, h4⟩ := Option.map_eq_some_iff.1 h2
  rw [h1, Option.bind_some]
  have : G.mapM (fun cols => (toPhotons g b cols).bind f) = some G' := by
    rw [groups_mapM] at h3 ⊢
    refine h3.imp ?_
    intro x y hxy
    obtain ⟨mid, q1, q2⟩ := Option.bind_eq_some_iff.1 hxy
    rw [toPhotons_mono hab q1, Option.bind_some, q2]
  rw [this, ← h4]
  rfl

/-! ### Relations between groups -/

theorem groupsRel_trans {R S T : List Column → List Column → Prop} {G1 G2 G3 : Groups} (h : GroupsRel R G1 G2) (h' : GroupsRel S G2 G3) (hT : ∀ x y z, R x y → S y z → T x z) : GroupsRel T G1 G3 := by
  have trans : ∀ {α β γ : Type} {A : α → β → Prop} {B : β → γ → Prop} {D : α → γ → Prop} (_ : ∀ x y z, A x y → B y z → D x z) {l1 : List α} {l2 : List β} {l3 : List γ},
      List.Forall₂ A l1 l2 → List.Forall₂ B l2 l3 → List.Forall₂ D l1 l3 := by
    intro α β γ A B D hD l1 l2 l3 h1
    induction h1 generalizing l3 with
    | nil => intro h2; cases h2; exact .nil
    | cons a _ ih =>
      intro h2
      cases h2 with
      | cons b h2 => exact .cons (hD _ _ _ a b) (ih h2)
  refine trans ?_ h h'
  rintro e1 e2 e3 ⟨a1, a2⟩ ⟨b1, b2⟩
  refine ⟨b1.trans a1, trans ?_ a2 b2⟩
  rintro x y z ⟨c1, c2⟩ ⟨d1, d2⟩
  exact ⟨d1.trans c1, hT _ _ _ c2 d2⟩

theorem groupsRel_right {R : List Column → List Column → Prop} {G G' : Groups} (h : GroupsRel R G G') : ∀ e ∈ G', ∀ x ∈ e.2, ∃ y, R y x.2 := by
  intro e he x hx
  obtain ⟨e0, _, _, h2⟩ := forall2_left_mem (List.Forall₂.flip h) e he
  obtain ⟨x0, _, _, h4⟩ := forall2_left_mem (List.Forall₂.flip h2) x hx
  exact ⟨x0.2, h4⟩

theorem groups_exists {f : List Column → Option (List Column)} {R : List Column → List Column → Prop} {G : Groups} (h : ∀ e ∈ G, ∀ x ∈ e.2, ∃ y, f x.2 = some y ∧ R x.2 y) :
    ∃ G', G.mapM f = some G' ∧ GroupsRel R G G' := by
  obtain ⟨G', h1, h2⟩ := mapM_exists (f := fun (e : List Char × Dict ℕ (List Column)) => (List.mapM (m := Option) (fun (x : ℕ × List Column) => (f x.2).map (fun y => (x.1, y))) e.2).map (fun y => (e.1, y)))
    (R := fun e e' => e'.1 = e.1 ∧ List.Forall₂ (fun (x x' : ℕ × List Column) => x'.1 = x.1 ∧ R x.2 x'.2) e.2 e'.2) (l := G) (by
      intro e he
      obtain ⟨r, r1, r2⟩ := mapM_exists (f := fun (x : ℕ × List Column) => (f x.2).map (fun y => (x.1, y))) (R := fun x x' => x'.1 = x.1 ∧ R x.2 x'.2) (l := e.2) (by
        intro x hx
        obtain ⟨y, y1, y2⟩ := h e he x hx
        exact ⟨(x.1, y), by rw [y1]; rfl, rfl, y2⟩)
      exact ⟨(e.1, r), by rw [r1]; rfl, rfl, r2⟩)
  exact ⟨G', h1, h2⟩

/-! ### A step that changes the states of a collection one by one -/

theorem forall2_flatMap {α β γ : Type*} {T : β → γ → Prop} {α' : Type*} {f : α → List β} {f' : α' → List γ} {S : α → α' → Prop} {xs : List α}
    (h : ∀ x ∈ xs, ∀ y, List.Forall₂ T (f x) y → ∃ x', y = f' x' ∧ S x x') {l : List γ} (hl : List.Forall₂ T (xs.flatMap f) l) : ∃ xs', l = xs'.flatMap f' ∧ List.Forall₂ S xs xs' := by
  induction xs generalizing l with
  | nil =>
    cases hl
    exact ⟨[], rfl, .nil⟩
  | cons x xs ih =>
    rw [List.flatMap_cons] at hl
    obtain ⟨a, b, h1, h2, rfl⟩ : ∃ a b, List.Forall₂ T (f x) a ∧ List.Forall₂ T (xs.flatMap f) b ∧ l = a ++ b := by
      refine ⟨l.take (f x).length, l.drop (f x).length, ?_, ?_, (List.take_append_drop _ _).symm⟩
      · have := List.forall₂_take (f x).length hl
        rwa [List.take_left] at this
      · have := List.forall₂_drop (f x).length hl
        rwa [List.drop_left] at this
    obtain ⟨x', rfl, hx⟩ := h x List.mem_cons_self a h1
    obtain ⟨xs', rfl, hxs⟩ := ih (fun y hy => h y (List.mem_cons_of_mem _ hy)) h2
    exact ⟨x' :: xs', by rw [List.flatMap_cons], .cons hx hxs⟩

theorem write_forall2 {T : AState → AState → Prop} {R : PState → PState → Prop}
    (hT : ∀ (q : QState) (i : Option PInfo) (ci : ColInfo) (s' : AState), T ⟨q, some ⟨i, some ci⟩⟩ s' → ∃ q' i', s' = ⟨q', some ⟨i', some ci⟩⟩ ∧ R ⟨q, i⟩ ⟨q', i'⟩) {G : Groups} {l : List AState}
    (h : List.Forall₂ T (writeGroups G) l) : ∃ G', l = writeGroups G' ∧ GroupsRel (List.Forall₂ (SameColumn R)) G G' := by
  refine forall2_flatMap ?_ h
  intro e _ y hy
  obtain ⟨xs, e1, e2⟩ := forall2_flatMap (f' := fun (x : ℕ × List Column) => writeGroup x.1 x.2) (S := fun (x x' : ℕ × List Column) => x'.1 = x.1 ∧ List.Forall₂ (SameColumn R) x.2 x'.2) (by
    intro x _ y hy
    obtain ⟨cs, e1, e2⟩ := forall2_flatMap (f' := writeColumn x.1) (S := SameColumn R) (by
      intro c _ y hy
      unfold writeColumn at hy
      rw [List.forall₂_map_left_iff] at hy
      have : ∃ sts : List PState, y = sts.map (fun s => ({ q := s.q, aux := some ⟨s.info, some { gid := x.1, cid := c.id, amp := c.amp, boson := c.boson, gprob := c.gprob }⟩ } : AState)) ∧
          List.Forall₂ R c.states sts := by
        generalize c.states = l at hy
        induction hy with
        | nil => exact ⟨[], rfl, .nil⟩
        | cons a _ ih =>
          obtain ⟨sts, rfl, hs⟩ := ih
          obtain ⟨q', i', rfl, hr⟩ := hT _ _ _ _ a
          exact ⟨⟨q', i'⟩ :: sts, rfl, .cons hr hs⟩
      obtain ⟨sts, rfl, hs⟩ := this
      exact ⟨{ c with states := sts }, rfl, ⟨rfl, rfl, rfl, rfl, hs⟩⟩) hy
    exact ⟨(x.1, cs), e1, rfl, e2⟩) hy
  exact ⟨(e.1, xs), e1, rfl, e2⟩

theorem mem_writeGroups {G : Groups} {s : AState} : s ∈ writeGroups G ↔ ∃ e ∈ G, ∃ x ∈ e.2, ∃ c ∈ x.2, ∃ t ∈ c.states,
    s = { q := t.q, aux := some ⟨t.info, some { gid := x.1, cid := c.id, amp := c.amp, boson := c.boson, gprob := c.gprob }⟩ } := by
  unfold writeGroups writeGroup writeColumn
  constructor
  · intro h
    obtain ⟨e, he, h⟩ := List.mem_flatMap.1 h
    obtain ⟨x, hx, h⟩ := List.mem_flatMap.1 h
    obtain ⟨c, hc, h⟩ := List.mem_flatMap.1 h
    obtain ⟨t, ht, rfl⟩ := List.mem_map.1 h
    exact ⟨e, he, x, hx, c, hc, t, ht, rfl⟩
  · rintro ⟨e, he, x, hx, c, hc, t, ht, rfl⟩
    exact List.mem_flatMap.2 ⟨e, he, List.mem_flatMap.2 ⟨x, hx, List.mem_flatMap.2 ⟨c, hc, List.mem_map.2 ⟨t, ht, rfl⟩⟩⟩⟩

theorem same_proper {R : PState → PState → Prop} (hR : ∀ s s', R s s' → s'.q.initial = s.q.initial) {ini : List Char} {cols out : List Column} (h : List.Forall₂ (SameColumn R) cols out)
    (hp : ProperGroup ini cols) : ProperGroup ini out := by
  have hids : out.map (fun c => c.id) = cols.map (fun c => c.id) := by
    clear hp
    induction h with
    | nil => rfl
    | cons a _ ih => rw [List.map_cons, List.map_cons, a.id, ih]
  refine ⟨?_, by rw [hids]; exact hp.ids, ?_, ?_⟩
  · intro h0
    rw [h0] at h
    exact hp.nonempty (List.forall₂_nil_right_iff.1 h)
  · intro c' hc' h0
    obtain ⟨c, hc, e⟩ := forall2_left_mem h.flip c' hc'
    have := SameColumn.states e
    rw [h0] at this
    exact hp.columns c hc (List.forall₂_nil_right_iff.1 this)
  · intro c' hc' s' hs'
    obtain ⟨c, hc, e⟩ := forall2_left_mem h.flip c' hc'
    obtain ⟨s, hs, e2⟩ := forall2_left_mem (SameColumn.states e).flip s' hs'
    rw [hR s s' e2]
    exact hp.initial c hc s hs

/-- Optical elements on a collection. -/
theorem opticalResolved_some {c : Circ} {n : Opt × List ℕ} {l : List (Opt × List ℕ)} {coll : List AState} (hv : ∀ s ∈ coll, CheckValid c.thr c.m s.q)
    (hc : ∀ s ∈ coll, ∃ comps, applyOptical c.g c.thr c.full (standardKeys c.g) n l s.q.comps = some comps) :
    ∃ out, opticalResolved c n l coll = some out ∧
      List.Forall₂ (fun (s s' : AState) => s ∈ coll ∧ s'.aux = s.aux ∧ ∃ comps, applyOptical c.g c.thr c.full (standardKeys c.g) n l s.q.comps = some comps ∧ s'.q = { s.q with comps := comps }) coll out := by
  choose! F hF using hc
  let tagged : Coll := coll.zipIdx.map (fun sk => (pyStr sk.2, sk.1.q))
  have hnd : (tagged.map Prod.fst).Nodup := by
    have : tagged.map Prod.fst = (List.range coll.length).map pyStr := by
      simp only [tagged, List.map_map]
      rw [show (Prod.fst ∘ fun sk : AState × ℕ => (pyStr sk.2, sk.1.q)) = pyStr ∘ Prod.snd from rfl, ← List.map_map, List.zipIdx_map_snd, List.range_eq_range']
    rw [this]
    exact List.Nodup.map (fun a b => pyStr_inj) List.nodup_range
  let out0 : Coll := coll.zipIdx.map (fun sk => (pyStr sk.2, { sk.1.q with comps := F sk.1 }))
  have hmem : ∀ sk ∈ coll.zipIdx, sk.1 ∈ coll := by
    intro sk hsk
    exact List.fst_mem_of_mem_zipIdx hsk
  have h1 : opticalColl c n l tagged = some out0 := by
    rw [opticalColl_iff c n l tagged hnd]
    constructor
    · intro p hp
      obtain ⟨sk, hsk, rfl⟩ := List.mem_map.1 hp
      exact hv sk.1 (hmem sk hsk)
    · simp only [tagged, out0]
      rw [List.forall₂_map_left_iff, List.forall₂_map_right_iff, List.forall₂_same]
      intro sk hsk
      exact ⟨F sk.1, hF sk.1 (hmem sk hsk), rfl⟩
  have hzip : (out0.zip coll).map (fun es => (⟨es.1.2, es.2.aux⟩ : AState)) = coll.map (fun s => ⟨{ s.q with comps := F s }, s.aux⟩) := by
    have : ∀ (l : List AState) (k : ℕ), (((l.zipIdx k).map (fun sk => (pyStr sk.2, ({ sk.1.q with comps := F sk.1 } : QState)))).zip l).map (fun es => (⟨es.1.2, es.2.aux⟩ : AState)) =
        l.map (fun s => ⟨{ s.q with comps := F s }, s.aux⟩) := by
      intro l
      induction l with
      | nil => intro k; rfl
      | cons s l ih => intro k; rw [List.zipIdx_cons, List.map_cons, List.zip_cons_cons, List.map_cons, ih, List.map_cons]
    exact this coll 0
  refine ⟨coll.map (fun s => ⟨{ s.q with comps := F s }, s.aux⟩), ?_, ?_⟩
  · unfold opticalResolved
    rw [show (coll.zipIdx.map (fun sk => (pyStr sk.2, sk.1.q))) = tagged from rfl, h1, Option.map_some, hzip]
  · rw [List.forall₂_map_right_iff, List.forall₂_same]
    intro s hs
    exact ⟨hs, rfl, F s, hF s hs, rfl⟩

end Verif
