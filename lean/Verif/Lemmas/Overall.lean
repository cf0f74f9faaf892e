/-
Lists of optical elements with the same effect on a field (property C119).
-/
import Verif.Lemmas.Born

namespace Verif
open Spec Props MvPolynomial

theorem opticsSubst_hom (gates : List Gate) : ∃ F : MvPolynomial Mode ℂ →ₐ[ℂ] MvPolynomial Mode ℂ, ∀ P, opticsSubst gates P = F P := by
  induction gates with
  | nil => exact ⟨AlgHom.id ℂ _, fun P => rfl⟩
  | cons e gates ih =>
    obtain ⟨F, hF⟩ := ih
    exact ⟨F.comp (gateSubst e.M e.h e.c), fun P => hF _⟩

theorem X_field {C j : ℕ} (hj : j < C) : (X (j, none) : MvPolynomial Mode ℂ) = fieldPoly C (fun i => if i = j then 1 else 0) := by
  unfold fieldPoly
  rw [Finset.sum_eq_single j]
  · simp
  · intro i _ hi; simp [hi]
  · intro h; exact absurd (Finset.mem_range.2 hj) h

theorem fieldPoly_congr {C : ℕ} {u w : ℕ → ℂ} (h : ∀ j < C, u j = w j) : fieldPoly C u = fieldPoly C w :=
  Finset.sum_congr rfl fun j hj => by rw [h j (Finset.mem_range.1 hj)]

/-- two algebra homomorphisms that agree on the modes of the channels agree on all states -/
theorem hom_vecPoly {g : Cfg} (hL : 1 ≤ g.L) {F G : MvPolynomial Mode ℂ →ₐ[ℂ] MvPolynomial Mode ℂ} (h : ∀ j < g.C, F (X (j, none)) = G (X (j, none))) (x : ℕ → ℂ) :
    F (vecPoly g none x) = G (vecPoly g none x) := by
  unfold vecPoly
  rw [map_sum, map_sum]
  refine Finset.sum_congr rfl fun k _ => ?_
  rw [map_mul, map_mul, ketPoly_range, map_prod, map_prod]
  have hC : ∀ a : ℂ, F (MvPolynomial.C a) = G (MvPolynomial.C a) := fun a => by
    rw [← MvPolynomial.algebraMap_eq, AlgHom.commutes, AlgHom.commutes]
  rw [hC]
  congr 1
  refine Finset.prod_congr rfl fun j hj => ?_
  have hj' : j < g.C := by
    have := Finset.mem_range.1 hj
    rwa [(g.valid_valuesFromIndex hL k).1] at this
  rw [map_mul, map_mul, hC, map_pow, map_pow, h j hj']

/-- lists of elements with the same effect on fields have the same effect on states -/
theorem opticsSubst_same {g : Cfg} (hL : 1 ≤ g.L) {gates gates' : List Gate} {ns ns' : List (Opt × List ℕ)} (h : List.Forall₂ (GateNode g) gates ns)
    (h' : List.Forall₂ (GateNode g) gates' ns') (hs : ∀ (u : ℕ → ℂ), ∀ j < g.C, fieldAfter gates u j = fieldAfter gates' u j) (x : ℕ → ℂ) :
    opticsSubst gates (vecPoly g none x) = opticsSubst gates' (vecPoly g none x) := by
  obtain ⟨F, hF⟩ := opticsSubst_hom gates
  obtain ⟨G, hG⟩ := opticsSubst_hom gates'
  rw [hF, hG]
  refine hom_vecPoly hL (fun j hj => ?_) x
  rw [← hF, ← hG, X_field hj, opticsSubst_field h, opticsSubst_field h']
  exact fieldPoly_congr (hs _)

theorem overall_same {g : Cfg} (hg : g.Ok) {gates gates' : List Gate} {n n' : Opt × List ℕ} {l l' : List (Opt × List ℕ)}
    (h : List.Forall₂ (GateNode g) gates (n :: l)) (h' : List.Forall₂ (GateNode g) gates' (n' :: l'))
    (hs : ∀ (u : ℕ → ℂ), ∀ j < g.C, fieldAfter gates u j = fieldAfter gates' u j) (thr : ℝ) (full full' : Bool) {c : Comps} (hw : WellFormed g c) (hne : c ≠ [])
    (hcut : ∀ p ∈ c, ∀ v, IsName g v p.1 → Valid g v → v.sum < g.L) :
    applyOptical g thr full (standardKeys g) n l c = applyOptical g thr full' (standardKeys g) n' l' c := by
  have hon := gates_onChannels h
  have hon' := gates_onChannels h'
  rw [applyOptical_eq hg thr full n l (hon n (by simp)) (fun m hm => hon m (by simp [hm])) hw hne,
    applyOptical_eq hg thr full' n' l' (hon' n' (by simp)) (fun m hm => hon' m (by simp [hm])) hw hne]
  apply fromVector_congr
  intro i hi
  have e1 := oneByOne_subst hg h none (vec g c) (fun v hv => support_comps hcut hv)
  have e2 := oneByOne_subst hg h' none (vec g c) (fun v hv => support_comps hcut hv)
  have hv := g.valid_valuesFromIndex hg.1 i
  have k1 := amplitudeIn_vec hg none (oneByOne g (n :: l) (vec g c)) hv
  have k2 := amplitudeIn_vec hg none (oneByOne g (n' :: l') (vec g c)) hv
  rw [g.indexOf_valuesFromIndex hi] at k1 k2
  rw [← k1, ← k2, e1, e2, opticsSubst_same hg.1 h h' hs]

/-- the same for collections -/
theorem overall_coll {c c' : Circ} (hcc : c.g = c'.g ∧ c.m = c'.m ∧ c.thr = c'.thr) (hg : c.g.Ok) {gates gates' : List Gate} {n n' : Opt × List ℕ} {l l' : List (Opt × List ℕ)}
    (h : List.Forall₂ (GateNode c.g) gates (n :: l)) (h' : List.Forall₂ (GateNode c.g) gates' (n' :: l'))
    (hs : ∀ (u : ℕ → ℂ), ∀ j < c.g.C, fieldAfter gates u j = fieldAfter gates' u j) {coll : Coll} (hid : (coll.map Prod.fst).Nodup)
    (hq : ∀ p ∈ coll, Sendable c.g c.m p.2) : opticalColl c n l coll = opticalColl c' n' l' coll := by
  obtain ⟨e1, e2, e3⟩ := hcc
  apply Option.ext
  intro out
  have k1 := opticalColl_iff c n l coll hid out
  have k2 := opticalColl_iff c' n' l' coll hid out
  show opticalColl c n l coll = some out ↔ opticalColl c' n' l' coll = some out
  rw [k1, k2, ← e1, ← e2, ← e3]
  refine and_congr Iff.rfl ?_
  refine forall₂_mem_congr ?_
  intro p p' hp
  have := overall_same hg h h' hs c.thr c.full c'.full (hq p hp).measurable.wf (hq p hp).nonempty (hq p hp).few
  constructor
  · rintro ⟨d, hd, rfl⟩
    exact ⟨d, this ▸ hd, rfl⟩
  · rintro ⟨d, hd, rfl⟩
    exact ⟨d, this.symm ▸ hd, rfl⟩

/-- measuring gives the same states whatever the identifiers -/
theorem measureColl_ids {g : Cfg} {thr : ℝ} {m : ℕ} (kinds kinds' : List Bool) (idx idx' : ℕ) {opt cls : List ℕ} {coll : Coll} (hid : (coll.map Prod.fst).Nodup) :
    (measureColl g thr m (measurementId kinds idx) opt cls coll).map (List.map Prod.snd) = (measureColl g thr m (measurementId kinds' idx') opt cls coll).map (List.map Prod.snd) := by
  have key : ∀ (k k' : List Bool) (i i' : ℕ) (out : Coll), measureColl g thr m (measurementId k i) opt cls coll = some out →
      ∃ out', measureColl g thr m (measurementId k' i') opt cls coll = some out' ∧ out'.map Prod.snd = out.map Prod.snd := by
    intro k k' i i' out h
    obtain ⟨-, qss, hf, e⟩ := C29_no_state_lost g thr m k i opt cls coll out hid h
    obtain ⟨out', h1, h2⟩ := measureColl_of_parts k' i' hid hf
    exact ⟨out', h1, h2.trans e.symm⟩
  cases h : measureColl g thr m (measurementId kinds idx) opt cls coll with
  | some out =>
    obtain ⟨out', h1, h2⟩ := key kinds kinds' idx idx' out h
    rw [h1]
    simp [h2]
  | none =>
    cases h' : measureColl g thr m (measurementId kinds' idx') opt cls coll with
    | none => rfl
    | some out =>
      obtain ⟨out', h1, -⟩ := key kinds' kinds idx' idx out h'
      rw [h] at h1; cases h1

theorem opticalColl_ids {c : Circ} {n : Opt × List ℕ} {l : List (Opt × List ℕ)} {coll out : Coll} (hid : (coll.map Prod.fst).Nodup)
    (h : opticalColl c n l coll = some out) : (out.map Prod.fst).Nodup := by
  obtain ⟨-, hf⟩ := (opticalColl_iff c n l coll hid out).1 h
  have : out.map Prod.fst = coll.map Prod.fst := by
    clear h hid
    induction hf with
    | nil => rfl
    | cons h1 _ ih =>
      obtain ⟨d, -, rfl⟩ := h1
      rw [List.map_cons, List.map_cons, ih]
  rw [this]; exact hid

end Verif
