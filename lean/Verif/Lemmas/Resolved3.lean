/- Helper lemmas about photon-resolved measurement: photons of a column, the rescaling. -/
import Verif.Lemmas.Resolved2

namespace Verif
open Spec Finset Equiv Props

/-! ### Photons of a column -/

theorem listOfPhotons_of {g : Cfg} {c : Column} {vs : List Vals} (h : c.states.mapM (firstValues g) = some vs) :
    ∃ l, listOfPhotons g c = some l ∧ l.map Prod.fst = (vs.map photonChannels).flatten ∧ ∀ p ∈ l, ∃ s ∈ c.states, p.2 = s.info := by
  unfold listOfPhotons
  rw [mapM_some_iff] at h
  generalize c.states = sts at h
  induction h with
  | nil => exact ⟨[], rfl, rfl, by simp⟩
  | @cons s v sts vs hs _ ih =>
    obtain ⟨l, h1, h2, h3⟩ := ih
    obtain ⟨m, hm, rfl⟩ := Option.map_eq_some_iff.1 h1
    refine ⟨(photonChannels v).map (fun ch => (ch, s.info)) ++ m.flatten, ?_, ?_, ?_⟩
    · rw [List.mapM_cons, hs, hm]; rfl
    · rw [List.map_append, h2, List.map_map]
      simp [Function.comp_def]
    · intro p hp
      rcases List.mem_append.1 hp with hp | hp
      · obtain ⟨ch, _, rfl⟩ := List.mem_map.1 hp
        exact ⟨s, List.mem_cons_self, rfl⟩
      · obtain ⟨t, ht, e⟩ := h3 p hp
        exact ⟨t, List.mem_cons_of_mem _ ht, e⟩

theorem photonsIn_of {g : Cfg} {c : Column} {vs : List Vals} {v : Vals} {l : List Photon} (h : c.states.mapM (firstValues g) = some vs)
    (hl : ∀ w ∈ vs, w.length = g.C) (hv : columnValues g c = some v) (hp : l.map Prod.fst = (vs.map photonChannels).flatten) : PhotonsIn v l := by
  unfold PhotonsIn
  rw [hp]
  rcases vs with _ | ⟨w, vs⟩
  · unfold columnValues at hv
    rw [h] at hv
    cases hv
  rw [columnValues_eq h] at hv
  obtain rfl := Option.some.inj hv
  rw [List.perm_iff_count]
  intro i
  rw [count_channels, (fold_getD vs w (hl w List.mem_cons_self) (fun x hx => hl x (List.mem_cons_of_mem _ hx)) i).1, List.map_cons, List.flatten_cons, List.count_append,
    count_channels]
  congr 1
  clear hp hv h hl
  induction vs with
  | nil => simp
  | cons a vs ih => rw [List.map_cons, List.flatten_cons, List.count_append, ih, count_channels, List.map_cons, List.sum_cons]

theorem column_photons {g : Cfg} {c : Column} {v : Vals} (hs : ∀ s ∈ c.states, ∃ w, HasNums g s w) (hv : columnValues g c = some v) :
    ∃ l, listOfPhotons g c = some l ∧ PhotonsIn v l ∧ ∀ p ∈ l, ∃ s ∈ c.states, p.2 = s.info := by
  obtain ⟨vs, h1, h2⟩ := forall2_nums hs
  obtain ⟨l, e1, e2, e3⟩ := listOfPhotons_of h2
  refine ⟨l, e1, photonsIn_of h2 ?_ hv e2, e3⟩
  intro w hw
  obtain ⟨s, hs'⟩ := forall2_right h1 w hw
  exact hs'.1.1

theorem mapM_congr_left {α β : Type*} {f h : α → Option β} {l : List α} (e : ∀ x ∈ l, f x = h x) : l.mapM f = l.mapM h := by
  induction l with
  | nil => rfl
  | cons a l ih => rw [List.mapM_cons, List.mapM_cons, e a List.mem_cons_self, ih (fun x hx => e x (List.mem_cons_of_mem _ hx))]

theorem columnListProbability_eq {g : Cfg} {v : Vals} {cols : List Column} (ph : Column → List Photon) (hp : ∀ c ∈ cols, listOfPhotons g c = some (ph c) ∧ PhotonsIn v (ph c)) :
    columnListProbability g v cols = some ‖(cols.map (fun b => (cols.map (fun k =>
      starRingEnd ℂ k.amp * b.amp / ((k.boson * b.boson : ℝ) : ℂ) * ((overlapPermanent (ph b) (ph k) : ℝ) : ℂ))).sum)).sum‖ := by
  unfold columnListProbability
  rw [mapM_some_of (g := fun p : Column × Column => starRingEnd ℂ p.2.amp * p.1.amp / ((p.2.boson * p.1.boson : ℝ) : ℂ) * ((overlapPermanent (ph p.1) (ph p.2) : ℝ) : ℂ))]
  · rw [Option.map_some]
    congr 2
    generalize cols.map id = dummy
    have : ∀ l : List Column, ((l.flatMap (fun b => cols.map (fun k => (b, k)))).map (fun p : Column × Column => starRingEnd ℂ p.2.amp * p.1.amp / ((p.2.boson * p.1.boson : ℝ) : ℂ) * ((overlapPermanent (ph p.1) (ph p.2) : ℝ) : ℂ))).sum =
        (l.map (fun b => (cols.map (fun k => starRingEnd ℂ k.amp * b.amp / ((k.boson * b.boson : ℝ) : ℂ) * ((overlapPermanent (ph b) (ph k) : ℝ) : ℂ))).sum)).sum := by
      intro l
      induction l with
      | nil => rfl
      | cons a l ih => rw [List.flatMap_cons, List.map_append, List.sum_append, ih, List.map_cons, List.sum_cons, List.map_map]; rfl
    exact this cols
  · intro p hp'
    obtain ⟨b, hb, hk'⟩ := List.mem_flatMap.1 hp'
    obtain ⟨k, hk, rfl⟩ := List.mem_map.1 hk'
    rw [pairProbability_eq (hp b hb).1 (hp k hk).1 (hp b hb).2 (hp k hk).2]
    rfl

/-! ### Overlaps -/

theorem photonOverlap_symm (a b : Option PInfo) : photonOverlap a b = photonOverlap b a := by
  rcases a with _ | a <;> rcases b with _ | b <;> try rfl
  show Real.exp _ = Real.exp _
  rw [add_comm (b.width ^ 2), div_pow, div_pow]
  congr 3
  ring

theorem photonOverlap_pos (a b : Option PInfo) : 0 < photonOverlap a b := by
  unfold photonOverlap
  split
  · exact Real.exp_pos _
  · norm_num

theorem photonOverlap_le (a b : Option PInfo) : photonOverlap a b ≤ 1 := by
  unfold photonOverlap
  split
  · rw [Real.exp_le_one_iff]
    have : 0 < Real.log 2 := Real.log_pos (by norm_num)
    nlinarith [sq_nonneg ((by assumption : PInfo).delay)]
  · norm_num

theorem photonOverlap_self (a : Option PInfo) : photonOverlap a a = 1 := by
  rcases a with _ | a
  · rfl
  · simp [photonOverlap]

theorem photonInner_nonneg (p q : Photon) : 0 ≤ photonInner p q := by
  unfold photonInner
  split
  · exact (photonOverlap_pos _ _).le
  · exact le_refl _

theorem photonInner_self (p : Photon) : photonInner p p = 1 := by
  unfold photonInner
  rw [if_pos rfl, photonOverlap_self]

/-- The permanent of a list of photons with itself is at least 1. -/
theorem one_le_overlapPermanent (b : List Photon) : 1 ≤ overlapPermanent b b := by
  unfold overlapPermanent Matrix.permanent
  have h1 : ∏ i, (Matrix.of (fun (i j : Fin b.length) => photonInner (b.get j) (b.getD i (0, none)))) ((1 : Perm (Fin b.length)) i) i = 1 := by
    refine Finset.prod_eq_one ?_
    intro i _
    rw [Matrix.of_apply, Perm.one_apply, List.getD_eq_getElem _ _ i.2]
    exact photonInner_self _
  rw [← h1]
  refine Finset.single_le_sum (f := fun σ : Perm (Fin b.length) => ∏ i, (Matrix.of (fun (i j : Fin b.length) => photonInner (b.get j) (b.getD i (0, none)))) (σ i) i) ?_ (Finset.mem_univ _)
  intro σ _
  exact Finset.prod_nonneg (fun i _ => photonInner_nonneg _ _)

/-- Identical photons: the permanent is the product of the factorials. -/
theorem overlapPermanent_identical {v : Vals} {b k : List Photon} (pb : PhotonsIn v b) (pk : PhotonsIn v k)
    (h : ∀ p ∈ b, ∀ q ∈ k, photonOverlap p.2 q.2 = 1) : overlapPermanent b k = bosonOf v * bosonOf v := by
  have lb : (photonChannels v).length = b.length := by rw [← pb.length_eq, List.length_map]
  have lk : k.length = b.length := by rw [← lb, ← pk.length_eq, List.length_map]
  let cb : Fin b.length → ℕ := fun i => (b.get i).1
  let ck : Fin b.length → ℕ := fun i => (k.getD i (0, none)).1
  have eb : List.ofFn cb = b.map Prod.fst := by
    refine List.ext_getElem (by simp) ?_
    intro i h1 h2
    simp [cb]
  have ek : List.ofFn ck = k.map Prod.fst := by
    refine List.ext_getElem (by simp [lk]) ?_
    intro i h1 h2
    rw [List.getElem_ofFn, List.getElem_map]
    show (k.getD i (0, none)).1 = _
    rw [List.getD_eq_getElem _ _ (by simpa using h2)]
  have pbk : (List.ofFn ck).Perm (List.ofFn cb) := by
    rw [eb, ek]; exact pk.trans pb.symm
  obtain ⟨σ₀, hσ⟩ := exists_perm_of_perm cb ck pbk
  rw [← card_stabilizer cb v (by rw [eb]; exact pb), ← card_goodPerms_aux cb ck σ₀ hσ]
  unfold overlapPermanent Matrix.permanent goodPerms
  rw [Finset.card_filter, Nat.cast_sum]
  refine Finset.sum_congr rfl ?_
  intro σ _
  by_cases hg : ∀ i, ck (σ i) = cb i
  · rw [if_pos hg, Nat.cast_one]
    refine Finset.prod_eq_one ?_
    intro i _
    rw [Matrix.of_apply]
    unfold photonInner
    rw [if_pos (hg i).symm]
    refine h _ (List.get_mem _ _) _ ?_
    have : (σ i : ℕ) < k.length := by rw [lk]; exact (σ i).2
    rw [List.getD_eq_getElem _ _ this]
    exact List.getElem_mem _
  · rw [if_neg hg, Nat.cast_zero]
    push Not at hg
    obtain ⟨i, hi⟩ := hg
    refine Finset.prod_eq_zero (Finset.mem_univ i) ?_
    rw [Matrix.of_apply]
    unfold photonInner
    rw [if_neg (Ne.symm hi)]

end Verif
