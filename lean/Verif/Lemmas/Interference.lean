/-
Lemmas for the Born rule with partly overlapping photons.
-/
import Verif.Spec.Interference
import Verif.Lemmas.Creation
import Verif.Lemmas.Resolved5
import Verif.Lemmas.Spectral2

namespace Verif
open Spec Props MvPolynomial

theorem perm_equiv {α : Type*} {l l' : List α} (h : l.Perm l') : ∃ σ : Fin l.length ≃ Fin l'.length, ∀ i, l'.get (σ i) = l.get i := by
  induction h with
  | nil => exact ⟨Equiv.refl _, fun i => i.elim0⟩
  | @cons a l l' _ ih =>
    obtain ⟨σ, hσ⟩ := ih
    refine ⟨((finSuccEquiv l.length).trans (Equiv.optionCongr σ)).trans (finSuccEquiv l'.length).symm, ?_⟩
    intro i
    refine Fin.cases ?_ ?_ i
    · simp
    · intro j
      have := hσ j
      simpa using this
  | swap a b l =>
    refine ⟨Equiv.swap ⟨0, by simp⟩ ⟨1, by simp⟩, ?_⟩
    rintro ⟨i, hi⟩
    rcases i with _ | _ | i
    · rw [Equiv.swap_apply_left]; rfl
    · rw [Equiv.swap_apply_right]; rfl
    · rw [Equiv.swap_apply_of_ne_of_ne (by simp) (by simp)]; rfl
  | trans _ _ ih1 ih2 =>
    obtain ⟨σ, hσ⟩ := ih1
    obtain ⟨τ, hτ⟩ := ih2
    exact ⟨σ.trans τ, fun i => by rw [Equiv.trans_apply, hτ, hσ]⟩

theorem overlapPermanent_perm {b b' k k' : List Photon} (hb : b.Perm b') (hk : k.Perm k') (hl : k.length = b.length) : overlapPermanent b k = overlapPermanent b' k' := by
  obtain ⟨σ, hσ⟩ := perm_equiv hb
  obtain ⟨τ, hτ⟩ := perm_equiv hk
  have key : ∀ (n n' : ℕ) (A : Matrix (Fin n) (Fin n) ℝ) (B : Matrix (Fin n') (Fin n') ℝ) (σ τ : Fin n ≃ Fin n'), (∀ i j, B (τ i) (σ j) = A i j) → A.permanent = B.permanent := by
    intro n n' A B σ τ h
    obtain rfl : n = n' := by simpa using Fintype.card_congr σ
    have hA : A = (B.submatrix τ id).submatrix id σ := by
      ext i j
      exact (h i j).symm
    rw [hA, Matrix.permanent_permute_rows]
    exact Matrix.permanent_permute_cols τ B
  have hl' : k'.length = b'.length := by rw [← hk.length_eq, ← hb.length_eq, hl]
  unfold overlapPermanent
  refine key _ _ _ _ σ (((finCongr hl.symm).trans τ).trans (finCongr hl')) ?_
  intro i j
  simp only [Matrix.of_apply]
  rw [hσ]
  congr 1
  have hi : (i : ℕ) < k.length := by rw [hl]; exact i.2
  have := hτ ⟨i, hi⟩
  rw [List.getD_eq_getElem _ _ hi]
  rw [List.getD_eq_getElem _ _ (lt_of_lt_of_eq (Fin.isLt _) hl'.symm)]
  exact this

/-! ### Sums of monomials -/

/-- A sum of monomials. -/
noncomputable def polyOf (L : List ((Mode →₀ ℕ) × ℂ)) : MvPolynomial Mode ℂ := (L.map (fun x => monomial x.1 x.2)).sum

theorem sum_coeff (L : List ((Mode →₀ ℕ) × ℂ)) (f : (Mode →₀ ℕ) → ℂ) :
    ∑ a ∈ (polyOf L).support, (polyOf L).coeff a * f a = (L.map (fun x => x.2 * f x.1)).sum := by
  classical
  have key : ∀ (S : Finset (Mode →₀ ℕ)), (∀ x ∈ L, x.1 ∈ S) → ∑ a ∈ S, (polyOf L).coeff a * f a = (L.map (fun x => x.2 * f x.1)).sum := by
    intro S hS
    unfold polyOf
    induction L with
    | nil => simp
    | cons x L ih =>
      simp only [List.map_cons, List.sum_cons, coeff_add, add_mul, Finset.sum_add_distrib]
      rw [ih (fun y hy => hS y (List.mem_cons_of_mem _ hy))]
      congr 1
      simp only [coeff_monomial, ite_mul, zero_mul]
      rw [Finset.sum_ite_eq, if_pos (hS x List.mem_cons_self)]
  rw [← key ((polyOf L).support ∪ (L.map Prod.fst).toFinset) (fun x hx => Finset.mem_union_right _ (List.mem_toFinset.2 (List.mem_map.2 ⟨x, hx, rfl⟩)))]
  refine Finset.sum_subset Finset.subset_union_left ?_
  intro a _ ha
  rw [notMem_support_iff.1 ha, zero_mul]

open Classical in
theorem bornProb_list (v : Vals) (L : List ((Mode →₀ ℕ) × ℂ)) :
    bornProb v (polyOf L) = ‖(L.map (fun x => (L.map (fun y => if HasNumbers v x.1 ∧ HasNumbers v y.1 then
      starRingEnd ℂ y.2 * x.2 * ((overlapPermanent (photonList x.1) (photonList y.1) : ℝ) : ℂ) else 0)).sum)).sum‖ := by
  unfold bornProb
  congr 1
  have h1 : ∀ a, ∑ b ∈ (polyOf L).support.filter (HasNumbers v), starRingEnd ℂ ((polyOf L).coeff b) * (polyOf L).coeff a * ((overlapPermanent (photonList a) (photonList b) : ℝ) : ℂ) =
      (polyOf L).coeff a * (L.map (fun y => if HasNumbers v y.1 then starRingEnd ℂ y.2 * ((overlapPermanent (photonList a) (photonList y.1) : ℝ) : ℂ) else 0)).sum := by
    intro a
    have := congrArg (starRingEnd ℂ) (sum_coeff L (fun b => if HasNumbers v b then ((overlapPermanent (photonList a) (photonList b) : ℝ) : ℂ) else 0))
    rw [map_sum, map_list_sum, List.map_map] at this
    rw [Finset.sum_filter]
    have e : ∀ y : (Mode →₀ ℕ) × ℂ, ((starRingEnd ℂ) ∘ (fun x : (Mode →₀ ℕ) × ℂ => x.2 * (fun b => if HasNumbers v b then ((overlapPermanent (photonList a) (photonList b) : ℝ) : ℂ) else 0) x.1)) y =
        if HasNumbers v y.1 then starRingEnd ℂ y.2 * ((overlapPermanent (photonList a) (photonList y.1) : ℝ) : ℂ) else 0 := by
      intro y
      simp only [Function.comp_apply, map_mul]
      split <;> simp
    rw [List.map_congr_left (fun y _ => e y)] at this
    rw [← this, Finset.mul_sum]
    refine Finset.sum_congr rfl (fun b _ => ?_)
    simp only [map_mul]
    split
    · rw [Complex.conj_ofReal]; ring
    · simp
  rw [Finset.sum_congr rfl (fun a _ => h1 a), Finset.sum_filter]
  have h2 := sum_coeff L (fun a => if HasNumbers v a then (L.map (fun y => if HasNumbers v y.1 then starRingEnd ℂ y.2 * ((overlapPermanent (photonList a) (photonList y.1) : ℝ) : ℂ) else 0)).sum else 0)
  simp only [mul_ite, mul_zero] at h2
  rw [h2]
  congr 1
  refine List.map_congr_left (fun x _ => ?_)
  by_cases hx : HasNumbers v x.1
  · simp only [hx, if_true, true_and]
    rw [← List.sum_map_mul_left]
    congr 1
    refine List.map_congr_left (fun y _ => ?_)
    split
    · ring
    · simp
  · simp [hx]

/-! ### Photons of a monomial -/

/-- The monomial of a list of photons. -/
noncomputable def monoL (l : List Photon) : Mode →₀ ℕ := (l.map (fun p => Finsupp.single p 1)).sum

theorem photonList_monoL (l : List Photon) : (photonList (monoL l)).Perm l := by
  have h : Finsupp.toMultiset (monoL l) = (l : Multiset Photon) := by
    unfold monoL
    induction l with
    | nil => simp
    | cons p l ih => rw [List.map_cons, List.sum_cons, map_add, ih, Finsupp.toMultiset_single]; simp
  unfold photonList
  rw [h, ← Multiset.coe_eq_coe, Multiset.coe_toList]

theorem prod_X (l : List Photon) : (l.map (fun p => (X p : MvPolynomial Mode ℂ))).prod = monomial (monoL l) 1 := by
  unfold monoL
  induction l with
  | nil => rfl
  | cons p l ih => rw [List.map_cons, List.prod_cons, ih, List.map_cons, List.sum_cons, X, monomial_mul, mul_one]

theorem monoL_numbers (l : List Photon) (ch : ℕ) : Finsupp.mapDomain Prod.fst (monoL l) ch = (l.map Prod.fst).count ch := by
  unfold monoL
  induction l with
  | nil => simp
  | cons p l ih =>
    rw [List.map_cons, List.sum_cons, Finsupp.mapDomain_add, Finsupp.add_apply, ih, Finsupp.mapDomain_single, List.map_cons, List.count_cons, Finsupp.single_apply]
    by_cases h : p.1 = ch
    · simp [h, add_comm]
    · simp [h]

/-! ### Columns of single photons -/

/-- The amplitude of the first component of a state. -/
noncomputable def headAmp (s : PState) : ℂ := ((s.q.comps.head?).map (fun p => p.2.amp)).getD 1

/-- The product of the amplitudes of the states of a column. -/
noncomputable def phaseOf (c : Column) : ℂ := (c.states.map headAmp).prod

theorem photon_statePoly {g : Cfg} {s : PState} (h : PhotonState g s) :
    ∃ v, Valid g v ∧ firstValues g s = some v ∧ statePoly g s = monomial (monoL ((photonChannels v).map (fun ch => (ch, s.info)))) (headAmp s) := by
  obtain ⟨v, a, hv, hs, hc⟩ := h
  refine ⟨v, hv, firstValues_nums ⟨hv, _, hc⟩, ?_⟩
  have hb : bosonOf v = 1 := by
    by_cases h1 : v.sum > 0
    · obtain ⟨ch, _, h3⟩ := sum_one_oneHot (v := v) (by omega)
      rw [h3, bosonOf_oneHot]
    · rw [sum_zero_replicate h1, bosonOf_zero]
  have ha : headAmp s = a := by simp [headAmp, hc]
  have hp : monoX s.info v = (((photonChannels v).map (fun ch => (ch, s.info))).map (fun p => (X p : MvPolynomial Mode ℂ))).prod := by
    rw [List.map_map]
    exact (photonChannels_prod s.info v 0).symm
  rw [statePoly_single s hv hc, ketPoly_eq, hb, ha, hp, prod_X, C_mul_monomial, C_mul_monomial]
  congr 1
  simp

theorem monoL_append (l m : List Photon) : monoL (l ++ m) = monoL l + monoL m := by
  unfold monoL
  rw [List.map_append, List.sum_append]

theorem photon_column {g : Cfg} {c : Column} (h : ∀ s ∈ c.states, PhotonState g s) :
    columnPoly g c = monomial (monoL (photonsOf g c)) (c.amp / (c.boson : ℂ) * phaseOf c) := by
  have key : ∀ l : List PState, (∀ s ∈ l, PhotonState g s) → ∃ r, l.mapM (fun s => (firstValues g s).map (fun v => (photonChannels v).map (fun ch => (ch, s.info)))) = some r ∧
      (l.map (statePoly g)).prod = monomial (monoL r.flatten) (l.map headAmp).prod := by
    intro l
    induction l with
    | nil => intro _; exact ⟨[], rfl, rfl⟩
    | cons s l ih =>
      intro hl
      obtain ⟨r, h1, h2⟩ := ih (fun s hs => hl s (List.mem_cons_of_mem _ hs))
      obtain ⟨v, _, hf, hp⟩ := photon_statePoly (hl s List.mem_cons_self)
      refine ⟨(photonChannels v).map (fun ch => (ch, s.info)) :: r, by rw [List.mapM_cons, hf, h1]; rfl, ?_⟩
      rw [List.map_cons, List.prod_cons, h2, hp, monomial_mul, List.flatten_cons, monoL_append, List.map_cons, List.prod_cons]
  obtain ⟨r, h1, h2⟩ := key c.states h
  have e : photonsOf g c = r.flatten := by
    unfold photonsOf listOfPhotons
    rw [h1]; rfl
  unfold columnPoly
  rw [h2, e, C_mul_monomial]
  rfl

theorem photon_group {g : Cfg} {cols : List Column} (h : ∀ c ∈ cols, ∀ s ∈ c.states, PhotonState g s) :
    groupPoly g cols = polyOf (cols.map (fun c => (monoL (photonsOf g c), c.amp / (c.boson : ℂ) * phaseOf c))) := by
  unfold groupPoly polyOf
  rw [List.map_map]
  congr 1
  exact List.map_congr_left (fun c hc => photon_column (h c hc))

theorem numbers_iff {g : Cfg} {c : Column} {w v : Vals} (hc : ColumnWith g c w) (hv : Valid g v) : HasNumbers v (monoL (photonsOf g c)) ↔ columnValues g c = some v := by
  have hcount : ∀ ch, ((photonsOf g c).map Prod.fst).count ch = w.getD ch 0 := fun ch => by rw [hc.photons.2.1.count_eq, count_channels]
  unfold HasNumbers
  simp only [monoL_numbers, hcount]
  rw [hc.values]
  constructor
  · intro h
    rw [valid_ext hc.valid hv (fun i _ => h i)]
  · intro h
    obtain rfl := Option.some.inj h
    exact fun _ => rfl

open Classical in
/-- The Born rule for columns of single photons. `α` gives the common phase of the columns with the same photon numbers. -/
theorem born_detection {g : Cfg} {cols : List Column} (hp : ∀ c ∈ cols, ∀ s ∈ c.states, PhotonState g s) (hc : ∀ c ∈ cols, ∃ v, ColumnWith g c v) {v : Vals} (hv : Valid g v) {α : ℂ}
    (hα : ‖α‖ = 1) (hph : ∀ c ∈ cols, columnValues g c = some v → phaseOf c = α) :
    bornProb v (groupPoly g cols) = detectionProb g (cols.filter (fun c => columnValues g c = some v)) := by
  have hαα : starRingEnd ℂ α * α = 1 := by
    rw [← Complex.normSq_eq_conj_mul_self, Complex.normSq_eq_norm_sq, hα]; simp
  have filt : ∀ (p : Column → Bool) (f : Column → ℂ) (l : List Column), ((l.filter p).map f).sum = (l.map (fun c => if p c = true then f c else 0)).sum := by
    intro p f l
    induction l with
    | nil => rfl
    | cons a l ih =>
      rw [List.filter_cons, List.map_cons, List.sum_cons]
      by_cases h : p a = true
      · simp [h, ih]
      · simp [h, ih]
  rw [photon_group hp, bornProb_list]
  unfold detectionProb
  congr 1
  rw [filt, List.map_map]
  simp only [decide_eq_true_eq]
  congr 1
  refine List.map_congr_left (fun b hb => ?_)
  obtain ⟨wb, hwb⟩ := hc b hb
  simp only [Function.comp_apply, List.map_map]
  by_cases hvb : columnValues g b = some v
  · rw [if_pos hvb, filt]
    simp only [decide_eq_true_eq]
    congr 1
    refine List.map_congr_left (fun k hk => ?_)
    obtain ⟨wk, hwk⟩ := hc k hk
    simp only [Function.comp_apply]
    by_cases hvk : columnValues g k = some v
    · rw [if_pos ⟨(numbers_iff hwb hv).2 hvb, (numbers_iff hwk hv).2 hvk⟩, if_pos hvk, hph b hb hvb, hph k hk hvk]
      have hlen : (photonList (monoL (photonsOf g k))).length = (photonList (monoL (photonsOf g b))).length := by
        rw [(photonList_monoL _).length_eq, (photonList_monoL _).length_eq]
        have h1 := hwb.photons.2.1.length_eq
        have h2 := hwk.photons.2.1.length_eq
        have : wb = wk := Option.some.inj (hwb.values.symm.trans (hvb.trans (hvk.symm.trans hwk.values)))
        subst this
        simp only [List.length_map] at h1 h2
        rw [h1, h2]
      rw [overlapPermanent_perm (photonList_monoL _) (photonList_monoL _) hlen]
      unfold crossTerm
      have hd : starRingEnd ℂ (k.amp / (k.boson : ℂ) * α) * (b.amp / (b.boson : ℂ) * α) = starRingEnd ℂ k.amp * b.amp / ((k.boson * b.boson : ℝ) : ℂ) * (starRingEnd ℂ α * α) := by
        rw [map_mul, map_div₀, Complex.conj_ofReal]
        push_cast
        ring
      rw [hd, hαα, mul_one]
    · rw [if_neg (fun h => hvk ((numbers_iff hwk hv).1 h.2)), if_neg hvk]
  · rw [if_neg hvb]
    refine List.sum_eq_zero ?_
    intro x hx
    obtain ⟨k, _, rfl⟩ := List.mem_map.1 hx
    simp only [Function.comp_apply]
    rw [if_neg (fun h => hvb ((numbers_iff hwb hv).1 h.1))]

end Verif
