/-
The Born probabilities of the different photon numbers add up to the squared norm. Lemmas for C104.
-/
import Verif.Lemmas.FockForm2
import Verif.Lemmas.Creation
import Verif.Lemmas.Interference
import Verif.Lemmas.Resolved3
import Verif.Spec.Spectral

namespace Verif.Fockform
open MvPolynomial Spec

/-- The overlap of photons when all pulses have the same width. -/
noncomputable def ker (κ : ℝ) (m m' : Mode) : ℂ := (gauss κ (m.1, delayOf m.2) (m'.1, delayOf m'.2) : ℂ)

theorem ker_symm (κ : ℝ) (m m' : Mode) : ker κ m m' = ker κ m' m := by
  unfold ker
  rw [gauss_symm]

theorem ker_ne (κ : ℝ) {m m' : Mode} (h : m.1 ≠ m'.1) : ker κ m m' = 0 := by
  unfold ker gauss
  rw [if_neg h, Complex.ofReal_zero]

theorem monoL_photonList (a : Mode →₀ ℕ) : monoL (photonList a) = a := by
  have h := photonList_monoL (photonList a)
  unfold photonList at h
  have h2 := Multiset.coe_eq_coe.2 h
  rw [Multiset.coe_toList, Multiset.coe_toList] at h2
  classical
  have h3 := congrArg Multiset.toFinsupp h2
  rwa [Finsupp.toMultiset_toFinsupp, Finsupp.toMultiset_toFinsupp] at h3

theorem monomial_photonList (a : Mode →₀ ℕ) : (monomial a 1 : MvPolynomial Mode ℂ) = ∏ i : Fin (photonList a).length, X ((photonList a).get i) := by
  conv_lhs => rw [← monoL_photonList a, ← prod_X]
  rw [← List.prod_ofFn, List.ofFn_comp' , List.ofFn_get]

theorem numbers_photonList (a : Mode →₀ ℕ) (ch : ℕ) : Finsupp.mapDomain Prod.fst a ch = ((photonList a).map Prod.fst).count ch := by
  rw [← monoL_numbers, monoL_photonList]

theorem count_fin (l : List Photon) (ch : ℕ) : (l.map Prod.fst).count ch = ∑ i : Fin l.length, if (l.get i).1 = ch then 1 else 0 := by
  have h : (l.map Prod.fst).count ch = (l.map (fun p => if p.1 = ch then 1 else 0)).sum := by
    induction l with
    | nil => rfl
    | cons p l ih =>
      rw [List.map_cons, List.count_cons, ih, List.map_cons, List.sum_cons, add_comm]
      simp
  rw [h, ← List.sum_ofFn]
  congr 1
  refine List.ext_getElem (by simp) (fun i _ _ => by simp)

/-- The inner product of two monomials with the same number of photons. -/
theorem form_mono {κ : ℝ} {a b : Mode →₀ ℕ} (hlen : (photonList b).length = (photonList a).length) (hK : ∀ p ∈ photonList a, ∀ q ∈ photonList b, ker κ p q = photonInner p q) :
    form (ker κ) (monomial a 1) (monomial b 1) = ((overlapPermanent (photonList a) (photonList b) : ℝ) : ℂ) := by
  have e : (monomial b 1 : MvPolynomial Mode ℂ) = ∏ i : Fin (photonList a).length, X ((photonList b).getD i (0, none)) := by
    rw [monomial_photonList]
    refine Fintype.prod_equiv (finCongr hlen) _ _ (fun i => ?_)
    rw [List.getD_eq_getElem _ _ (by rw [finCongr_apply, Fin.val_cast]; exact i.2)]
    rfl
  rw [e, monomial_photonList, form_prod]
  unfold overlapPermanent Matrix.permanent
  push_cast
  refine Finset.sum_congr rfl (fun s _ => Finset.prod_congr rfl (fun i _ => ?_))
  rw [Matrix.of_apply, Matrix.of_apply]
  refine hK _ (List.get_mem _ _) _ ?_
  rw [List.getD_eq_getElem _ _ (by rw [hlen]; exact (s i).2)]
  exact List.getElem_mem _

/-- Monomials with different photon numbers are orthogonal. -/
theorem form_numbers (κ : ℝ) {a b : Mode →₀ ℕ} (h : Finsupp.mapDomain Prod.fst a ≠ Finsupp.mapDomain Prod.fst b) : form (ker κ) (monomial a 1) (monomial b 1) = 0 := by
  by_cases hlen : (photonList b).length = (photonList a).length
  · have e : (monomial b 1 : MvPolynomial Mode ℂ) = ∏ i : Fin (photonList a).length, X ((photonList b).get (Fin.cast hlen.symm i)) := by
      rw [monomial_photonList]
      exact Fintype.prod_equiv (finCongr hlen) _ _ (fun i => rfl)
    rw [e, monomial_photonList, form_prod]
    unfold Matrix.permanent
    refine Finset.sum_eq_zero (fun s _ => ?_)
    by_contra hne
    apply h
    have hall : ∀ i, ((photonList a).get i).1 = ((photonList b).get (Fin.cast hlen.symm (s i))).1 := by
      intro i
      by_contra hch
      apply hne
      refine Finset.prod_eq_zero (Finset.mem_univ i) ?_
      rw [Matrix.of_apply]
      exact ker_ne κ hch
    ext ch
    rw [numbers_photonList, numbers_photonList, count_fin, count_fin]
    refine Fintype.sum_equiv (s.trans (finCongr hlen.symm)) _ _ (fun i => ?_)
    rw [hall i]
    rfl
  · rw [monomial_photonList, monomial_photonList b]
    exact form_prod_ne (Ne.symm hlen) _ _ _

theorem same_length {a b : Mode →₀ ℕ} (h : Finsupp.mapDomain Prod.fst a = Finsupp.mapDomain Prod.fst b) : (photonList b).length = (photonList a).length := by
  have hp : ((photonList b).map Prod.fst).Perm ((photonList a).map Prod.fst) := by
    rw [List.perm_iff_count]
    intro ch
    rw [← numbers_photonList, ← numbers_photonList, h]
  simpa using hp.length_eq

theorem photonInner_symm (p q : Photon) : photonInner p q = photonInner q p := by
  have h : ∀ x y : Option PInfo, photonOverlap x y = photonOverlap y x := by
    intro x y
    cases x with
    | none => cases y <;> rfl
    | some x =>
      cases y with
      | none => rfl
      | some y =>
        simp only [photonOverlap]
        rw [add_comm (y.width ^ 2)]
        congr 2
        rw [div_pow, div_pow]
        congr 1
        ring
  unfold photonInner
  by_cases e : p.1 = q.1
  · rw [if_pos e, if_pos e.symm, h]
  · rw [if_neg e, if_neg (Ne.symm e)]

theorem overlapPermanent_symm {b k : List Photon} (h : k.length = b.length) : overlapPermanent b k = overlapPermanent k b := by
  unfold overlapPermanent
  rw [← Matrix.permanent_transpose]
  unfold Matrix.permanent
  refine Fintype.sum_equiv ((finCongr h.symm).permCongr) _ _ (fun s => ?_)
  refine Fintype.prod_equiv (finCongr h.symm) _ _ (fun i => ?_)
  rw [Matrix.transpose_apply, Matrix.of_apply, Matrix.of_apply, photonInner_symm]
  rw [List.getD_eq_getElem _ _ (by rw [h]; exact i.2), List.getD_eq_getElem _ _ (by simp)]
  simp

/-- All photons of the polynomial have the pulse width `w`. -/
def AllWidth (w : ℝ) (P : MvPolynomial Mode ℂ) : Prop := ∀ a ∈ P.support, ∀ m ∈ photonList a, ∃ d, m.2 = some ⟨d, w⟩

/-- The exponent for pulses of width `w`. -/
noncomputable def kappa (w : ℝ) : ℝ := Real.log 2 / (2 * w ^ 2)

theorem kappa_nonneg (w : ℝ) : 0 ≤ kappa w := div_nonneg (Real.log_nonneg (by norm_num)) (by positivity)

theorem ker_inner {w : ℝ} {p q : Photon} (hp : ∃ d, p.2 = some ⟨d, w⟩) (hq : ∃ d, q.2 = some ⟨d, w⟩) : ker (kappa w) p q = photonInner p q := by
  obtain ⟨d, hd⟩ := hp
  obtain ⟨e, he⟩ := hq
  unfold ker gauss photonInner
  by_cases h : p.1 = q.1
  · rw [if_pos h, if_pos h, hd, he]
    unfold photonOverlap delayOf kappa
    simp only [Option.map_some, Option.getD_some]
    congr 2
    rw [div_pow, Real.sq_sqrt (by positivity), ← two_mul]
    ring
  · rw [if_neg h, if_neg h]

open Classical in
/-- The part of the polynomial with the photon numbers `v`. -/
noncomputable def part (v : Vals) (P : MvPolynomial Mode ℂ) : MvPolynomial Mode ℂ := ∑ a ∈ P.support.filter (HasNumbers v), monomial a (P.coeff a)

open Classical in
theorem sq_part (K : Mode → Mode → ℂ) (v : Vals) (P : MvPolynomial Mode ℂ) : sq K (part v P) = ∑ a ∈ P.support.filter (HasNumbers v), ∑ b ∈ P.support.filter (HasNumbers v),
    starRingEnd ℂ (P.coeff b) * P.coeff a * form K (monomial b 1) (monomial a 1) := by
  unfold sq part
  rw [form_sum_right]
  refine Finset.sum_congr rfl (fun a _ => ?_)
  rw [conj_sum, form_sum_left]
  refine Finset.sum_congr rfl (fun b _ => ?_)
  rw [conj_monomial, form_monomial, ← mul_one (P.coeff a), ← C_mul_monomial, form_C_right]
  ring

theorem bornProb_sq {w : ℝ} {P : MvPolynomial Mode ℂ} (hP : AllWidth w P) (v : Vals) : bornProb v P = ‖sq (ker (kappa w)) (part v P)‖ := by
  classical
  unfold bornProb
  rw [sq_part]
  congr 1
  refine Finset.sum_congr (by congr) (fun a ha => Finset.sum_congr (by congr) (fun b hb => ?_))
  rw [Finset.mem_filter] at ha hb
  have hn : Finsupp.mapDomain Prod.fst a = Finsupp.mapDomain Prod.fst b := by
    ext ch
    rw [ha.2 ch, hb.2 ch]
  rw [form_mono (same_length hn.symm) (fun p hp q hq => ker_inner (hP b hb.1 p hp) (hP a ha.1 q hq)), overlapPermanent_symm (same_length hn)]

theorem bornProb_real {w : ℝ} {P : MvPolynomial Mode ℂ} (hP : AllWidth w P) (v : Vals) : ((bornProb v P : ℝ) : ℂ) = sq (ker (kappa w)) (part v P) := by
  rw [bornProb_sq hP]
  obtain ⟨r, h1, h2⟩ := sq_gauss (kappa_nonneg w) (fun m : Mode => (m.1, delayOf m.2)) (part v P)
  have h3 : sq (ker (kappa w)) (part v P) = r := h2
  rw [h3, Complex.norm_real, Real.norm_of_nonneg h1]

/-- The squared norm is the sum over the photon numbers. -/
theorem sq_sum_parts (κ : ℝ) (P : MvPolynomial Mode ℂ) (V : Finset Vals) (hV : ∀ a ∈ P.support, ∃ v ∈ V, HasNumbers v a) (hu : ∀ v ∈ V, ∀ v' ∈ V, ∀ a, HasNumbers v a → HasNumbers v' a → v = v') :
    sq (ker κ) P = ∑ v ∈ V, sq (ker κ) (part v P) := by
  classical
  have hP : sq (ker κ) P = ∑ a ∈ P.support, ∑ b ∈ P.support, starRingEnd ℂ (P.coeff b) * P.coeff a * form (ker κ) (monomial b 1) (monomial a 1) := by
    conv_lhs => rw [sq, P.as_sum]
    rw [form_sum_right]
    refine Finset.sum_congr rfl (fun a _ => ?_)
    rw [conj_sum, form_sum_left]
    refine Finset.sum_congr rfl (fun b _ => ?_)
    rw [conj_monomial, form_monomial, ← mul_one (P.coeff a), ← C_mul_monomial, form_C_right]
    simp
    ring
  rw [hP]
  choose! f hf1 hf2 using hV
  rw [← Finset.sum_fiberwise_of_maps_to (fun a ha => hf1 a ha)]
  refine Finset.sum_congr rfl (fun v hv => ?_)
  rw [sq_part]
  have hs : P.support.filter (fun a => f a = v) = P.support.filter (HasNumbers v) := by
    refine Finset.filter_congr (fun a ha => ?_)
    constructor
    · intro h
      rw [← h]
      exact hf2 a ha
    · intro h
      exact hu _ (hf1 a ha) _ hv a (hf2 a ha) h
  rw [hs]
  refine Finset.sum_congr rfl (fun a ha => ?_)
  symm
  refine Finset.sum_subset (Finset.filter_subset _ _) (fun b hb hnb => ?_)
  rw [form_numbers κ, mul_zero]
  intro h
  apply hnb
  rw [Finset.mem_filter] at ha ⊢
  refine ⟨hb, fun ch => ?_⟩
  rw [h, ha.2 ch]

end Verif.Fockform
