/-
Two photons (property C121).
-/
import Verif.Spec.Pair
import Verif.Lemmas.Overall

namespace Verif
open Spec Props MvPolynomial

theorem twoPhotons_getD {C i j : ℕ} {x : ℕ} (hx : x < C) : (twoPhotons C i j).getD x 0 = (if x = i then 1 else 0) + (if x = j then 1 else 0) := by
  unfold twoPhotons
  simp [List.getD_eq_getElem?_getD, hx]

theorem twoPhotons_length (C i j : ℕ) : (twoPhotons C i j).length = C := by simp [twoPhotons]

theorem twoPhotons_comm (C i j : ℕ) : twoPhotons C i j = twoPhotons C j i := by
  unfold twoPhotons
  exact List.map_congr_left fun x _ => add_comm _ _

theorem twoPhotons_valid {g : Cfg} (hL : 3 ≤ g.L) (i j : ℕ) : Valid g (twoPhotons g.C i j) := by
  refine ⟨twoPhotons_length _ _ _, fun n hn => ?_⟩
  obtain ⟨x, -, rfl⟩ := List.mem_map.1 hn
  split_ifs <;> omega

theorem twoPhotons_sum {C i j : ℕ} (hi : i < C) (hj : j < C) : (twoPhotons C i j).sum = 2 := by
  show ∑ x ∈ Finset.range C, ((if x = i then 1 else 0) + (if x = j then 1 else 0)) = 2
  rw [Finset.sum_add_distrib, Finset.sum_ite_eq', Finset.sum_ite_eq', if_pos (Finset.mem_range.2 hi), if_pos (Finset.mem_range.2 hj)]

theorem twoPhotons_inj {C a b i j : ℕ} (ha : a < C) (hb : b < C) (hi : i < C) (h : twoPhotons C i j = twoPhotons C a b) :
    (i = a ∧ j = b) ∨ (i = b ∧ j = a) := by
  have e : ∀ x < C, ((if x = i then 1 else 0) + (if x = j then 1 else 0) : ℕ) = (if x = a then 1 else 0) + (if x = b then 1 else 0) := by
    intro x hx
    rw [← twoPhotons_getD hx, h, twoPhotons_getD hx]
  have e1 := e a ha
  have e2 := e b hb
  have e3 := e i hi
  by_cases h1 : i = a
  · subst h1
    by_cases h2 : i = b
    · subst h2
      by_cases h3 : i = j
      · exact .inl ⟨rfl, h3.symm⟩
      · simp [h3] at e1
    · left
      refine ⟨rfl, ?_⟩
      by_contra h3
      simp [Ne.symm h2, Ne.symm h3] at e2
  · by_cases h2 : i = b
    · subst h2
      right
      refine ⟨rfl, ?_⟩
      by_contra h3
      simp [Ne.symm h1, Ne.symm h3] at e1
    · simp [h1, h2] at e3

theorem eq_twoPhotons {g : Cfg} {v : Vals} (hv : Valid g v) (h : v.sum = 2) : ∃ i j, i ≤ j ∧ j < g.C ∧ v = twoPhotons g.C i j := by
  have key : ∃ i j, i < g.C ∧ j < g.C ∧ v = twoPhotons g.C i j := by
    obtain ⟨i, hi, h0⟩ : ∃ i, ∃ hi : i < v.length, v[i] ≠ 0 := by
      by_contra hc
      push Not at hc
      have : v.sum = 0 := List.sum_eq_zero (fun x hx => by
        obtain ⟨i, hi, rfl⟩ := List.getElem_of_mem hx
        exact hc i hi)
      omega
    have hi' : i < g.C := hv.1 ▸ hi
    have hval : Valid g (v.set i (v[i] - 1)) := by
      refine ⟨by simpa using hv.1, fun n hn => ?_⟩
      rcases List.mem_or_eq_of_mem_set hn with h | h
      · exact hv.2 n h
      · have := hv.2 _ (List.getElem_mem hi)
        omega
    have hsum : (v.set i (v[i] - 1)).sum = 1 := by
      have e1 : v.sum = (v.take i).sum + (v[i] + (v.drop (i + 1)).sum) := by
        conv_lhs => rw [← List.take_append_drop i v, List.drop_eq_getElem_cons hi]
        rw [List.sum_append, List.sum_cons]
      rw [List.sum_set, if_pos hi]
      omega
    obtain ⟨j, hj, e⟩ := eq_onePhoton hval hsum
    refine ⟨i, j, hi', hj, ?_⟩
    apply List.ext_getElem
    · rw [twoPhotons_length, hv.1]
    · intro x h1 h2
      have hx : x < g.C := by rwa [twoPhotons_length] at h2
      have e2 := onePhoton_getD hj x
      rw [← e, List.getD_eq_getElem?_getD, List.getElem?_set] at e2
      have e3 := twoPhotons_getD (i := i) (j := j) hx
      rw [List.getD_eq_getElem?_getD, List.getElem?_eq_getElem h2, Option.getD_some] at e3
      rw [e3]
      by_cases hxi : x = i
      · subst hxi
        rw [if_pos rfl, if_pos hi, Option.getD_some] at e2
        rw [if_pos rfl]
        omega
      · rw [if_neg (fun h => hxi h.symm), List.getElem?_eq_getElem h1, Option.getD_some] at e2
        rw [if_neg hxi, e2]
        omega
  obtain ⟨i, j, hi, hj, e⟩ := key
  rcases le_total i j with h | h
  · exact ⟨i, j, h, hj, e⟩
  · exact ⟨j, i, h, hi, by rw [e, twoPhotons_comm]⟩

/-- factor between a product of creation operators and the normalised state -/
noncomputable def pairNorm (i j : ℕ) : ℂ := if i = j then ((Real.sqrt 2 : ℝ) : ℂ) else 1

theorem ketPoly_two {C i j : ℕ} (hi : i < C) (hj : j < C) : (X (i, none) * X (j, none) : MvPolynomial Mode ℂ) = MvPolynomial.C (pairNorm i j) * ketPoly none (twoPhotons C i j) := by
  rw [ketPoly_range, twoPhotons_length]
  by_cases h : i = j
  · subst h
    rw [Finset.prod_eq_single i]
    · rw [twoPhotons_getD hi, if_pos rfl]
      simp only [pairNorm, if_true, Nat.reduceAdd]
      have h2 : ((Real.sqrt 2 : ℝ) : ℂ) ≠ 0 := by simp
      rw [show ((Nat.factorial 2 : ℕ) : ℝ) = 2 by norm_num [Nat.factorial], ← mul_assoc, ← C_mul, mul_one_div_cancel h2, C_1, one_mul, pow_two]
    · intro x hx hne
      rw [twoPhotons_getD (Finset.mem_range.1 hx), if_neg hne]; simp
    · intro h; exact absurd (Finset.mem_range.2 hi) h
  · rw [pairNorm, if_neg h, C_1, one_mul, ← Finset.mul_prod_erase _ _ (Finset.mem_range.2 hi), ← Finset.mul_prod_erase _ _ (Finset.mem_erase.2 ⟨Ne.symm h, Finset.mem_range.2 hj⟩),
      Finset.prod_eq_one]
    · rw [twoPhotons_getD hi, twoPhotons_getD hj, if_pos rfl, if_pos rfl, if_neg h, if_neg (Ne.symm h)]
      simp
    · intro x hx
      have h1 := Finset.mem_erase.1 hx
      have h2 := Finset.mem_erase.1 h1.2
      rw [twoPhotons_getD (Finset.mem_range.1 h2.2), if_neg h1.1, if_neg h2.1]; simp

/-- two photons as polynomial -/
noncomputable def duoPoly (C : ℕ) (B : ℕ → ℕ → ℂ) : MvPolynomial Mode ℂ := ∑ i ∈ Finset.range C, ∑ j ∈ Finset.range C, MvPolynomial.C (B i j) * (X (i, none) * X (j, none))

open Classical in
theorem duoPoly_vec {g : Cfg} (hL : 3 ≤ g.L) (B : ℕ → ℕ → ℂ) :
    duoPoly g.C B = vecPoly g none (fun k => ∑ i ∈ Finset.range g.C, ∑ j ∈ Finset.range g.C, if g.valuesFromIndex k = twoPhotons g.C i j then B i j * pairNorm i j else 0) := by
  unfold duoPoly vecPoly
  simp only [map_sum, Finset.sum_mul]
  conv_rhs => rw [Finset.sum_comm]
  refine Finset.sum_congr rfl fun i hi => ?_
  conv_rhs => rw [Finset.sum_comm]
  refine Finset.sum_congr rfl fun j hj => ?_
  have hv := twoPhotons_valid hL i j
  rw [Finset.sum_eq_single (g.indexOf (twoPhotons g.C i j))]
  · rw [g.valuesFromIndex_indexOf hv, if_pos rfl, ketPoly_two (Finset.mem_range.1 hi) (Finset.mem_range.1 hj), C_mul, mul_assoc]
  · intro k hk hne
    rw [if_neg, C_0, zero_mul]
    intro e
    exact hne (by rw [← e, g.indexOf_valuesFromIndex (Finset.mem_range.1 hk)])
  · intro h; exact absurd (Finset.mem_range.2 (g.indexOf_lt hv)) h

open Classical in
theorem pair_total {C : ℕ} (B : ℕ → ℕ → ℂ) {a b : ℕ} (ha : a < C) (hb : b < C) :
    (∑ i ∈ Finset.range C, ∑ j ∈ Finset.range C, if twoPhotons C a b = twoPhotons C i j then B i j * pairNorm i j else 0) = pairAmp B a b := by
  have e : ∀ i ∈ Finset.range C, ∀ j ∈ Finset.range C, (if twoPhotons C a b = twoPhotons C i j then B i j * pairNorm i j else 0)
      = (if i = a then if j = b then pairAmp B a b - (if a = b then 0 else B b a) else 0 else 0) + (if i = b then if j = a then (if a = b then 0 else B b a) else 0 else 0) := by
    intro i hi j hj
    have hi' := Finset.mem_range.1 hi
    by_cases h : twoPhotons C a b = twoPhotons C i j
    · rw [if_pos h]
      rcases twoPhotons_inj ha hb hi' h.symm with ⟨rfl, rfl⟩ | ⟨rfl, rfl⟩
      · by_cases hij : i = j
        · subst hij; simp [pairAmp, pairNorm, mul_comm]
        · simp [pairAmp, pairNorm, hij]
      · by_cases hij : i = j
        · subst hij; simp [pairAmp, pairNorm, mul_comm]
        · simp [pairAmp, pairNorm, hij, Ne.symm hij]
    · rw [if_neg h]
      have n1 : ¬ (i = a ∧ j = b) := by rintro ⟨rfl, rfl⟩; exact h rfl
      have n2 : ¬ (i = b ∧ j = a) := by rintro ⟨rfl, rfl⟩; exact h (twoPhotons_comm _ _ _)
      rw [← ite_and, ← ite_and, if_neg n1, if_neg n2, add_zero]
  rw [Finset.sum_congr rfl (fun i hi => Finset.sum_congr rfl (e i hi))]
  simp only [Finset.sum_add_distrib]
  simp [ha, hb]

open Classical in
theorem amplitudeIn_pair {g : Cfg} (hg : g.Ok) (hL : 3 ≤ g.L) (B : ℕ → ℕ → ℂ) :
    (∀ a b, a < g.C → b < g.C → amplitudeIn (duoPoly g.C B) none (twoPhotons g.C a b) = pairAmp B a b) ∧
    ∀ w, Valid g w → (∀ a b, a ≤ b → b < g.C → w ≠ twoPhotons g.C a b) → amplitudeIn (duoPoly g.C B) none w = 0 := by
  constructor
  · intro a b ha hb
    have hw := twoPhotons_valid hL a b
    rw [duoPoly_vec hL, amplitudeIn_vec hg none _ hw, g.valuesFromIndex_indexOf hw]
    exact pair_total B ha hb
  · intro w hw h
    rw [duoPoly_vec hL, amplitudeIn_vec hg none _ hw, g.valuesFromIndex_indexOf hw]
    refine Finset.sum_eq_zero fun i hi => Finset.sum_eq_zero fun j hj => if_neg ?_
    rcases le_total i j with hij | hij
    · exact h i j hij (Finset.mem_range.1 hj)
    · rw [twoPhotons_comm]
      exact h j i hij (Finset.mem_range.1 hi)

theorem statePoly_pair {g : Cfg} (hL : 3 ≤ g.L) {q : QState} (h : WellFormed g q.comps) {B : ℕ → ℕ → ℂ} (hu : PhotonPair g q B) :
    statePolynomial g q = duoPoly g.C B := by
  classical
  unfold statePolynomial
  rw [statePoly_vec (by omega) ⟨q, none⟩ h, duoPoly_vec hL]
  refine vecPoly_congr fun k hk => ?_
  have hv := g.valid_valuesFromIndex (by omega : 1 ≤ g.L) k
  by_cases h1 : (g.valuesFromIndex k).sum = 2
  · obtain ⟨i, j, hij, hj, e⟩ := eq_twoPhotons hv h1
    rw [e, pair_total B (by omega) hj]
    show vec g q.comps k = _
    rw [← hu.amp i j hij hj _ ((isName_iff (twoPhotons_valid hL i j)).2 rfl), ← e]
    conv_lhs => rw [← g.indexOf_valuesFromIndex hk]
    exact vec_index hv _
  · rw [Finset.sum_eq_zero]
    · show vec g q.comps k = 0
      by_contra h0
      apply h1
      rw [← g.indexOf_valuesFromIndex hk, vec_index hv, ampOf] at h0
      cases hget : Dict.get? q.comps (g.stdName (g.valuesFromIndex k)) with
      | none => rw [hget] at h0; exact absurd rfl h0
      | some p => exact hu.two _ (Dict.get?_mem hget) _ hv ((isName_iff hv).2 rfl)
    · intro i hi
      refine Finset.sum_eq_zero fun j hj => if_neg ?_
      intro e
      rw [e, twoPhotons_sum (Finset.mem_range.1 hi) (Finset.mem_range.1 hj)] at h1
      exact h1 rfl

theorem opticsSubst_pair {g : Cfg} {gates : List Gate} {nodes : List (Opt × List ℕ)} (h : List.Forall₂ (GateNode g) gates nodes) (B : ℕ → ℕ → ℂ) :
    opticsSubst gates (duoPoly g.C B) = duoPoly g.C (pairAfter gates B) := by
  obtain ⟨F, hF⟩ := opticsSubst_hom gates
  have hFC : ∀ a : ℂ, F (MvPolynomial.C a) = MvPolynomial.C a := fun a => by rw [← MvPolynomial.algebraMap_eq, AlgHom.commutes]
  have hfield : ∀ u, F (fieldPoly g.C u) = fieldPoly g.C (fieldAfter gates u) := fun u => by rw [← hF, opticsSubst_field h]
  have e1 : ∀ B : ℕ → ℕ → ℂ, duoPoly g.C B = ∑ i ∈ Finset.range g.C, X (i, none) * fieldPoly g.C (B i) := by
    intro B
    refine Finset.sum_congr rfl fun i _ => ?_
    rw [fieldPoly, Finset.mul_sum]
    exact Finset.sum_congr rfl fun j _ => by ring
  have e2 : ∀ B : ℕ → ℕ → ℂ, duoPoly g.C B = ∑ j ∈ Finset.range g.C, fieldPoly g.C (fun i => B i j) * X (j, none) := by
    intro B
    rw [duoPoly, Finset.sum_comm]
    refine Finset.sum_congr rfl fun j _ => ?_
    rw [fieldPoly, Finset.sum_mul]
    exact Finset.sum_congr rfl fun j _ => by ring
  rw [hF, e1, map_sum, e2]
  simp only [map_mul, hfield]
  calc ∑ i ∈ Finset.range g.C, F (X (i, none)) * fieldPoly g.C (fieldAfter gates (B i))
      = ∑ j ∈ Finset.range g.C, F (fieldPoly g.C (fun i => fieldAfter gates (B i) j)) * X (j, none) := by
        simp only [fieldPoly, map_sum, map_mul, hFC, Finset.mul_sum, Finset.sum_mul]
        rw [Finset.sum_comm]
        exact Finset.sum_congr rfl fun j _ => Finset.sum_congr rfl fun i _ => by ring
    _ = _ := Finset.sum_congr rfl fun j _ => by rw [hfield]; rfl

/-- only one basis state contributes to an outcome -/
theorem findProb_single {g : Cfg} (hg : g.Ok) {thr : ℝ} (ht : 0 < thr) (P : MvPolynomial Mode ℂ) (opt o : List ℕ) {w : Vals} (hw : Valid g w) (ho : outcomeOf opt w = o)
    (h : ∀ w', Valid g w' → outcomeOf opt w' = o → w' ≠ w → amplitudeIn P none w' = 0) :
    findProb g thr P opt o = if thr ≤ ‖amplitudeIn P none w‖ ^ 2 then ‖amplitudeIn P none w‖ ^ 2 else 0 := by
  rw [findProb_sum hg.1, Finset.sum_eq_single (g.indexOf w)]
  · rw [g.valuesFromIndex_indexOf hw]
    simp [ho]
  · intro k hk hne
    rw [if_neg]
    rintro ⟨h1, h2⟩
    rw [h _ (g.valid_valuesFromIndex hg.1 k) h1 (fun e => hne (by rw [← e, g.indexOf_valuesFromIndex (Finset.mem_range.1 hk)]))] at h2
    simp at h2; linarith
  · intro h; exact absurd (Finset.mem_range.2 (g.indexOf_lt hw)) h

theorem findProb_zero {g : Cfg} (hg : g.Ok) {thr : ℝ} (ht : 0 < thr) (P : MvPolynomial Mode ℂ) (opt o : List ℕ)
    (h : ∀ w', Valid g w' → outcomeOf opt w' = o → amplitudeIn P none w' = 0) : findProb g thr P opt o = 0 := by
  rw [findProb_sum hg.1]
  refine Finset.sum_eq_zero fun k hk => if_neg ?_
  rintro ⟨h1, h2⟩
  rw [h _ (g.valid_valuesFromIndex hg.1 k) h1] at h2
  simp at h2; linarith

end Verif
