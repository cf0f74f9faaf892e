/-
Lemmas for teleportation (property C125).
-/
import Verif.Spec.Teleport
import Verif.Props.Feed

namespace Verif
open Spec Props MvPolynomial

theorem without_C (chs : List ℕ) (a : ℂ) : Without chs (C a) := by
  intro m hm
  rw [vars_C] at hm
  simp at hm

theorem without_addPhoton {chs : List ℕ} {b : ℕ} (h : b ∉ chs) : Without chs (addPhoton b) := by
  intro m hm
  unfold addPhoton at hm
  rw [vars_X] at hm
  rw [Finset.mem_singleton.1 hm]
  exact h

theorem without_mul {chs : List ℕ} {P Q : MvPolynomial Mode ℂ} (hP : Without chs P) (hQ : Without chs Q) : Without chs (P * Q) := by
  classical
  intro m hm
  rcases Finset.mem_union.1 (vars_mul P Q hm) with h | h
  · exact hP m h
  · exact hQ m h

theorem without_mono {chs chs' : List ℕ} {P : MvPolynomial Mode ℂ} (h : ∀ x ∈ chs', x ∈ chs) (hP : Without chs P) : Without chs' P := fun m hm h' => hP m hm (h _ h')

theorem gateSubst_without {M : Opt} {h c : ℕ} {Q : MvPolynomial Mode ℂ} (hQ : Without [h, c] Q) : gateSubst M h c Q = Q := by
  have := hom_congr_vars (f₁ := (gateSubst M h c).toRingHom) (f₂ := RingHom.id (MvPolynomial Mode ℂ)) (p₁ := Q) (p₂ := Q) ?_ ?_ rfl
  · simpa using this
  · ext a
    simp [gateSubst_C]
  · intro m hm _
    have hm' := hQ m hm
    simp only [List.mem_cons, List.not_mem_nil, or_false, not_or] at hm'
    simp [gateSubst, hm'.1, hm'.2]

theorem gateSubst_addPhoton_h {M : Opt} {h c : ℕ} : gateSubst M h c (addPhoton h) = C (M 0 0) * addPhoton h + C (M 0 1) * addPhoton c := by
  simp [gateSubst, addPhoton]

theorem gateSubst_addPhoton_c {M : Opt} {h c : ℕ} (hne : h ≠ c) : gateSubst M h c (addPhoton c) = C (M 1 0) * addPhoton h + C (M 1 1) * addPhoton c := by
  simp [gateSubst, addPhoton, hne.symm]

theorem gateSubst_addPhoton_other {M : Opt} {h c x : ℕ} (h1 : x ≠ h) (h2 : x ≠ c) : gateSubst M h c (addPhoton x) = addPhoton x := by
  simp [gateSubst, addPhoton, h1, h2]

/-- two photons in measured channels, the rest elsewhere -/
theorem foundPart_two (opt o : List ℕ) (i j : ℕ) {Q : MvPolynomial Mode ℂ} (hQ : Without opt Q) :
    foundPart opt o (addPhoton i * (addPhoton j * Q)) = if foundPair opt i j = o then addPhoton i * (addPhoton j * Q) else 0 := by
  classical
  ext d
  rw [coeff_foundPart]
  by_cases h0 : (addPhoton i * (addPhoton j * Q)).coeff d = 0
  · rw [h0]
    split <;> split <;> simp [h0]
  · have hd : opt.map (fun x => d (x, none)) = foundPair opt i j := by
      have hs : d ∈ (addPhoton i * (addPhoton j * Q)).support := by rwa [mem_support_iff]
      unfold addPhoton at hs
      rw [support_X_mul, Finset.mem_map] at hs
      obtain ⟨d1, hd1, rfl⟩ := hs
      rw [support_X_mul, Finset.mem_map] at hd1
      obtain ⟨d2, hd2, rfl⟩ := hd1
      refine List.map_congr_left fun x hx => ?_
      have hz : d2 (x, none) = 0 := mem_support_notMem_vars_zero hd2 (fun hm => hQ _ hm hx)
      simp only [addLeftEmbedding_apply, Finsupp.add_apply, hz, Finsupp.single_apply, Prod.mk.injEq, and_true, add_zero]
      simp only [eq_comm (a := x)]
    rw [hd]
    split <;> simp

/-- phases of single modes -/
theorem coeff_phases (z : Mode → ℂ) (P : MvPolynomial Mode ℂ) (d : Mode →₀ ℕ) :
    (aeval (fun m => C (z m) * X m : Mode → MvPolynomial Mode ℂ) P).coeff d = (d.prod fun m k => z m ^ k) * P.coeff d := by
  classical
  induction P using MvPolynomial.induction_on' with
  | monomial u a =>
    rw [aeval_monomial]
    have : (u.prod fun m k => (C (z m) * X m : MvPolynomial Mode ℂ) ^ k) = C (u.prod fun m k => z m ^ k) * monomial u 1 := by
      rw [monomial_eq, C_1, one_mul]
      unfold Finsupp.prod
      rw [map_prod, ← Finset.prod_mul_distrib]
      refine Finset.prod_congr rfl fun m _ => ?_
      simp only [mul_pow, map_pow]
    rw [this, algebraMap_eq, coeff_C_mul, coeff_C_mul, coeff_monomial, coeff_monomial]
    split
    · rename_i e; subst e; ring
    · ring
  | add p q hp hq => rw [map_add, coeff_add, coeff_add, hp, hq]; ring

theorem plate_zero (h v : ℕ) (P : MvPolynomial Mode ℂ) : gateSubst (genericMatrix 0 0) h v P = P := by
  have e : gateSubst (genericMatrix 0 0) h v = AlgHom.id ℂ _ := by
    refine MvPolynomial.algHom_ext fun m => ?_
    rw [(C17_wave_plate 0 0 0).2.2.1]
    simp only [gateSubst, aeval_X, AlgHom.id_apply]
    split_ifs with h1 h2
    · simp [← h1]
    · simp [← h2]
    · rfl
  rw [e]; rfl

theorem piMatrix : genericMatrix 0 Real.pi = !![1, 0; 0, -1] := by
  ext i j
  fin_cases i <;> fin_cases j <;> simp [genericMatrix]

theorem plate_pi {h v : ℕ} (hne : h ≠ v) (P : MvPolynomial Mode ℂ) :
    gateSubst (genericMatrix 0 Real.pi) h v P = aeval (fun m => C (if m.1 = v then -1 else 1) * X m : Mode → MvPolynomial Mode ℂ) P := by
  congr 1
  refine MvPolynomial.algHom_ext fun m => ?_
  rw [piMatrix]
  simp only [gateSubst, aeval_X]
  split_ifs with h1 h2 h2
  · exact absurd (h1.symm.trans h2) hne
  · simp [← h1]
  · simp [← h2]
  · simp

theorem plate_pi_amp {h v : ℕ} (hne : h ≠ v) (P : MvPolynomial Mode ℂ) (w : Vals) :
    ‖amplitudeIn (gateSubst (genericMatrix 0 Real.pi) h v P) none w‖ = ‖amplitudeIn P none w‖ := by
  unfold amplitudeIn
  rw [plate_pi hne, coeff_phases, mul_assoc, norm_mul]
  have : ‖(monoOf none w).prod fun m k => (if m.1 = v then -1 else 1 : ℂ) ^ k‖ = 1 := by
    unfold Finsupp.prod
    rw [norm_prod]
    refine Finset.prod_eq_one fun m _ => ?_
    rw [norm_pow]
    split <;> simp
  rw [this, one_mul]

theorem notDropped_plate {g : Cfg} {thr : ℝ} {h v : ℕ} (hne : h ≠ v) {P : MvPolynomial Mode ℂ} (hP : NotDropped g thr P) (φ : ℝ) (hφ : φ = 0 ∨ φ = Real.pi) :
    NotDropped g thr (gateSubst (genericMatrix 0 φ) h v P) := by
  rcases hφ with rfl | rfl
  · rwa [plate_zero]
  · intro w hw hlt
    rw [plate_pi_amp hne] at hlt
    rw [← norm_eq_zero, plate_pi_amp hne, hP w hw hlt, norm_zero]

theorem amplitudeIn_C_mul (a : ℂ) (P : MvPolynomial Mode ℂ) (w : Vals) : amplitudeIn (C a * P) none w = a * amplitudeIn P none w := by
  unfold amplitudeIn; rw [coeff_C_mul, mul_assoc]

theorem amplitudeIn_foundPart (opt o : List ℕ) (P : MvPolynomial Mode ℂ) (w : Vals) :
    amplitudeIn (foundPart opt o P) none w = if outcomeOf opt w = o then amplitudeIn P none w else 0 := by
  unfold amplitudeIn
  rw [coeff_foundPart]
  have e : opt.map (fun x => monoOf none w (x, none)) = outcomeOf opt w := List.map_congr_left fun x _ => monoOf_apply none w x
  rw [e]
  split <;> simp

/-- what is left after finding something is larger than before -/
theorem notDropped_found {g : Cfg} {thr : ℝ} {P : MvPolynomial Mode ℂ} (hP : NotDropped g thr P) (opt o : List ℕ) {r : ℝ} (h0 : 0 < r) (h1 : r ≤ 1) :
    NotDropped g thr (C (1 / (Real.sqrt r : ℂ)) * foundPart opt o P) := by
  intro w hw hlt
  rw [amplitudeIn_C_mul, amplitudeIn_foundPart] at hlt ⊢
  split
  · rename_i ho
    rw [if_pos ho] at hlt
    rw [hP w hw, mul_zero]
    refine lt_of_le_of_lt ?_ hlt
    rw [norm_mul, mul_pow]
    refine le_mul_of_one_le_left (by positivity) ?_
    rw [norm_div, norm_one, Complex.norm_real, Real.norm_of_nonneg (Real.sqrt_nonneg _), div_pow, one_pow, Real.sq_sqrt h0.le]
    exact (one_le_div h0).2 h1
  · simp

theorem findProb_nonneg {g : Cfg} (hL : 1 ≤ g.L) (thr : ℝ) (P : MvPolynomial Mode ℂ) (opt o : List ℕ) : 0 ≤ findProb g thr P opt o := by
  rw [findProb_sum hL]
  exact Finset.sum_nonneg fun i _ => by split <;> positivity

theorem findProb_le_one {g : Cfg} (hg : g.Ok) {thr : ℝ} (ht : 0 < thr) {gates : List Gate} {n : Opt × List ℕ} {l : List (Opt × List ℕ)}
    (hu : LosslessElements g gates (n :: l)) {m : ℕ} {q : QState} (hq : Sendable g m q) (hd : NotDropped g thr (opticsSubst gates (statePolynomial g q))) (opt o : List ℕ) :
    findProb g 0 (opticsSubst gates (statePolynomial g q)) opt o ≤ 1 := by
  obtain ⟨d, hd', hme, -⟩ := sent_measurable (full := true) hg ht hu hq
  rw [← findProb_notDropped hd hg.1, ← outcomeProb_born hg true hu.1 hq hd' hme.wf opt o]
  exact (outcomeProb_le _ _ _ _).trans hme.total

/-- the mixer on two channels -/
theorem mix_h (a b : ℕ) : gateSubst (genericMatrix (Real.pi / 8) Real.pi) a b (addPhoton a) = C ((Real.sqrt 2 / 2 : ℝ) : ℂ) * (addPhoton a + addPhoton b) := by
  rw [gateSubst_addPhoton_h, mixMatrix]
  simp; ring

theorem mix_c {a b : ℕ} (hne : a ≠ b) : gateSubst (genericMatrix (Real.pi / 8) Real.pi) a b (addPhoton b) = C ((Real.sqrt 2 / 2 : ℝ) : ℂ) * (addPhoton a - addPhoton b) := by
  rw [gateSubst_addPhoton_c hne, mixMatrix]
  simp; ring

theorem half_sq : ((Real.sqrt 2 / 2 : ℝ) : ℂ) * ((Real.sqrt 2 / 2 : ℝ) : ℂ) = 1 / 2 := by
  rw [← Complex.ofReal_mul, show Real.sqrt 2 / 2 * (Real.sqrt 2 / 2) = (Real.sqrt 2 * Real.sqrt 2) / 4 by ring, Real.mul_self_sqrt (by norm_num)]
  push_cast; norm_num

/-- the state in front of the detectors -/
theorem teleport_mixed {sH sV aH aV bH bV : ℕ} (hd : [sH, sV, aH, aV, bH, bV].Nodup) {A B : MvPolynomial Mode ℂ} (hA : Without [sH, sV, aH, aV] A) (hB : Without [sH, sV, aH, aV] B) :
    opticsSubst [⟨genericMatrix (Real.pi / 8) Real.pi, sH, aH⟩, ⟨genericMatrix (Real.pi / 8) Real.pi, sV, aV⟩] (teleportIn sH sV aH aV bH bV A B) =
      C (((Real.sqrt 2 / 2 : ℝ) : ℂ) / 2) * (addPhoton sH * (addPhoton sH * (addPhoton bV * A)) - addPhoton aH * (addPhoton aH * (addPhoton bV * A))
        - addPhoton sV * (addPhoton sV * (addPhoton bH * B)) + addPhoton aV * (addPhoton aV * (addPhoton bH * B))
        + addPhoton sH * (addPhoton sV * (addPhoton bV * B)) - addPhoton sH * (addPhoton sV * (addPhoton bH * A))
        + addPhoton sH * (addPhoton aV * (addPhoton bH * A)) + addPhoton sH * (addPhoton aV * (addPhoton bV * B))
        - addPhoton aH * (addPhoton sV * (addPhoton bH * A)) - addPhoton aH * (addPhoton sV * (addPhoton bV * B))
        + addPhoton aH * (addPhoton aV * (addPhoton bH * A)) - addPhoton aH * (addPhoton aV * (addPhoton bV * B))) := by
  simp only [List.nodup_cons, List.mem_cons, List.not_mem_nil, or_false, not_or, not_false_eq_true, List.nodup_nil, and_true] at hd
  obtain ⟨⟨h1, h2, h3, h4, h5⟩, ⟨h6, h7, h8, h9⟩, ⟨h10, h11, h12⟩, ⟨h13, h14⟩, h15⟩ := hd
  have a1 : ∀ M, gateSubst M sH aH A = A := fun M => gateSubst_without (without_mono (by simp) hA)
  have a2 : ∀ M, gateSubst M sV aV A = A := fun M => gateSubst_without (without_mono (by simp) hA)
  have b1 : ∀ M, gateSubst M sH aH B = B := fun M => gateSubst_without (without_mono (by simp) hB)
  have b2 : ∀ M, gateSubst M sV aV B = B := fun M => gateSubst_without (without_mono (by simp) hB)
  have e : C (((Real.sqrt 2 / 2 : ℝ) : ℂ) / 2) = (C ((Real.sqrt 2 / 2 : ℝ) : ℂ) * C ((Real.sqrt 2 / 2 : ℝ) : ℂ) * C ((Real.sqrt 2 / 2 : ℝ) : ℂ) : MvPolynomial Mode ℂ) := by
    rw [← C_mul, ← C_mul, half_sq]; congr 1; ring
  rw [e]
  show gateSubst _ sV aV (gateSubst _ sH aH (teleportIn sH sV aH aV bH bV A B)) = _
  unfold teleportIn
  simp only [map_mul, map_add, map_sub, gateSubst_C, a1, b1, mix_h, mix_c h2, mix_c h7,
    gateSubst_addPhoton_other (M := genericMatrix (Real.pi / 8) Real.pi) (h := sH) (c := aH) (x := sV) (Ne.symm h1) h6,
    gateSubst_addPhoton_other (M := genericMatrix (Real.pi / 8) Real.pi) (h := sH) (c := aH) (x := aV) (Ne.symm h3) (Ne.symm h10),
    gateSubst_addPhoton_other (M := genericMatrix (Real.pi / 8) Real.pi) (h := sH) (c := aH) (x := bH) (Ne.symm h4) (Ne.symm h11),
    gateSubst_addPhoton_other (M := genericMatrix (Real.pi / 8) Real.pi) (h := sH) (c := aH) (x := bV) (Ne.symm h5) (Ne.symm h12),
    gateSubst_addPhoton_other (M := genericMatrix (Real.pi / 8) Real.pi) (h := sV) (c := aV) (x := sH) h1 h3,
    gateSubst_addPhoton_other (M := genericMatrix (Real.pi / 8) Real.pi) (h := sV) (c := aV) (x := aH) (Ne.symm h6) h10,
    gateSubst_addPhoton_other (M := genericMatrix (Real.pi / 8) Real.pi) (h := sV) (c := aV) (x := bH) (Ne.symm h8) (Ne.symm h13),
    gateSubst_addPhoton_other (M := genericMatrix (Real.pi / 8) Real.pi) (h := sV) (c := aV) (x := bV) (Ne.symm h9) (Ne.symm h14), a2, b2]
  ring

/-- the sign with which the teleported state appears, and the one of its V part -/
def teleportSign (sH sV aH aV : ℕ) (p : ℕ × ℕ) : ℂ × ℂ := if p = (sH, sV) then (-1, 1) else if p = (sH, aV) then (1, 1) else if p = (aH, sV) then (-1, -1) else (1, -1)

theorem teleport_found {sH sV aH aV bH bV : ℕ} (hd : [sH, sV, aH, aV, bH, bV].Nodup) {A B : MvPolynomial Mode ℂ} (hA : Without [sH, sV, aH, aV] A) (hB : Without [sH, sV, aH, aV] B)
    (p : ℕ × ℕ) (hp : p ∈ teleportPairs sH sV aH aV) :
    foundPart [sH, sV, aH, aV] (foundPair [sH, sV, aH, aV] p.1 p.2)
      (opticsSubst [⟨genericMatrix (Real.pi / 8) Real.pi, sH, aH⟩, ⟨genericMatrix (Real.pi / 8) Real.pi, sV, aV⟩] (teleportIn sH sV aH aV bH bV A B)) =
      C (((Real.sqrt 2 / 2 : ℝ) : ℂ) / 2) * (addPhoton p.1 * (addPhoton p.2 * (C (teleportSign sH sV aH aV p).1 * (addPhoton bH * A) + C (teleportSign sH sV aH aV p).2 * (addPhoton bV * B)))) := by
  rw [teleport_mixed hd hA hB]
  simp only [List.nodup_cons, List.mem_cons, List.not_mem_nil, or_false, not_or, not_false_eq_true, List.nodup_nil, and_true] at hd
  obtain ⟨⟨h1, h2, h3, h4, h5⟩, ⟨h6, h7, h8, h9⟩, ⟨h10, h11, h12⟩, ⟨h13, h14⟩, h15⟩ := hd
  have bh : ∀ {Q}, Without [sH, sV, aH, aV] Q → Without [sH, sV, aH, aV] (addPhoton bH * Q) := fun hQ =>
    without_mul (without_addPhoton (by simp [Ne.symm h4, Ne.symm h8, Ne.symm h11, Ne.symm h13])) hQ
  have bv : ∀ {Q}, Without [sH, sV, aH, aV] Q → Without [sH, sV, aH, aV] (addPhoton bV * Q) := fun hQ =>
    without_mul (without_addPhoton (by simp [Ne.symm h5, Ne.symm h9, Ne.symm h12, Ne.symm h14])) hQ
  simp only [foundPart_C_mul, foundPart_add, foundPart_sub, foundPart_two _ _ _ _ (bh hA), foundPart_two _ _ _ _ (bv hA), foundPart_two _ _ _ _ (bh hB), foundPart_two _ _ _ _ (bv hB)]
  congr 1
  simp only [teleportPairs, List.mem_cons, List.not_mem_nil, or_false] at hp
  rcases hp with rfl | rfl | rfl | rfl
  · simp [foundPair, teleportSign, h1, h2, h3, h6, h7, h10, Ne.symm h1, Ne.symm h2, Ne.symm h3, Ne.symm h6, Ne.symm h7, Ne.symm h10]; ring
  · simp [foundPair, teleportSign, h1, h2, h3, h6, h7, h10, Ne.symm h1, Ne.symm h2, Ne.symm h3, Ne.symm h6, Ne.symm h7, Ne.symm h10]; ring
  · simp [foundPair, teleportSign, h1, h2, h3, h6, h7, h10, Ne.symm h1, Ne.symm h2, Ne.symm h3, Ne.symm h6, Ne.symm h7, Ne.symm h10]; ring
  · simp [foundPair, teleportSign, h1, h2, h3, h6, h7, h10, Ne.symm h1, Ne.symm h2, Ne.symm h3, Ne.symm h6, Ne.symm h7, Ne.symm h10]; ring

theorem findProb_reads {g : Cfg} (hL : 1 ≤ g.L) {P : MvPolynomial Mode ℂ} {opt o : List ℕ} (h : findProb g 0 P opt o ≠ 0) : ∃ w, Valid g w ∧ outcomeOf opt w = o := by
  rw [findProb_sum hL] at h
  obtain ⟨i, -, hi⟩ := Finset.exists_ne_zero_of_sum_ne_zero h
  by_cases hc : outcomeOf opt (g.valuesFromIndex i) = o
  · exact ⟨_, g.valid_valuesFromIndex hL i, hc⟩
  · rw [if_neg (fun k => hc k.1)] at hi
    exact absurd rfl hi

/-- three photons, as a monomial -/
theorem three_mono (i j b : ℕ) (a : ℂ) : addPhoton i * (addPhoton j * (addPhoton b * C a)) =
    monomial (Finsupp.single (i, none) 1 + (Finsupp.single (j, none) 1 + Finsupp.single (b, none) 1)) a := by
  unfold addPhoton X
  rw [mul_comm (monomial (Finsupp.single (b, none) 1) 1) (C a), C_mul_monomial, monomial_mul, monomial_mul]
  simp

theorem notDropped_coeff {g : Cfg} {thr : ℝ} {P : MvPolynomial Mode ℂ} (h : ∀ d, P.coeff d = 0 ∨ thr ≤ ‖P.coeff d‖ ^ 2) : NotDropped g thr P := by
  intro w _ hlt
  unfold amplitudeIn at hlt ⊢
  rcases h (monoOf none w) with h0 | h1
  · rw [h0, zero_mul]
  · exfalso
    rw [norm_mul, mul_pow, Complex.norm_real, Real.norm_of_nonneg (Real.sqrt_nonneg _), Real.sq_sqrt (by positivity)] at hlt
    have : (1 : ℝ) ≤ ((w.map Nat.factorial).prod : ℕ) := by
      have : 0 < (w.map Nat.factorial).prod := List.prod_pos (by
        intro x hx
        obtain ⟨n, -, rfl⟩ := List.mem_map.1 hx
        exact Nat.factorial_pos n)
      exact_mod_cast this
    have h2 : ‖P.coeff (monoOf none w)‖ ^ 2 * 1 ≤ ‖P.coeff (monoOf none w)‖ ^ 2 * ((w.map Nat.factorial).prod : ℕ) := mul_le_mul_of_nonneg_left this (by positivity)
    linarith

theorem half_norm_sq (a : ℂ) : ‖((Real.sqrt 2 / 2 : ℝ) : ℂ) / 2 * a‖ ^ 2 = ‖a‖ ^ 2 / 8 := by
  rw [norm_mul, norm_div, Complex.norm_real, Real.norm_of_nonneg (by positivity), Complex.norm_ofNat, mul_pow, div_pow, div_pow, Real.sq_sqrt (by norm_num)]
  ring

theorem teleport_notDropped {g : Cfg} {thr : ℝ} {sH sV aH aV bH bV : ℕ} (hd : [sH, sV, aH, aV, bH, bV].Nodup) {α β : ℂ} (hα : α = 0 ∨ thr ≤ ‖α‖ ^ 2 / 8) (hβ : β = 0 ∨ thr ≤ ‖β‖ ^ 2 / 8) :
    NotDropped g thr (opticsSubst [⟨genericMatrix (Real.pi / 8) Real.pi, sH, aH⟩, ⟨genericMatrix (Real.pi / 8) Real.pi, sV, aV⟩] (teleportIn sH sV aH aV bH bV (C α) (C β))) := by
  classical
  apply notDropped_coeff
  intro d
  rw [teleport_mixed hd (without_C _ _) (without_C _ _), coeff_C_mul]
  simp only [List.nodup_cons, List.mem_cons, List.not_mem_nil, or_false, not_or, not_false_eq_true, List.nodup_nil, and_true] at hd
  obtain ⟨⟨h1, h2, h3, h4, h5⟩, ⟨h6, h7, h8, h9⟩, ⟨h10, h11, h12⟩, ⟨h13, h14⟩, h15⟩ := hd
  have fin : ∀ z : ℂ, (z = 0 ∨ z = α ∨ z = -α ∨ z = β ∨ z = -β) → ((Real.sqrt 2 / 2 : ℝ) : ℂ) / 2 * z = 0 ∨ thr ≤ ‖((Real.sqrt 2 / 2 : ℝ) : ℂ) / 2 * z‖ ^ 2 := by
    intro z hz
    rw [half_norm_sq]
    rcases hz with rfl | rfl | rfl | rfl | rfl
    · simp
    · rcases hα with rfl | h <;> simp_all
    · rcases hα with rfl | h <;> simp_all
    · rcases hβ with rfl | h <;> simp_all
    · rcases hβ with rfl | h <;> simp_all
  apply fin
  simp only [three_mono, coeff_add, coeff_sub, coeff_monomial]
  have q1 := Ne.symm h1; have q2 := Ne.symm h2; have q3 := Ne.symm h3; have q4 := Ne.symm h4; have q5 := Ne.symm h5
  have q6 := Ne.symm h6; have q7 := Ne.symm h7; have q8 := Ne.symm h8; have q9 := Ne.symm h9; have q10 := Ne.symm h10
  have q11 := Ne.symm h11; have q12 := Ne.symm h12; have q13 := Ne.symm h13; have q14 := Ne.symm h14; have q15 := Ne.symm h15
  generalize hm1 : (Finsupp.single (sH, (none : Option PInfo)) 1 + (Finsupp.single (sH, none) 1 + Finsupp.single (bV, none) 1) : Mode →₀ ℕ) = m1
  generalize hm2 : (Finsupp.single (aH, (none : Option PInfo)) 1 + (Finsupp.single (aH, none) 1 + Finsupp.single (bV, none) 1) : Mode →₀ ℕ) = m2
  generalize hm3 : (Finsupp.single (sV, (none : Option PInfo)) 1 + (Finsupp.single (sV, none) 1 + Finsupp.single (bH, none) 1) : Mode →₀ ℕ) = m3
  generalize hm4 : (Finsupp.single (aV, (none : Option PInfo)) 1 + (Finsupp.single (aV, none) 1 + Finsupp.single (bH, none) 1) : Mode →₀ ℕ) = m4
  generalize hm5 : (Finsupp.single (sH, (none : Option PInfo)) 1 + (Finsupp.single (sV, none) 1 + Finsupp.single (bV, none) 1) : Mode →₀ ℕ) = m5
  generalize hm6 : (Finsupp.single (sH, (none : Option PInfo)) 1 + (Finsupp.single (sV, none) 1 + Finsupp.single (bH, none) 1) : Mode →₀ ℕ) = m6
  generalize hm7 : (Finsupp.single (sH, (none : Option PInfo)) 1 + (Finsupp.single (aV, none) 1 + Finsupp.single (bH, none) 1) : Mode →₀ ℕ) = m7
  generalize hm8 : (Finsupp.single (sH, (none : Option PInfo)) 1 + (Finsupp.single (aV, none) 1 + Finsupp.single (bV, none) 1) : Mode →₀ ℕ) = m8
  generalize hm9 : (Finsupp.single (aH, (none : Option PInfo)) 1 + (Finsupp.single (sV, none) 1 + Finsupp.single (bH, none) 1) : Mode →₀ ℕ) = m9
  generalize hm10 : (Finsupp.single (aH, (none : Option PInfo)) 1 + (Finsupp.single (sV, none) 1 + Finsupp.single (bV, none) 1) : Mode →₀ ℕ) = m10
  generalize hm11 : (Finsupp.single (aH, (none : Option PInfo)) 1 + (Finsupp.single (aV, none) 1 + Finsupp.single (bH, none) 1) : Mode →₀ ℕ) = m11
  generalize hm12 : (Finsupp.single (aH, (none : Option PInfo)) 1 + (Finsupp.single (aV, none) 1 + Finsupp.single (bV, none) 1) : Mode →₀ ℕ) = m12
  -- photon numbers as vectors
  let V : (Mode →₀ ℕ) → List ℕ := fun e => [sH, sV, aH, aV, bH].map (fun x => e (x, none))
  have v1 : V m1 = [2, 0, 0, 0, 0] := by rw [← hm1]; simp [V, Finsupp.single_apply, h1, h2, h3, h4, h5, h6, h7, h8, h9, h10, h11, h12, h13, h14, h15, q1, q2, q3, q4, q5, q6, q7, q8, q9, q10, q11, q12, q13, q14, q15]
  have v2 : V m2 = [0, 0, 2, 0, 0] := by rw [← hm2]; simp [V, Finsupp.single_apply, h1, h2, h3, h4, h5, h6, h7, h8, h9, h10, h11, h12, h13, h14, h15, q1, q2, q3, q4, q5, q6, q7, q8, q9, q10, q11, q12, q13, q14, q15]
  have v3 : V m3 = [0, 2, 0, 0, 1] := by rw [← hm3]; simp [V, Finsupp.single_apply, h1, h2, h3, h4, h5, h6, h7, h8, h9, h10, h11, h12, h13, h14, h15, q1, q2, q3, q4, q5, q6, q7, q8, q9, q10, q11, q12, q13, q14, q15]
  have v4 : V m4 = [0, 0, 0, 2, 1] := by rw [← hm4]; simp [V, Finsupp.single_apply, h1, h2, h3, h4, h5, h6, h7, h8, h9, h10, h11, h12, h13, h14, h15, q1, q2, q3, q4, q5, q6, q7, q8, q9, q10, q11, q12, q13, q14, q15]
  have v5 : V m5 = [1, 1, 0, 0, 0] := by rw [← hm5]; simp [V, Finsupp.single_apply, h1, h2, h3, h4, h5, h6, h7, h8, h9, h10, h11, h12, h13, h14, h15, q1, q2, q3, q4, q5, q6, q7, q8, q9, q10, q11, q12, q13, q14, q15]
  have v6 : V m6 = [1, 1, 0, 0, 1] := by rw [← hm6]; simp [V, Finsupp.single_apply, h1, h2, h3, h4, h5, h6, h7, h8, h9, h10, h11, h12, h13, h14, h15, q1, q2, q3, q4, q5, q6, q7, q8, q9, q10, q11, q12, q13, q14, q15]
  have v7 : V m7 = [1, 0, 0, 1, 1] := by rw [← hm7]; simp [V, Finsupp.single_apply, h1, h2, h3, h4, h5, h6, h7, h8, h9, h10, h11, h12, h13, h14, h15, q1, q2, q3, q4, q5, q6, q7, q8, q9, q10, q11, q12, q13, q14, q15]
  have v8 : V m8 = [1, 0, 0, 1, 0] := by rw [← hm8]; simp [V, Finsupp.single_apply, h1, h2, h3, h4, h5, h6, h7, h8, h9, h10, h11, h12, h13, h14, h15, q1, q2, q3, q4, q5, q6, q7, q8, q9, q10, q11, q12, q13, q14, q15]
  have v9 : V m9 = [0, 1, 1, 0, 1] := by rw [← hm9]; simp [V, Finsupp.single_apply, h1, h2, h3, h4, h5, h6, h7, h8, h9, h10, h11, h12, h13, h14, h15, q1, q2, q3, q4, q5, q6, q7, q8, q9, q10, q11, q12, q13, q14, q15]
  have v10 : V m10 = [0, 1, 1, 0, 0] := by rw [← hm10]; simp [V, Finsupp.single_apply, h1, h2, h3, h4, h5, h6, h7, h8, h9, h10, h11, h12, h13, h14, h15, q1, q2, q3, q4, q5, q6, q7, q8, q9, q10, q11, q12, q13, q14, q15]
  have v11 : V m11 = [0, 0, 1, 1, 1] := by rw [← hm11]; simp [V, Finsupp.single_apply, h1, h2, h3, h4, h5, h6, h7, h8, h9, h10, h11, h12, h13, h14, h15, q1, q2, q3, q4, q5, q6, q7, q8, q9, q10, q11, q12, q13, q14, q15]
  have v12 : V m12 = [0, 0, 1, 1, 0] := by rw [← hm12]; simp [V, Finsupp.single_apply, h1, h2, h3, h4, h5, h6, h7, h8, h9, h10, h11, h12, h13, h14, h15, q1, q2, q3, q4, q5, q6, q7, q8, q9, q10, q11, q12, q13, q14, q15]
  have pick : ∀ (a : List ℕ) (m : Mode →₀ ℕ), V m = a → V d ≠ a → m ≠ d := by
    rintro a m rfl h rfl; exact h rfl
  have n1 := pick _ _ v1; have n2 := pick _ _ v2; have n3 := pick _ _ v3; have n4 := pick _ _ v4
  have n5 := pick _ _ v5; have n6 := pick _ _ v6; have n7 := pick _ _ v7; have n8 := pick _ _ v8
  have n9 := pick _ _ v9; have n10 := pick _ _ v10; have n11 := pick _ _ v11; have n12 := pick _ _ v12
  generalize V d = a at n1 n2 n3 n4 n5 n6 n7 n8 n9 n10 n11 n12
  clear v1 v2 v3 v4 v5 v6 v7 v8 v9 v10 v11 v12 pick
  clear hm1 hm2 hm3 hm4 hm5 hm6 hm7 hm8 hm9 hm10 hm11 hm12
  by_cases a1 : a = [2, 0, 0, 0, 0]
  · subst a1
    rw [if_neg (n2 (by decide)), if_neg (n3 (by decide)), if_neg (n4 (by decide)), if_neg (n5 (by decide)), if_neg (n6 (by decide)), if_neg (n7 (by decide)), if_neg (n8 (by decide)), if_neg (n9 (by decide)),
      if_neg (n10 (by decide)), if_neg (n11 (by decide)), if_neg (n12 (by decide))]
    split <;> simp
  rw [if_neg (n1 a1)]
  by_cases a2 : a = [0, 0, 2, 0, 0]
  · subst a2
    rw [if_neg (n3 (by decide)), if_neg (n4 (by decide)), if_neg (n5 (by decide)), if_neg (n6 (by decide)), if_neg (n7 (by decide)), if_neg (n8 (by decide)), if_neg (n9 (by decide)),
      if_neg (n10 (by decide)), if_neg (n11 (by decide)), if_neg (n12 (by decide))]
    split <;> simp
  rw [if_neg (n2 a2)]
  by_cases a3 : a = [0, 2, 0, 0, 1]
  · subst a3
    rw [if_neg (n4 (by decide)), if_neg (n5 (by decide)), if_neg (n6 (by decide)), if_neg (n7 (by decide)), if_neg (n8 (by decide)), if_neg (n9 (by decide)),
      if_neg (n10 (by decide)), if_neg (n11 (by decide)), if_neg (n12 (by decide))]
    split <;> simp
  rw [if_neg (n3 a3)]
  by_cases a4 : a = [0, 0, 0, 2, 1]
  · subst a4
    rw [if_neg (n5 (by decide)), if_neg (n6 (by decide)), if_neg (n7 (by decide)), if_neg (n8 (by decide)), if_neg (n9 (by decide)),
      if_neg (n10 (by decide)), if_neg (n11 (by decide)), if_neg (n12 (by decide))]
    split <;> simp
  rw [if_neg (n4 a4)]
  by_cases a5 : a = [1, 1, 0, 0, 0]
  · subst a5
    rw [if_neg (n6 (by decide)), if_neg (n7 (by decide)), if_neg (n8 (by decide)), if_neg (n9 (by decide)),
      if_neg (n10 (by decide)), if_neg (n11 (by decide)), if_neg (n12 (by decide))]
    split <;> simp
  rw [if_neg (n5 a5)]
  by_cases a6 : a = [1, 1, 0, 0, 1]
  · subst a6
    rw [if_neg (n7 (by decide)), if_neg (n8 (by decide)), if_neg (n9 (by decide)), if_neg (n10 (by decide)), if_neg (n11 (by decide)), if_neg (n12 (by decide))]
    split <;> simp
  rw [if_neg (n6 a6)]
  by_cases a7 : a = [1, 0, 0, 1, 1]
  · subst a7
    rw [if_neg (n8 (by decide)), if_neg (n9 (by decide)), if_neg (n10 (by decide)), if_neg (n11 (by decide)), if_neg (n12 (by decide))]
    split <;> simp
  rw [if_neg (n7 a7)]
  by_cases a8 : a = [1, 0, 0, 1, 0]
  · subst a8
    rw [if_neg (n9 (by decide)), if_neg (n10 (by decide)), if_neg (n11 (by decide)), if_neg (n12 (by decide))]
    split <;> simp
  rw [if_neg (n8 a8)]
  by_cases a9 : a = [0, 1, 1, 0, 1]
  · subst a9
    rw [if_neg (n10 (by decide)), if_neg (n11 (by decide)), if_neg (n12 (by decide))]
    split <;> simp
  rw [if_neg (n9 a9)]
  by_cases a10 : a = [0, 1, 1, 0, 0]
  · subst a10
    rw [if_neg (n11 (by decide)), if_neg (n12 (by decide))]
    split <;> simp
  rw [if_neg (n10 a10)]
  by_cases a11 : a = [0, 0, 1, 1, 1]
  · subst a11
    rw [if_neg (n12 (by decide))]
    split <;> simp
  rw [if_neg (n11 a11)]
  split <;> simp

/-- one photon in each of three channels -/
def threePh (C i j b : ℕ) : Vals := (List.range C).map (fun x => (if i = x then 1 else 0) + ((if j = x then 1 else 0) + (if b = x then 1 else 0)))

theorem threePh_getD {C i j b x : ℕ} (hx : x < C) : (threePh C i j b).getD x 0 = (if i = x then 1 else 0) + ((if j = x then 1 else 0) + (if b = x then 1 else 0)) := by
  unfold threePh
  simp [List.getD_eq_getElem?_getD, hx]

theorem threePh_le {C i j b : ℕ} (h1 : i ≠ j) (h2 : i ≠ b) (h3 : j ≠ b) : ∀ n ∈ threePh C i j b, n ≤ 1 := by
  intro n hn
  obtain ⟨x, -, rfl⟩ := List.mem_map.1 hn
  by_cases e1 : i = x
  · subst e1; simp [Ne.symm h1, Ne.symm h2]
  · by_cases e2 : j = x
    · subst e2; simp [e1, Ne.symm h3]
    · simp [e1, e2]; split <;> simp

theorem threePh_valid {g : Cfg} (hL : 2 ≤ g.L) {i j b : ℕ} (h1 : i ≠ j) (h2 : i ≠ b) (h3 : j ≠ b) : Valid g (threePh g.C i j b) :=
  ⟨by simp [threePh], fun n hn => by have := threePh_le h1 h2 h3 n hn; omega⟩

theorem threePh_fact {C i j b : ℕ} (h1 : i ≠ j) (h2 : i ≠ b) (h3 : j ≠ b) : ((threePh C i j b).map Nat.factorial).prod = 1 := by
  refine List.prod_eq_one fun n hn => ?_
  obtain ⟨k, hk, rfl⟩ := List.mem_map.1 hn
  have := threePh_le h1 h2 h3 k hk
  interval_cases k <;> rfl

theorem amplitudeIn_three {g : Cfg} {i j b : ℕ} (hi : i < g.C) (hj : j < g.C) (hb : b < g.C) (h1 : i ≠ j) (h2 : i ≠ b) (h3 : j ≠ b) (a : ℂ) {w : Vals} (hw : Valid g w) :
    amplitudeIn (addPhoton i * (addPhoton j * (addPhoton b * C a))) none w = if w = threePh g.C i j b then a else 0 := by
  classical
  unfold amplitudeIn
  rw [three_mono, coeff_monomial]
  have iff : Finsupp.single (i, (none : Option PInfo)) 1 + (Finsupp.single (j, none) 1 + Finsupp.single (b, none) 1) = monoOf none w ↔ w = threePh g.C i j b := by
    constructor
    · intro e
      apply List.ext_getElem (by rw [hw.1]; simp [threePh])
      intro x hx1 hx2
      have hx : x < g.C := hw.1 ▸ hx1
      have := monoOf_apply none w x
      rw [← e] at this
      have e2 := threePh_getD (i := i) (j := j) (b := b) hx
      rw [List.getD_eq_getElem _ _ hx1] at this
      rw [List.getD_eq_getElem _ _ hx2] at e2
      rw [e2, ← this]
      simp [Finsupp.single_apply]
    · rintro rfl
      have len : (threePh g.C i j b).length = g.C := by simp [threePh]
      unfold monoOf
      rw [len]
      have : ∀ ch ∈ Finset.range g.C, (Finsupp.single (ch, (none : Option PInfo)) ((threePh g.C i j b).getD ch 0) : Mode →₀ ℕ) =
          (if i = ch then Finsupp.single (ch, none) 1 else 0) + ((if j = ch then Finsupp.single (ch, none) 1 else 0) + (if b = ch then Finsupp.single (ch, none) 1 else 0)) := by
        intro ch hch
        rw [threePh_getD (Finset.mem_range.1 hch)]
        rw [Finsupp.single_add, Finsupp.single_add]
        congr 1
        · split <;> simp
        · congr 1 <;> split <;> simp
      rw [Finset.sum_congr rfl this, Finset.sum_add_distrib, Finset.sum_add_distrib, Finset.sum_ite_eq, Finset.sum_ite_eq, Finset.sum_ite_eq,
        if_pos (Finset.mem_range.2 hi), if_pos (Finset.mem_range.2 hj), if_pos (Finset.mem_range.2 hb)]
  by_cases h : w = threePh g.C i j b
  · rw [if_pos (iff.2 h), if_pos h, h, threePh_fact h1 h2 h3]
    simp
  · rw [if_neg (fun e => h (iff.1 e)), if_neg h, zero_mul]

/-- probability of a two-term result -/
theorem findProb_two {g : Cfg} (hg : g.Ok) (hL : 2 ≤ g.L) {i j b b' : ℕ} (hi : i < g.C) (hj : j < g.C) (hb : b < g.C) (hb' : b' < g.C) (h1 : i ≠ j) (h2 : i ≠ b) (h3 : j ≠ b) (h2' : i ≠ b') (h3' : j ≠ b')
    (hbb : b ≠ b') {P : MvPolynomial Mode ℂ} {opt o : List ℕ} {κ u v : ℂ}
    (h : foundPart opt o P = C κ * (addPhoton i * (addPhoton j * (addPhoton b * C u + addPhoton b' * C v)))) :
    findProb g 0 P opt o = ‖κ‖ ^ 2 * (‖u‖ ^ 2 + ‖v‖ ^ 2) := by
  classical
  have e : findProb g 0 P opt o = ∑ k ∈ Finset.range g.size, ‖amplitudeIn (foundPart opt o P) none (g.valuesFromIndex k)‖ ^ 2 := by
    rw [findProb_sum hg.1]
    refine Finset.sum_congr rfl fun k _ => ?_
    rw [amplitudeIn_foundPart]
    by_cases h1 : outcomeOf opt (g.valuesFromIndex k) = o
    · rw [if_pos ⟨h1, by positivity⟩, if_pos h1]
    · rw [if_neg (fun k => h1 k.1), if_neg h1]; simp
  rw [e, h]
  have v1 := threePh_valid (g := g) hL h1 h2 h3
  have v2 := threePh_valid (g := g) hL h1 h2' h3'
  have hne : threePh g.C i j b ≠ threePh g.C i j b' := by
    intro e
    have e1 := threePh_getD (i := i) (j := j) (b := b) hb
    rw [e, threePh_getD hb] at e1
    simp [h2, h3, Ne.symm hbb] at e1
  have term : ∀ k ∈ Finset.range g.size, ‖amplitudeIn (C κ * (addPhoton i * (addPhoton j * (addPhoton b * C u + addPhoton b' * C v)))) none (g.valuesFromIndex k)‖ ^ 2
      = (if k = g.indexOf (threePh g.C i j b) then ‖κ‖ ^ 2 * ‖u‖ ^ 2 else 0) + (if k = g.indexOf (threePh g.C i j b') then ‖κ‖ ^ 2 * ‖v‖ ^ 2 else 0) := by
    intro k hk
    have hk' := Finset.mem_range.1 hk
    have hv := g.valid_valuesFromIndex hg.1 k
    have hidx : ∀ w, Valid g w → (g.valuesFromIndex k = w ↔ k = g.indexOf w) := by
      intro w hw
      constructor
      · rintro rfl; exact (g.indexOf_valuesFromIndex hk').symm
      · rintro rfl; exact g.valuesFromIndex_indexOf hw
    have hsum : amplitudeIn (addPhoton i * (addPhoton j * (addPhoton b * C u + addPhoton b' * C v))) none (g.valuesFromIndex k) =
        amplitudeIn (addPhoton i * (addPhoton j * (addPhoton b * C u))) none (g.valuesFromIndex k) + amplitudeIn (addPhoton i * (addPhoton j * (addPhoton b' * C v))) none (g.valuesFromIndex k) := by
      unfold amplitudeIn
      rw [mul_add, mul_add, coeff_add, add_mul]
    rw [amplitudeIn_C_mul, hsum, amplitudeIn_three hi hj hb h1 h2 h3 u hv, amplitudeIn_three hi hj hb' h1 h2' h3' v hv, norm_mul, mul_pow]
    simp only [hidx _ v1, hidx _ v2]
    by_cases e1 : k = g.indexOf (threePh g.C i j b)
    · have : k ≠ g.indexOf (threePh g.C i j b') := by
        intro e2
        exact hne (by rw [← (hidx _ v1).2 e1, (hidx _ v2).2 e2])
      rw [if_pos e1, if_neg this, if_pos e1, if_neg this]
      simp
    · rw [if_neg e1, if_neg e1]
      split <;> simp
  rw [Finset.sum_congr rfl term, Finset.sum_add_distrib, Finset.sum_ite_eq', Finset.sum_ite_eq', if_pos (Finset.mem_range.2 (g.indexOf_lt v1)), if_pos (Finset.mem_range.2 (g.indexOf_lt v2))]
  ring

end Verif
