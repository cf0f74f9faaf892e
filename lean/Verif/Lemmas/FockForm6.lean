/-
Shifting photons in time. Lemmas for C105.
-/
import Verif.Lemmas.FockForm4

namespace Verif.Fockform
open MvPolynomial Spec

/-- The inner product of two photons, as a complex number. -/
noncomputable def innerK (m m' : Mode) : ℂ := ((photonInner m m' : ℝ) : ℂ)

/-- The inner product of two monomials with the same number of photons. -/
theorem form_inner {a b : Mode →₀ ℕ} (hlen : (photonList b).length = (photonList a).length) :
    form innerK (monomial a 1) (monomial b 1) = ((overlapPermanent (photonList a) (photonList b) : ℝ) : ℂ) := by
  have e : (monomial b 1 : MvPolynomial Mode ℂ) = ∏ i : Fin (photonList a).length, X ((photonList b).getD i (0, none)) := by
    rw [monomial_photonList]
    refine Fintype.prod_equiv (finCongr hlen) _ _ (fun i => ?_)
    rw [List.getD_eq_getElem _ _ (by rw [finCongr_apply, Fin.val_cast]; exact i.2)]
    rfl
  rw [e, monomial_photonList, form_prod]
  unfold overlapPermanent Matrix.permanent innerK
  push_cast
  rfl

theorem bornProb_inner (v : Vals) (P : MvPolynomial Mode ℂ) : bornProb v P = ‖sq innerK (part v P)‖ := by
  classical
  unfold bornProb
  rw [sq_part]
  congr 1
  refine Finset.sum_congr (by congr) (fun a ha => Finset.sum_congr (by congr) (fun b hb => ?_))
  rw [Finset.mem_filter] at ha hb
  have hn : Finsupp.mapDomain Prod.fst a = Finsupp.mapDomain Prod.fst b := by
    ext ch
    rw [ha.2 ch, hb.2 ch]
  rw [form_inner (same_length hn.symm), overlapPermanent_symm (same_length hn)]

open Classical in
theorem coeff_part (v : Vals) (P : MvPolynomial Mode ℂ) (a : Mode →₀ ℕ) : (part v P).coeff a = if HasNumbers v a then P.coeff a else 0 := by
  unfold part
  rw [coeff_sum]
  simp only [coeff_monomial]
  rw [Finset.sum_ite_eq']
  by_cases h : HasNumbers v a
  · rw [if_pos h]
    by_cases ha : a ∈ P.support
    · rw [if_pos (Finset.mem_filter.2 ⟨ha, h⟩)]
    · rw [if_neg (fun hm => ha (Finset.mem_filter.1 hm).1), notMem_support_iff.1 ha]
  · rw [if_neg h, if_neg (fun hm => h (Finset.mem_filter.1 hm).2)]

theorem part_add (v : Vals) (P Q : MvPolynomial Mode ℂ) : part v (P + Q) = part v P + part v Q := by
  classical
  ext a
  rw [coeff_add, coeff_part, coeff_part, coeff_part, coeff_add]
  split
  · rfl
  · rw [add_zero]

open Classical in
theorem part_monomial (v : Vals) (a : Mode →₀ ℕ) (c : ℂ) : part v (monomial a c) = if HasNumbers v a then monomial a c else 0 := by
  ext b
  rw [coeff_part, coeff_monomial]
  by_cases e : a = b
  · subst e
    by_cases h : HasNumbers v a
    · rw [if_pos h, if_pos h, coeff_monomial]
    · rw [if_neg h, if_neg h, coeff_zero]
  · rw [if_neg e, ite_self]
    by_cases h : HasNumbers v a
    · rw [if_pos h, coeff_monomial, if_neg e]
    · rw [if_neg h, coeff_zero]

theorem part_rename (v : Vals) (f : Mode → Mode) (hf : ∀ m, (f m).1 = m.1) (P : MvPolynomial Mode ℂ) : part v (rename f P) = rename f (part v P) := by
  classical
  induction P using MvPolynomial.induction_on' with
  | monomial a c =>
    have hn : HasNumbers v (Finsupp.mapDomain f a) ↔ HasNumbers v a := by
      unfold HasNumbers
      rw [← Finsupp.mapDomain_comp]
      have : (Prod.fst ∘ f) = (Prod.fst : Mode → ℕ) := funext hf
      rw [this]
    rw [rename_monomial, part_monomial, part_monomial]
    by_cases h : HasNumbers v a
    · rw [if_pos h, if_pos (hn.2 h), rename_monomial]
    · rw [if_neg h, if_neg (fun x => h (hn.1 x)), map_zero]
  | add P Q hP hQ => rw [map_add, part_add, part_add, hP, hQ, map_add]

/-- Moving the photons changes the probability only through the overlaps. -/
theorem bornProb_rename {K : Mode → Mode → ℂ} (f : Mode → Mode) (hf : ∀ m, (f m).1 = m.1) (hK : ∀ m m', innerK (f m) (f m') = K m m') (v : Vals) (P : MvPolynomial Mode ℂ) :
    bornProb v (rename f P) = ‖sq K (part v P)‖ := by
  rw [bornProb_inner, part_rename v f hf, sq_rename f hK]

/-- The photons in the channels `chs` are moved by `s` in time. -/
noncomputable def shiftMode (chs : List ℕ) (s : ℝ) (m : Mode) : Mode := (m.1, some ⟨delayOf m.2 + (if m.1 ∈ chs then s else 0), widthOf m.2⟩)

theorem inner_shift (chs : List ℕ) (s : ℝ) (m m' : Mode) : innerK (shiftMode chs s m) (shiftMode chs s m') = innerK (shiftMode chs 0 m) (shiftMode chs 0 m') := by
  unfold innerK photonInner shiftMode
  by_cases h : m.1 = m'.1
  · simp only [h, if_true, photonOverlap, add_sub_add_right_eq_sub]
  · simp only [h, if_false]

theorem bornProb_shift (chs : List ℕ) (s s' : ℝ) (v : Vals) (P : MvPolynomial Mode ℂ) : bornProb v (rename (shiftMode chs s) P) = bornProb v (rename (shiftMode chs s') P) := by
  rw [bornProb_rename (K := fun m m' => innerK (shiftMode chs 0 m) (shiftMode chs 0 m')) (shiftMode chs s) (fun _ => rfl) (inner_shift chs s),
    bornProb_rename (K := fun m m' => innerK (shiftMode chs 0 m) (shiftMode chs 0 m')) (shiftMode chs s') (fun _ => rfl) (inner_shift chs s')]

theorem gate_shift (chs : List ℕ) (s : ℝ) {M : Opt} {h c : ℕ} (hm : h ∈ chs ↔ c ∈ chs) (P : MvPolynomial Mode ℂ) :
    gateSubst M h c (rename (shiftMode chs s) P) = rename (shiftMode chs s) (gateSubst M h c P) := by
  have : (gateSubst M h c).comp (rename (shiftMode chs s)) = ((rename (shiftMode chs s)).comp (gateSubst M h c) : MvPolynomial Mode ℂ →ₐ[ℂ] MvPolynomial Mode ℂ) := by
    apply MvPolynomial.algHom_ext
    intro m
    have hx : ∀ (ch : ℕ), (if ch ∈ chs ↔ m.1 ∈ chs then shiftMode chs s (ch, m.2) = (ch, (shiftMode chs s m).2) else True) := by
      intro ch
      by_cases e : ch ∈ chs ↔ m.1 ∈ chs
      · rw [if_pos e]
        unfold shiftMode
        simp only [e]
      · rw [if_neg e]
        trivial
    rw [AlgHom.comp_apply, AlgHom.comp_apply, rename_X]
    unfold gateSubst
    rw [aeval_X, aeval_X]
    have e1 : (shiftMode chs s m).1 = m.1 := rfl
    rw [e1]
    by_cases a : m.1 = h
    · have h1 := hx h
      have h2 := hx c
      rw [if_pos (by rw [a])] at h1
      rw [if_pos (by rw [a, hm])] at h2
      rw [if_pos a, if_pos a, map_add, map_mul, map_mul, rename_C, rename_C, rename_X, rename_X, h1, h2]
    · rw [if_neg a, if_neg a]
      by_cases b : m.1 = c
      · have h1 := hx h
        have h2 := hx c
        rw [if_pos (by rw [b, hm])] at h1
        rw [if_pos (by rw [b])] at h2
        rw [if_pos b, if_pos b, map_add, map_mul, map_mul, rename_C, rename_C, rename_X, rename_X, h1, h2]
      · rw [if_neg b, if_neg b, rename_X]
  exact congrArg (fun φ : MvPolynomial Mode ℂ →ₐ[ℂ] MvPolynomial Mode ℂ => φ P) this

theorem optics_shift (chs : List ℕ) (s : ℝ) {gates : List Gate} (hm : ∀ e ∈ gates, (e.h ∈ chs ↔ e.c ∈ chs)) (P : MvPolynomial Mode ℂ) :
    opticsSubst gates (rename (shiftMode chs s) P) = rename (shiftMode chs s) (opticsSubst gates P) := by
  unfold opticsSubst
  induction gates generalizing P with
  | nil => rfl
  | cons e gates ih => rw [List.foldl_cons, List.foldl_cons, gate_shift chs s (hm e List.mem_cons_self), ih (fun x hx => hm x (List.mem_cons_of_mem _ hx))]

theorem circuit_shift (chs : List ℕ) (s : ℝ) (cl : List ℝ) {es : List Element} (hm : ∀ gates, .optics gates ∈ es → ∀ e ∈ gates, (e.h ∈ chs ↔ e.c ∈ chs)) (P : MvPolynomial Mode ℂ) :
    circuitSubst cl es (rename (shiftMode chs s) P) = rename (shiftMode chs s) (circuitSubst cl es P) := by
  unfold circuitSubst
  induction es generalizing P with
  | nil => rfl
  | cons e es ih =>
    have : elementSubst cl (rename (shiftMode chs s) P) e = rename (shiftMode chs s) (elementSubst cl P e) := by
      cases e with
      | optics gates => exact optics_shift chs s (hm gates List.mem_cons_self) P
      | delay chs' d w =>
        show rename _ (rename _ P) = rename _ (rename (delayMode chs' (delayFor cl d) w) P)
        rw [rename_rename, rename_rename]
        congr 2
        funext m
        simp only [Function.comp_apply, delayMode, shiftMode, delayOf, widthOf, Option.map_some, Option.getD_some]
        congr 3
        exact add_sub_right_comm _ _ _
      | width chs' w =>
        show rename _ (rename _ P) = rename _ (rename (widthMode chs' w) P)
        rw [rename_rename, rename_rename]
        congr 2
    rw [List.foldl_cons, List.foldl_cons, this, ih (fun gates h => hm gates (List.mem_cons_of_mem _ h))]

theorem delay_shift (chs : List ℕ) (t w : ℝ) (P : MvPolynomial Mode ℂ) : rename (delayMode chs t w) P = rename (shiftMode chs (-t)) (rename (delayMode chs 0 w) P) := by
  rw [rename_rename]
  congr 2
  funext m
  simp only [Function.comp_apply, delayMode, shiftMode, delayOf, widthOf, Option.map_some, Option.getD_some]
  by_cases h : m.1 ∈ chs
  · simp only [h, if_true]
    congr 3
    ring
  · simp only [h, if_false]
    rw [add_zero]

/-- The amount of the delay does not matter when the elements after it do not mix delayed and other channels. -/
theorem bornProb_delay (cl : List ℝ) (es1 es2 : List Element) (chs : List ℕ) (d d' : DelaySource) (w : ℝ) (hm : ∀ gates, .optics gates ∈ es2 → ∀ e ∈ gates, (e.h ∈ chs ↔ e.c ∈ chs))
    (P : MvPolynomial Mode ℂ) (v : Vals) :
    bornProb v (circuitSubst cl (es1 ++ .delay chs d w :: es2) P) = bornProb v (circuitSubst cl (es1 ++ .delay chs d' w :: es2) P) := by
  have h : ∀ d'' : DelaySource, circuitSubst cl (es1 ++ .delay chs d'' w :: es2) P =
      rename (shiftMode chs (-(delayFor cl d''))) (circuitSubst cl es2 (rename (delayMode chs 0 w) (circuitSubst cl es1 P))) := by
    intro d''
    rw [← circuit_shift chs _ cl hm, ← delay_shift]
    unfold circuitSubst
    rw [List.foldl_append, List.foldl_cons]
    rfl
  rw [h d, h d', bornProb_shift chs _ (-(delayFor cl d'))]

theorem bornOutcome_delay (g : Cfg) (opt o : List ℕ) (cl : List ℝ) (es1 es2 : List Element) (chs : List ℕ) (d d' : DelaySource) (w : ℝ) (hm : ∀ gates, .optics gates ∈ es2 → ∀ e ∈ gates, (e.h ∈ chs ↔ e.c ∈ chs))
    (P : MvPolynomial Mode ℂ) :
    bornOutcome g opt o (circuitSubst cl (es1 ++ .delay chs d w :: es2) P) = bornOutcome g opt o (circuitSubst cl (es1 ++ .delay chs d' w :: es2) P) := by
  unfold bornOutcome
  refine finsum_congr (fun v => finsum_congr (fun _ => ?_))
  exact bornProb_delay cl es1 es2 chs d d' w hm P v

end Verif.Fockform
