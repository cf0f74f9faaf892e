/-
Property C121: photon pairs.
-/
import Verif.Lemmas.Pair
import Verif.Props.Born
import Verif.Props.Plot

namespace Verif.Props
open Verif Spec

theorem pair_sendable {g : Cfg} {m : ℕ} {q : QState} (hL : 3 ≤ g.L) (hq : Measurable g m q) (hne : q.comps ≠ []) {B : ℕ → ℕ → ℂ} (hs : PhotonPair g q B) : Sendable g m q :=
  ⟨hq, hne, fun p hp v hv hval => by rw [hs.two p hp v hval hv]; omega⟩

theorem outcome_two_photons {C i j : ℕ} {opt : List ℕ} (hopt : ∀ x ∈ opt, x < C) : outcomeOf opt (twoPhotons C i j) = foundPair opt i j := by
  unfold outcomeOf foundPair
  exact List.map_congr_left fun x hx => twoPhotons_getD (hopt x hx)

/-- **C121 (partial)** Two photons with any wave function `B` (also entangled) sent through optical elements and measured: they are found in the channels `i` and `j` with the squared modulus of
the amplitude that results if both photons go through the elements like classical fields and both assignments of the photons to the channels interfere (0 instead of a probability below the threshold).
Missing: channel pairs with first channel >= 2 and second channel 0 (C07). -/
theorem C121_pair_partial (env : ℕ → Circ) (rnd : ℕ → ℕ → Bool → ℕ → ℕ → ℕ) (k : ℕ) (c : Circ) (hc : env k = c) (hg : c.g.Ok) (hL : 3 ≤ c.g.L) (ht : 0 < c.thr)
    (gates : List Gate) (n : Opt × List ℕ) (l : List (Opt × List ℕ)) (hu : LosslessElements c.g gates (n :: l))
    (opt cls : List ℕ) (hk : c.nodes = opticals (n :: l) ++ [.measurement opt cls]) (hopt : ∀ x ∈ opt, x < c.g.C) (hlen : cls.length = opt.length) (hnd : cls.Nodup) (hcls : ∀ x ∈ cls, x < c.m)
    (id : List Char) (q : QState) (hq : Measurable c.g c.m q) (hne : q.comps ≠ []) (B : ℕ → ℕ → ℂ) (hs : PhotonPair c.g q B) (fuel : ℕ) (hf : l.length + 2 < fuel) :
    ∃ out, evalAll env rnd fuel k [(id, q)] = some out ∧ ∀ v : List ℕ,
      probOf out (fun s => s.initial = q.initial ∧ Shown (cls.map (fun n : ℕ => (n : ℤ))) s (v.map (fun n : ℕ => (n : ℝ)))) =
        q.cum * open Classical in ∑ j ∈ Finset.range c.g.C, ∑ i ∈ Finset.range (j + 1),
          if v = foundPair opt i j ∧ c.thr ≤ ‖pairAmp (pairAfter gates B) i j‖ ^ 2 then ‖pairAmp (pairAfter gates B) i j‖ ^ 2 else 0 := by
  classical
  obtain ⟨out, h1, h2⟩ := C117_born_partial env rnd k c hc hg ht gates n l hu opt cls hk hlen hnd hcls [(id, q)] (by simp) (by
    intro p hp
    rw [List.mem_singleton.1 hp]
    exact pair_sendable hL hq hne hs) fuel hf
  refine ⟨out, h1, fun v => ?_⟩
  rw [h2 q.initial v]
  simp only [List.map_cons, List.map_nil, List.sum_cons, List.sum_nil, add_zero, if_true]
  rw [statePoly_pair hL hq.wf hs, opticsSubst_pair hu.1]
  congr 1
  set B' := pairAfter gates B
  obtain ⟨a1, a2⟩ := amplitudeIn_pair hg hL B'
  rw [findProb_sum hg.1]
  have e : ∀ j ∈ Finset.range c.g.C, (∑ i ∈ Finset.range (j + 1), if v = foundPair opt i j ∧ c.thr ≤ ‖pairAmp B' i j‖ ^ 2 then ‖pairAmp B' i j‖ ^ 2 else 0)
      = ∑ i ∈ Finset.range c.g.C, if i ≤ j ∧ v = foundPair opt i j ∧ c.thr ≤ ‖pairAmp B' i j‖ ^ 2 then ‖pairAmp B' i j‖ ^ 2 else 0 := by
    intro j hj
    have hj' := Finset.mem_range.1 hj
    rw [← Finset.sum_subset (show Finset.range (j + 1) ⊆ Finset.range c.g.C from fun x hx => Finset.mem_range.2 (by have := Finset.mem_range.1 hx; omega))]
    · refine Finset.sum_congr rfl fun i hi => ?_
      have : i ≤ j := by have := Finset.mem_range.1 hi; omega
      simp [this]
    · intro x _ hx
      rw [if_neg]
      rintro ⟨h, -⟩
      exact hx (Finset.mem_range.2 (by omega))
  rw [Finset.sum_congr rfl e, ← Finset.sum_product' (f := fun j i => if i ≤ j ∧ v = foundPair opt i j ∧ c.thr ≤ ‖pairAmp B' i j‖ ^ 2 then ‖pairAmp B' i j‖ ^ 2 else 0)]
  set T := (Finset.range c.g.C ×ˢ Finset.range c.g.C).filter (fun p : ℕ × ℕ => p.2 ≤ p.1) with hT
  have memT : ∀ p : ℕ × ℕ, p ∈ T ↔ (p.1 < c.g.C ∧ p.2 < c.g.C) ∧ p.2 ≤ p.1 := by
    intro p
    simp [hT]
  have e2 : (∑ p ∈ Finset.range c.g.C ×ˢ Finset.range c.g.C, if p.2 ≤ p.1 ∧ v = foundPair opt p.2 p.1 ∧ c.thr ≤ ‖pairAmp B' p.2 p.1‖ ^ 2 then ‖pairAmp B' p.2 p.1‖ ^ 2 else 0)
      = ∑ p ∈ T, if v = foundPair opt p.2 p.1 ∧ c.thr ≤ ‖pairAmp B' p.2 p.1‖ ^ 2 then ‖pairAmp B' p.2 p.1‖ ^ 2 else 0 := by
    rw [hT, Finset.sum_filter]
    refine Finset.sum_congr rfl fun p _ => ?_
    by_cases h : p.2 ≤ p.1 <;> simp [h]
  rw [e2]
  have himg : T.image (fun p => c.g.indexOf (twoPhotons c.g.C p.2 p.1)) ⊆ Finset.range c.g.size := by
    intro i hi
    obtain ⟨p, -, rfl⟩ := Finset.mem_image.1 hi
    exact Finset.mem_range.2 (c.g.indexOf_lt (twoPhotons_valid hL _ _))
  rw [← Finset.sum_subset himg, Finset.sum_image]
  · refine Finset.sum_congr rfl fun p hp => ?_
    have hp' := (memT p).1 hp
    simp only [c.g.valuesFromIndex_indexOf (twoPhotons_valid hL _ _), a1 p.2 p.1 hp'.1.2 hp'.1.1, outcome_two_photons hopt]
    by_cases h : v = foundPair opt p.2 p.1
    · simp [h]
    · rw [if_neg (fun h' => h h'.1.symm), if_neg (fun h' => h h'.1)]
  · rintro ⟨j, i⟩ h1 ⟨b, a⟩ h2 h
    have h1 := (memT _).1 (Finset.mem_coe.1 h1)
    have h2 := (memT _).1 (Finset.mem_coe.1 h2)
    simp only at h1 h2
    have h' : twoPhotons c.g.C i j = twoPhotons c.g.C a b := by
      have := congrArg c.g.valuesFromIndex h
      simpa only [c.g.valuesFromIndex_indexOf (twoPhotons_valid hL _ _)] using this
    rcases twoPhotons_inj h2.1.2 h2.1.1 h1.1.2 h' with ⟨rfl, rfl⟩ | ⟨rfl, rfl⟩
    · rfl
    · have := h1.2
      have := h2.2
      simp only [Prod.mk.injEq]
      omega
  · intro k hk hnk
    rw [if_neg]
    rintro ⟨-, h⟩
    rw [a2 _ (c.g.valid_valuesFromIndex hg.1 k)] at h
    · simp at h; linarith
    · intro a b hab hb e
      refine hnk (Finset.mem_image.2 ⟨(b, a), (memT _).2 ⟨⟨hb, by simp only; omega⟩, hab⟩, ?_⟩)
      simp only
      rw [← e, c.g.indexOf_valuesFromIndex (Finset.mem_range.1 hk)]

theorem pairAmp_two_sided {a b c d : ℕ} {B : ℕ → ℕ → ℂ} (hB : ∀ i j, B i j ≠ 0 → (i = a ∨ i = b) ∧ (j = c ∨ j = d)) {i j : ℕ} (h : pairAmp B i j ≠ 0) :
    ((i = a ∨ i = b) ∧ (j = c ∨ j = d)) ∨ ((j = a ∨ j = b) ∧ (i = c ∨ i = d)) := by
  unfold pairAmp at h
  split_ifs at h with e
  · subst e
    exact Or.inl (hB i i (right_ne_zero_of_mul h))
  · by_cases h0 : B i j = 0
    · rw [h0, zero_add] at h
      exact Or.inr (hB j i h)
    · exact Or.inl (hB i j h0)

theorem foundPair_two_sided {C a b c d : ℕ} (h4 : FourChannels C a b c d) {i j : ℕ} (hi : i = a ∨ i = b) (hj : j = c ∨ j = d) :
    foundPair [a, c] i j = [if i = a then 1 else 0, if j = c then 1 else 0] := by
  obtain ⟨-, -, -, -, h1, h2, h3, h5, h6, h7⟩ := h4
  unfold foundPair
  rcases hi with rfl | rfl <;> rcases hj with rfl | rfl <;> simp [h1, h2, h3, h5, h6, h7, h1.symm, h2.symm, h3.symm, h5.symm, h6.symm, h7.symm]

theorem findProb_two_sided {g : Cfg} (hg : g.Ok) (hL : 3 ≤ g.L) {thr : ℝ} (ht : 0 < thr) {a b c d : ℕ} (h4 : FourChannels g.C a b c d) {B : ℕ → ℕ → ℂ}
    (hB : ∀ i j, B i j ≠ 0 → (i = a ∨ i = b) ∧ (j = c ∨ j = d)) {p r : ℕ} (hp : p = a ∨ p = b) (hr : r = c ∨ r = d) :
    findProb g thr (duoPoly g.C B) [a, c] [if p = a then 1 else 0, if r = c then 1 else 0] = if thr ≤ ‖B p r‖ ^ 2 then ‖B p r‖ ^ 2 else 0 := by
  obtain ⟨a1, a2⟩ := amplitudeIn_pair hg hL B
  have hopt : ∀ x ∈ [a, c], x < g.C := by simp [h4.ha, h4.hc]
  have hpC : p < g.C := by rcases hp with rfl | rfl; exacts [h4.ha, h4.hb]
  have hrC : r < g.C := by rcases hr with rfl | rfl; exacts [h4.hc, h4.hd]
  have hpr : p ≠ r := by
    rcases hp with rfl | rfl <;> rcases hr with rfl | rfl
    exacts [h4.ac, h4.ad, h4.bc, h4.bd]
  have hrp : B r p = 0 := by
    by_contra h
    obtain ⟨h1, -⟩ := hB r p h
    rcases h1 with rfl | rfl <;> rcases hr with e | e
    exacts [h4.ac e, h4.ad e, h4.bc e, h4.bd e]
  have hamp : amplitudeIn (duoPoly g.C B) none (twoPhotons g.C p r) = B p r := by
    rw [a1 p r hpC hrC, pairAmp, if_neg hpr, hrp, add_zero]
  rw [findProb_single hg ht _ _ _ (twoPhotons_valid hL p r) (by rw [outcome_two_photons hopt, foundPair_two_sided h4 hp hr]), hamp]
  intro w' hw' ho hne
  by_contra hz
  obtain ⟨i, j, hij, hj, rfl⟩ : ∃ i j, i ≤ j ∧ j < g.C ∧ w' = twoPhotons g.C i j := by
    by_contra hn
    push Not at hn
    exact hz (a2 w' hw' hn)
  rw [a1 i j (by omega) hj] at hz
  rw [outcome_two_photons hopt] at ho
  have key : ∀ i j, (i = a ∨ i = b) → (j = c ∨ j = d) → foundPair [a, c] i j = [if p = a then 1 else 0, if r = c then 1 else 0] → i = p ∧ j = r := by
    intro i j hi hj h
    rw [foundPair_two_sided h4 hi hj] at h
    obtain ⟨-, -, -, -, h1, h2, h3, h5, h6, h7⟩ := h4
    rcases hi with rfl | rfl <;> rcases hj with rfl | rfl <;> rcases hp with rfl | rfl <;> rcases hr with rfl | rfl <;>
      simp [h1, h2, h3, h5, h6, h7, h1.symm, h2.symm, h3.symm, h5.symm, h6.symm, h7.symm] at h ⊢
  rcases pairAmp_two_sided hB hz with ⟨h1, h2⟩ | ⟨h1, h2⟩
  · obtain ⟨rfl, rfl⟩ := key i j h1 h2 ho
    exact hne rfl
  · have : foundPair [a, c] j i = foundPair [a, c] i j := by unfold foundPair; exact List.map_congr_left fun x _ => add_comm _ _
    obtain ⟨rfl, rfl⟩ := key j i h1 h2 (this.trans ho)
    exact hne (twoPhotons_comm _ _ _)

theorem findProb_two_sided_other {g : Cfg} (hg : g.Ok) (hL : 3 ≤ g.L) {thr : ℝ} (ht : 0 < thr) {a b c d : ℕ} (h4 : FourChannels g.C a b c d) {B : ℕ → ℕ → ℂ}
    (hB : ∀ i j, B i j ≠ 0 → (i = a ∨ i = b) ∧ (j = c ∨ j = d)) {o : List ℕ} (ho : ∀ x y, x ≤ 1 → y ≤ 1 → o ≠ [x, y]) :
    findProb g thr (duoPoly g.C B) [a, c] o = 0 := by
  obtain ⟨a1, a2⟩ := amplitudeIn_pair hg hL B
  have hopt : ∀ x ∈ [a, c], x < g.C := by simp [h4.ha, h4.hc]
  refine findProb_zero hg ht _ _ _ fun w' hw' how => ?_
  by_contra hz
  obtain ⟨i, j, hij, hj, rfl⟩ : ∃ i j, i ≤ j ∧ j < g.C ∧ w' = twoPhotons g.C i j := by
    by_contra hn
    push Not at hn
    exact hz (a2 w' hw' hn)
  rw [a1 i j (by omega) hj] at hz
  rw [outcome_two_photons hopt] at how
  have key : ∀ i j, (i = a ∨ i = b) → (j = c ∨ j = d) → foundPair [a, c] i j = o → False := by
    intro i j hi hj h
    rw [foundPair_two_sided h4 hi hj] at h
    exact ho _ _ (by split_ifs <;> omega) (by split_ifs <;> omega) h.symm
  rcases pairAmp_two_sided hB hz with ⟨h1, h2⟩ | ⟨h1, h2⟩
  · exact key i j h1 h2 how
  · have : foundPair [a, c] j i = foundPair [a, c] i j := by unfold foundPair; exact List.map_congr_left fun x _ => add_comm _ _
    exact key j i h1 h2 (this.trans how)

theorem fieldAfter_two_sided {C a b c d : ℕ} (h4 : FourChannels C a b c d) (M N : Opt) (u : ℕ → ℂ) (j : ℕ) :
    fieldAfter [⟨M, a, b⟩, ⟨N, c, d⟩] u j = if j = a then M 0 0 * u a + M 1 0 * u b else if j = b then M 0 1 * u a + M 1 1 * u b
      else if j = c then N 0 0 * u c + N 1 0 * u d else if j = d then N 0 1 * u c + N 1 1 * u d else u j := by
  obtain ⟨-, -, -, -, h1, h2, h3, h5, h6, h7⟩ := h4
  show fieldStep (fieldStep u ⟨M, a, b⟩) ⟨N, c, d⟩ j = _
  simp only [fieldStep, h2.symm, h3.symm, h5.symm, h6.symm, if_false]
  by_cases ja : j = a
  · subst ja; simp [h2, h3]
  by_cases jb : j = b
  · subst jb; simp [h5, h6, ja]
  simp [ja, jb]

/-- half wave plates for both photons of the entangled pair -/
theorem pairAfter_entangled {C a b c d : ℕ} (h4 : FourChannels C a b c d) (θ η : ℝ) :
    let B := pairAfter [⟨genericMatrix θ Real.pi, a, b⟩, ⟨genericMatrix η Real.pi, c, d⟩] (entangledPair a b c d)
    (∀ i j, B i j ≠ 0 → (i = a ∨ i = b) ∧ (j = c ∨ j = d)) ∧
      B a c = ((Real.sqrt 2 / 2 * Real.cos (2 * (θ - η)) : ℝ) : ℂ) ∧ B b d = ((Real.sqrt 2 / 2 * Real.cos (2 * (θ - η)) : ℝ) : ℂ) ∧
      B a d = ((- (Real.sqrt 2 / 2 * Real.sin (2 * (θ - η))) : ℝ) : ℂ) ∧ B b c = ((Real.sqrt 2 / 2 * Real.sin (2 * (θ - η)) : ℝ) : ℂ) := by
  intro B
  have g0 : ∀ α : ℝ, genericMatrix α Real.pi 0 0 = ((Real.cos (2 * α) : ℝ) : ℂ) ∧ genericMatrix α Real.pi 0 1 = ((Real.sin (2 * α) : ℝ) : ℂ) ∧
      genericMatrix α Real.pi 1 0 = ((Real.sin (2 * α) : ℝ) : ℂ) ∧ genericMatrix α Real.pi 1 1 = ((- Real.cos (2 * α) : ℝ) : ℂ) := by
    intro α
    rw [genericMatrix, Real.cos_pi, Real.sin_pi, Real.cos_two_mul', Real.sin_two_mul]
    simp only [Matrix.of_apply, Matrix.cons_val', Matrix.cons_val_zero, Matrix.cons_val_one]
    refine ⟨?_, ?_, ?_, ?_⟩ <;> (push_cast; ring)
  obtain ⟨θ0, θ1, θ2, θ3⟩ := g0 θ
  obtain ⟨η0, η1, η2, η3⟩ := g0 η
  set M := genericMatrix θ Real.pi
  set N := genericMatrix η Real.pi
  have h4' := h4
  obtain ⟨-, -, -, -, h1, h2, h3, h5, h6, h7⟩ := h4'
  have hin : ∀ i j, fieldAfter [⟨M, a, b⟩, ⟨N, c, d⟩] (entangledPair a b c d i) j =
      if i = a then (if j = c then ((Real.sqrt 2 / 2 : ℝ) : ℂ) * N 0 0 else if j = d then ((Real.sqrt 2 / 2 : ℝ) : ℂ) * N 0 1 else 0)
      else if i = b then (if j = c then ((Real.sqrt 2 / 2 : ℝ) : ℂ) * N 1 0 else if j = d then ((Real.sqrt 2 / 2 : ℝ) : ℂ) * N 1 1 else 0) else 0 := by
    intro i j
    rw [fieldAfter_two_sided h4]
    unfold entangledPair
    by_cases ia : i = a
    · subst ia
      by_cases ja : j = i
      · subst ja; simp [h2, h3, h1, h5, h6]
      by_cases jb : j = b
      · subst jb; simp [h1.symm, h2, h3, h5, h6, h1]
      by_cases jc : j = c
      · subst jc; simp [h2.symm, h5.symm, h7.symm, h1, mul_comm]
      by_cases jd : j = d
      · subst jd; simp [h3.symm, h6.symm, h7.symm, h1, mul_comm]
      simp [ja, jb, jc, jd]
    · by_cases ib : i = b
      · subst ib
        by_cases ja : j = a
        · subst ja; simp [h2, h3, h1, h1.symm, h5, h6]
        by_cases jb : j = i
        · subst jb; simp [h1.symm, h2, h3, h5, h6]
        by_cases jc : j = c
        · subst jc; simp [h2.symm, h5.symm, h7.symm, h1.symm, h7, mul_comm]
        by_cases jd : j = d
        · subst jd; simp [h3.symm, h6.symm, h7.symm, h1.symm, h7, mul_comm]
        simp [ja, jb, jc, jd]
      · simp [ia, ib]
  have hB : ∀ i j, B i j = if i = a then M 0 0 * (if j = c then ((Real.sqrt 2 / 2 : ℝ) : ℂ) * N 0 0 else if j = d then ((Real.sqrt 2 / 2 : ℝ) : ℂ) * N 0 1 else 0)
        + M 1 0 * (if j = c then ((Real.sqrt 2 / 2 : ℝ) : ℂ) * N 1 0 else if j = d then ((Real.sqrt 2 / 2 : ℝ) : ℂ) * N 1 1 else 0)
      else if i = b then M 0 1 * (if j = c then ((Real.sqrt 2 / 2 : ℝ) : ℂ) * N 0 0 else if j = d then ((Real.sqrt 2 / 2 : ℝ) : ℂ) * N 0 1 else 0)
        + M 1 1 * (if j = c then ((Real.sqrt 2 / 2 : ℝ) : ℂ) * N 1 0 else if j = d then ((Real.sqrt 2 / 2 : ℝ) : ℂ) * N 1 1 else 0) else 0 := by
    intro i j
    show fieldAfter [⟨M, a, b⟩, ⟨N, c, d⟩] (fun i' => fieldAfter [⟨M, a, b⟩, ⟨N, c, d⟩] (entangledPair a b c d i') j) i = _
    simp only [hin]
    rw [fieldAfter_two_sided h4]
    simp only [h1.symm, h2.symm, h3.symm, h5.symm, h6.symm, if_true, if_false, mul_zero, add_zero]
    split_ifs <;> rfl
  have hcos : Real.cos (2 * (θ - η)) = Real.cos (2 * θ) * Real.cos (2 * η) + Real.sin (2 * θ) * Real.sin (2 * η) := by
    rw [mul_sub, Real.cos_sub]
  have hsin : Real.sin (2 * (θ - η)) = Real.sin (2 * θ) * Real.cos (2 * η) - Real.cos (2 * θ) * Real.sin (2 * η) := by
    rw [mul_sub, Real.sin_sub]
  refine ⟨?_, ?_, ?_, ?_, ?_⟩
  · intro i j h
    rw [hB] at h
    by_contra hn
    apply h
    rw [not_and_or] at hn
    rcases hn with hn | hn
    · push Not at hn
      rw [if_neg hn.1, if_neg hn.2]
    · push Not at hn
      simp [hn.1, hn.2]
  · rw [hB, hcos]; simp only [if_true, θ0, θ2, η0, η2]; push_cast; ring
  · rw [hB, hcos]; simp only [if_true, h1.symm, h7.symm, if_false, θ1, θ3, η1, η3]; push_cast; ring
  · rw [hB, hsin]; simp only [if_true, h7.symm, if_false, θ0, θ2, η1, η3]; push_cast; ring
  · rw [hB, hsin]; simp only [if_true, h1.symm, if_false, θ1, θ3, η0, η2]; push_cast; ring

/-- the probabilities of two channel values add up -/
theorem probOf_two_values {out : Coll} {L x y : ℕ} (h : ∀ p ∈ out, ∃ m n : ℕ, m < L ∧ n < L ∧ p.2.classical[x]? = some (m : ℝ) ∧ p.2.classical[y]? = some (n : ℝ))
    (P : QState → Prop) (R : ℕ → ℕ → Prop) (R' : QState → Prop)
    (hR : ∀ p ∈ out, ∀ m n : ℕ, p.2.classical[x]? = some (m : ℝ) → p.2.classical[y]? = some (n : ℝ) → (R' p.2 ↔ R m n)) :
    probOf out (fun s => P s ∧ R' s) = open Classical in ∑ m ∈ Finset.range L, ∑ n ∈ Finset.range L,
      if R m n then probOf out (fun s => P s ∧ s.classical[x]? = some (m : ℝ) ∧ s.classical[y]? = some (n : ℝ)) else 0 := by
  classical
  simp only [probOf_sum]
  induction out with
  | nil => simp
  | cons p out ih =>
    have hp := h p (by simp)
    have hRp := hR p (by simp)
    simp only [List.map_cons, List.sum_cons]
    rw [ih (fun p hp => h p (by simp [hp])) (fun p hp => hR p (by simp [hp]))]
    obtain ⟨m, n, hm, hn, e1, e2⟩ := hp
    have key : ∀ inst : Decidable (P p.2 ∧ R' p.2), (∑ m' ∈ Finset.range L, ∑ n' ∈ Finset.range L, if R m' n' then (if P p.2 ∧ p.2.classical[x]? = some (m' : ℝ) ∧ p.2.classical[y]? = some (n' : ℝ) then p.2.cum else 0) else 0)
        = @ite ℝ (P p.2 ∧ R' p.2) inst p.2.cum 0 := by
      intro inst
      rw [Finset.sum_eq_single m, Finset.sum_eq_single n]
      · have := hRp m n e1 e2
        by_cases hr : R m n <;> simp [hr, e1, e2, this]
      · intro n' _ hne
        have : ¬ (n : ℝ) = n' := fun e => hne (by exact_mod_cast e.symm)
        simp [e2, this]
      · intro hh; exact absurd (Finset.mem_range.2 hn) hh
      · intro m' _ hne
        have : ¬ (m : ℝ) = m' := fun e => hne (by exact_mod_cast e.symm)
        refine Finset.sum_eq_zero fun n' _ => ?_
        simp [e1, this]
      · intro hh; exact absurd (Finset.mem_range.2 hm) hh
    rw [← key, ← Finset.sum_add_distrib]
    refine Finset.sum_congr rfl fun m' _ => ?_
    rw [← Finset.sum_add_distrib]
    refine Finset.sum_congr rfl fun n' _ => ?_
    split_ifs <;> simp

/-- the probability of `m` photons in the first and `n` photons in the second measured channel of an entangled pair, if the polarizations are rotated by the half wave plates; probabilities below the
threshold are left out -/
noncomputable def entangledProb (thr α : ℝ) (m n : ℕ) : ℝ :=
  if 1 < m ∨ 1 < n then 0
  else if m = n then (if thr ≤ Real.cos (2 * α) ^ 2 / 2 then Real.cos (2 * α) ^ 2 / 2 else 0)
  else (if thr ≤ Real.sin (2 * α) ^ 2 / 2 then Real.sin (2 * α) ^ 2 / 2 else 0)

theorem entangled_main (env : ℕ → Circ) (rnd : ℕ → ℕ → Bool → ℕ → ℕ → ℕ) (k : ℕ) (C : Circ) (hc : env k = C) (hg : C.g.Ok) (hL : 3 ≤ C.g.L) (ht : 0 < C.thr)
    (a b c d : ℕ) (h4 : FourChannels C.g.C a b c d) (oab : ¬ (2 ≤ a ∧ b = 0)) (ocd : ¬ (2 ≤ c ∧ d = 0)) (θ η : ℝ) (plateA plateB : Opt × List ℕ)
    (hA : halfWavePlate C.g a b θ = some plateA) (hB : halfWavePlate C.g c d η = some plateB)
    (x y : ℕ) (hx : x < C.m) (hy : y < C.m) (hxy : x ≠ y) (hk : C.nodes = opticals [plateA, plateB] ++ [.measurement [a, c] [x, y]])
    (id : List Char) (q : QState) (hq : Measurable C.g C.m q) (hne : q.comps ≠ []) (hs : PhotonPair C.g q (entangledPair a b c d)) (fuel : ℕ) (hf : 3 < fuel) :
    ∃ out, evalAll env rnd fuel k [(id, q)] = some out ∧
      (∀ p ∈ out, p.2.initial = q.initial ∧ p.2.classical.length = C.m ∧ ∃ m n : ℕ, m < C.g.L ∧ n < C.g.L ∧ p.2.classical[x]? = some (m : ℝ) ∧ p.2.classical[y]? = some (n : ℝ)) ∧
      ∀ m n : ℕ, probOf out (fun s => s.initial = q.initial ∧ s.classical[x]? = some (m : ℝ) ∧ s.classical[y]? = some (n : ℝ)) = q.cum * entangledProb C.thr (θ - η) m n := by
  have hgA : GateNode C.g ⟨genericMatrix θ Real.pi, a, b⟩ plateA := gateNode_of h4.ha h4.hb h4.ab oab hA
  have hgB : GateNode C.g ⟨genericMatrix η Real.pi, c, d⟩ plateB := gateNode_of h4.hc h4.hd h4.cd ocd hB
  have hu : LosslessElements C.g [⟨genericMatrix θ Real.pi, a, b⟩, ⟨genericMatrix η Real.pi, c, d⟩] [plateA, plateB] := by
    refine ⟨.cons hgA (.cons hgB .nil), ?_⟩
    intro e he
    simp only [List.mem_cons, List.not_mem_nil, or_false] at he
    rcases he with rfl | rfl <;> exact (C17_wave_plate _ _ 0).1
  obtain ⟨out, h1, hsh, h2⟩ := born_main env rnd k C hc hg ht _ plateA [plateB] hu [a, c] [x, y] hk rfl (by simp [hxy]) (by simp [hx, hy]) [(id, q)] (by simp) (by
    intro p hp
    rw [List.mem_singleton.1 hp]
    exact pair_sendable hL hq hne hs) fuel (by simpa using hf)
  have sh : ∀ (s : QState) (p r : ℕ), Shown ([x, y].map (fun n : ℕ => (n : ℤ))) s ([p, r].map (fun n : ℕ => (n : ℝ))) ↔
      s.classical[x]? = some (p : ℝ) ∧ s.classical[y]? = some (r : ℝ) := by
    intro s p r
    simp [Shown, pyGet_nat]
  refine ⟨out, h1, ?_, ?_⟩
  · intro p hp
    obtain ⟨⟨v, hv, hvL⟩, ⟨r, hr, e⟩, hlen⟩ := hsh p hp
    rw [List.mem_singleton.1 hr] at e
    refine ⟨e, hlen, ?_⟩
    obtain ⟨m, n, rfl⟩ : ∃ m n, v = [m, n] := by
      have := hv.length_eq
      simp only [List.length_map, List.length_cons, List.length_nil] at this
      exact List.length_eq_two.1 this.symm
    exact ⟨m, n, hvL m (by simp), hvL n (by simp), (sh _ _ _).1 hv⟩
  · intro m n
    have e := h2 q.initial [m, n]
    simp only [sh] at e
    rw [e]
    simp only [List.map_cons, List.map_nil, List.sum_cons, List.sum_nil, add_zero, if_true]
    rw [statePoly_pair hL hq.wf hs, opticsSubst_pair hu.1]
    congr 1
    obtain ⟨hsup, ac, bd, ad, bc⟩ := pairAfter_entangled h4 θ η
    have n2 : ∀ r : ℝ, ‖((Real.sqrt 2 / 2 * r : ℝ) : ℂ)‖ ^ 2 = r ^ 2 / 2 := by
      intro r
      rw [Complex.norm_real, Real.norm_eq_abs, sq_abs, mul_pow, div_pow, Real.sq_sqrt (by norm_num)]
      ring
    have n3 : ∀ r : ℝ, ‖((- (Real.sqrt 2 / 2 * r) : ℝ) : ℂ)‖ ^ 2 = r ^ 2 / 2 := by
      intro r
      rw [← n2 r]; simp
    unfold entangledProb
    by_cases hmn : 1 < m ∨ 1 < n
    · rw [if_pos hmn]
      refine findProb_two_sided_other hg hL ht h4 hsup fun x y hx hy e => ?_
      simp only [List.cons.injEq, and_true] at e
      omega
    · rw [if_neg hmn]
      have F := fun {p r : ℕ} (hp : p = a ∨ p = b) (hr : r = c ∨ r = d) => findProb_two_sided hg hL ht h4 hsup hp hr
      have hm : m = 0 ∨ m = 1 := by omega
      have hn : n = 0 ∨ n = 1 := by omega
      rcases hm with rfl | rfl <;> rcases hn with rfl | rfl
      · have := F (Or.inr rfl) (Or.inr rfl)
        rw [if_neg h4.ab.symm, if_neg h4.cd.symm, bd, n2] at this
        simpa using this
      · have := F (Or.inr rfl) (Or.inl rfl)
        rw [if_neg h4.ab.symm, if_pos rfl, bc, n2] at this
        simpa using this
      · have := F (Or.inl rfl) (Or.inr rfl)
        rw [if_pos rfl, if_neg h4.cd.symm, ad, n3] at this
        simpa using this
      · have := F (Or.inl rfl) (Or.inl rfl)
        rw [if_pos rfl, if_pos rfl, ac, n2] at this
        simpa using this

/-- **C121 (partial)** The polarization entangled pair: if the polarizations of the two photons are rotated with half wave plates at the angles `θ` and `η`, and one polarization of each photon is
measured, both or none are found with probability cos²(2(θ - η))/2 each, and only one or only the other one with probability sin²(2(θ - η))/2 each (0 for what is below the threshold).
Missing: channel pairs with first channel >= 2 and second channel 0 (C07). -/
theorem C121_entangled_partial (env : ℕ → Circ) (rnd : ℕ → ℕ → Bool → ℕ → ℕ → ℕ) (k : ℕ) (C : Circ) (hc : env k = C) (hg : C.g.Ok) (hL : 3 ≤ C.g.L) (ht : 0 < C.thr)
    (a b c d : ℕ) (h4 : FourChannels C.g.C a b c d) (oab : ¬ (2 ≤ a ∧ b = 0)) (ocd : ¬ (2 ≤ c ∧ d = 0)) (θ η : ℝ) (plateA plateB : Opt × List ℕ)
    (hA : halfWavePlate C.g a b θ = some plateA) (hB : halfWavePlate C.g c d η = some plateB)
    (x y : ℕ) (hx : x < C.m) (hy : y < C.m) (hxy : x ≠ y) (hk : C.nodes = opticals [plateA, plateB] ++ [.measurement [a, c] [x, y]])
    (id : List Char) (q : QState) (hq : Measurable C.g C.m q) (hne : q.comps ≠ []) (hs : PhotonPair C.g q (entangledPair a b c d)) (fuel : ℕ) (hf : 3 < fuel) :
    ∃ out, evalAll env rnd fuel k [(id, q)] = some out ∧
      ∀ m n : ℕ, probOf out (fun s => s.initial = q.initial ∧ s.classical[x]? = some (m : ℝ) ∧ s.classical[y]? = some (n : ℝ)) =
        q.cum * (if 1 < m ∨ 1 < n then 0
          else if m = n then (if C.thr ≤ Real.cos (2 * (θ - η)) ^ 2 / 2 then Real.cos (2 * (θ - η)) ^ 2 / 2 else 0)
          else (if C.thr ≤ Real.sin (2 * (θ - η)) ^ 2 / 2 then Real.sin (2 * (θ - η)) ^ 2 / 2 else 0)) := by
  obtain ⟨out, h1, -, h2⟩ := entangled_main env rnd k C hc hg hL ht a b c d h4 oab ocd θ η plateA plateB hA hB x y hx hy hxy hk id q hq hne hs fuel hf
  exact ⟨out, h1, h2⟩

theorem sum_two_by_two {L : ℕ} (hL : 3 ≤ L) (f : ℕ → ℕ → ℝ) (h : ∀ m n, 1 < m ∨ 1 < n → f m n = 0) :
    ∑ m ∈ Finset.range L, ∑ n ∈ Finset.range L, f m n = f 0 0 + f 0 1 + f 1 0 + f 1 1 := by
  have hsub : Finset.range 2 ⊆ Finset.range L := Finset.range_subset_range.2 (by omega)
  have hin : ∀ m, ∑ n ∈ Finset.range L, f m n = f m 0 + f m 1 := by
    intro m
    rw [← Finset.sum_subset hsub, Finset.sum_range_succ, Finset.sum_range_one]
    intro n _ hn
    exact h m n (Or.inr (by rw [Finset.mem_range] at hn; omega))
  simp only [hin]
  rw [← Finset.sum_subset hsub, Finset.sum_range_succ, Finset.sum_range_one]
  · ring
  · intro m _ hm
    rw [Finset.mem_range] at hm
    rw [h m 0 (by omega), h m 1 (by omega), add_zero]

/-- **C121 (partial)** The correlation of the two results that the package computes is cos(4(θ - η)), if no probability is cut off by the threshold.
Missing: as in `C121_entangled_partial`, and channel 0 on the right hand side of the names (C49). -/
theorem C121_correlation_partial (env : ℕ → Circ) (rnd : ℕ → ℕ → Bool → ℕ → ℕ → ℕ) (k : ℕ) (C : Circ) (hc : env k = C) (hg : C.g.Ok) (hL : 3 ≤ C.g.L) (hleft : C.g.left = true) (hm : C.m = 2) (ht : 0 < C.thr)
    (a b c d : ℕ) (h4 : FourChannels C.g.C a b c d) (oab : ¬ (2 ≤ a ∧ b = 0)) (ocd : ¬ (2 ≤ c ∧ d = 0)) (θ η : ℝ) (plateA plateB : Opt × List ℕ)
    (hA : halfWavePlate C.g a b θ = some plateA) (hB : halfWavePlate C.g c d η = some plateB)
    (hk : C.nodes = opticals [plateA, plateB] ++ [.measurement [a, c] [0, 1]])
    (id : List Char) (q : QState) (hq : Measurable C.g C.m q) (hne : q.comps ≠ []) (hcum : q.cum ≠ 0) (hs : PhotonPair C.g q (entangledPair a b c d))
    (hcos : Real.cos (2 * (θ - η)) = 0 ∨ C.thr ≤ Real.cos (2 * (θ - η)) ^ 2 / 2) (hsin : Real.sin (2 * (θ - η)) = 0 ∨ C.thr ≤ Real.sin (2 * (θ - η)) ^ 2 / 2) (fuel : ℕ) (hf : 3 < fuel) :
    ∃ out, evalAll env rnd fuel k [(id, q)] = some out ∧ correlations C.g C.m out [(0, 1)] = some [(q.initial, [Real.cos (4 * (θ - η))])] := by
  classical
  obtain ⟨out, h1, hsh, h2⟩ := entangled_main env rnd k C hc hg hL ht a b c d h4 oab ocd θ η plateA plateB hA hB 0 1 (by omega) (by omega) (by omega) hk id q hq hne hs fuel hf
  refine ⟨out, h1, ?_⟩
  have hcs := Real.cos_sq_add_sin_sq (2 * (θ - η))
  have ec : (if C.thr ≤ Real.cos (2 * (θ - η)) ^ 2 / 2 then Real.cos (2 * (θ - η)) ^ 2 / 2 else 0) = Real.cos (2 * (θ - η)) ^ 2 / 2 := by
    rcases hcos with h | h
    · rw [h]; simp
    · rw [if_pos h]
  have es : (if C.thr ≤ Real.sin (2 * (θ - η)) ^ 2 / 2 then Real.sin (2 * (θ - η)) ^ 2 / 2 else 0) = Real.sin (2 * (θ - η)) ^ 2 / 2 := by
    rcases hsin with h | h
    · rw [h]; simp
    · rw [if_pos h]
  have ep : ∀ m n, entangledProb C.thr (θ - η) m n = if 1 < m ∨ 1 < n then 0 else if m = n then Real.cos (2 * (θ - η)) ^ 2 / 2 else Real.sin (2 * (θ - η)) ^ 2 / 2 := by
    intro m n
    unfold entangledProb
    rw [ec, es]
  have vals : ∀ p ∈ out, ∃ m n : ℕ, m < C.g.L ∧ n < C.g.L ∧ p.2.classical[0]? = some (m : ℝ) ∧ p.2.classical[1]? = some (n : ℝ) := fun p hp => (hsh p hp).2.2
  have pr : ∀ (R : ℕ → ℕ → Prop) (R' : QState → Prop), (∀ p ∈ out, ∀ m n : ℕ, p.2.classical[0]? = some (m : ℝ) → p.2.classical[1]? = some (n : ℝ) → (R' p.2 ↔ R m n)) →
      probOf out (fun s => s.initial = q.initial ∧ R' s) = (if R 0 0 then q.cum * (Real.cos (2 * (θ - η)) ^ 2 / 2) else 0) + (if R 0 1 then q.cum * (Real.sin (2 * (θ - η)) ^ 2 / 2) else 0)
        + (if R 1 0 then q.cum * (Real.sin (2 * (θ - η)) ^ 2 / 2) else 0) + (if R 1 1 then q.cum * (Real.cos (2 * (θ - η)) ^ 2 / 2) else 0) := by
    intro R R' hR
    rw [probOf_two_values vals (fun s => s.initial = q.initial) R R' hR]
    simp only [h2]
    rw [sum_two_by_two hL]
    · simp [ep]
    · intro m n h
      rw [ep, if_pos h]; simp
  have peq : probOf out (fun s => s.initial = q.initial ∧ pyGet s.classical 0 = pyGet s.classical 1) = q.cum * Real.cos (2 * (θ - η)) ^ 2 := by
    rw [pr (fun m n => m = n)]
    · simp; ring
    · intro p _ m n e1 e2
      have p0 := pyGet_nat p.2.classical 0
      have p1 := pyGet_nat p.2.classical 1
      simp only [Nat.cast_zero, Nat.cast_one] at p0 p1
      rw [p0, p1, e1, e2]; simp
  have pne : probOf out (fun s => s.initial = q.initial ∧ ¬ pyGet s.classical 0 = pyGet s.classical 1) = q.cum * Real.sin (2 * (θ - η)) ^ 2 := by
    rw [pr (fun m n => ¬ m = n)]
    · simp; ring
    · intro p _ m n e1 e2
      have p0 := pyGet_nat p.2.classical 0
      have p1 := pyGet_nat p.2.classical 1
      simp only [Nat.cast_zero, Nat.cast_one] at p0 p1
      rw [p0, p1, e1, e2]; simp
  have ptot : probOf out (fun s => s.initial = q.initial) = q.cum := by
    have := pr (fun _ _ => True) (fun _ => True) (fun _ _ _ _ _ _ => Iff.rfl)
    simp only [and_true, if_true] at this
    rw [this]
    linear_combination q.cum * hcs
  have hn : ∀ p ∈ out, ∃ v, HasNats C.g.L C.m p.2 v := by
    intro p hp
    obtain ⟨-, hlen, m, n, hmL, hnL, e0, e1⟩ := hsh p hp
    refine ⟨[m, n], ?_, by simp [hm], by simp [hmL, hnL]⟩
    apply List.ext_getElem?
    intro i
    rcases i with _ | _ | i
    · rw [e0]; rfl
    · rw [e1]; rfl
    · rw [List.getElem?_eq_none (by omega), List.getElem?_eq_none (by simp)]
  obtain ⟨dd, hd, hdn, hdk, hdl⟩ := C49_defined (combis := [(0, 1)]) (Or.inl hleft) hn (by simp [hm]) (fun p hp => by rw [(hsh p hp).1, ptot]; exact hcum)
  have hval := C49_value_partial hd hleft hn
  have hout : ∃ p, p ∈ out := by
    by_contra hno
    push Not at hno
    rw [List.eq_nil_iff_forall_not_mem.2 hno] at ptot
    exact hcum (by simpa [probOf] using ptot.symm)
  obtain ⟨p, hp⟩ := hout
  have hkeys : dd.keys = [q.initial] := by
    have hall : ∀ k' ∈ dd.keys, k' = q.initial := by
      intro k' hk'
      obtain ⟨p, hp, e⟩ := (hdk k').1 hk'
      rw [← e, (hsh p hp).1]
    have hmem : q.initial ∈ dd.keys := (hdk _).2 ⟨p, hp, (hsh p hp).1⟩
    generalize dd.keys = ks at hall hmem hdn
    match ks, hall, hmem, hdn with
    | [k1], hall, _, _ => rw [hall k1 (by simp)]
    | k1 :: k2 :: ks, hall, _, hdn =>
      rw [List.nodup_cons] at hdn
      exact absurd (by rw [hall k1 (by simp), hall k2 (by simp)]; simp) hdn.1
  rw [hd]
  match dd, hkeys, hval, hdl with
  | [(k1, l1)], hkeys, hval, hdl =>
    obtain rfl : k1 = q.initial := by simpa [Dict.keys] using hkeys
    have hl := hdl q.initial l1 (by simp)
    have hv := hval q.initial l1 (by simp)
    obtain ⟨r, rfl⟩ := List.length_eq_one_iff.1 hl
    have hr := (List.forall₂_cons.1 hv).1
    simp only at hr
    rw [peq, pne, ptot] at hr
    have : r = Real.cos (4 * (θ - η)) := by
      rw [hr, show 4 * (θ - η) = 2 * (2 * (θ - η)) by ring, Real.cos_two_mul' (2 * (θ - η))]
      field_simp
    rw [this]

/-- the circuit of a Bell experiment: a half wave plate for each photon, then a measurement of one polarization of each photon -/
def bellCircuit (g : Cfg) (thr : ℝ) (full : Bool) (a c : ℕ) (plateA plateB : Opt × List ℕ) : Circ := ⟨g, 2, thr, full, opticals [plateA, plateB] ++ [.measurement [a, c] [0, 1]]⟩

theorem trig_eighth : Real.cos (Real.pi / 8) ^ 2 = (2 + Real.sqrt 2) / 4 ∧ Real.sin (Real.pi / 8) ^ 2 = (2 - Real.sqrt 2) / 4 := by
  have h := Real.cos_sq (Real.pi / 8)
  rw [show 2 * (Real.pi / 8) = Real.pi / 4 by ring, Real.cos_pi_div_four] at h
  have h2 := Real.cos_sq_add_sin_sq (Real.pi / 8)
  constructor <;> linarith

/-- **C121 (partial)** The Bell inequality is violated by the greatest possible amount: with the half wave plates at the angles 0 and π/8 for the first, and π/16 and -π/16 for the second photon, the
correlations that the package computes give S = 2√2. Missing: as in `C121_correlation_partial`. -/
theorem C121_chsh_partial (rnd : ℕ → ℕ → Bool → ℕ → ℕ → ℕ) (g : Cfg) (hg : g.Ok) (hL : 3 ≤ g.L) (hleft : g.left = true) (thr : ℝ) (ht : 0 < thr) (ht' : thr ≤ 1 / 20) (full : Bool)
    (a b c d : ℕ) (h4 : FourChannels g.C a b c d) (oab : ¬ (2 ≤ a ∧ b = 0)) (ocd : ¬ (2 ≤ c ∧ d = 0)) (A B : Fin 2 → Opt × List ℕ)
    (hA₀ : halfWavePlate g a b 0 = some (A 0)) (hA₁ : halfWavePlate g a b (Real.pi / 8) = some (A 1)) (hB₀ : halfWavePlate g c d (Real.pi / 16) = some (B 0)) (hB₁ : halfWavePlate g c d (-(Real.pi / 16)) = some (B 1))
    (id : List Char) (q : QState) (hq : Measurable g 2 q) (hne : q.comps ≠ []) (hcum : q.cum ≠ 0) (hs : PhotonPair g q (entangledPair a b c d)) (fuel : ℕ) (hf : 3 < fuel) :
    ∃ E : Fin 2 → Fin 2 → ℝ, (∀ i j, ∃ out, evalAll (fun _ => bellCircuit g thr full a c (A i) (B j)) rnd fuel 0 [(id, q)] = some out ∧
        correlations g 2 out [(0, 1)] = some [(q.initial, [E i j])]) ∧
      E 0 0 + E 0 1 + E 1 0 - E 1 1 = 2 * Real.sqrt 2 := by
  classical
  have key := fun (θ η : ℝ) (A B : Opt × List ℕ) hA hB => C121_correlation_partial (fun _ => bellCircuit g thr full a c A B) rnd 0 (bellCircuit g thr full a c A B) rfl hg hL hleft rfl ht
    a b c d h4 oab ocd θ η A B hA hB rfl id q hq hne hcum hs
  obtain ⟨t1, t2⟩ := trig_eighth
  have s2 : Real.sqrt 2 ≤ 3 / 2 := Real.sqrt_le_iff.2 ⟨by norm_num, by norm_num⟩
  have s0 : 0 ≤ Real.sqrt 2 := Real.sqrt_nonneg 2
  have c3 : Real.cos (3 * (Real.pi / 8)) = Real.sin (Real.pi / 8) := by rw [← Real.cos_pi_div_two_sub]; congr 1; ring
  have n3 : Real.sin (3 * (Real.pi / 8)) = Real.cos (Real.pi / 8) := by rw [← Real.sin_pi_div_two_sub]; congr 1; ring
  have v1 : Real.cos (Real.pi / 4) = Real.sqrt 2 / 2 := Real.cos_pi_div_four
  have v3 : Real.cos (3 * (Real.pi / 4)) = -(Real.sqrt 2 / 2) := by
    rw [show 3 * (Real.pi / 4) = Real.pi - Real.pi / 4 by ring, Real.cos_pi_sub, v1]
  have k00 := key 0 (Real.pi / 16) (A 0) (B 0) hA₀ hB₀
  have k01 := key 0 (-(Real.pi / 16)) (A 0) (B 1) hA₀ hB₁
  have k10 := key (Real.pi / 8) (Real.pi / 16) (A 1) (B 0) hA₁ hB₀
  have k11 := key (Real.pi / 8) (-(Real.pi / 16)) (A 1) (B 1) hA₁ hB₁
  rw [show 2 * (0 - Real.pi / 16) = -(Real.pi / 8) by ring, show 4 * (0 - Real.pi / 16) = -(Real.pi / 4) by ring, Real.cos_neg, Real.cos_neg, Real.sin_neg, neg_sq, t1, t2, v1] at k00
  rw [show 2 * (0 - -(Real.pi / 16)) = Real.pi / 8 by ring, show 4 * (0 - -(Real.pi / 16)) = Real.pi / 4 by ring, t1, t2, v1] at k01
  rw [show 2 * (Real.pi / 8 - Real.pi / 16) = Real.pi / 8 by ring, show 4 * (Real.pi / 8 - Real.pi / 16) = Real.pi / 4 by ring, t1, t2, v1] at k10
  rw [show 2 * (Real.pi / 8 - -(Real.pi / 16)) = 3 * (Real.pi / 8) by ring, show 4 * (Real.pi / 8 - -(Real.pi / 16)) = 3 * (Real.pi / 4) by ring, c3, n3, t1, t2, v3] at k11
  have l1 : thr ≤ (2 + Real.sqrt 2) / 4 / 2 := by linarith
  have l2 : thr ≤ (2 - Real.sqrt 2) / 4 / 2 := by linarith
  have r00 := k00 (Or.inr l1) (Or.inr l2) fuel hf
  have r01 := k01 (Or.inr l1) (Or.inr l2) fuel hf
  have r10 := k10 (Or.inr l1) (Or.inr l2) fuel hf
  have r11 := k11 (Or.inr l2) (Or.inr l1) fuel hf
  refine ⟨fun i j => if i = 1 ∧ j = 1 then -(Real.sqrt 2 / 2) else Real.sqrt 2 / 2, ?_, ?_⟩
  · intro i j
    fin_cases i <;> fin_cases j
    · exact r00
    · exact r01
    · exact r10
    · exact r11
  · norm_num
    ring

/-! ### The hypotheses are met -/

section NonVacuity

/-- four channels, up to two photons each -/
def bellCfg : Cfg := ⟨3, 4, true⟩

/-- (|1010> + |0101>)/√2: channels 0 and 1 for the first, 2 and 3 for the second photon -/
noncomputable def bellPair : QState :=
  ⟨['p'], 1, [(['1', '0', '1', '0'], ⟨((Real.sqrt 2 / 2 : ℝ) : ℂ), 1 / 2⟩), (['0', '1', '0', '1'], ⟨((Real.sqrt 2 / 2 : ℝ) : ℂ), 1 / 2⟩)], [0, 0], []⟩

theorem bellPair_ok : Measurable bellCfg 2 bellPair ∧ PhotonPair bellCfg bellPair (entangledPair 0 1 2 3) := by
  have hv : Valid bellCfg [1, 0, 1, 0] := by decide
  have hv2 : Valid bellCfg [0, 1, 0, 1] := by decide
  have hn : IsName bellCfg [1, 0, 1, 0] ['1', '0', '1', '0'] := (isName_iff hv).2 (by decide)
  have hn2 : IsName bellCfg [0, 1, 0, 1] ['0', '1', '0', '1'] := (isName_iff hv2).2 (by decide)
  have hsq : ‖((Real.sqrt 2 / 2 : ℝ) : ℂ)‖ ^ 2 = 1 / 2 := by
    rw [Complex.norm_real, Real.norm_eq_abs, sq_abs, div_pow, Real.sq_sqrt (by norm_num)]; norm_num
  have hmem : ∀ p ∈ bellPair.comps, p = (['1', '0', '1', '0'], ⟨((Real.sqrt 2 / 2 : ℝ) : ℂ), 1 / 2⟩) ∨ p = (['0', '1', '0', '1'], ⟨((Real.sqrt 2 / 2 : ℝ) : ℂ), 1 / 2⟩) := by
    intro p hp
    simpa [bellPair] using hp
  refine ⟨⟨⟨by simp [bellPair], ?_⟩, ?_, ?_, by norm_num [bellPair], by norm_num [bellPair], by simp [bellPair]⟩, ?_, ?_⟩
  · intro p hp
    rcases hmem p hp with rfl | rfl
    exacts [⟨_, hv, hn⟩, ⟨_, hv2, hn2⟩]
  · intro p hp
    rcases hmem p hp with rfl | rfl <;> exact hsq.symm
  · simp only [bellPair, totalProb, List.map_cons, List.map_nil, List.sum_cons, List.sum_nil, hsq]
    norm_num
  · intro p hp v hv' hn'
    rcases hmem p hp with rfl | rfl
    · have : v = [1, 0, 1, 0] := bellCfg.stdName_inj hv'.2 hv.2 (by rw [← (isName_iff hv').1 hn', ← (isName_iff hv).1 hn])
      rw [this]; rfl
    · have : v = [0, 1, 0, 1] := bellCfg.stdName_inj hv'.2 hv2.2 (by rw [← (isName_iff hv').1 hn', ← (isName_iff hv2).1 hn2])
      rw [this]; rfl
  · intro i j hij hj nm hnm
    have hj' : j < 4 := hj
    rw [(isName_iff (twoPhotons_valid (by decide) i j)).1 hnm]
    interval_cases j <;> interval_cases i
    · rw [show bellCfg.stdName (twoPhotons bellCfg.C 0 0) = ['2', '0', '0', '0'] by decide]
      simp [ampOf, bellPair, Dict.get?, entangledPair, pairAmp]
    · rw [show bellCfg.stdName (twoPhotons bellCfg.C 0 1) = ['1', '1', '0', '0'] by decide]
      simp [ampOf, bellPair, Dict.get?, entangledPair, pairAmp]
    · rw [show bellCfg.stdName (twoPhotons bellCfg.C 1 1) = ['0', '2', '0', '0'] by decide]
      simp [ampOf, bellPair, Dict.get?, entangledPair, pairAmp]
    · rw [show bellCfg.stdName (twoPhotons bellCfg.C 0 2) = ['1', '0', '1', '0'] by decide]
      simp [ampOf, bellPair, Dict.get?, entangledPair, pairAmp]
    · rw [show bellCfg.stdName (twoPhotons bellCfg.C 1 2) = ['0', '1', '1', '0'] by decide]
      simp [ampOf, bellPair, Dict.get?, entangledPair, pairAmp]
    · rw [show bellCfg.stdName (twoPhotons bellCfg.C 2 2) = ['0', '0', '2', '0'] by decide]
      simp [ampOf, bellPair, Dict.get?, entangledPair, pairAmp]
    · rw [show bellCfg.stdName (twoPhotons bellCfg.C 0 3) = ['1', '0', '0', '1'] by decide]
      simp [ampOf, bellPair, Dict.get?, entangledPair, pairAmp]
    · rw [show bellCfg.stdName (twoPhotons bellCfg.C 1 3) = ['0', '1', '0', '1'] by decide]
      simp [ampOf, bellPair, Dict.get?, entangledPair, pairAmp]
    · rw [show bellCfg.stdName (twoPhotons bellCfg.C 2 3) = ['0', '0', '1', '1'] by decide]
      simp [ampOf, bellPair, Dict.get?, entangledPair, pairAmp]
    · rw [show bellCfg.stdName (twoPhotons bellCfg.C 3 3) = ['0', '0', '0', '2'] by decide]
      simp [ampOf, bellPair, Dict.get?, entangledPair, pairAmp]

/-- C121: the Bell experiment with the pair (|1010> + |0101>)/√2 in four channels. -/
example : ∃ (A B : Fin 2 → Opt × List ℕ) (E : Fin 2 → Fin 2 → ℝ),
    (∀ i j, ∃ out, evalAll (fun _ => bellCircuit bellCfg (1 / 1000) true 0 2 (A i) (B j)) (fun _ _ _ _ _ => 0) 4 0 [(['x'], bellPair)] = some out ∧
        correlations bellCfg 2 out [(0, 1)] = some [(['p'], [E i j])]) ∧
      E 0 0 + E 0 1 + E 1 0 - E 1 1 = 2 * Real.sqrt 2 := by
  obtain ⟨A₀, h1⟩ : ∃ A₀, halfWavePlate bellCfg 0 1 0 = some A₀ := ⟨_, rfl⟩
  obtain ⟨A₁, h2⟩ : ∃ A₁, halfWavePlate bellCfg 0 1 (Real.pi / 8) = some A₁ := ⟨_, rfl⟩
  obtain ⟨B₀, h3⟩ : ∃ B₀, halfWavePlate bellCfg 2 3 (Real.pi / 16) = some B₀ := ⟨_, rfl⟩
  obtain ⟨B₁, h4⟩ : ∃ B₁, halfWavePlate bellCfg 2 3 (-(Real.pi / 16)) = some B₁ := ⟨_, rfl⟩
  refine ⟨![A₀, A₁], ![B₀, B₁], ?_⟩
  exact C121_chsh_partial (fun _ _ _ _ _ => 0) bellCfg (by decide) (by decide) rfl (1 / 1000) (by norm_num) (by norm_num) true 0 1 2 3 (by constructor <;> decide) (by decide) (by decide) _ _
    h1 h2 h3 h4 ['x'] bellPair bellPair_ok.1 (by simp [bellPair]) (by simp [bellPair]) bellPair_ok.2 4 (by norm_num)

end NonVacuity

end Verif.Props
