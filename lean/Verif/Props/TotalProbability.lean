/-
Property C104: the probabilities of the outcomes of a photon-resolved measurement add up to the probability of the input.
-/
import Verif.Lemmas.FockForm5
import Verif.Props.HongOuMandel

namespace Verif.Props
open Verif Spec MvPolynomial Fockform

/-- The groups of a measurement by the Born rule have as total probability the probability of the group times the sum over all photon numbers. -/
theorem born_total {g : Cfg} {opt cls : List ℕ} {gp : ℝ} (h0 : 0 ≤ gp) {P : MvPolynomial Mode ℂ} {ys : List (List Column)} (h : BornGroups g opt cls gp P ys) {V : Finset Vals} (hV : ∀ v, v ∈ V ↔ Valid g v) :
    TotalProbability ys (gp * ∑ v ∈ V, bornProb v P) := by
  obtain ⟨outs, n, -, z, f⟩ := h
  refine ⟨outs.map (fun o => gp * bornOutcome g opt o P), ?_, ?_, ?_⟩
  · rw [List.forall₂_map_right_iff]
    refine (f.imp ?_).flip
    rintro o grp ⟨h1, h2⟩
    exact ⟨h1, fun c hc => (h2 c hc).1⟩
  · intro x hx
    obtain ⟨o, _, rfl⟩ := List.mem_map.1 hx
    exact mul_nonneg h0 (finsum_nonneg (fun v => finsum_nonneg (fun _ => norm_nonneg _)))
  · rw [List.sum_map_mul_left, sum_outcomes hV opt P n z]

/-- The elements of a circuit of lossless elements in which pulse widths are set for all channels. -/
theorem stage_elements {g : Cfg} {m : ℕ} {es : List Element} {stages : List Stage} (hes : List.Forall₂ (ElementStage g m) es stages) (hw : ∀ chs w, .width chs w ∈ es → ∀ ch < g.C, ch ∈ chs) :
    ∀ e ∈ es, LosslessElement e ∧ TotalElement g e := by
  intro e he
  obtain ⟨st, _, h⟩ := forall2_left_mem hes e he
  cases e with
  | optics gates =>
    cases st <;> first | exact h.elim | skip
    refine ⟨fun x hx => ?_, fun x hx => ?_⟩
    · obtain ⟨n, _, hn⟩ := forall2_left_mem h.1 x hx
      exact ⟨h.2 x hx, hn.ne⟩
    · obtain ⟨n, _, hn⟩ := forall2_left_mem h.1 x hx
      exact ⟨hn.h, hn.c⟩
  | delay _ _ _ => exact ⟨trivial, trivial⟩
  | width chs w => exact ⟨trivial, hw chs w he⟩

theorem starts_sets {g : Cfg} {es : List Element} (h : StartsResolved g es) : ∃ e ∈ es, SetsWidth e := by
  induction es with
  | nil => exact h.elim
  | cons e es ih =>
    cases e with
    | optics gates =>
      obtain ⟨e, he, h'⟩ := ih h
      exact ⟨e, List.mem_cons_of_mem _ he, h'⟩
    | delay _ _ _ => exact ⟨_, List.mem_cons_self, trivial⟩
    | width _ _ => exact ⟨_, List.mem_cons_self, trivial⟩

/-- **C104** A circuit of lossless optical elements and time delays (pulse widths, if set, are set for all channels), followed by a photon-resolved measurement of any channels: the
probabilities of the groups that come from one input state are not negative and add up to the probability of that input state. -/
theorem C104_collection_partial (c : Circ) (hg : c.g.Ok) (hL : c.g.L ≤ 10) (ht : 0 < c.thr) (nodes : List SNode) (es : List Element) (hes : List.Forall₂ (ElementStage c.g c.m) es (stagesOf nodes))
    (hst : StartsResolved c.g es) (hw : ∀ chs w, .width chs w ∈ es → ∀ ch < c.g.C, ch ∈ chs) (l : List AState) (hl : ∀ s ∈ l, FreshState c.g c.m s) (hk : KeepsAll c es (stagesOf nodes) l)
    (opt cls : List ℕ) (hopt : ∀ ch ∈ opt, ch < c.g.C) (hcls : cls.length = opt.length) (hclm : ∀ n ∈ cls, n < c.m) :
    ∃ G, readGroups l = some G ∧ ∃ N, ∀ fuel ≥ N, ∃ l' G', evalSpectral c fuel (nodes ++ [.measure opt cls]) l = some l' ∧ readGroups l' = some G' ∧ Proper G' ∧
      GroupsReplaced (fun cols ys => ∃ q, cols = groupOfState ⟨q, none⟩ ∧ TotalProbability ys q.cum) G G' := by
  obtain ⟨V, hV⟩ := valid_finset c.g hg.1
  obtain ⟨G, N1, l1, h1, h2, h3⟩ := fresh_run hg ht hes hst (fresh_start hl) (N0 := 0) (fun k gates h fuel _ l' hl' => hk k gates h fuel l' hl')
  obtain ⟨N2, h4⟩ := lit_measure hg hL h3 hopt hcls hclm
  refine ⟨G, h1, max N1 N2, fun fuel hf => ?_⟩
  obtain ⟨l', G', a1, a2, a3, a4⟩ := h4 fuel (le_trans (le_max_right _ _) hf)
  refine ⟨l', G', ?_, a2, a3, ?_⟩
  · unfold evalSpectral
    rw [stagesOf_measure]
    have := h2 fuel (le_trans (le_max_left _ _) hf)
    unfold runStages at this ⊢
    rw [List.foldlM_append, this]
    simp only [Option.bind_eq_bind, Option.bind_some, List.foldlM_cons, List.foldlM_nil, a1]
    rfl
  · refine List.Forall₂.imp ?_ a4
    rintro e e' ⟨b1, ys, b2, b3⟩
    refine ⟨b1, ys, b2.imp ?_, b3⟩
    rintro x y ⟨q0, hq, r1, r2⟩
    refine ⟨q0, r1, ?_⟩
    have := born_total hq.cum.1 r2 hV
    rw [List.nil_append, total_one hg hq.wf hq.norm hq.few _ (fun e he => (stage_elements hes hw e he).1) (fun e he => (stage_elements hes hw e he).2) (starts_sets hst) hV, mul_one] at this
    exact this

/-- **C104** One input state. -/
theorem C104_state_partial (c : Circ) (hg : c.g.Ok) (hL : c.g.L ≤ 10) (ht : 0 < c.thr) (nodes : List SNode) (es : List Element) (hes : List.Forall₂ (ElementStage c.g c.m) es (stagesOf nodes))
    (hst : StartsResolved c.g es) (hw : ∀ chs w, .width chs w ∈ es → ∀ ch < c.g.C, ch ∈ chs) (q : QState) (hq : FreshState c.g c.m ⟨q, none⟩) (hk : KeepsAll c es (stagesOf nodes) [⟨q, none⟩])
    (opt cls : List ℕ) (hopt : ∀ ch ∈ opt, ch < c.g.C) (hcls : cls.length = opt.length) (hclm : ∀ n ∈ cls, n < c.m) :
    ∃ N, ∀ fuel ≥ N, ∃ l' d, evalSpectral c fuel (nodes ++ [.measure opt cls]) [⟨q, none⟩] = some l' ∧ readGroups l' = some [(q.initial, d)] ∧ TotalProbability (d.map Prod.snd) q.cum := by
  obtain ⟨N, h⟩ := C102_state_partial c hg hL ht nodes es hes hst q hq hk opt cls hopt hcls hclm
  refine ⟨N, fun fuel hf => ?_⟩
  obtain ⟨l', d, h1, h2, h3⟩ := h fuel hf
  refine ⟨l', d, h1, h2, ?_⟩
  obtain ⟨V, hV⟩ := valid_finset c.g hg.1
  have := born_total hq.cum.1 h3 hV
  rw [total_one hg hq.wf hq.norm hq.few _ (fun e he => (stage_elements hes hw e he).1) (fun e he => (stage_elements hes hw e he).2) (starts_sets hst) hV, mul_one] at this
  exact this

/-! ### Pulse widths for some channels only -/

section Fails

/-- The polynomial of the light in the witness: one photon in each of two channels, the first delayed by 1, a 50/50 beam splitter, then pulse width 2 for channel 0. -/
theorem stretched_poly (q : QState) (hq : q.comps = [("11".toList, ⟨1, 1⟩)]) (cl : List ℝ) :
    circuitSubst cl [.delay [0] (.value 1) 1, .optics [⟨genericMatrix (Real.pi / 8) Real.pi, 0, 1⟩], .width [0] 2] (statePoly colCfg ⟨q, none⟩) =
      polyOf [(pairOf (0, some ⟨-1, 2⟩) (0, some ⟨0, 2⟩), 1 / 2), (pairOf (0, some ⟨-1, 2⟩) (1, some ⟨0, 1⟩), -(1 / 2)), (pairOf (0, some ⟨0, 2⟩) (1, some ⟨-1, 1⟩), 1 / 2),
        (pairOf (1, some ⟨-1, 1⟩) (1, some ⟨0, 1⟩), -(1 / 2))] := by
  have hs : ((√2 / 2 : ℝ) : ℂ) * ((√2 / 2 : ℝ) : ℂ) = 1 / 2 := by
    rw [← Complex.ofReal_mul, div_mul_div_comm, Real.mul_self_sqrt (by norm_num)]
    norm_num
  have h0 : statePoly colCfg ⟨q, none⟩ = X (0, none) * X (1, none) := by
    rw [statePoly_single (g := colCfg) (v := [1, 1]) (k := ⟨1, 1⟩) ⟨q, none⟩ (by decide) hq, ketPoly_range]
    simp [Finset.prod_range_succ]
  show rename (widthMode [0] 2) (gateSubst (genericMatrix (Real.pi / 8) Real.pi) 0 1 (rename (delayMode [0] 1 1) (statePoly colCfg ⟨q, none⟩))) = _
  rw [h0, map_mul, rename_X, rename_X, map_mul]
  have e1 : gateSubst (genericMatrix (Real.pi / 8) Real.pi) 0 1 (X (delayMode [0] 1 1 (0, none))) = C ((√2 / 2 : ℝ) : ℂ) * X (0, some ⟨-1, 1⟩) + C ((√2 / 2 : ℝ) : ℂ) * X (1, some ⟨-1, 1⟩) := by
    unfold gateSubst
    rw [aeval_X, mixMatrix]
    simp [delayMode, delayOf]
  have e2 : gateSubst (genericMatrix (Real.pi / 8) Real.pi) 0 1 (X (delayMode [0] 1 1 (1, none))) = C ((√2 / 2 : ℝ) : ℂ) * X (0, some ⟨0, 1⟩) + C (-((√2 / 2 : ℝ) : ℂ)) * X (1, some ⟨0, 1⟩) := by
    unfold gateSubst
    rw [aeval_X, mixMatrix]
    simp [delayMode, delayOf]
  rw [e1, e2, pair_poly, mul_neg, hs]
  have hr : ∀ (f : Mode → Mode) (p q : Mode) (z : ℂ), rename f (monomial (pairOf p q) z) = monomial (pairOf (f p) (f q)) z := by
    intro f p q z
    rw [rename_monomial]
    unfold pairOf
    rw [Finsupp.mapDomain_add, Finsupp.mapDomain_single, Finsupp.mapDomain_single]
  unfold polyOf
  simp only [List.map_cons, List.map_nil, List.sum_cons, List.sum_nil, add_zero, map_add, hr]
  simp [widthMode, delayOf, widthOf]

theorem stretched_prob (a b : PInfo) (a' b' : PInfo) {P : MvPolynomial Mode ℂ} (hP : P = polyOf [(pairOf (0, some a) (0, some b), 1 / 2), (pairOf (0, some a) (1, some b'), -(1 / 2)), (pairOf (0, some b) (1, some a'), 1 / 2),
        (pairOf (1, some a') (1, some b'), -(1 / 2))]) :
    bornProb [2, 0] P + bornProb [1, 1] P + bornProb [0, 2] P ≥ 1 + (photonOverlap (some a) (some b) - photonOverlap (some a') (some b')) ^ 2 / 4 := by
  have n20 : ∀ (x y : ℕ) (i j : Option PInfo), HasNumbers [2, 0] (pairOf (x, i) (y, j)) ↔ x = 0 ∧ y = 0 := by
    intro x y i j
    rw [numbers_pair]
    constructor
    · intro h
      have h0 := h 0
      have h1 := h 1
      simp at h0 h1
      split_ifs at h0 h1 <;> omega
    · intro h ch
      rcases ch with _ | _ | ch
      · simp; split_ifs <;> omega
      · simp; split_ifs <;> omega
      · simp; split_ifs <;> omega
  have n11 : ∀ (x y : ℕ) (i j : Option PInfo), HasNumbers [1, 1] (pairOf (x, i) (y, j)) ↔ (x = 0 ∧ y = 1) ∨ (x = 1 ∧ y = 0) := by
    intro x y i j
    rw [numbers_pair]
    constructor
    · intro h
      have h0 := h 0
      have h1 := h 1
      simp at h0 h1
      split_ifs at h0 h1 <;> omega
    · intro h ch
      rcases ch with _ | _ | ch
      · simp; split_ifs <;> omega
      · simp; split_ifs <;> omega
      · simp; split_ifs <;> omega
  have n02 : ∀ (x y : ℕ) (i j : Option PInfo), HasNumbers [0, 2] (pairOf (x, i) (y, j)) ↔ x = 1 ∧ y = 1 := by
    intro x y i j
    rw [numbers_pair]
    constructor
    · intro h
      have h0 := h 0
      have h1 := h 1
      simp at h0 h1
      split_ifs at h0 h1 <;> omega
    · intro h ch
      rcases ch with _ | _ | ch
      · simp; split_ifs <;> omega
      · simp; split_ifs <;> omega
      · simp; split_ifs <;> omega
  have hi : ∀ (x y : ℕ) (i j : Option PInfo), photonInner (x, i) (y, j) = if x = y then photonOverlap i j else 0 := fun _ _ _ _ => rfl
  have hself : ∀ i : PInfo, photonOverlap (some i) (some i) = 1 := fun i => photonOverlap_self _
  have hsy : ∀ i j : PInfo, photonOverlap (some j) (some i) = photonOverlap (some i) (some j) := by
    intro i j
    have := photonInner_symm (0, some j) (0, some i)
    rwa [hi, hi, if_pos rfl, if_pos rfl] at this
  subst hP
  rw [bornProb_list, bornProb_list, bornProb_list]
  simp only [List.map_cons, List.map_nil, List.sum_cons, List.sum_nil, n20, n11, n02, overlap_pair, hi, hself, hsy a b, hsy a' b']
  simp
  generalize photonOverlap (some a) (some b) = x
  generalize photonOverlap (some a') (some b') = y
  have h1 : 1 + x * x ≤ ‖(1 : ℂ) + x * x‖ := by
    rw [← Complex.ofReal_mul, ← Complex.ofReal_one, ← Complex.ofReal_add, Complex.norm_real]
    exact le_abs_self _
  have h2 : 1 + y * y ≤ ‖(1 : ℂ) + y * y‖ := by
    rw [← Complex.ofReal_mul, ← Complex.ofReal_one, ← Complex.ofReal_add, Complex.norm_real]
    exact le_abs_self _
  have h3 : (1 - x * y) / 2 ≤ ‖((starRingEnd ℂ) 2)⁻¹ * 2⁻¹ + -(((starRingEnd ℂ) 2)⁻¹ * 2⁻¹ * ((x : ℂ) * (y : ℂ))) + (-(((starRingEnd ℂ) 2)⁻¹ * 2⁻¹ * ((x : ℂ) * (y : ℂ))) + ((starRingEnd ℂ) 2)⁻¹ * 2⁻¹)‖ := by
    have e : ((starRingEnd ℂ) 2)⁻¹ * 2⁻¹ + -(((starRingEnd ℂ) 2)⁻¹ * 2⁻¹ * ((x : ℂ) * (y : ℂ))) + (-(((starRingEnd ℂ) 2)⁻¹ * 2⁻¹ * ((x : ℂ) * (y : ℂ))) + ((starRingEnd ℂ) 2)⁻¹ * 2⁻¹) = (((1 - x * y) / 2 : ℝ) : ℂ) := by
      rw [Complex.conj_ofNat]
      push_cast
      ring
    rw [e, Complex.norm_real]
    exact le_abs_self _
  nlinarith

/-- One photon in each channel, amplitude 1. -/
noncomputable def stretchState : QState := ⟨"in".toList, 1, [("11".toList, ⟨1, 1⟩)], [0, 0], []⟩

theorem mix_keeps : SinglePhotonKeeps (1 / 1000) [⟨genericMatrix (Real.pi / 8) Real.pi, 0, 1⟩] := by
  refine singleKeeps_gate (by norm_num) (by decide) ?_
  have hm : ∀ i j, ‖genericMatrix (Real.pi / 8) Real.pi i j‖ ^ 2 = 1 / 2 := by
    rw [mixMatrix]
    intro i j
    fin_cases i <;> fin_cases j
    · exact norm_half
    · exact norm_half
    · exact norm_half
    · show ‖-((√2 / 2 : ℝ) : ℂ)‖ ^ 2 = 1 / 2
      rw [norm_neg]; exact norm_half
  intro i j hlt
  rw [hm] at hlt
  norm_num at hlt

/-- **C104** fails when the pulse width is set for some channels only: one photon in each of two channels, one delayed by one pulse width, a 50/50 beam splitter, pulse width 2 for channel 0: the
probabilities of the outcomes add up to more than 1. -/
theorem C104_fails : ∃ N, ∀ fuel ≥ N, ∃ l' d p, evalSpectral dipCirc fuel ([.delay [0] (.value 1) 1, .optical (genericMatrix (Real.pi / 8) Real.pi) [0, 1], .width [0] 2] ++ [.measure [0, 1] [0, 1]])
    [⟨stretchState, none⟩] = some l' ∧ readGroups l' = some [("in".toList, d)] ∧ TotalProbability (d.map Prod.snd) p ∧ stretchState.cum < p := by
  let es : List Element := [.delay [0] (.value 1) 1, .optics [⟨genericMatrix (Real.pi / 8) Real.pi, 0, 1⟩], .width [0] 2]
  have hf : FreshState colCfg 2 ⟨stretchState, none⟩ := fresh_one (v := [1, 1]) (a := 1) (by decide) (by decide) (by decide) (by simp) rfl (by norm_num [stretchState]) rfl
  have hes : List.Forall₂ (ElementStage dipCirc.g dipCirc.m) es (stagesOf [.delay [0] (.value 1) 1, .optical (genericMatrix (Real.pi / 8) Real.pi) [0, 1], .width [0] 2]) := by
    refine .cons ⟨rfl, rfl, rfl, by decide, (by intro ch e; cases e), one_ne_zero⟩ (.cons ⟨.cons ⟨by decide, by decide, by decide, by decide, rfl, by decide⟩ .nil, ?_⟩ (.cons ⟨rfl, rfl, by decide, by simp, two_ne_zero⟩ .nil))
    intro e he
    obtain rfl := List.mem_singleton.1 he
    exact (C17_wave_plate _ _ 0).1
  have hst : StartsResolved dipCirc.g es := trivial
  have hkeep : KeepsAll dipCirc es (stagesOf [.delay [0] (.value 1) 1, .optical (genericMatrix (Real.pi / 8) Real.pi) [0, 1], .width [0] 2]) [⟨stretchState, none⟩] := by
    refine keepsAll_of (by decide) (by norm_num [dipCirc]) (by norm_num [dipCirc]) hes hst (by intro s hs; obtain rfl := List.mem_singleton.1 hs; exact hf) (by intro gates e; cases e) ?_
    intro i gates e
    rcases i with _ | i
    · obtain rfl := Element.optics.inj (Option.some.inj e)
      refine ⟨mix_keeps, ?_⟩
      intro e' he'
      obtain rfl := Option.some.inj he'
      exact trivial
    · rcases i with _ | i <;> simp [es] at e
  obtain ⟨N, hN⟩ := C102_state_partial dipCirc (by decide) (by decide) (by norm_num [dipCirc]) _ es hes hst stretchState hf hkeep [0, 1] [0, 1] (by decide) rfl (by decide)
  refine ⟨N, fun fuel hfu => ?_⟩
  obtain ⟨l', d, a1, a2, a3⟩ := hN fuel hfu
  obtain ⟨V, hV⟩ := valid_finset colCfg (by decide)
  refine ⟨l', d, _, a1, a2, born_total hf.cum.1 a3 hV, ?_⟩
  have hp := stretched_prob _ _ _ _ (stretched_poly stretchState rfl stretchState.classical)
  have hsub : bornProb [2, 0] (circuitSubst stretchState.classical es (statePoly colCfg ⟨stretchState, none⟩)) + bornProb [1, 1] (circuitSubst stretchState.classical es (statePoly colCfg ⟨stretchState, none⟩)) +
      bornProb [0, 2] (circuitSubst stretchState.classical es (statePoly colCfg ⟨stretchState, none⟩)) ≤ ∑ v ∈ V, bornProb v (circuitSubst stretchState.classical es (statePoly colCfg ⟨stretchState, none⟩)) := by
    have h3 : ({[2, 0], [1, 1], [0, 2]} : Finset Vals) ⊆ V := by
      intro v hv
      rw [hV]
      simp only [Finset.mem_insert, Finset.mem_singleton] at hv
      rcases hv with rfl | rfl | rfl <;> decide
    refine le_trans (le_of_eq ?_) (Finset.sum_le_sum_of_subset_of_nonneg h3 (fun v _ _ => norm_nonneg _))
    rw [Finset.sum_insert (by decide), Finset.sum_insert (by decide), Finset.sum_singleton, add_assoc]
  have hlt : photonOverlap (some ⟨-1, 1⟩) (some ⟨0, 1⟩) < photonOverlap (some ⟨-1, 2⟩) (some ⟨0, 2⟩) := by
    unfold photonOverlap
    simp only
    rw [Real.exp_lt_exp, div_pow, div_pow, Real.sq_sqrt (by positivity), Real.sq_sqrt (by positivity)]
    have := Real.log_pos (show (1 : ℝ) < 2 by norm_num)
    norm_num
    linarith
  have hne : 0 < (photonOverlap (some ⟨-1, 2⟩) (some ⟨0, 2⟩) - photonOverlap (some ⟨-1, 1⟩) (some ⟨0, 1⟩)) ^ 2 := by
    have : 0 < photonOverlap (some ⟨-1, 2⟩) (some ⟨0, 2⟩) - photonOverlap (some ⟨-1, 1⟩) (some ⟨0, 1⟩) := sub_pos.2 hlt
    positivity
  show (1 : ℝ) < 1 * ∑ v ∈ V, bornProb v (circuitSubst stretchState.classical es (statePoly colCfg ⟨stretchState, none⟩))
  have hp' := le_trans hp hsub
  linarith

end Fails

/-! ### The hypotheses are met -/

section NonVacuity

/-- C104: a delay, a beam splitter, a pulse width for both channels, another delay and beam splitter; the outcomes have total probability 1. -/
example : ∃ N, ∀ fuel ≥ N, ∃ l' d, evalSpectral dipCirc fuel ([.delay [0] (.value 1) 1, .optical (genericMatrix (Real.pi / 8) Real.pi) [0, 1], .delay [1] (.classical 1) 3] ++ [.measure [1] [0]])
    [⟨stretchState, none⟩] = some l' ∧ readGroups l' = some [("in".toList, d)] ∧ TotalProbability (d.map Prod.snd) 1 := by
  have hf : FreshState colCfg 2 ⟨stretchState, none⟩ := fresh_one (v := [1, 1]) (a := 1) (by decide) (by decide) (by decide) (by simp) rfl (by norm_num [stretchState]) rfl
  have hes : List.Forall₂ (ElementStage dipCirc.g dipCirc.m) [.delay [0] (.value 1) 1, .optics [⟨genericMatrix (Real.pi / 8) Real.pi, 0, 1⟩], .delay [1] (.classical 1) 3]
      (stagesOf [.delay [0] (.value 1) 1, .optical (genericMatrix (Real.pi / 8) Real.pi) [0, 1], .delay [1] (.classical 1) 3]) := by
    refine .cons ⟨rfl, rfl, rfl, by decide, (by intro ch e; cases e), one_ne_zero⟩ (.cons ⟨.cons ⟨by decide, by decide, by decide, by decide, rfl, by decide⟩ .nil, ?_⟩
      (.cons ⟨rfl, rfl, rfl, by decide, (by intro ch e; cases e; decide), three_ne_zero⟩ .nil))
    intro e he
    obtain rfl := List.mem_singleton.1 he
    exact (C17_wave_plate _ _ 0).1
  refine C104_state_partial dipCirc (by decide) (by decide) (by norm_num [dipCirc]) _ _ hes trivial (by intro chs w h; simp at h) stretchState hf ?_ [1] [0] (by decide) rfl (by decide)
  refine keepsAll_of (by decide) (by norm_num [dipCirc]) (by norm_num [dipCirc]) hes trivial (by intro s hs; obtain rfl := List.mem_singleton.1 hs; exact hf) (by intro gates e; cases e) ?_
  intro i gates e
  rcases i with _ | i
  · obtain rfl := Element.optics.inj (Option.some.inj e)
    refine ⟨mix_keeps, ?_⟩
    intro e' he'
    obtain rfl := Option.some.inj he'
    exact trivial
  · rcases i with _ | i <;> simp at e

end NonVacuity

end Verif.Props
