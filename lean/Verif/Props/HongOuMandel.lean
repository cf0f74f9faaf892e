/-
Property C103: the Hong-Ou-Mandel dip, from the circuit to the recorded probability.
-/
import Verif.Lemmas.HongOuMandel
import Verif.Props.OpticalNodes

namespace Verif.Props
open Verif Spec MvPolynomial

/-- Read the probability of an outcome from the groups of a measurement. -/
theorem outcome_probability {g : Cfg} {opt cls : List ℕ} {gp : ℝ} {P : MvPolynomial Mode ℂ} {ys : List (List Column)} (hcls : cls.length = opt.length) (hnd : cls.Nodup) (h : BornGroups g opt cls gp P ys)
    (o : List ℕ) (ho : o.length = opt.length) : OutcomeProbability ys cls o (gp * bornOutcome g opt o P) := by
  obtain ⟨outs, h1, hl, h2, h3⟩ := h
  have same : ∀ (o' : List ℕ) (cl : List ℝ), o' ∈ outs → Records cls o cl → Records cls o' cl → o' = o := by
    intro o' cl ho' r r'
    refine List.ext_getElem (by rw [hl o' ho', ho]) (fun i h1 h2 => ?_)
    have hi : i < cls.length := by rw [hcls, ← ho]; exact h2
    have hlast : ∀ j : ℕ, i < j → cls[j]? ≠ some cls[i] := by
      intro j hj e
      obtain ⟨hj', e'⟩ := List.getElem?_eq_some_iff.1 e
      have := (List.Nodup.getElem_inj_iff hnd).1 e'
      omega
    have a := r i cls[i] (List.getElem?_eq_getElem hi) hlast
    have b := r' i cls[i] (List.getElem?_eq_getElem hi) hlast
    rw [a, List.getElem?_eq_getElem h1, List.getElem?_eq_getElem h2] at b
    simp only [Option.map_some, Option.some.injEq, Nat.cast_inj] at b
    exact b.symm
  have hgrp : ∀ (i : ℕ) (grp : List Column), ys[i]? = some grp → ∃ o', outs[i]? = some o' ∧ grp ≠ [] ∧ (∀ c ∈ grp, c.gprob = gp * bornOutcome g opt o' P ∧ c.states ≠ [] ∧ ∀ s ∈ c.states, Records cls o' s.q.classical) ∧
      (GroupRecords cls o grp → o' = o) := by
    intro i grp hi
    obtain ⟨o', e1, e2, e3⟩ := forall2_get h3.flip hi
    refine ⟨o', e1, e2, e3, fun hr => ?_⟩
    obtain ⟨c, hc⟩ := List.exists_mem_of_ne_nil _ e2
    obtain ⟨_, hs, hr'⟩ := e3 c hc
    obtain ⟨s, hs⟩ := List.exists_mem_of_ne_nil _ hs
    exact same o' _ (List.mem_of_getElem? e1) (hr c hc s hs) (hr' s hs)
  refine ⟨?_, ?_, ?_⟩
  · intro grp hg hr c hc
    obtain ⟨i, hi⟩ := List.getElem?_of_mem hg
    obtain ⟨o', _, _, e3, e4⟩ := hgrp i grp hi
    rw [(e3 c hc).1, e4 hr]
  · intro hp
    have hin : o ∈ outs := by
      by_contra hno
      exact hp (by rw [h2 o hno, mul_zero])
    obtain ⟨grp, hg, e1, e2⟩ := forall2_left_mem h3 o hin
    exact ⟨grp, hg, e1, fun c hc s hs => (e2 c hc).2.2 s hs⟩
  · intro i j grp grp' hi hj hr hr'
    obtain ⟨o1, a1, _, _, a4⟩ := hgrp i grp hi
    obtain ⟨o2, b1, _, _, b4⟩ := hgrp j grp' hj
    rw [a4 hr] at a1
    rw [b4 hr'] at b1
    obtain ⟨hi', ei⟩ := List.getElem?_eq_some_iff.1 a1
    obtain ⟨hj', ej⟩ := List.getElem?_eq_some_iff.1 b1
    exact (List.Nodup.getElem_inj_iff h1).1 (ei.trans ej.symm)

/-- The matrix elements decide whether a single element keeps all amplitudes. -/
theorem singleKeeps_gate {thr : ℝ} (ht1 : thr ≤ 1) {M : Opt} {h k : ℕ} (hne : h ≠ k) (hM : ∀ i j, ‖M i j‖ ^ 2 < thr → M i j = 0) : SinglePhotonKeeps thr [⟨M, h, k⟩] := by
  classical
  have hX : ∀ (p q : Mode), (X p : MvPolynomial Mode ℂ).coeff (Finsupp.single q 1) = if p = q then 1 else 0 := by
    intro p q
    rw [coeff_X]
    congr 1
    rw [Finsupp.single_left_inj one_ne_zero]
  rintro ⟨ch, info⟩ j
  have hval : (opticsSubst [⟨M, h, k⟩] (X (ch, info))) = if ch = h then C (M 0 0) * X (h, info) + C (M 0 1) * X (k, info)
    else if ch = k then C (M 1 0) * X (h, info) + C (M 1 1) * X (k, info) else X (ch, info) := by
    show gateSubst M h k (X (ch, info)) = _
    unfold gateSubst
    rw [aeval_X]
  rw [hval]
  have pair : ∀ a b : ℂ, (‖a‖ ^ 2 < thr → a = 0) → (‖b‖ ^ 2 < thr → b = 0) → ‖(C a * X (h, info) + C b * X (k, info)).coeff (Finsupp.single (j, info) 1)‖ ^ 2 < thr →
      (C a * X (h, info) + C b * X (k, info) : MvPolynomial Mode ℂ).coeff (Finsupp.single (j, info) 1) = 0 := by
    intro a b ha hb
    rw [coeff_add, coeff_C_mul, coeff_C_mul, hX, hX]
    by_cases e1 : h = j
    · subst e1
      simp [hne.symm]
      exact ha
    · by_cases e2 : k = j
      · subst e2
        simp [hne]
        exact hb
      · simp [e1, e2]
  split
  · exact pair _ _ (hM 0 0) (hM 0 1)
  · split
    · exact pair _ _ (hM 1 0) (hM 1 1)
    · rw [hX]
      split
      · intro hlt
        rw [norm_one] at hlt
        linarith
      · exact fun _ => rfl

/-- Two photons, one in each input of a lossless element with transmission `T` and reflection `R`. -/
theorem unitary_coincidence {M : Opt} (hM : M ∈ Matrix.unitaryGroup (Fin 2) ℂ) {x : ℝ} (hx : 0 ≤ x ∧ x ≤ 1) :
    ‖((‖M 0 0 * M 1 1‖ ^ 2 + ‖M 0 1 * M 1 0‖ ^ 2 : ℝ) : ℂ) + (starRingEnd ℂ (M 0 1 * M 1 0) * (M 0 0 * M 1 1) + starRingEnd ℂ (M 0 0 * M 1 1) * (M 0 1 * M 1 0)) * (x : ℂ)‖ =
      (‖M 0 0‖ ^ 2) ^ 2 + (‖M 0 1‖ ^ 2) ^ 2 - 2 * ‖M 0 0‖ ^ 2 * ‖M 0 1‖ ^ 2 * x := by
  have h1 := Matrix.mem_unitaryGroup_iff.1 hM
  have h2 := Matrix.mem_unitaryGroup_iff'.1 hM
  have r00 := congrFun (congrFun h1 0) 0
  have r01 := congrFun (congrFun h1 0) 1
  have r11 := congrFun (congrFun h1 1) 1
  have c00 := congrFun (congrFun h2 0) 0
  simp only [Matrix.mul_apply, Fin.sum_univ_two, Matrix.star_apply, Matrix.one_apply_eq, RCLike.star_def] at r00 r01 r11 c00
  rw [Matrix.one_apply_ne (by decide)] at r01
  have n : ∀ z : ℂ, z * starRingEnd ℂ z = ((‖z‖ ^ 2 : ℝ) : ℂ) := fun z => by rw [Complex.mul_conj']; push_cast; ring
  have n' : ∀ z : ℂ, starRingEnd ℂ z * z = ((‖z‖ ^ 2 : ℝ) : ℂ) := fun z => by rw [mul_comm, n]
  rw [n, n] at r00 r11
  rw [n', n'] at c00
  have R00 : ‖M 0 0‖ ^ 2 + ‖M 0 1‖ ^ 2 = 1 := by exact_mod_cast r00
  have R11 : ‖M 1 0‖ ^ 2 + ‖M 1 1‖ ^ 2 = 1 := by exact_mod_cast r11
  have C00 : ‖M 0 0‖ ^ 2 + ‖M 1 0‖ ^ 2 = 1 := by exact_mod_cast c00
  have hD : ‖M 1 0‖ ^ 2 = ‖M 0 1‖ ^ 2 := by linarith
  have hE : ‖M 1 1‖ ^ 2 = ‖M 0 0‖ ^ 2 := by linarith
  have cross : starRingEnd ℂ (M 0 1 * M 1 0) * (M 0 0 * M 1 1) = ((-(‖M 0 0‖ ^ 2 * ‖M 0 1‖ ^ 2) : ℝ) : ℂ) := by
    have e : starRingEnd ℂ (M 0 1 * M 1 0) * (M 0 0 * M 1 1) = -((M 0 1 * starRingEnd ℂ (M 0 1)) * (M 1 1 * starRingEnd ℂ (M 1 1))) := by
      rw [map_mul]
      linear_combination (starRingEnd ℂ (M 0 1) * M 1 1) * r01
    rw [e, n, n, hE]
    push_cast
    ring
  have cross' : starRingEnd ℂ (M 0 0 * M 1 1) * (M 0 1 * M 1 0) = ((-(‖M 0 0‖ ^ 2 * ‖M 0 1‖ ^ 2) : ℝ) : ℂ) := by
    have := congrArg (starRingEnd ℂ) cross
    rw [map_mul, Complex.conj_conj, Complex.conj_ofReal] at this
    rw [← this, mul_comm]
  rw [cross, cross', norm_mul, norm_mul, mul_pow, mul_pow, hD, hE]
  set T := ‖M 0 0‖ ^ 2 with hT
  set R := ‖M 0 1‖ ^ 2 with hR
  have hT0 : 0 ≤ T := by positivity
  have hR0 : 0 ≤ R := by positivity
  have e : ((T * T + R * R : ℝ) : ℂ) + (((-(T * R) : ℝ) : ℂ) + ((-(T * R) : ℝ) : ℂ)) * (x : ℂ) = ((T ^ 2 + R ^ 2 - 2 * T * R * x : ℝ) : ℂ) := by
    push_cast
    ring
  rw [e, Complex.norm_real, Real.norm_eq_abs, abs_of_nonneg]
  nlinarith [sq_nonneg (T - R), mul_nonneg hT0 hR0, mul_nonneg (mul_nonneg hT0 hR0) (sub_nonneg.2 hx.2)]

/-- A state with one component is an input state. -/
theorem fresh_one {g : Cfg} {m : ℕ} {q : QState} {v : Vals} {a : ℂ} (hv : Valid g v) (h0 : v.sum ≠ 0) (hlt : v.sum < g.L) (ha : ‖a‖ = 1) (hq : q.comps = [(g.stdName v, ⟨a, 1⟩)])
    (hcum : 0 ≤ q.cum ∧ q.cum ≤ 1) (hcl : q.classical.length = m) : FreshState g m ⟨q, none⟩ := by
  have huniq : ∀ v', Valid g v' → IsName g v' (g.stdName v) → v' = v := fun v' hv' hn => g.stdName_inj hv'.2 hv.2 ((isName_iff hv').1 hn).symm
  refine ⟨rfl, ?_, ?_, ?_, ?_, ?_, ?_, hcum, hcl⟩
  · rw [hq]
    exact ⟨by simp, by intro p hp; obtain rfl := List.mem_singleton.1 hp; exact ⟨v, hv, (isName_iff hv).2 rfl⟩⟩
  · rw [hq]
    intro p hp
    obtain rfl := List.mem_singleton.1 hp
    simp [ha]
  · rw [hq]
    simp [totalProb, ha]
  · rw [hq]
    intro p hp h0
    obtain rfl := List.mem_singleton.1 hp
    simp only at h0
    rw [h0] at ha
    simp at ha
  · rw [hq]
    intro p hp v' hv' hn
    obtain rfl := List.mem_singleton.1 hp
    rw [huniq v' hv' hn]
    exact hlt
  · intro p hp v' hv' hn hs
    simp only at hp
    rw [hq] at hp
    obtain rfl := (List.cons.inj hp).1
    rw [huniq v' hv' hn] at hs
    exact absurd hs h0

/-- The coincidences of two photons, one of them delayed, behind a two-channel element. -/
theorem dip_probability {g : Cfg} (hL3 : 3 ≤ g.L) {h k : ℕ} (hh : h < g.C) (hk : k < g.C) (hne : h ≠ k) {M : Opt} (hM : M ∈ Matrix.unitaryGroup (Fin 2) ℂ) {chs : List ℕ} (hin : h ∈ chs) (hout : k ∉ chs)
    (t : ℝ) {w : ℝ} (hw : w ≠ 0) {q : QState} {a : ℂ} (ha : ‖a‖ = 1) {v : Vals} (hv : Valid g v) (hvh : ∀ ch < g.C, v.getD ch 0 = if ch = h ∨ ch = k then 1 else 0) (hq : q.comps = [(g.stdName v, ⟨a, 1⟩)]) :
    bornOutcome g [h, k] [1, 1] (opticsSubst [⟨M, h, k⟩] (rename (delayMode chs t w) (statePoly g ⟨q, none⟩))) =
      (‖M 0 0‖ ^ 2) ^ 2 + (‖M 0 1‖ ^ 2) ^ 2 - 2 * ‖M 0 0‖ ^ 2 * ‖M 0 1‖ ^ 2 * Real.exp (-(Real.log 2) * (t / w) ^ 2) := by
  have hpoly : opticsSubst [⟨M, h, k⟩] (rename (delayMode chs t w) (statePoly g ⟨q, none⟩)) =
      C a * ((C (M 0 0) * X (h, some ⟨0 - t, w⟩) + C (M 0 1) * X (k, some ⟨0 - t, w⟩)) * (C (M 1 0) * X (h, some ⟨0 - 0, w⟩) + C (M 1 1) * X (k, some ⟨0 - 0, w⟩))) := by
    have h0 : statePoly g ⟨q, none⟩ = C a * (X (h, none) * X (k, none)) := by
      rw [statePoly_single ⟨q, none⟩ hv hq, ketPoly_range]
      congr 1
      have hl : v.length = g.C := hv.1
      rw [hl]
      have hs : ({h, k} : Finset ℕ) ⊆ Finset.range g.C := by
        intro i hi
        rcases Finset.mem_insert.1 hi with rfl | hi
        · exact Finset.mem_range.2 hh
        · obtain rfl := Finset.mem_singleton.1 hi
          exact Finset.mem_range.2 hk
      rw [← Finset.prod_subset hs (fun i hi hn => by
        have hn' : ¬ (i = h ∨ i = k) := by simpa using hn
        rw [hvh i (Finset.mem_range.1 hi), if_neg hn']
        simp), Finset.prod_pair hne, hvh h hh, hvh k hk]
      simp
    rw [h0, map_mul, rename_C, map_mul, rename_X, rename_X, opticsSubst_C]
    congr 1
    show gateSubst M h k _ = _
    have e1 : delayMode chs t w (h, none) = (h, some ⟨0 - t, w⟩) := by
      unfold delayMode
      simp only [if_pos hin]
      rfl
    have e2 : delayMode chs t w (k, none) = (k, some ⟨0 - 0, w⟩) := by
      unfold delayMode
      simp only [if_neg hout]
      rfl
    rw [e1, e2, map_mul]
    unfold gateSubst
    rw [aeval_X, aeval_X]
    simp only [if_true, if_neg hne.symm]
  have hx2 : photonOverlap (some ⟨0 - t, w⟩) (some ⟨0 - 0, w⟩) * photonOverlap (some ⟨0 - 0, w⟩) (some ⟨0 - t, w⟩) = Real.exp (-(Real.log 2) * (t / w) ^ 2) := by
    unfold photonOverlap
    simp only
    rw [← Real.exp_add]
    congr 1
    rw [div_pow, div_pow, Real.sq_sqrt (by positivity), div_pow]
    have : w ^ 2 ≠ 0 := pow_ne_zero 2 hw
    field_simp
    ring
  rw [hpoly, bornOutcome_phase ha, coincidence hh hk hne (by omega), hx2, unitary_coincidence hM ⟨(Real.exp_pos _).le, ?_⟩]
  · rw [Real.exp_le_one_iff]
    have h1 : 0 ≤ Real.log 2 := Real.log_nonneg (by norm_num)
    have h2 : 0 ≤ (t / w) ^ 2 := sq_nonneg _
    nlinarith

/-- **C103** One photon in each of two channels; one of the two is delayed by `t` (pulse width `w`); a lossless two-channel element with transmission `T` and reflection `R`; measurement of both
channels. The recorded probability of one photon in each channel is `T² + R² − 2 T R exp(−ln 2 (t/w)²)`, for every delay and pulse width. -/
theorem C103_dip (c : Circ) (hg : c.g.Ok) (hL : c.g.L ≤ 10) (hL3 : 3 ≤ c.g.L) (ht : 0 < c.thr) (ht1 : c.thr ≤ 1) (h k : ℕ) (M : Opt) (hM : M ∈ Matrix.unitaryGroup (Fin 2) ℂ)
    (hthr : ∀ i j, ‖M i j‖ ^ 2 < c.thr → M i j = 0) (node : Opt × List ℕ) (hnode : GateNode c.g ⟨M, h, k⟩ node) (chs : List ℕ) (hch : ∀ ch ∈ chs, ch < c.g.C) (hin : h ∈ chs) (hout : k ∉ chs) (t w : ℝ) (hw : w ≠ 0)
    (q : QState) (a : ℂ) (ha : ‖a‖ = 1) (v : Vals) (hv : Valid c.g v) (hvh : ∀ ch < c.g.C, v.getD ch 0 = if ch = h ∨ ch = k then 1 else 0) (hq : q.comps = [(c.g.stdName v, ⟨a, 1⟩)])
    (hcum : 0 ≤ q.cum ∧ q.cum ≤ 1) (hcl : q.classical.length = c.m) (x y : ℕ) (hx : x < c.m) (hy : y < c.m) (hxy : x ≠ y) :
    ∃ N, ∀ fuel ≥ N, ∃ l' d, evalSpectral c fuel [.delay chs (.value t) w, .optical node.1 node.2, .measure [h, k] [x, y]] [⟨q, none⟩] = some l' ∧ readGroups l' = some [(q.initial, d)] ∧
      OutcomeProbability (d.map Prod.snd) [x, y] [1, 1] (q.cum * ((‖M 0 0‖ ^ 2) ^ 2 + (‖M 0 1‖ ^ 2) ^ 2 - 2 * ‖M 0 0‖ ^ 2 * ‖M 0 1‖ ^ 2 * Real.exp (-(Real.log 2) * (t / w) ^ 2))) := by
  have hh : h < c.g.C := hnode.h
  have hk : k < c.g.C := hnode.c
  have hne : h ≠ k := hnode.ne
  have hvt : v = twoHot c.g.C h k := by
    have hlen : v.length = (twoHot c.g.C h k).length := by rw [hv.1]; simp [twoHot]
    refine List.ext_getElem hlen (fun i h1 h2 => ?_)
    have := hvh i (by rw [← hv.1]; exact h1)
    rw [← twoHot_getD hh hk, List.getD_eq_getElem _ _ h1, List.getD_eq_getElem _ _ h2] at this
    exact this
  have hsum : v.sum = 2 := by rw [hvt]; exact twoHot_sum hh hk hne
  have hfresh : FreshState c.g c.m ⟨q, none⟩ := fresh_one hv (by omega) (by omega) ha hq hcum hcl
  let es : List Element := [.delay chs (.value t) w, .optics [⟨M, h, k⟩]]
  have hes : List.Forall₂ (ElementStage c.g c.m) es (stagesOf [.delay chs (.value t) w, .optical node.1 node.2]) :=
    .cons ⟨rfl, rfl, rfl, hch, (by intro ch e; cases e), hw⟩ (.cons ⟨.cons hnode .nil, by intro e he; obtain rfl := List.mem_singleton.1 he; exact hM⟩ .nil)
  have hst : StartsResolved c.g es := trivial
  have hkeep : KeepsAll c es (stagesOf [.delay chs (.value t) w, .optical node.1 node.2]) [⟨q, none⟩] := by
    refine keepsAll_of hg ht ht1 hes hst (by intro s hs; obtain rfl := List.mem_singleton.1 hs; exact hfresh) ?_ ?_
    · intro gates e
      cases e
    · intro i gates e
      rcases i with _ | i
      · obtain rfl : [⟨M, h, k⟩] = gates := by
          have := Option.some.inj e
          exact Element.optics.inj this
        refine ⟨singleKeeps_gate ht1 hne hthr, ?_⟩
        intro e' he'
        obtain rfl := Option.some.inj he'
        exact trivial
      · simp [es] at e
  obtain ⟨N, hN⟩ := C102_state_partial c hg hL ht _ es hes hst q hfresh hkeep [h, k] [x, y] (by
    intro ch hc
    rcases List.mem_cons.1 hc with rfl | hc
    · exact hh
    · obtain rfl := List.mem_singleton.1 hc
      exact hk) rfl (by
    intro n hn
    rcases List.mem_cons.1 hn with rfl | hn
    · exact hx
    · obtain rfl := List.mem_singleton.1 hn
      exact hy)
  refine ⟨N, fun fuel hf => ?_⟩
  obtain ⟨l', d, a1, a2, a3⟩ := hN fuel hf
  refine ⟨l', d, a1, a2, ?_⟩
  have hprob := outcome_probability (opt := [h, k]) (cls := [x, y]) rfl (by simpa using hxy) a3 [1, 1] rfl
  have hpoly : circuitSubst q.classical es (statePoly c.g ⟨q, none⟩) = opticsSubst [⟨M, h, k⟩] (rename (delayMode chs t w) (statePoly c.g ⟨q, none⟩)) := rfl
  rw [hpoly, dip_probability hL3 hh hk hne hM hin hout t hw ha hv hvh hq] at hprob
  exact hprob

/-- **C103** `mix_50_50`: the Hong-Ou-Mandel dip. The recorded probability of a coincidence is `½ (1 − exp(−ln 2 (t/w)²))`: 0 without delay, ¼ when the delay is the pulse width. -/
theorem C103_half (c : Circ) (hg : c.g.Ok) (hL : c.g.L ≤ 10) (hL3 : 3 ≤ c.g.L) (ht : 0 < c.thr) (ht1 : c.thr ≤ 1 / 2) (h k : ℕ) (hh : h < c.g.C) (hk : k < c.g.C) (hne : h ≠ k) (hbug : ¬ (2 ≤ h ∧ k = 0))
    (chs : List ℕ) (hch : ∀ ch ∈ chs, ch < c.g.C) (hin : h ∈ chs) (hout : k ∉ chs) (t w : ℝ) (hw : w ≠ 0)
    (q : QState) (a : ℂ) (ha : ‖a‖ = 1) (v : Vals) (hv : Valid c.g v) (hvh : ∀ ch < c.g.C, v.getD ch 0 = if ch = h ∨ ch = k then 1 else 0) (hq : q.comps = [(c.g.stdName v, ⟨a, 1⟩)])
    (hcum : 0 ≤ q.cum ∧ q.cum ≤ 1) (hcl : q.classical.length = c.m) (x y : ℕ) (hx : x < c.m) (hy : y < c.m) (hxy : x ≠ y) :
    ∃ node, mix5050 c.g h k = some node ∧ ∃ N, ∀ fuel ≥ N, ∃ l' d, evalSpectral c fuel [.delay chs (.value t) w, .optical node.1 node.2, .measure [h, k] [x, y]] [⟨q, none⟩] = some l' ∧
      readGroups l' = some [(q.initial, d)] ∧ OutcomeProbability (d.map Prod.snd) [x, y] [1, 1] (q.cum * (1 / 2 * (1 - Real.exp (-(Real.log 2) * (t / w) ^ 2)))) := by
  obtain ⟨tl, e, -⟩ := tensorList_two hh hk hne
  have hm : ∀ i j, ‖genericMatrix (Real.pi / 8) Real.pi i j‖ ^ 2 = 1 / 2 := by
    rw [mixMatrix]
    intro i j
    fin_cases i <;> fin_cases j
    · exact norm_half
    · exact norm_half
    · exact norm_half
    · show ‖-((√2 / 2 : ℝ) : ℂ)‖ ^ 2 = 1 / 2
      rw [norm_neg]; exact norm_half
  refine ⟨(genericMatrix (Real.pi / 8) Real.pi, tl), by rw [mix5050, genericRotation, e]; rfl, ?_⟩
  have := C103_dip c hg hL hL3 ht (by linarith) h k (genericMatrix (Real.pi / 8) Real.pi) (C17_wave_plate _ _ 0).1 (fun i j hlt => by rw [hm] at hlt; linarith)
    (genericMatrix (Real.pi / 8) Real.pi, tl) ⟨hh, hk, hne, hbug, rfl, e⟩ chs hch hin hout t w hw q a ha v hv hvh hq hcum hcl x y hx hy hxy
  rw [hm, hm] at this
  have e2 : (1 / 2 : ℝ) ^ 2 + (1 / 2) ^ 2 - 2 * (1 / 2) * (1 / 2) * Real.exp (-(Real.log 2) * (t / w) ^ 2) = 1 / 2 * (1 - Real.exp (-(Real.log 2) * (t / w) ^ 2)) := by ring
  rw [e2] at this
  exact this

/-! ### The hypotheses are met -/

section NonVacuity

/-- Two channels, up to two photons, threshold 1/1000, two classical channels. -/
noncomputable def dipCirc : Circ := ⟨colCfg, 2, 1 / 1000, true, []⟩

/-- One photon in each channel. -/
noncomputable def dipState : QState := ⟨"in".toList, 1, [("11".toList, ⟨Complex.I, 1⟩)], [0, 0], []⟩

/-- C103, C102: a delay of 3 pulse widths; the coincidences have probability ½ (1 − 2^(−9)). -/
example : ∃ node, mix5050 colCfg 0 1 = some node ∧ ∃ N, ∀ fuel ≥ N, ∃ l' d, evalSpectral dipCirc fuel [.delay [0] (.value 6) 2, .optical node.1 node.2, .measure [0, 1] [0, 1]] [⟨dipState, none⟩] = some l' ∧
    readGroups l' = some [("in".toList, d)] ∧ OutcomeProbability (d.map Prod.snd) [0, 1] [1, 1] (1 * (1 / 2 * (1 - Real.exp (-(Real.log 2) * (6 / 2) ^ 2)))) :=
  C103_half dipCirc (by decide) (by decide) (by decide) (by norm_num [dipCirc]) (by norm_num [dipCirc]) 0 1 (by decide) (by decide) (by decide) (by decide) [0] (by decide) (by decide) (by decide) 6 2 (by norm_num)
    dipState Complex.I (by simp) [1, 1] (by decide) (by decide) rfl (by norm_num [dipState]) rfl 0 1 (by decide) (by decide) (by decide)

/-- C102: pulse widths, a delay given by a classical channel, two beam splitters. -/
example : ∃ G, readGroups [⟨dipState, none⟩] = some G ∧ ∃ N, ∀ fuel ≥ N, ∃ l' G', evalSpectral dipCirc fuel ([.width [0] 3, .optical (genericMatrix (Real.pi / 8) Real.pi) [0, 1],
    .delay [1] (.classical 0) 2, .optical (genericMatrix (Real.pi / 8) Real.pi) [0, 1]] ++ [.measure [1] [0]]) [⟨dipState, none⟩] = some l' ∧ readGroups l' = some G' ∧ Proper G' ∧
    GroupsReplaced (fun cols ys => ∃ q, cols = groupOfState ⟨q, none⟩ ∧ BornGroups colCfg [1] [0] q.cum (circuitSubst q.classical [.width [0] 3, .optics [⟨genericMatrix (Real.pi / 8) Real.pi, 0, 1⟩],
      .delay [1] (.classical 0) 2, .optics [⟨genericMatrix (Real.pi / 8) Real.pi, 0, 1⟩]] (statePoly colCfg ⟨q, none⟩)) ys) G G' := by
  have hu : ∀ e ∈ [(⟨genericMatrix (Real.pi / 8) Real.pi, 0, 1⟩ : Gate)], e.M ∈ Matrix.unitaryGroup (Fin 2) ℂ := by
    intro e he
    obtain rfl := List.mem_singleton.1 he
    exact (C17_wave_plate _ _ 0).1
  have hm : ∀ i j, ‖genericMatrix (Real.pi / 8) Real.pi i j‖ ^ 2 < (1 / 1000 : ℝ) → genericMatrix (Real.pi / 8) Real.pi i j = 0 := by
    rw [mixMatrix]
    intro i j hlt
    have h1 := norm_half
    have h2 : ‖-((√2 / 2 : ℝ) : ℂ)‖ ^ 2 = 1 / 2 := by rw [norm_neg]; exact norm_half
    exfalso
    fin_cases i <;> fin_cases j
    · replace hlt : ‖((√2 / 2 : ℝ) : ℂ)‖ ^ 2 < 1 / 1000 := hlt
      linarith
    · replace hlt : ‖((√2 / 2 : ℝ) : ℂ)‖ ^ 2 < 1 / 1000 := hlt
      linarith
    · replace hlt : ‖((√2 / 2 : ℝ) : ℂ)‖ ^ 2 < 1 / 1000 := hlt
      linarith
    · replace hlt : ‖-((√2 / 2 : ℝ) : ℂ)‖ ^ 2 < 1 / 1000 := hlt
      linarith
  set M := genericMatrix (Real.pi / 8) Real.pi with hMdef
  have hes : List.Forall₂ (ElementStage dipCirc.g dipCirc.m) [.width [0] 3, .optics [⟨M, 0, 1⟩], .delay [1] (.classical 0) 2, .optics [⟨M, 0, 1⟩]]
      (stagesOf [.width [0] 3, .optical M [0, 1], .delay [1] (.classical 0) 2, .optical M [0, 1]]) :=
    .cons ⟨rfl, rfl, by decide, by decide, by norm_num⟩ (.cons ⟨.cons (colGate _) .nil, hu⟩ (.cons ⟨rfl, rfl, rfl, by decide, (by intro ch e; cases e; decide), by norm_num⟩ (.cons ⟨.cons (colGate _) .nil, hu⟩ .nil)))
  have hwidth : ∀ chs w, Element.width chs w ∈ [.width [0] 3, .optics [⟨M, 0, 1⟩], .delay [1] (.classical 0) 2, .optics [⟨M, 0, 1⟩]] → ∃ ch < dipCirc.g.C, ch ∉ chs := by
    intro chs w h
    simp only [List.mem_cons, Element.width.injEq, reduceCtorEq, List.not_mem_nil, or_false] at h
    obtain ⟨rfl, _⟩ := h
    exact ⟨1, by decide, by decide⟩
  have hkeep : ∀ gates, Element.optics gates ∈ [.width [0] 3, .optics [⟨M, 0, 1⟩], .delay [1] (.classical 0) 2, .optics [⟨M, 0, 1⟩]] → SinglePhotonKeeps dipCirc.thr gates := by
    intro gates h
    simp only [List.mem_cons, Element.optics.injEq, reduceCtorEq, List.not_mem_nil, or_false, false_or, or_self] at h
    subst h
    exact singleKeeps_gate (by norm_num [dipCirc]) (by decide) hm
  have hfirst : ∃ e es', [Element.width [0] 3, .optics [⟨M, 0, 1⟩], .delay [1] (.classical 0) 2, .optics [⟨M, 0, 1⟩]] = e :: es' ∧ MakesPhotons dipCirc.g e :=
    ⟨.width [0] 3, _, rfl, show ∃ ch < 2, ch ∉ [0] from ⟨1, by decide, by decide⟩⟩
  exact C102_circuit_partial dipCirc (by decide) (by decide) (by norm_num [dipCirc]) (by norm_num [dipCirc]) _ _ hes hfirst hwidth hkeep [⟨dipState, none⟩] (by
    intro s hs
    obtain rfl := List.mem_singleton.1 hs
    exact fresh_one (v := [1, 1]) (a := Complex.I) (by decide) (by decide) (by decide) (by simp) rfl (by norm_num [dipState]) rfl) [1] [0] (by decide) rfl (by decide)

/-- Two optical elements on the same channels: the product of the matrices. -/
theorem optics_product {M N : Opt} {h k : ℕ} (hne : h ≠ k) (P : MvPolynomial Mode ℂ) : opticsSubst [⟨M, h, k⟩, ⟨N, h, k⟩] P = opticsSubst [⟨M * N, h, k⟩] P := by
  show gateSubst N h k (gateSubst M h k P) = gateSubst (M * N) h k P
  suffices hh : (gateSubst N h k).comp (gateSubst M h k) = gateSubst (M * N) h k from DFunLike.congr_fun hh P
  apply MvPolynomial.algHom_ext
  rintro ⟨ch, info⟩
  have hc : ∀ (f : MvPolynomial Mode ℂ →ₐ[ℂ] MvPolynomial Mode ℂ) (z : ℂ), f (C z) = C z := fun f z => f.commutes z
  rw [AlgHom.comp_apply]
  unfold gateSubst
  rw [aeval_X, aeval_X]
  by_cases e1 : ch = h
  · simp only [e1, if_true, map_add, map_mul, hc, aeval_X, if_neg hne.symm, Matrix.mul_apply, Fin.sum_univ_two]
    ring
  · by_cases e2 : ch = k
    · simp only [e2, if_neg hne.symm, if_true, map_add, map_mul, hc, aeval_X, Matrix.mul_apply, Fin.sum_univ_two]
      ring
    · simp only [if_neg e1, if_neg e2, aeval_X]

/-- C102, node by node: a delay given by a classical channel, a beam splitter and a phase shift. -/
example : ∃ G, readGroups [⟨dipState, none⟩] = some G ∧ ∃ N, ∀ fuel ≥ N, ∃ l' G', evalSpectral dipCirc fuel ([.delay [1] (.classical 0) 2, .optical (genericMatrix (Real.pi / 8) Real.pi) [0, 1],
    .optical (genericMatrix 0 Real.pi) [0, 1]] ++ [.measure [1] [0]]) [⟨dipState, none⟩] = some l' ∧ readGroups l' = some G' ∧ Proper G' ∧
    GroupsReplaced (fun cols ys => ∃ q, cols = groupOfState ⟨q, none⟩ ∧ BornGroups colCfg [1] [0] q.cum (circuitSubst q.classical [.delay [1] (.classical 0) 2,
      .optics [⟨genericMatrix (Real.pi / 8) Real.pi, 0, 1⟩], .optics [⟨genericMatrix 0 Real.pi, 0, 1⟩]] (statePoly colCfg ⟨q, none⟩)) ys) G G' := by
  have hphase : genericMatrix 0 Real.pi = !![1, 0; 0, -1] := by
    unfold genericMatrix
    simp
  have hprod : genericMatrix (Real.pi / 8) Real.pi * genericMatrix 0 Real.pi = !![((√2 / 2 : ℝ) : ℂ), -((√2 / 2 : ℝ) : ℂ); ((√2 / 2 : ℝ) : ℂ), ((√2 / 2 : ℝ) : ℂ)] := by
    rw [hphase, mixMatrix]
    ext i j
    fin_cases i <;> fin_cases j <;> simp [Matrix.mul_apply, Fin.sum_univ_two]
  refine C102_nodes_partial dipCirc (by decide) (by decide) (by norm_num [dipCirc]) (by norm_num [dipCirc]) _ _ ?_ ⟨.delay [1] (.classical 0) 2, _, rfl, trivial⟩ (by
    intro chs w h
    simp at h) ?_ [⟨dipState, none⟩] (by
    intro s hs
    obtain rfl := List.mem_singleton.1 hs
    exact fresh_one (v := [1, 1]) (a := Complex.I) (by decide) (by decide) (by decide) (by simp) rfl (by norm_num [dipState]) rfl) [1] [0] (by decide) rfl (by decide)
  · exact .cons ⟨rfl, rfl, rfl, by decide, (by intro ch e; cases e; decide), by norm_num⟩
      (.cons ⟨_, rfl, colGate _, (C17_wave_plate _ _ 0).1⟩ (.cons ⟨_, rfl, colGate _, (C17_wave_plate _ _ 0).1⟩ .nil))
  · intro gates h
    simp only [mergeOptics, List.mem_cons, reduceCtorEq, Element.optics.injEq, List.not_mem_nil, or_false, false_or, List.cons_append, List.nil_append] at h
    subst h
    intro m j
    rw [optics_product (by decide), hprod]
    refine singleKeeps_gate (thr := dipCirc.thr) (by norm_num [dipCirc]) (by decide) ?_ m j
    intro i j hlt
    have h1 := norm_half
    have h2 : ‖-((√2 / 2 : ℝ) : ℂ)‖ ^ 2 = 1 / 2 := by rw [norm_neg]; exact norm_half
    have ht : dipCirc.thr = 1 / 1000 := rfl
    exfalso
    rw [ht] at hlt
    fin_cases i <;> fin_cases j
    · replace hlt : ‖((√2 / 2 : ℝ) : ℂ)‖ ^ 2 < 1 / 1000 := hlt
      linarith
    · replace hlt : ‖-((√2 / 2 : ℝ) : ℂ)‖ ^ 2 < 1 / 1000 := hlt
      linarith
    · replace hlt : ‖((√2 / 2 : ℝ) : ℂ)‖ ^ 2 < 1 / 1000 := hlt
      linarith
    · replace hlt : ‖((√2 / 2 : ℝ) : ℂ)‖ ^ 2 < 1 / 1000 := hlt
      linarith

end NonVacuity

end Verif.Props
