/-
Property C106: the quick time delay is a mixture of full overlap and full separation.
-/
import Verif.Lemmas.QuickPipe5
import Verif.Props.TotalProbability

namespace Verif.Props
open Verif Spec MvPolynomial

/-- The optical nodes of a list. -/
def opticalNodes (l : List (Opt × List ℕ)) : List SNode := l.map (fun x => .optical x.1 x.2)

/-- Every optical element by itself. -/
def single (gates : List Gate) : List Element := gates.map (fun e => .optics [e])

theorem subst_single (cl : List ℝ) (gates : List Gate) (P : MvPolynomial Mode ℂ) : circuitSubst cl (single gates) P = opticsSubst gates P := by
  induction gates generalizing P with
  | nil => rfl
  | cons e gates ih => exact ih _

theorem subst_append (cl : List ℝ) (es es' : List Element) (P : MvPolynomial Mode ℂ) : circuitSubst cl (es ++ es') P = circuitSubst cl es' (circuitSubst cl es P) := by
  unfold circuitSubst
  rw [List.foldl_append]

theorem stagesOf_optical (pre : List (Opt × List ℕ)) {x : SNode} (hx : ∀ M tl, x ≠ .optical M tl) (rest : List SNode) : stagesOf (opticalNodes pre ++ x :: rest) = stagesOf (opticalNodes pre) ++ stagesOf (x :: rest) := by
  induction pre with
  | nil => rfl
  | cons n pre ih =>
    show stagesOf (.optical n.1 n.2 :: (opticalNodes pre ++ x :: rest)) = stagesOf (.optical n.1 n.2 :: opticalNodes pre) ++ stagesOf (x :: rest)
    rw [stagesOf, stagesOf, ih]
    cases hp : stagesOf (opticalNodes pre) with
    | nil =>
      rw [List.nil_append]
      cases x with
      | optical M tl => exact absurd rfl (hx M tl)
      | delay _ _ _ => rfl
      | quick _ _ _ => rfl
      | width _ _ => rfl
      | measure _ _ => rfl
    | cons y ys => cases y <;> rfl

/-- **C106** A circuit of optical elements, a quick time delay, optical elements and a measurement: the probability of every outcome is the mixture, with the overlap `exp (-ln 2 (t / w)²)` as
weight, of the probabilities (Born rule) without delay and with the photons far apart (200 pulse widths). The state at the delay must not be a single component with a phase. -/
theorem C106_partial (c : Circ) (hg : c.g.Ok) (hL : c.g.L ≤ 10) (ht : 0 < c.thr) (chs : List ℕ) (d : DelaySource) (hd : ∀ ch, d = .classical ch → ch < c.m) (w : ℝ) (hw : w ≠ 0)
    (pre post : List (Opt × List ℕ)) (gates0 gates : List Gate) (hpre : List.Forall₂ (GateNode c.g) gates0 pre) (hpost : List.Forall₂ (GateNode c.g) gates post)
    (hun0 : ∀ e ∈ gates0, e.M ∈ Matrix.unitaryGroup (Fin 2) ℂ) (hun : ∀ e ∈ gates, e.M ∈ Matrix.unitaryGroup (Fin 2) ℂ) (hkk : KetsKeep c.g c.thr gates) (hbp : NoBarePhase c.g gates)
    (q : QState) (hq : FreshState c.g c.m ⟨q, none⟩) (hkeep : gates0 ≠ [] → NothingDropped c.g c.thr gates0 [⟨q, none⟩])
    (hone : ∀ (v : Vals) (a : ℂ), Valid c.g v → opticsSubst gates0 (statePoly c.g ⟨q, none⟩) = C a * ketPoly none v → a = 1)
    (opt cls : List ℕ) (hopt : ∀ ch ∈ opt, ch < c.g.C) (hcls : cls.length = opt.length) (hnd : cls.Nodup) (hclm : ∀ n ∈ cls, n < c.m) :
    ∃ N, ∀ fuel ≥ N, ∃ l' d', evalSpectral c fuel (opticalNodes pre ++ .quick chs d w :: opticalNodes post ++ [.measure opt cls]) [⟨q, none⟩] = some l' ∧ readGroups l' = some [(q.initial, d')] ∧
      ∀ o : List ℕ, o.length = opt.length → OutcomeTotal (d'.map Prod.snd) cls o (q.cum * (Real.exp (-(Real.log 2) * (delayFor q.classical d / w) ^ 2) *
          bornOutcome c.g opt o (circuitSubst q.classical [.optics gates0, .delay chs (.value 0) 1, .optics gates] (statePoly c.g ⟨q, none⟩)) +
        (1 - Real.exp (-(Real.log 2) * (delayFor q.classical d / w) ^ 2)) *
          bornOutcome c.g opt o (circuitSubst q.classical [.optics gates0, .delay chs (.value 200) 1, .optics gates] (statePoly c.g ⟨q, none⟩)))) := by
  obtain ⟨q', hrun, hq', i1, i2, i3, i4⟩ : ∃ q' : QState, (∀ fuel, runStages c fuel (stagesOf (opticalNodes pre)) [⟨q, none⟩] = some [⟨q', none⟩]) ∧ FreshState c.g c.m ⟨q', none⟩ ∧ q'.initial = q.initial ∧
      q'.classical = q.classical ∧ q'.cum = q.cum ∧ statePoly c.g ⟨q', none⟩ = opticsSubst gates0 (statePoly c.g ⟨q, none⟩) := by
    cases hpre with
    | nil => exact ⟨q, fun _ => rfl, hq, rfl, rfl, rfl, rfl⟩
    | @cons g0 n gs ns hg0 hgs =>
      obtain ⟨l', e1, e2⟩ := fresh_step hg ht (es := []) (l0 := [⟨q, none⟩]) (l := [⟨q, none⟩]) (.cons ⟨hq, hq, rfl, rfl, rfl, rfl⟩ .nil) (.cons hg0 hgs) hun0 (hkeep (by simp))
      cases e2 with
      | @cons _ s' _ l'' b hr =>
        cases hr
        obtain ⟨q', aux⟩ := s'
        have : aux = none := b.after.aux
        subst this
        refine ⟨q', fun fuel => ?_, b.after, b.initial, b.classical, b.cum, b.poly⟩
        unfold opticalNodes
        rw [stages_optical]
        unfold runStages
        rw [List.foldlM_cons]
        show ((opticalResolved c n ns _).bind _) = _
        rw [e1]
        rfl
  have hu' : ∀ p, q'.comps = [p] → p.2.amp = 1 := by
    intro p hp
    obtain ⟨v, hv, hn⟩ := (wf_iff.1 hq'.wf).2 p (by show p ∈ q'.comps; rw [hp]; exact List.mem_singleton_self _)
    refine hone v p.2.amp hv ?_
    rw [← i4]
    unfold statePoly
    simp only [hp, List.map_cons, List.map_nil, List.sum_cons, List.sum_nil, add_zero]
    rw [hn, c.g.parse_stdName hv.2]
    rfl
  obtain ⟨N, hN⟩ := quick_run hg hL ht hd hw hpost hun hkk hbp hq' hu' (chs := chs) hopt hcls hnd hclm
  refine ⟨N, fun fuel hf => ?_⟩
  obtain ⟨l', d', a1, a2, a3⟩ := hN fuel hf
  refine ⟨l', d', ?_, by rw [a2, i1], fun o ho => ?_⟩
  · unfold evalSpectral
    rw [List.append_assoc, List.cons_append, stagesOf_optical _ (by intro M tl h; cases h)]
    unfold runStages at hrun a1 ⊢
    rw [List.foldlM_append, hrun fuel]
    exact a1
  · have h := a3 o ho
    rw [i2, i3, i4, quickOverlap_eq] at h
    have e : ∀ t : ℝ, circuitSubst q.classical [.optics gates0, .delay chs (.value t) 1, .optics gates] (statePoly c.g ⟨q, none⟩) =
      opticsSubst gates (rename (delayMode chs t 1) (opticsSubst gates0 (statePoly c.g ⟨q, none⟩))) := fun _ => rfl
    rw [e, e, mul_add, ← mul_assoc, ← mul_assoc]
    exact h

theorem nodes_single {g : Cfg} {m : ℕ} {gates : List Gate} {l : List (Opt × List ℕ)} (h : List.Forall₂ (GateNode g) gates l) (hu : ∀ e ∈ gates, e.M ∈ Matrix.unitaryGroup (Fin 2) ℂ) :
    List.Forall₂ (ElementNode g m) (single gates) (opticalNodes l) := by
  induction h with
  | nil => exact .nil
  | @cons e n gates l a _ ih => exact .cons ⟨e, rfl, a, hu e List.mem_cons_self⟩ (ih (fun x hx => hu x (List.mem_cons_of_mem _ hx)))

theorem starts_merge {g : Cfg} (gates : List Gate) {e : Element} (he : MakesPhotons g e) (es : List Element) : StartsResolved g (mergeOptics (single gates ++ e :: es)) := by
  induction gates with
  | nil =>
    cases e with
    | optics _ => exact he.elim
    | delay _ _ _ => exact trivial
    | width _ _ => exact he
  | cons x gates ih =>
    show StartsResolved g (mergeOptics (.optics [x] :: (single gates ++ e :: es)))
    rw [mergeOptics]
    split
    · next b es' hb =>
      rw [hb] at ih
      exact ih
    · exact ih

/-- **C106** Three evaluations: with the quick delay, and with `time_delay_full` for the delays 0 and 200 (pulse width 1). The probability of every outcome of the first is the mixture of the
probabilities of the other two. -/
theorem C106_runs_partial (c : Circ) (hg : c.g.Ok) (hL : c.g.L ≤ 10) (ht : 0 < c.thr) (chs : List ℕ) (hch : ∀ ch ∈ chs, ch < c.g.C) (d : DelaySource) (hd : ∀ ch, d = .classical ch → ch < c.m) (w : ℝ)
    (hw : w ≠ 0) (pre post : List (Opt × List ℕ)) (gates0 gates : List Gate) (hpre : List.Forall₂ (GateNode c.g) gates0 pre) (hpost : List.Forall₂ (GateNode c.g) gates post)
    (hun0 : ∀ e ∈ gates0, e.M ∈ Matrix.unitaryGroup (Fin 2) ℂ) (hun : ∀ e ∈ gates, e.M ∈ Matrix.unitaryGroup (Fin 2) ℂ) (hkk : KetsKeep c.g c.thr gates) (hbp : NoBarePhase c.g gates)
    (q : QState) (hq : FreshState c.g c.m ⟨q, none⟩) (hkeep : gates0 ≠ [] → NothingDropped c.g c.thr gates0 [⟨q, none⟩])
    (hall : ∀ t : ℝ, KeepsAll c (mergeOptics (single gates0 ++ .delay chs (.value t) 1 :: single gates)) (stagesOf (opticalNodes pre ++ .delay chs (.value t) 1 :: opticalNodes post)) [⟨q, none⟩])
    (hone : ∀ (v : Vals) (a : ℂ), Valid c.g v → opticsSubst gates0 (statePoly c.g ⟨q, none⟩) = C a * ketPoly none v → a = 1)
    (opt cls : List ℕ) (hopt : ∀ ch ∈ opt, ch < c.g.C) (hcls : cls.length = opt.length) (hnd : cls.Nodup) (hclm : ∀ n ∈ cls, n < c.m) :
    ∃ N, ∀ fuel ≥ N, ∃ l d' l0 d0 l2 d2,
      evalSpectral c fuel (opticalNodes pre ++ .quick chs d w :: opticalNodes post ++ [.measure opt cls]) [⟨q, none⟩] = some l ∧ readGroups l = some [(q.initial, d')] ∧
      evalSpectral c fuel (opticalNodes pre ++ .delay chs (.value 0) 1 :: opticalNodes post ++ [.measure opt cls]) [⟨q, none⟩] = some l0 ∧ readGroups l0 = some [(q.initial, d0)] ∧
      evalSpectral c fuel (opticalNodes pre ++ .delay chs (.value 200) 1 :: opticalNodes post ++ [.measure opt cls]) [⟨q, none⟩] = some l2 ∧ readGroups l2 = some [(q.initial, d2)] ∧
      ∀ o : List ℕ, o.length = opt.length → ∃ p0 p2 : ℝ, OutcomeProbability (d0.map Prod.snd) cls o p0 ∧ OutcomeProbability (d2.map Prod.snd) cls o p2 ∧
        OutcomeTotal (d'.map Prod.snd) cls o (Real.exp (-(Real.log 2) * (delayFor q.classical d / w) ^ 2) * p0 + (1 - Real.exp (-(Real.log 2) * (delayFor q.classical d / w) ^ 2)) * p2) := by
  have hfull : ∀ t : ℝ, ∃ N, ∀ fuel ≥ N, ∃ l0 d0, evalSpectral c fuel (opticalNodes pre ++ .delay chs (.value t) 1 :: opticalNodes post ++ [.measure opt cls]) [⟨q, none⟩] = some l0 ∧
      readGroups l0 = some [(q.initial, d0)] ∧ ∀ o : List ℕ, o.length = opt.length →
        OutcomeProbability (d0.map Prod.snd) cls o (q.cum * bornOutcome c.g opt o (circuitSubst q.classical [.optics gates0, .delay chs (.value t) 1, .optics gates] (statePoly c.g ⟨q, none⟩))) := by
    intro t
    have hes : List.Forall₂ (ElementNode c.g c.m) (single gates0 ++ .delay chs (.value t) 1 :: single gates) (opticalNodes pre ++ .delay chs (.value t) 1 :: opticalNodes post) :=
      List.rel_append (nodes_single hpre hun0) (.cons ⟨rfl, rfl, rfl, hch, (by intro ch e; cases e), one_ne_zero⟩ (nodes_single hpost hun))
    obtain ⟨N, hN⟩ := C102_state_partial c hg hL ht _ _ (merge_stages hes) (starts_merge (g := c.g) gates0 (e := .delay chs (.value t) 1) trivial _) q hq (hall t) opt cls hopt hcls hclm
    refine ⟨N, fun fuel hf => ?_⟩
    obtain ⟨l0, d0, a1, a2, a3⟩ := hN fuel hf
    refine ⟨l0, d0, a1, a2, fun o ho => ?_⟩
    have := outcome_probability hcls hnd a3 o ho
    rw [circuitSubst_merge, subst_append, subst_single] at this
    have e : circuitSubst q.classical (.delay chs (.value t) 1 :: single gates) (opticsSubst gates0 (statePoly c.g ⟨q, none⟩)) =
        circuitSubst q.classical [.optics gates0, .delay chs (.value t) 1, .optics gates] (statePoly c.g ⟨q, none⟩) := subst_single _ _ _
    rw [e] at this
    exact this
  obtain ⟨N0, h0⟩ := hfull 0
  obtain ⟨N2, h2⟩ := hfull 200
  obtain ⟨N, h⟩ := C106_partial c hg hL ht chs d hd w hw pre post gates0 gates hpre hpost hun0 hun hkk hbp q hq hkeep hone opt cls hopt hcls hnd hclm
  refine ⟨max N (max N0 N2), fun fuel hf => ?_⟩
  obtain ⟨l, d', a1, a2, a3⟩ := h fuel (le_trans (le_max_left _ _) hf)
  obtain ⟨l0, d0, b1, b2, b3⟩ := h0 fuel (le_trans (le_trans (le_max_left _ _) (le_max_right _ _)) hf)
  obtain ⟨l2, d2, c1, c2, c3⟩ := h2 fuel (le_trans (le_trans (le_max_right _ _) (le_max_right _ _)) hf)
  refine ⟨l, d', l0, d0, l2, d2, a1, a2, b1, b2, c1, c2, fun o ho => ⟨_, _, b3 o ho, c3 o ho, ?_⟩⟩
  have := a3 o ho
  convert this using 1
  ring

/-- **C107** Two photons, one in each of two channels; one of the two is delayed by `t` (pulse width `w`); `mix_50_50`; measurement of both channels. With the quick delay the probability of a
coincidence differs from that with the full delay by less than 2^(-40000), for every delay and pulse width. -/
theorem C107_coincidence_partial (c : Circ) (hg : c.g.Ok) (hL : c.g.L ≤ 10) (hL3 : 3 ≤ c.g.L) (ht : 0 < c.thr) (ht1 : c.thr * (2 ^ (c.g.L - 1) * Nat.factorial (c.g.L - 1)) ≤ 1) (h k : ℕ) (hh : h < c.g.C) (hk : k < c.g.C)
    (hne : h ≠ k) (hbug : ¬ (2 ≤ h ∧ k = 0)) (chs : List ℕ) (hch : ∀ ch ∈ chs, ch < c.g.C) (hin : h ∈ chs) (hout : k ∉ chs) (t w : ℝ) (hw : w ≠ 0)
    (q : QState) (v : Vals) (hv : Valid c.g v) (hvh : ∀ ch < c.g.C, v.getD ch 0 = if ch = h ∨ ch = k then 1 else 0) (hq : q.comps = [(c.g.stdName v, ⟨1, 1⟩)])
    (hcum : 0 ≤ q.cum ∧ q.cum ≤ 1) (hcl : q.classical.length = c.m) (x y : ℕ) (hx : x < c.m) (hy : y < c.m) (hxy : x ≠ y) :
    ∃ node, mix5050 c.g h k = some node ∧ ∃ N, ∀ fuel ≥ N, ∃ l d l' d',
      evalSpectral c fuel [.delay chs (.value t) w, .optical node.1 node.2, .measure [h, k] [x, y]] [⟨q, none⟩] = some l ∧ readGroups l = some [(q.initial, d)] ∧
      evalSpectral c fuel [.quick chs (.value t) w, .optical node.1 node.2, .measure [h, k] [x, y]] [⟨q, none⟩] = some l' ∧ readGroups l' = some [(q.initial, d')] ∧
      ∃ p p' : ℝ, OutcomeProbability (d.map Prod.snd) [x, y] [1, 1] p ∧ OutcomeTotal (d'.map Prod.snd) [x, y] [1, 1] p' ∧ |p - p'| ≤ (1 / 2) ^ 40001 := by
  obtain ⟨tl, e, -⟩ := tensorList_two hh hk hne
  have hm : ∀ i j, ‖mixM i j‖ ^ 2 = 1 / 2 := by
    unfold mixM
    rw [mixMatrix]
    intro i j
    fin_cases i <;> fin_cases j
    · exact norm_half
    · exact norm_half
    · exact norm_half
    · show ‖-((√2 / 2 : ℝ) : ℂ)‖ ^ 2 = 1 / 2
      rw [norm_neg]; exact norm_half
  have htt : c.thr ≤ 1 / 2 := by
    have h1 : (2 : ℝ) ^ 1 ≤ 2 ^ (c.g.L - 1) := pow_le_pow_right₀ (by norm_num) (by omega)
    have h2 : (1 : ℝ) ≤ Nat.factorial (c.g.L - 1) := by exact_mod_cast Nat.factorial_pos _
    have h3 : (2 : ℝ) ≤ 2 ^ (c.g.L - 1) * Nat.factorial (c.g.L - 1) := by nlinarith
    nlinarith
  have hun : mixM ∈ Matrix.unitaryGroup (Fin 2) ℂ := (C17_wave_plate _ _ 0).1
  have hnode : GateNode c.g ⟨mixM, h, k⟩ (mixM, tl) := ⟨hh, hk, hne, hbug, rfl, e⟩
  have hsum : v.sum = 2 := by
    have hvt : v = twoHot c.g.C h k := by
      have hlen : v.length = (twoHot c.g.C h k).length := by rw [hv.1]; simp [twoHot]
      refine List.ext_getElem hlen (fun i h1 h2 => ?_)
      have := hvh i (by rw [← hv.1]; exact h1)
      rw [← twoHot_getD hh hk, List.getD_eq_getElem _ _ h1, List.getD_eq_getElem _ _ h2] at this
      exact this
    rw [hvt]
    exact twoHot_sum hh hk hne
  have ha : ‖(1 : ℂ)‖ = 1 := norm_one
  have hfresh : FreshState c.g c.m ⟨q, none⟩ := fresh_one hv (by omega) (by omega) ha hq hcum hcl
  have hst : statePoly c.g ⟨q, none⟩ = ketPoly none v := by rw [statePoly_single ⟨q, none⟩ hv hq]; simp
  obtain ⟨N, hN⟩ := C103_dip c hg hL hL3 ht (by linarith) h k mixM hun (fun i j hlt => by rw [hm] at hlt; linarith) (mixM, tl) hnode chs hch hin hout t w hw q 1 ha v hv hvh hq hcum hcl x y hx hy hxy
  obtain ⟨N', hN'⟩ := C106_partial c hg hL ht chs (.value t) (by intro ch e; cases e) w hw [] [(mixM, tl)] [] [⟨mixM, h, k⟩] .nil (.cons hnode .nil) (by simp)
    (by intro e he; obtain rfl := List.mem_singleton.1 he; exact hun) (mix_kets_keep ht1 ht h k) (mix_noBare hne hh hk) q hfresh (fun h => absurd rfl h) (by
      intro w a hw he
      have he' : statePoly c.g ⟨q, none⟩ = C a * ketPoly none w := he
      rw [hst] at he'
      exact ket_phase hv hw he') [h, k] [x, y] (by
      intro ch hc
      rcases List.mem_cons.1 hc with rfl | hc
      · exact hh
      · obtain rfl := List.mem_singleton.1 hc
        exact hk) rfl (by simpa using hxy) (by
      intro n hn
      rcases List.mem_cons.1 hn with rfl | hn
      · exact hx
      · obtain rfl := List.mem_singleton.1 hn
        exact hy)
  refine ⟨(mixM, tl), by rw [mix5050, genericRotation, e]; rfl, max N N', fun fuel hf => ?_⟩
  obtain ⟨l, d, a1, a2, a3⟩ := hN fuel (le_trans (le_max_left _ _) hf)
  obtain ⟨l', d', b1, b2, b3⟩ := hN' fuel (le_trans (le_max_right _ _) hf)
  refine ⟨l, d, l', d', a1, a2, b1, b2, _, _, a3, b3 [1, 1] rfl, ?_⟩
  have hdip : ∀ s : ℝ, bornOutcome c.g [h, k] [1, 1] (circuitSubst q.classical [.optics [], .delay chs (.value s) 1, .optics [⟨mixM, h, k⟩]] (statePoly c.g ⟨q, none⟩)) =
      1 / 2 * (1 - Real.exp (-(Real.log 2) * (s / 1) ^ 2)) := by
    intro s
    have := dip_probability hL3 hh hk hne hun hin hout s (w := 1) one_ne_zero ha hv hvh hq
    rw [hm, hm] at this
    show bornOutcome c.g [h, k] [1, 1] (opticsSubst [⟨mixM, h, k⟩] (rename (delayMode chs s 1) (statePoly c.g ⟨q, none⟩))) = _
    rw [this]
    ring
  rw [hdip, hdip, hm, hm]
  have e1 : Real.exp (-(Real.log 2) * (0 / 1) ^ 2) = 1 := by simp
  have e2 : Real.exp (-(Real.log 2) * (200 / 1) ^ 2) = (1 / 2) ^ 40000 := by
    rw [show -(Real.log 2) * (200 / 1) ^ 2 = (40000 : ℕ) * Real.log (1 / 2) by rw [one_div, Real.log_inv]; push_cast; ring, Real.exp_nat_mul, Real.exp_log (by norm_num)]
  rw [e1, e2, show delayFor q.classical (.value t) = t from rfl]
  set ov := Real.exp (-(Real.log 2) * (t / w) ^ 2) with hov
  have o1 : 0 ≤ ov := (Real.exp_pos _).le
  have o2 : ov ≤ 1 := by
    rw [hov, Real.exp_le_one_iff]
    have h1 : 0 ≤ Real.log 2 := Real.log_nonneg (by norm_num)
    have h2 : 0 ≤ (t / w) ^ 2 := sq_nonneg _
    nlinarith
  rw [show (1 / 2 : ℝ) ^ 40001 = 1 / 2 * (1 / 2) ^ 40000 by rw [pow_succ, mul_comm]]
  have ht0 : (0 : ℝ) ≤ (1 / 2) ^ 40000 := by positivity
  generalize (1 / 2 : ℝ) ^ 40000 = z at ht0
  rw [show q.cum * ((1 / 2) ^ 2 + (1 / 2) ^ 2 - 2 * (1 / 2) * (1 / 2) * ov) - q.cum * (ov * (1 / 2 * (1 - 1)) + (1 - ov) * (1 / 2 * (1 - z))) = q.cum * (1 - ov) * (1 / 2 * z) by ring]
  have h1 : 0 ≤ q.cum * (1 - ov) := mul_nonneg hcum.1 (by linarith)
  have h2 : q.cum * (1 - ov) ≤ 1 := by nlinarith [hcum.1, hcum.2]
  rw [abs_of_nonneg (by positivity)]
  have h3 : 0 ≤ 1 / 2 * z := by positivity
  nlinarith

/-! ### One photon in a superposition of two channels -/

section Fails

theorem photonList_single (p : Mode) : photonList (Finsupp.single p 1) = [p] := by
  unfold photonList
  rw [Finsupp.toMultiset_single, one_smul, Multiset.toList_singleton]

theorem overlap_single (p p' : Mode) : overlapPermanent (photonList (Finsupp.single p 1)) (photonList (Finsupp.single p' 1)) = photonInner p p' := by
  rw [photonList_single, photonList_single]
  unfold overlapPermanent
  rw [Matrix.permanent]
  simp [Finset.univ_unique]

/-- The photon behind the beam splitter. -/
theorem one_photon (i j : Option PInfo) (hs : photonOverlap j i = photonOverlap i j) (h0 : 0 ≤ photonOverlap i j) :
    bornOutcome colCfg [0, 1] [1, 0] (opticsSubst [⟨mixM, 0, 1⟩] (C ((√2 / 2 : ℝ) : ℂ) * X (0, i) + C ((√2 / 2 : ℝ) : ℂ) * X (1, j))) = (1 + photonOverlap i j) / 2 := by
  classical
  have hr : ((√2 / 2 : ℝ) : ℂ) * ((√2 / 2 : ℝ) : ℂ) = 1 / 2 := by
    rw [← Complex.ofReal_mul, show (√2 / 2 : ℝ) * (√2 / 2) = 1 / 2 by rw [div_mul_div_comm, Real.mul_self_sqrt (by norm_num)]; norm_num]
    norm_num
  have hpoly : opticsSubst [⟨mixM, 0, 1⟩] (C ((√2 / 2 : ℝ) : ℂ) * X (0, i) + C ((√2 / 2 : ℝ) : ℂ) * X (1, j)) =
      polyOf [(Finsupp.single (0, i) 1, 1 / 2), (Finsupp.single (1, i) 1, 1 / 2), (Finsupp.single (0, j) 1, 1 / 2), (Finsupp.single (1, j) 1, -(1 / 2))] := by
    show gateSubst mixM 0 1 _ = _
    have hc : ∀ z : ℂ, gateSubst mixM 0 1 (C z) = C z := fun z => (gateSubst mixM 0 1).commutes z
    rw [map_add, map_mul, map_mul, hc]
    unfold gateSubst mixM
    rw [aeval_X, aeval_X, mixMatrix]
    unfold polyOf
    simp only [List.map_cons, List.map_nil, List.sum_cons, List.sum_nil, add_zero, if_true, Matrix.cons_val', Matrix.cons_val_zero, Matrix.cons_val_one, Matrix.of_apply, Matrix.cons_val_fin_one,
      if_neg (show ¬ (1 : ℕ) = 0 by decide)]
    have hm : ∀ (p : Mode) (a : ℂ), monomial (Finsupp.single p 1) a = C a * X p := by
      intro p a
      unfold X
      rw [C_mul_monomial, mul_one]
    simp only [hm]
    have h1 : (C ((√2 / 2 : ℝ) : ℂ) : MvPolynomial Mode ℂ) * C ((√2 / 2 : ℝ) : ℂ) = C (1 / 2) := by rw [← C_mul, hr]
    simp only [C_neg]
    rw [mul_add, mul_add, ← mul_assoc, ← mul_assoc, ← mul_assoc, neg_mul, mul_neg, ← mul_assoc, h1]
    ring
  have hnum : ∀ (v : Vals) (p : Mode), HasNumbers v (Finsupp.single p 1) ↔ ∀ ch : ℕ, v.getD ch 0 = (if p.1 = ch then 1 else 0) := by
    intro v p
    unfold HasNumbers
    refine forall_congr' (fun ch => ?_)
    rw [Finsupp.mapDomain_single, Finsupp.single_apply]
    exact eq_comm
  have hval : Valid colCfg [1, 0] ∧ [0, 1].map (fun n => ([1, 0] : Vals).getD n 0) = [1, 0] := by decide
  rw [hpoly]
  unfold bornOutcome
  rw [finsum_eq_single _ [1, 0] (fun v hv => by
    by_cases hp : Valid colCfg v ∧ [0, 1].map (fun n => v.getD n 0) = [1, 0]
    · exfalso
      apply hv
      obtain ⟨⟨hlen, -⟩, hvals⟩ := hp
      match v, hlen with
      | [a, b], _ => simpa using hvals
    · have : IsEmpty (Valid colCfg v ∧ [0, 1].map (fun n => v.getD n 0) = [1, 0]) := ⟨hp⟩
      exact finsum_of_isEmpty _), finsum_eq_single _ hval (fun _ hx => absurd rfl hx)]
  have y : ∀ a : Option PInfo, HasNumbers [1, 0] (Finsupp.single ((0, a) : Mode) 1) := by
    intro a
    rw [hnum]
    intro ch
    rcases ch with _ | _ | ch <;> simp
  have n : ∀ a : Option PInfo, ¬ HasNumbers [1, 0] (Finsupp.single ((1, a) : Mode) 1) := by
    intro a
    rw [hnum]
    intro h
    have := h 0
    simp at this
  rw [bornProb_list]
  have hin : ∀ (a b : Option PInfo), photonInner (0, a) (0, b) = photonOverlap a b := fun a b => if_pos rfl
  simp only [List.map_cons, List.map_nil, List.sum_cons, List.sum_nil, y, n, false_and, and_false, and_self, if_true, if_false, add_zero, zero_add, overlap_single, hin, photonOverlap_self, hs]
  have hconj : starRingEnd ℂ (1 / 2) = 1 / 2 := by
    rw [map_div₀, map_one, map_ofNat]
  rw [hconj]
  have : (1 / 2 * (1 / 2) * ((1 : ℝ) : ℂ) + 1 / 2 * (1 / 2) * ((photonOverlap i j : ℝ) : ℂ) + (1 / 2 * (1 / 2) * ((photonOverlap i j : ℝ) : ℂ) + 1 / 2 * (1 / 2) * ((1 : ℝ) : ℂ))) =
      (((1 + photonOverlap i j) / 2 : ℝ) : ℂ) := by
    push_cast
    ring
  rw [this, Complex.norm_real, Real.norm_eq_abs, abs_of_nonneg (by positivity)]

/-- One photon in a superposition of two channels. -/
noncomputable def splitState : QState := ⟨"in".toList, 1, [("10".toList, ⟨((√2 / 2 : ℝ) : ℂ), 1 / 2⟩), ("01".toList, ⟨((√2 / 2 : ℝ) : ℂ), 1 / 2⟩)], [0, 0], []⟩

theorem splitState_poly : statePoly colCfg ⟨splitState, none⟩ = C ((√2 / 2 : ℝ) : ℂ) * X (0, none) + C ((√2 / 2 : ℝ) : ℂ) * X (1, none) := by
  have h1 : colCfg.parse "10".toList = some [1, 0] := by decide
  have h2 : colCfg.parse "01".toList = some [0, 1] := by decide
  unfold statePoly splitState
  simp only [List.map_cons, List.map_nil, List.sum_cons, List.sum_nil, add_zero, h1, h2, Option.map_some, Option.getD_some]
  unfold ketPoly
  simp

theorem splitState_fresh : FreshState colCfg 2 ⟨splitState, none⟩ := by
  have hn1 : IsName colCfg [1, 0] "10".toList := (isName_iff (by decide)).2 (by decide)
  have hn2 : IsName colCfg [0, 1] "01".toList := (isName_iff (by decide)).2 (by decide)
  have hu : ∀ p ∈ splitState.comps, ∀ v, Valid colCfg v → IsName colCfg v p.1 → v.sum = 1 := by
    intro p hp v hv hn
    rcases List.mem_cons.1 hp with rfl | hp
    · have : v = [1, 0] := colCfg.stdName_inj hv.2 (show Valid colCfg [1, 0] by decide).2 (((isName_iff hv).1 hn).symm.trans ((isName_iff (by decide)).1 hn1))
      rw [this]; rfl
    · obtain rfl := List.mem_singleton.1 hp
      have : v = [0, 1] := colCfg.stdName_inj hv.2 (show Valid colCfg [0, 1] by decide).2 (((isName_iff hv).1 hn).symm.trans ((isName_iff (by decide)).1 hn2))
      rw [this]; rfl
  refine ⟨rfl, ?_, ?_, ?_, ?_, ?_, ?_, by norm_num [splitState], rfl⟩
  · rw [wf_iff]
    refine ⟨(by decide : ["10".toList, "01".toList].Nodup), ?_⟩
    intro p hp
    rcases List.mem_cons.1 hp with rfl | hp
    · exact ⟨[1, 0], by decide, by decide⟩
    · obtain rfl := List.mem_singleton.1 hp
      exact ⟨[0, 1], by decide, by decide⟩
  · intro p hp
    rcases List.mem_cons.1 hp with rfl | hp
    · exact norm_half.symm
    · obtain rfl := List.mem_singleton.1 hp
      exact norm_half.symm
  · unfold totalProb splitState
    simp only [List.map_cons, List.map_nil, List.sum_cons, List.sum_nil]
    rw [norm_half]
    norm_num
  · intro p hp
    rcases List.mem_cons.1 hp with rfl | hp
    · rw [Complex.ofReal_ne_zero]; positivity
    · obtain rfl := List.mem_singleton.1 hp
      rw [Complex.ofReal_ne_zero]; positivity
  · intro p hp v hv hn
    rw [hu p hp v hv hn]
    decide
  · intro p hp
    simp [splitState] at hp

theorem rename_split (f : Mode → Mode) : rename f (statePoly colCfg ⟨splitState, none⟩) = C ((√2 / 2 : ℝ) : ℂ) * X (f (0, none)) + C ((√2 / 2 : ℝ) : ℂ) * X (f (1, none)) := by
  rw [splitState_poly, map_add, map_mul, map_mul, rename_C, rename_X, rename_X]

/-- One photon in a superposition of two channels, delay `t` of channel 0 (pulse width `w`), 50/50 beam splitter. -/
theorem split_probability (t w : ℝ) : bornOutcome colCfg [0, 1] [1, 0] (opticsSubst [⟨mixM, 0, 1⟩] (rename (delayMode [0] t w) (statePoly colCfg ⟨splitState, none⟩))) =
    (1 + Real.exp (-(Real.log 2) * (t / √(w ^ 2 + w ^ 2)) ^ 2)) / 2 := by
  rw [rename_split]
  have e1 : delayMode [0] t w (0, none) = (0, some ⟨0 - t, w⟩) := rfl
  have e2 : delayMode [0] t w (1, none) = (1, some ⟨0 - 0, w⟩) := rfl
  have e3 : photonOverlap (some ⟨0 - t, w⟩) (some ⟨0 - 0, w⟩) = Real.exp (-(Real.log 2) * (t / √(w ^ 2 + w ^ 2)) ^ 2) := by
    unfold photonOverlap
    simp only [sub_zero, zero_sub, neg_div, neg_sq, neg_one_mul]
  have e4 : photonOverlap (some ⟨0 - 0, w⟩) (some ⟨0 - t, w⟩) = Real.exp (-(Real.log 2) * (t / √(w ^ 2 + w ^ 2)) ^ 2) := by
    unfold photonOverlap
    simp only [sub_zero, zero_sub, sub_neg_eq_add, zero_add, neg_one_mul]
  rw [e1, e2, one_photon _ _ (e4.trans e3.symm) (by rw [e3]; positivity), e3]

theorem split_bare (v : Vals) (a : ℂ) (_ : Valid colCfg v) (h : opticsSubst [] (statePoly colCfg ⟨splitState, none⟩) = C a * ketPoly none v) : a = 1 := by
  exfalso
  have h' : statePoly colCfg ⟨splitState, none⟩ = C a * ketPoly none v := h
  have hr : ((√2 / 2 : ℝ) : ℂ) ≠ 0 := by rw [Complex.ofReal_ne_zero]; positivity
  have hev : ∀ x : ℕ → ℂ, ((√2 / 2 : ℝ) : ℂ) * x 0 + ((√2 / 2 : ℝ) : ℂ) * x 1 = a * (ketNorm v * ∏ j ∈ Finset.range v.length, x j ^ (v.getD j 0)) := by
    intro x
    have hc : ∀ z : ℂ, evalAt x (C z) = z := fun z => (evalAt x).commutes z
    have hX : ∀ m : Mode, evalAt x (X m) = x m.1 := fun m => by unfold evalAt; rw [aeval_X]
    have e := congrArg (evalAt x) h'
    rw [splitState_poly, map_mul, eval_ket, map_add, map_mul, map_mul, hc, hc, hX, hX] at e
    exact e
  have ha : a = 0 := by
    have e := hev (fun j => if j = 1 then -1 else 1)
    rw [if_neg (by decide), if_pos rfl, mul_neg, mul_one, add_neg_cancel] at e
    have h3 : ∏ j ∈ Finset.range v.length, (if j = 1 then (-1 : ℂ) else 1) ^ (v.getD j 0) ≠ 0 := Finset.prod_ne_zero_iff.2 (fun j _ => pow_ne_zero _ (by split <;> norm_num))
    rcases mul_eq_zero.1 e.symm with e | e
    · exact e
    · exact absurd e (mul_ne_zero (ketNorm_ne v) h3)
  have e := hev (fun _ => 1)
  rw [ha, zero_mul, mul_one, ← two_mul] at e
  exact mul_ne_zero two_ne_zero hr e

/-- **C107** fails for one photon in a superposition of two channels: delay of one pulse width in channel 0, 50/50 beam splitter. With the full delay the photon leaves by channel 0 with
probability (1 + √½) / 2 = 0.85..., with the quick delay 0.75. -/
theorem C107_fails : ∃ N, ∀ fuel ≥ N, ∃ l d l' d',
    evalSpectral dipCirc fuel [.delay [0] (.value 1) 1, .optical (genericMatrix (Real.pi / 8) Real.pi) [0, 1], .measure [0, 1] [0, 1]] [⟨splitState, none⟩] = some l ∧ readGroups l = some [("in".toList, d)] ∧
    evalSpectral dipCirc fuel [.quick [0] (.value 1) 1, .optical (genericMatrix (Real.pi / 8) Real.pi) [0, 1], .measure [0, 1] [0, 1]] [⟨splitState, none⟩] = some l' ∧ readGroups l' = some [("in".toList, d')] ∧
    ∃ p p' : ℝ, OutcomeProbability (d.map Prod.snd) [0, 1] [1, 0] p ∧ OutcomeTotal (d'.map Prod.snd) [0, 1] [1, 0] p' ∧ 0 < p' ∧ p' + 1 / 11 < p := by
  have hun : mixM ∈ Matrix.unitaryGroup (Fin 2) ℂ := (C17_wave_plate _ _ 0).1
  have hunl : ∀ e ∈ [(⟨mixM, 0, 1⟩ : Gate)], e.M ∈ Matrix.unitaryGroup (Fin 2) ℂ := by intro e he; obtain rfl := List.mem_singleton.1 he; exact hun
  have hnode : GateNode colCfg ⟨mixM, 0, 1⟩ (mixM, [0, 1]) := colGate _
  have hm : ∀ i j, ‖mixM i j‖ ^ 2 = 1 / 2 := by
    unfold mixM
    rw [mixMatrix]
    intro i j
    fin_cases i <;> fin_cases j
    · exact norm_half
    · exact norm_half
    · exact norm_half
    · show ‖-((√2 / 2 : ℝ) : ℂ)‖ ^ 2 = 1 / 2
      rw [norm_neg]; exact norm_half
  let es : List Element := [.delay [0] (.value 1) 1, .optics [⟨mixM, 0, 1⟩]]
  have hes : List.Forall₂ (ElementStage dipCirc.g dipCirc.m) es (stagesOf [.delay [0] (.value 1) 1, .optical mixM [0, 1]]) :=
    .cons ⟨rfl, rfl, rfl, by decide, (by intro ch e; cases e), one_ne_zero⟩ (.cons ⟨.cons hnode .nil, hunl⟩ .nil)
  have hkeep : KeepsAll dipCirc es (stagesOf [.delay [0] (.value 1) 1, .optical mixM [0, 1]]) [⟨splitState, none⟩] := by
    refine keepsAll_of (by decide) (by norm_num [dipCirc]) (by norm_num [dipCirc]) hes trivial (by intro s hs; obtain rfl := List.mem_singleton.1 hs; exact splitState_fresh) (by intro gates e; cases e) ?_
    intro i gates e
    rcases i with _ | i
    · obtain rfl := Element.optics.inj (Option.some.inj e)
      refine ⟨singleKeeps_gate (by norm_num [dipCirc]) (by decide) (fun i j hlt => ?_), ?_⟩
      · rw [hm] at hlt
        norm_num [dipCirc] at hlt
      · intro e' he'
        obtain rfl := Option.some.inj he'
        exact trivial
    · simp [es] at e
  obtain ⟨N, hN⟩ := C102_state_partial dipCirc (by decide) (by decide) (by norm_num [dipCirc]) _ es hes trivial splitState splitState_fresh hkeep [0, 1] [0, 1] (by decide) rfl (by decide)
  obtain ⟨N', hN'⟩ := C106_partial dipCirc (by decide) (by decide) (by norm_num [dipCirc]) [0] (.value 1) (by intro ch e; cases e) 1 one_ne_zero [] [(mixM, [0, 1])] [] [⟨mixM, 0, 1⟩] .nil (.cons hnode .nil) (by simp)
    hunl (mix_kets_keep (g := colCfg) (thr := 1 / 1000) (by norm_num [colCfg, Nat.factorial]) (by norm_num) 0 1) (mix_noBare (g := colCfg) (by decide) (by decide) (by decide)) splitState splitState_fresh (fun h => absurd rfl h)
    split_bare [0, 1] [0, 1] (by decide) rfl (by decide) (by decide)
  refine ⟨max N N', fun fuel hf => ?_⟩
  obtain ⟨l, d, a1, a2, a3⟩ := hN fuel (le_trans (le_max_left _ _) hf)
  obtain ⟨l', d', b1, b2, b3⟩ := hN' fuel (le_trans (le_max_right _ _) hf)
  have h1 := outcome_probability (opt := [0, 1]) (cls := [0, 1]) rfl (by decide) a3 [1, 0] rfl
  have h2 := b3 [1, 0] rfl
  have hp : ∀ t : ℝ, bornOutcome dipCirc.g [0, 1] [1, 0] (circuitSubst splitState.classical [.optics [], .delay [0] (.value t) 1, .optics [⟨mixM, 0, 1⟩]] (statePoly dipCirc.g ⟨splitState, none⟩)) =
      (1 + Real.exp (-(Real.log 2) * (t / √(1 ^ 2 + 1 ^ 2)) ^ 2)) / 2 := fun t => split_probability t 1
  have hf' : bornOutcome dipCirc.g [0, 1] [1, 0] (circuitSubst splitState.classical es (statePoly dipCirc.g ⟨splitState, none⟩)) = (1 + Real.exp (-(Real.log 2) * (1 / √(1 ^ 2 + 1 ^ 2)) ^ 2)) / 2 := split_probability 1 1
  rw [hp, hp] at h2
  rw [hf'] at h1
  refine ⟨l, d, l', d', a1, a2, b1, b2, _, _, h1, h2, ?_, ?_⟩
  · have hc : splitState.cum = 1 := rfl
    have ho : Real.exp (-(Real.log 2) * (delayFor splitState.classical (.value 1) / 1) ^ 2) ≤ 1 := by
      rw [Real.exp_le_one_iff]
      have h1 : 0 ≤ Real.log 2 := Real.log_nonneg (by norm_num)
      have h2 : 0 ≤ (delayFor splitState.classical (.value 1) / 1) ^ 2 := sq_nonneg _
      nlinarith
    rw [hc]
    have := Real.exp_pos (-(Real.log 2) * (delayFor splitState.classical (.value 1) / 1) ^ 2)
    have h3 := Real.exp_pos (-(Real.log 2) * (0 / √(1 ^ 2 + 1 ^ 2)) ^ 2)
    have h4 := Real.exp_pos (-(Real.log 2) * (200 / √(1 ^ 2 + 1 ^ 2)) ^ 2)
    have h5 : 0 ≤ 1 - Real.exp (-(Real.log 2) * (delayFor splitState.classical (.value 1) / 1) ^ 2) := by linarith
    rw [one_mul]
    refine add_pos_of_pos_of_nonneg (mul_pos this (by positivity)) (mul_nonneg h5 (by positivity))
  · have hc : splitState.cum = 1 := rfl
    have hd : delayFor splitState.classical (.value 1) = 1 := rfl
    rw [hc, hd]
    have hs : (√(1 ^ 2 + 1 ^ 2 : ℝ)) ^ 2 = 2 := by rw [Real.sq_sqrt (by norm_num)]; norm_num
    have e0 : Real.exp (-(Real.log 2) * (1 / 1) ^ 2) = 1 / 2 := by
      rw [show -(Real.log 2) * (1 / 1) ^ 2 = Real.log (1 / 2) by rw [one_div 2, Real.log_inv]; ring, Real.exp_log (by norm_num)]
    have e1 : Real.exp (-(Real.log 2) * (0 / √(1 ^ 2 + 1 ^ 2)) ^ 2) = 1 := by simp
    have e2 : Real.exp (-(Real.log 2) * (200 / √(1 ^ 2 + 1 ^ 2)) ^ 2) ≤ 1 / 1000 := by
      rw [div_pow, hs, show -(Real.log 2) * (200 ^ 2 / 2) = (20000 : ℕ) * Real.log (1 / 2) by rw [one_div, Real.log_inv]; push_cast; ring, Real.exp_nat_mul, Real.exp_log (by norm_num)]
      refine le_trans (pow_le_pow_of_le_one (by norm_num) (by norm_num) (show 10 ≤ 20000 by norm_num)) (by norm_num)
    have e3 : 7 / 10 ≤ Real.exp (-(Real.log 2) * (1 / √(1 ^ 2 + 1 ^ 2)) ^ 2) := by
      rw [div_pow, hs]
      have hsq : Real.exp (-(Real.log 2) * (1 ^ 2 / 2)) ^ 2 = 1 / 2 := by
        rw [← Real.exp_nat_mul, show ((2 : ℕ) : ℝ) * (-(Real.log 2) * (1 ^ 2 / 2)) = Real.log (1 / 2) by rw [one_div 2, Real.log_inv]; push_cast; ring, Real.exp_log (by norm_num)]
      have hpos := Real.exp_pos (-(Real.log 2) * (1 ^ 2 / 2))
      nlinarith
    rw [e0, e1]
    generalize Real.exp (-(Real.log 2) * (200 / √(1 ^ 2 + 1 ^ 2)) ^ 2) = y at e2
    generalize Real.exp (-(Real.log 2) * (1 / √(1 ^ 2 + 1 ^ 2)) ^ 2) = z at e3
    linarith

end Fails

/-! ### The hypotheses are met -/

section NonVacuity

/-- C107: two photons, delay 6 with pulse width 2. -/
example : ∃ node, mix5050 colCfg 0 1 = some node ∧ ∃ N, ∀ fuel ≥ N, ∃ l d l' d',
      evalSpectral dipCirc fuel [.delay [0] (.value 6) 2, .optical node.1 node.2, .measure [0, 1] [0, 1]] [⟨stretchState, none⟩] = some l ∧ readGroups l = some [("in".toList, d)] ∧
      evalSpectral dipCirc fuel [.quick [0] (.value 6) 2, .optical node.1 node.2, .measure [0, 1] [0, 1]] [⟨stretchState, none⟩] = some l' ∧ readGroups l' = some [("in".toList, d')] ∧
      ∃ p p' : ℝ, OutcomeProbability (d.map Prod.snd) [0, 1] [1, 1] p ∧ OutcomeTotal (d'.map Prod.snd) [0, 1] [1, 1] p' ∧ |p - p'| ≤ (1 / 2) ^ 40001 :=
  C107_coincidence_partial dipCirc (by decide) (by decide) (by decide) (by norm_num [dipCirc]) (by norm_num [dipCirc, colCfg, Nat.factorial]) 0 1 (by decide) (by decide) (by decide) (by decide) [0] (by decide) (by decide)
    (by decide) 6 2 (by norm_num) stretchState [1, 1] (by decide) (by decide) rfl (by norm_num [stretchState]) rfl 0 1 (by decide) (by decide) (by decide)

/-- One photon in channel 0. -/
noncomputable def inputState : QState := ⟨"in".toList, 1, [("10".toList, ⟨1, 1⟩)], [0, 0], []⟩

theorem mix_half (i j : Fin 2) : ‖mixM i j‖ ^ 2 = 1 / 2 := by
  unfold mixM
  rw [mixMatrix]
  fin_cases i <;> fin_cases j
  · exact norm_half
  · exact norm_half
  · exact norm_half
  · show ‖-((√2 / 2 : ℝ) : ℂ)‖ ^ 2 = 1 / 2
    rw [norm_neg]; exact norm_half

/-- C106: a Mach-Zehnder interferometer with a quick delay given by a classical channel in one arm. -/
example : ∃ N, ∀ fuel ≥ N, ∃ l d' l0 d0 l2 d2,
    evalSpectral dipCirc fuel [.optical mixM [0, 1], .quick [1] (.classical 0) 2, .optical mixM [0, 1], .measure [1] [0]] [⟨inputState, none⟩] = some l ∧ readGroups l = some [("in".toList, d')] ∧
    evalSpectral dipCirc fuel [.optical mixM [0, 1], .delay [1] (.value 0) 1, .optical mixM [0, 1], .measure [1] [0]] [⟨inputState, none⟩] = some l0 ∧ readGroups l0 = some [("in".toList, d0)] ∧
    evalSpectral dipCirc fuel [.optical mixM [0, 1], .delay [1] (.value 200) 1, .optical mixM [0, 1], .measure [1] [0]] [⟨inputState, none⟩] = some l2 ∧ readGroups l2 = some [("in".toList, d2)] ∧
    ∀ o : List ℕ, o.length = 1 → ∃ p0 p2 : ℝ, OutcomeProbability (d0.map Prod.snd) [0] o p0 ∧ OutcomeProbability (d2.map Prod.snd) [0] o p2 ∧
      OutcomeTotal (d'.map Prod.snd) [0] o (Real.exp (-(Real.log 2) * (0 / 2) ^ 2) * p0 + (1 - Real.exp (-(Real.log 2) * (0 / 2) ^ 2)) * p2) := by
  have hunl : ∀ e ∈ [(⟨mixM, 0, 1⟩ : Gate)], e.M ∈ Matrix.unitaryGroup (Fin 2) ℂ := by intro e he; obtain rfl := List.mem_singleton.1 he; exact (C17_wave_plate _ _ 0).1
  have hnode : GateNode colCfg ⟨mixM, 0, 1⟩ (mixM, [0, 1]) := colGate _
  have hkk : KetsKeep colCfg (1 / 1000) [⟨mixM, 0, 1⟩] := mix_kets_keep (g := colCfg) (thr := 1 / 1000) (by norm_num [colCfg, Nat.factorial]) (by norm_num) 0 1
  have hbp : NoBarePhase colCfg [⟨mixM, 0, 1⟩] := mix_noBare (g := colCfg) (by decide) (by decide) (by decide)
  have hf : FreshState colCfg 2 ⟨inputState, none⟩ := fresh_one (v := [1, 0]) (a := 1) (by decide) (by decide) (by decide) (by simp) rfl (by norm_num [inputState]) rfl
  have hst : statePoly colCfg ⟨inputState, none⟩ = ketPoly none [1, 0] := by rw [statePoly_single (g := colCfg) (v := [1, 0]) (k := ⟨1, 1⟩) ⟨inputState, none⟩ (by decide) rfl]; simp
  have hdrop : NothingDropped colCfg (1 / 1000) [⟨mixM, 0, 1⟩] [⟨inputState, none⟩] := by
    intro s hs w hw hlt
    obtain rfl := List.mem_singleton.1 hs
    have e : statePoly colCfg ⟨inputState, infoOf ⟨inputState, none⟩⟩ = ketPoly none [1, 0] := hst
    simp only [e] at hlt ⊢
    exact hkk none [1, 0] w (by decide) (by decide) hw hlt
  refine C106_runs_partial dipCirc (by decide) (by decide) (by norm_num [dipCirc]) [1] (by decide) (.classical 0) (by intro ch e; cases e; decide) 2 two_ne_zero [(mixM, [0, 1])] [(mixM, [0, 1])] [⟨mixM, 0, 1⟩]
    [⟨mixM, 0, 1⟩] (.cons hnode .nil) (.cons hnode .nil) hunl hunl hkk hbp inputState hf (fun _ => hdrop) ?_ ?_ [1] [0] (by decide) rfl (by decide) (by decide)
  · intro t
    have hes : List.Forall₂ (ElementStage dipCirc.g dipCirc.m) [.optics [⟨mixM, 0, 1⟩], .delay [1] (.value t) 1, .optics [⟨mixM, 0, 1⟩]]
        (stagesOf [.optical mixM [0, 1], .delay [1] (.value t) 1, .optical mixM [0, 1]]) :=
      .cons ⟨.cons hnode .nil, hunl⟩ (.cons ⟨rfl, rfl, rfl, by decide, (by intro ch e; cases e), one_ne_zero⟩ (.cons ⟨.cons hnode .nil, hunl⟩ .nil))
    refine keepsAll_of (by decide) (by norm_num [dipCirc]) (by norm_num [dipCirc]) hes trivial (by intro s hs; obtain rfl := List.mem_singleton.1 hs; exact hf) ?_ ?_
    · intro gates e
      obtain rfl := Element.optics.inj (Option.some.inj e)
      exact hdrop
    · intro k gates e
      rcases k with _ | _ | k
      · simp at e
      · obtain rfl := Element.optics.inj (Option.some.inj e)
        refine ⟨singleKeeps_gate (by norm_num [dipCirc]) (by decide) (fun i j hlt => ?_), ?_⟩
        · rw [mix_half] at hlt
          norm_num [dipCirc] at hlt
        · intro e' he'
          obtain rfl := Option.some.inj he'
          exact trivial
      · simp at e
  · intro v a hv he
    have he' : opticsSubst [⟨mixM, 0, 1⟩] (statePoly colCfg ⟨inputState, none⟩) = C a * ketPoly none v := he
    rw [hst] at he'
    exact hbp none [1, 0] v a (by decide) (by decide) hv he'

end NonVacuity

end Verif.Props
