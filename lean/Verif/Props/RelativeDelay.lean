/-
Property C105: a delay is visible only if a later element mixes delayed and other channels.
-/
import Verif.Lemmas.FockForm6
import Verif.Props.HongOuMandel

namespace Verif.Props
open Verif Spec MvPolynomial

/-- A delay in the middle of a circuit is a step of its own. -/
theorem stagesOf_delay (pre post : List SNode) (chs : List ℕ) (d : DelaySource) (w : ℝ) : stagesOf (pre ++ .delay chs d w :: post) = stagesOf pre ++ .delay chs d w :: stagesOf post := by
  induction pre with
  | nil => rfl
  | cons x nodes ih =>
    cases x with
    | optical M tl =>
      rw [List.cons_append, stagesOf, stagesOf, ih]
      cases stagesOf nodes with
      | nil => rfl
      | cons y ys => cases y <;> rfl
    | delay chs d w => rw [List.cons_append, stagesOf, stagesOf, ih]; rfl
    | quick chs d w => rw [List.cons_append, stagesOf, stagesOf, ih]; rfl
    | width chs w => rw [List.cons_append, stagesOf, stagesOf, ih]; rfl
    | measure opt cls => rw [List.cons_append, stagesOf, stagesOf, ih]; rfl

/-- A circuit that starts with a delay, or a pulse width for some channels, keeps all amplitudes if its optical elements keep those of a single photon. -/
theorem keepsAll_circuit (c : Circ) (hg : c.g.Ok) (ht : 0 < c.thr) (ht1 : c.thr ≤ 1) (nodes : List SNode) (es : List Element)
    (hes : List.Forall₂ (ElementStage c.g c.m) es (stagesOf nodes)) (hfirst : ∃ e es', es = e :: es' ∧ MakesPhotons c.g e) (hwidth : ∀ chs w, .width chs w ∈ es → ∃ ch < c.g.C, ch ∉ chs)
    (hkeep : ∀ gates, .optics gates ∈ es → SinglePhotonKeeps c.thr gates) (l : List AState) (hl : ∀ s ∈ l, FreshState c.g c.m s) : StartsResolved c.g es ∧ KeepsAll c es (stagesOf nodes) l := by
  obtain ⟨e0, es', rfl, he0⟩ := hfirst
  have hst : StartsResolved c.g (e0 :: es') := by
    cases e0 with
    | optics _ => exact he0.elim
    | delay _ _ _ => exact trivial
    | width _ _ => exact he0
  refine ⟨hst, keepsAll_of hg ht ht1 hes hst hl ?_ ?_⟩
  · intro gates h
    rw [List.getElem?_cons_zero] at h
    rw [Option.some.inj h] at he0
    exact he0.elim
  · intro k gates hk
    refine ⟨hkeep gates (List.mem_of_getElem? hk), fun e he => ?_⟩
    cases e with
    | optics gates' =>
      obtain ⟨st1, s1, t1⟩ := forall2_get hes he
      obtain ⟨st2, s2, t2⟩ := forall2_get hes hk
      cases st1 <;> first | exact t1.elim | skip
      cases st2 <;> first | exact t2.elim | skip
      exact (stagesOf_alternate nodes k _ _ _ _ s1 s2).elim
    | delay _ _ _ => exact trivial
    | width chs w => exact hwidth chs w (List.mem_of_getElem? he)

theorem starts_delay {g : Cfg} {chs : List ℕ} {w : ℝ} {es2 : List Element} (d d' : DelaySource) (es1 : List Element) (h : StartsResolved g (es1 ++ .delay chs d w :: es2)) :
    StartsResolved g (es1 ++ .delay chs d' w :: es2) := by
  induction es1 with
  | nil => exact trivial
  | cons e es1 ih =>
    cases e with
    | optics _ => exact ih h
    | delay _ _ _ => exact trivial
    | width _ _ => exact h

/-- **C105** (partial) Two circuits with the same elements `pre` before and `post` after a delay of the channels `chs`; the delay is `d` in one and `d'` in the other (a number or a classical
channel). If no optical element of `post` mixes a channel of `chs` with another one, every outcome of a measurement of any channels has the same recorded probability. -/
theorem C105_partial (c : Circ) (hg : c.g.Ok) (hL : c.g.L ≤ 10) (ht : 0 < c.thr) (pre post : List SNode) (es1 es2 : List Element) (h1 : List.Forall₂ (ElementStage c.g c.m) es1 (stagesOf pre))
    (h2 : List.Forall₂ (ElementStage c.g c.m) es2 (stagesOf post)) (chs : List ℕ) (hch : ∀ ch ∈ chs, ch < c.g.C) (d d' : DelaySource) (hd : ∀ ch, d = .classical ch → ch < c.m)
    (hd' : ∀ ch, d' = .classical ch → ch < c.m) (w : ℝ) (hw : w ≠ 0) (hmix : ∀ gates, .optics gates ∈ es2 → ∀ e ∈ gates, (e.h ∈ chs ↔ e.c ∈ chs))
    (hst : StartsResolved c.g (es1 ++ .delay chs d w :: es2))
    (q : QState) (hq : FreshState c.g c.m ⟨q, none⟩)
    (hk : KeepsAll c (es1 ++ .delay chs d w :: es2) (stagesOf (pre ++ .delay chs d w :: post)) [⟨q, none⟩])
    (hk' : KeepsAll c (es1 ++ .delay chs d' w :: es2) (stagesOf (pre ++ .delay chs d' w :: post)) [⟨q, none⟩])
    (opt cls : List ℕ) (hopt : ∀ ch ∈ opt, ch < c.g.C) (hcls : cls.length = opt.length) (hclm : ∀ n ∈ cls, n < c.m) (hnd : cls.Nodup) :
    ∃ N, ∀ fuel ≥ N, ∃ l l' r r', evalSpectral c fuel ((pre ++ .delay chs d w :: post) ++ [.measure opt cls]) [⟨q, none⟩] = some l ∧ readGroups l = some [(q.initial, r)] ∧
      evalSpectral c fuel ((pre ++ .delay chs d' w :: post) ++ [.measure opt cls]) [⟨q, none⟩] = some l' ∧ readGroups l' = some [(q.initial, r')] ∧
      ∀ o : List ℕ, o.length = opt.length → ∃ p, OutcomeProbability (r.map Prod.snd) cls o p ∧ OutcomeProbability (r'.map Prod.snd) cls o p := by
  have hes : ∀ d'' : DelaySource, (∀ ch, d'' = .classical ch → ch < c.m) → List.Forall₂ (ElementStage c.g c.m) (es1 ++ .delay chs d'' w :: es2) (stagesOf (pre ++ .delay chs d'' w :: post)) := by
    intro d'' hd''
    rw [stagesOf_delay]
    exact List.rel_append h1 (.cons ⟨rfl, rfl, rfl, hch, hd'', hw⟩ h2)
  obtain ⟨N, hN⟩ := C102_state_partial c hg hL ht _ _ (hes d hd) hst q hq hk opt cls hopt hcls hclm
  obtain ⟨N', hN'⟩ := C102_state_partial c hg hL ht _ _ (hes d' hd') (starts_delay d d' es1 hst) q hq hk' opt cls hopt hcls hclm
  refine ⟨max N N', fun fuel hf => ?_⟩
  obtain ⟨l, r, a1, a2, a3⟩ := hN fuel (le_trans (le_max_left _ _) hf)
  obtain ⟨l', r', b1, b2, b3⟩ := hN' fuel (le_trans (le_max_right _ _) hf)
  refine ⟨l, l', r, r', a1, a2, b1, b2, fun o ho => ⟨_, outcome_probability hcls hnd a3 o ho, ?_⟩⟩
  rw [Fockform.bornOutcome_delay c.g opt o q.classical es1 es2 chs d d' w hmix]
  exact outcome_probability hcls hnd b3 o ho

/-- **C105** (partial) The same with a condition on the circuit only, when the delay is the first element: a delay of the channels `chs` at the beginning does nothing to the recorded
probabilities unless a later optical element mixes a channel of `chs` with another one. With `chs` all channels: only relative delays matter. -/
theorem C105_first_partial (c : Circ) (hg : c.g.Ok) (hL : c.g.L ≤ 10) (ht : 0 < c.thr) (ht1 : c.thr ≤ 1) (post : List SNode) (es : List Element)
    (hes : List.Forall₂ (ElementStage c.g c.m) es (stagesOf post)) (chs : List ℕ) (hch : ∀ ch ∈ chs, ch < c.g.C) (t t' w : ℝ) (hw : w ≠ 0)
    (hmix : ∀ gates, .optics gates ∈ es → ∀ e ∈ gates, (e.h ∈ chs ↔ e.c ∈ chs)) (hwidth : ∀ chs w, .width chs w ∈ es → ∃ ch < c.g.C, ch ∉ chs)
    (hkeep : ∀ gates, .optics gates ∈ es → SinglePhotonKeeps c.thr gates) (q : QState) (hq : FreshState c.g c.m ⟨q, none⟩)
    (opt cls : List ℕ) (hopt : ∀ ch ∈ opt, ch < c.g.C) (hcls : cls.length = opt.length) (hclm : ∀ n ∈ cls, n < c.m) (hnd : cls.Nodup) :
    ∃ N, ∀ fuel ≥ N, ∃ l l' r r', evalSpectral c fuel (.delay chs (.value t) w :: post ++ [.measure opt cls]) [⟨q, none⟩] = some l ∧ readGroups l = some [(q.initial, r)] ∧
      evalSpectral c fuel (.delay chs (.value t') w :: post ++ [.measure opt cls]) [⟨q, none⟩] = some l' ∧ readGroups l' = some [(q.initial, r')] ∧
      ∀ o : List ℕ, o.length = opt.length → ∃ p, OutcomeProbability (r.map Prod.snd) cls o p ∧ OutcomeProbability (r'.map Prod.snd) cls o p := by
  have key : ∀ t'' : ℝ, StartsResolved c.g ([] ++ .delay chs (.value t'') w :: es) ∧ KeepsAll c ([] ++ .delay chs (.value t'') w :: es) (stagesOf ([] ++ .delay chs (.value t'') w :: post)) [⟨q, none⟩] := by
    intro t''
    refine keepsAll_circuit c hg ht ht1 (.delay chs (.value t'') w :: post) (.delay chs (.value t'') w :: es) (.cons ⟨rfl, rfl, rfl, hch, (by intro ch e; cases e), hw⟩ hes) ⟨_, _, rfl, trivial⟩ ?_ ?_ _ (by intro s hs; obtain rfl := List.mem_singleton.1 hs; exact hq)
    · intro chs' w' hm
      rcases List.mem_cons.1 hm with e | hm
      · cases e
      · exact hwidth chs' w' hm
    · intro gates hm
      rcases List.mem_cons.1 hm with e | hm
      · cases e
      · exact hkeep gates hm
  exact C105_partial c hg hL ht [] post [] es .nil hes chs hch (.value t) (.value t') (by intro ch e; cases e) (by intro ch e; cases e) w hw hmix (key t).1 q hq (key t).2 (key t').2 opt cls hopt hcls hclm hnd

/-- C105: the circuit of C103 (one photon in each of two channels, a 50/50 beam splitter) with a delay of 6 or 0 for both channels. -/
example : ∃ N, ∀ fuel ≥ N, ∃ l l' r r', evalSpectral dipCirc fuel (.delay [0, 1] (.value 6) 2 :: [.optical (genericMatrix (Real.pi / 8) Real.pi) [0, 1]] ++ [.measure [0, 1] [0, 1]]) [⟨dipState, none⟩] = some l ∧
    readGroups l = some [("in".toList, r)] ∧
    evalSpectral dipCirc fuel (.delay [0, 1] (.value 0) 2 :: [.optical (genericMatrix (Real.pi / 8) Real.pi) [0, 1]] ++ [.measure [0, 1] [0, 1]]) [⟨dipState, none⟩] = some l' ∧
    readGroups l' = some [("in".toList, r')] ∧ ∀ o : List ℕ, o.length = [0, 1].length → ∃ p, OutcomeProbability (r.map Prod.snd) [0, 1] o p ∧ OutcomeProbability (r'.map Prod.snd) [0, 1] o p := by
  refine C105_first_partial dipCirc (by decide) (by decide) (by norm_num [dipCirc]) (by norm_num [dipCirc]) [.optical (genericMatrix (Real.pi / 8) Real.pi) [0, 1]]
    [.optics [⟨genericMatrix (Real.pi / 8) Real.pi, 0, 1⟩]] (.cons ⟨.cons ⟨by decide, by decide, by decide, by decide, rfl, by decide⟩ .nil, ?_⟩ .nil) [0, 1] (by decide) 6 0 2 two_ne_zero ?_ ?_ ?_ dipState
    (fresh_one (v := [1, 1]) (a := Complex.I) (by decide) (by decide) (by decide) (by simp) rfl (by norm_num [dipState]) rfl) [0, 1] [0, 1] (by decide) rfl (by decide) (by decide)
  · intro e he
    obtain rfl := List.mem_singleton.1 he
    exact (C17_wave_plate _ _ 0).1
  · intro gates hg e he
    obtain rfl := Element.optics.inj (List.mem_singleton.1 hg)
    obtain rfl := List.mem_singleton.1 he
    decide
  · intro chs w h
    cases List.mem_singleton.1 h
  · intro gates hg
    obtain rfl := Element.optics.inj (List.mem_singleton.1 hg)
    refine singleKeeps_gate (by norm_num [dipCirc]) (by decide) ?_
    have hm : ∀ i j, ‖genericMatrix (Real.pi / 8) Real.pi i j‖ ^ 2 = 1 / 2 := by
      rw [mixMatrix]
      intro i j
      fin_cases i <;> fin_cases j
      · exact norm_half
      · exact norm_half
      · exact norm_half
      · show ‖-((√2 / 2 : ℝ) : ℂ)‖ ^ 2 = 1 / 2
        rw [norm_neg]
        exact norm_half
    intro i j h
    rw [hm] at h
    norm_num [dipCirc] at h

end Verif.Props
