/-
Properties C25 - C28: measurement of a single state.
-/
import Verif.Spec.Measurement
import Verif.Lemmas.Measurement

namespace Verif.Props
open Verif Spec

theorem occurs_iff {g : Cfg} {opt : List ℕ} {l : VComps} (hl : VOk g l) (o : List ℕ) :
    Occurs g opt (enc g l) o ↔ o ∈ outcomes opt l := by
  rw [mem_outcomes]
  constructor
  · rintro ⟨v, s, hv, hn, hs, hr⟩
    rw [isName_iff hv] at hn
    subst hn
    obtain ⟨p, hp, rfl⟩ := List.mem_map.1 ((stdName_mem_enc hl.valid hv).1 hs)
    exact ⟨p, hp, hr.symm⟩
  · rintro ⟨p, hp, rfl⟩
    have hv := hl.valid p hp
    exact ⟨p.1, g.stdName p.1, hv, (isName_iff hv).2 rfl, (stdName_mem_enc hl.valid hv).2 (List.mem_map.2 ⟨p, hp, rfl⟩), rfl⟩

theorem outcomeProb_eq {g : Cfg} {opt : List ℕ} {l : VComps} (hl : VOk g l) (o : List ℕ) :
    outcomeProb g opt (enc g l) o = probAt opt l o := by
  unfold outcomeProb probAt itemsAt itemsOf enc
  rw [List.map_map]
  have hv := hl.valid
  clear hl
  induction l with
  | nil => simp
  | cons p l ih =>
    have ih := ih (fun q hq => hv q (by simp [hq]))
    have hp := hv p (by simp)
    have key : (∃ v, Valid g v ∧ IsName g v (g.stdName p.1) ∧ Reads opt v o) ↔ outcomeOf opt p.1 = o := by
      constructor
      · rintro ⟨v, hv', hn, hr⟩
        rw [isName_iff hv'] at hn
        rw [g.stdName_inj hp.2 hv'.2 hn]; exact hr.symm
      · intro h; exact ⟨p.1, hp, (isName_iff hp).2 rfl, h.symm⟩
    rw [List.map_cons, List.sum_cons, ih, List.map_cons]
    simp only [Function.comp_def, key]
    by_cases h : outcomeOf opt p.1 = o
    · simp [h]
    · simp [h]

theorem measurable_check {g : Cfg} {m : ℕ} {q : QState} (h : Measurable g m q) {thr : ℝ} (ht : 0 ≤ thr) :
    CheckValid thr m q := by
  refine ⟨by linarith [h.cum0], by linarith [h.cum1], ?_, h.classical⟩
  intro p hp
  rw [h.probs p hp]
  have h1 : 0 ≤ ‖p.2.amp‖ ^ 2 := by positivity
  have h2 : ‖p.2.amp‖ ^ 2 ≤ totalProb q.comps := by
    apply List.single_le_sum
    · intro x hx
      obtain ⟨r, _, rfl⟩ := List.mem_map.1 hx
      positivity
    · exact List.mem_map.2 ⟨p, hp, rfl⟩
  have := h.total
  constructor <;> linarith

/-- What one measurement outcome looks like: `o` is the outcome, `q'` the produced state. -/
structure Produced (g : Cfg) (opt cls : List ℕ) (q : QState) (o : List ℕ) (q' : QState) : Prop where
  /-- the outcome has non-zero Born probability -/
  pos : outcomeProb g opt q.comps o ≠ 0
  /-- cumulative probability is multiplied by the Born probability -/
  cum : q'.cum = q.cum * outcomeProb g opt q.comps o
  /-- the new components are valid, their stored probabilities correct, and they are normalised -/
  wf : WellFormed g q'.comps
  probs : ProbsAgree q'.comps
  norm : totalProb q'.comps = 1
  /-- exactly the components with this outcome remain -/
  mem : ∀ v s, Valid g v → IsName g v s → (s ∈ q'.comps.map Prod.fst ↔ s ∈ q.comps.map Prod.fst ∧ Reads opt v o)
  /-- all by the same factor -/
  amp : ∀ v s, Valid g v → IsName g v s → Reads opt v o →
    ampOf q'.comps s = ampOf q.comps s / (Real.sqrt (outcomeProb g opt q.comps o) : ℂ)
  /-- the label and the earlier history are kept, the new classical values are recorded with the probability -/
  initial : q'.initial = q.initial
  results : q'.results = q.results ++ [⟨q'.classical, outcomeProb g opt q.comps o⟩]
  /-- unlisted classical channels keep their values -/
  kept : ∀ n : ℕ, n ∉ cls → q'.classical[n]? = q.classical[n]?
  /-- listed ones hold the measured photon number (the last listed one counts if a channel is listed twice) -/
  written : ∀ (i x n : ℕ), cls[i]? = some x → opt[i]? = some n → (∀ j : ℕ, i < j → cls[j]? ≠ some x) →
    ∀ v s, Valid g v → IsName g v s → s ∈ q'.comps.map Prod.fst → q'.classical[x]? = some (v.getD n 0 : ℝ)

theorem produced_of_collapse {g : Cfg} {thr : ℝ} {m : ℕ} {q q' : QState} {opt cls o : List ℕ} {l : VComps}
    (hl : VOk g l) (hq : q.comps = enc g l) (hcum0 : 0 ≤ q.cum) (hcum1 : q.cum * probAt opt l o ≤ 1)
    (h : collapse g thr m q cls o (itemsAt opt l o) = some q') : Produced g opt cls q o q' := by
  have hok := scaled_ok (opt := opt) hl o (probAt opt l o)
  obtain ⟨h0, hcv, cum, cl, h1, h2, rfl⟩ := (collapse_iff (itemsAt_nodup hl o) (itemsAt_valid hl o) (rfl : probAt opt l o = _)).1 h
  rw [mulCum_of_le (mul_nonneg hcum0 (probAt_nonneg _ _ _)) hcum1] at h1
  obtain rfl := Option.some.inj h1
  have hp : outcomeProb g opt q.comps o = probAt opt l o := by rw [hq]; exact outcomeProb_eq hl o
  obtain ⟨w1, w2, w3, w4, w5⟩ := writeClassical_spec h2
  have hmem : ∀ v s, Valid g v → IsName g v s →
      (s ∈ (enc g ((itemsAt opt l o).map (scaled (probAt opt l o)))).map Prod.fst ↔ s ∈ q.comps.map Prod.fst ∧ Reads opt v o) := by
    intro v s hv hn
    rw [isName_iff hv] at hn
    subst hn
    have e1 := stdName_mem_enc hok.valid hv
    have e2 := stdName_mem_enc hl.valid hv
    unfold Dict.keys at e1 e2
    rw [e1, hq, e2, List.map_map]
    constructor
    · intro hm
      obtain ⟨p, hp, rfl⟩ := List.mem_map.1 hm
      obtain ⟨hp1, hp2⟩ := List.mem_filter.1 hp
      obtain ⟨r, hr, rfl⟩ := List.mem_map.1 hp1
      simp only [decide_eq_true_eq] at hp2
      exact ⟨List.mem_map.2 ⟨r, hr, rfl⟩, hp2.symm⟩
    · rintro ⟨hm, ho⟩
      obtain ⟨r, hr, rfl⟩ := List.mem_map.1 hm
      refine List.mem_map.2 ⟨(r.1, r.2.amp), List.mem_filter.2 ⟨List.mem_map.2 ⟨r, hr, rfl⟩, ?_⟩, rfl⟩
      exact decide_eq_true ho.symm
  constructor
  · rw [hp]; exact h0
  · rw [hp]
  · exact wf_enc hok
  · intro p hp
    obtain ⟨r, hr, rfl⟩ := List.mem_map.1 hp
    obtain ⟨s, _, rfl⟩ := List.mem_map.1 hr
    rfl
  · show totalProb (enc g _) = 1
    rw [totalProb_enc, sum_scaled _ _ (probAt_nonneg _ _ _)]
    exact div_self h0
  · exact hmem
  · intro v s hv hn hr
    rw [hp]
    rw [isName_iff hv] at hn
    subst hn
    show ampOf (enc g _) _ = _
    rw [ampOf_enc hok.valid hv, ampV_scaled hl, if_pos (show outcomeOf opt v = o from hr.symm), hq, ampOf_enc hl.valid hv]
  · rfl
  · rw [hp]
  · exact w4
  · intro i x n hx hn hlast v s hv hs hin
    have hr := ((hmem v s hv hs).1 hin).2
    show cl[x]? = _
    rw [w5 i x hx hlast, hr]
    simp [hn]

/-- **C25, C26, C27** Measuring a state: whenever the measurement succeeds there is exactly one produced state for each
outcome that occurs in the input, in a list without repetitions, and each is as described by `Produced`. -/
theorem C26_outcomes (g : Cfg) (thr : ℝ) (m : ℕ) (q : QState) (opt cls : List ℕ) (hq : Measurable g m q)
    (hlen : cls.length = opt.length) (qs : List QState) (h : measure g thr m q opt cls = some qs) :
    ∃ outs : List (List ℕ), outs.Nodup ∧ (∀ o, o ∈ outs ↔ Occurs g opt q.comps o) ∧
      List.Forall₂ (Produced g opt cls q) outs qs := by
  obtain ⟨l, hl, e⟩ := exists_enc hq.wf
  refine ⟨outcomes opt l, nodup_outcomes opt l, fun o => by rw [e]; exact (occurs_iff hl o).symm, ?_⟩
  have h' := (measure_enc hl e).1 h
  rw [if_neg (by omega)] at h'
  refine h'.imp ?_
  intro o q' hc
  refine produced_of_collapse hl e hq.cum0 ?_ hc
  have h1 := probAt_le opt l o
  have h2 := hq.total
  rw [e, totalProb_enc] at h2
  have h3 := probAt_nonneg opt l o
  have h4 := hq.cum0
  have h5 := hq.cum1
  nlinarith

/-- **C25** The cumulative probabilities of the produced states add up to the cumulative probability of the measured state
times its total probability - to the cumulative probability itself for a normalised state. -/
theorem C25_probability_conserved (g : Cfg) (thr : ℝ) (m : ℕ) (q : QState) (opt cls : List ℕ) (hq : Measurable g m q)
    (hlen : cls.length = opt.length) (qs : List QState) (h : measure g thr m q opt cls = some qs) :
    (qs.map QState.cum).sum = q.cum * totalProb q.comps ∧
    (totalProb q.comps = 1 → (qs.map QState.cum).sum = q.cum) := by
  have main : (qs.map QState.cum).sum = q.cum * totalProb q.comps := by
    obtain ⟨l, hl, e⟩ := exists_enc hq.wf
    have h' := (measure_enc hl e).1 h
    rw [if_neg (by omega)] at h'
    have : ∀ (os : List (List ℕ)) (qs : List QState), List.Forall₂ (fun o q' =>
        collapse g thr m q cls o (itemsAt opt l o) = some q') os qs →
        (qs.map QState.cum).sum = q.cum * (os.map (probAt opt l)).sum := by
      intro os qs hf
      induction hf with
      | nil => simp
      | cons hc _ ih =>
        have h1 := probAt_le opt l ‹_›
        rename_i o q' os qs hfa
        have h1 := probAt_le opt l o
        have h2 := hq.total
        rw [e, totalProb_enc] at h2
        have h3 := probAt_nonneg opt l o
        have h4 := hq.cum0
        have h5 := hq.cum1
        have hP := produced_of_collapse hl e hq.cum0 (by nlinarith) hc
        have hc' := hP.cum
        rw [e, outcomeProb_eq hl] at hc'
        rw [List.map_cons, List.sum_cons, List.map_cons, List.sum_cons, ih, hc', mul_add]
    rw [this _ _ h', sum_probAt, e, totalProb_enc]
  exact ⟨main, fun hn => by rw [main, hn, mul_one]⟩

/-- **C25, C26** The measurement succeeds for every measurable state without zero-probability outcomes and all existing
classical channels. -/
theorem C26_success (g : Cfg) (thr : ℝ) (ht : 0 ≤ thr) (m : ℕ) (q : QState) (opt cls : List ℕ) (hq : Measurable g m q)
    (hlen : cls.length = opt.length) (hcls : ∀ n ∈ cls, n < m)
    (hnz : ∀ o, Occurs g opt q.comps o → outcomeProb g opt q.comps o ≠ 0) :
    ∃ qs, measure g thr m q opt cls = some qs := by
  obtain ⟨l, hl, e⟩ := exists_enc hq.wf
  have : ∀ os : List (List ℕ), (∀ o ∈ os, o ∈ outcomes opt l) → ∃ qs, List.Forall₂ (fun o q' =>
      collapse g thr m q cls o (itemsAt opt l o) = some q') os qs := by
    intro os hos
    induction os with
    | nil => exact ⟨[], List.Forall₂.nil⟩
    | cons o os ih =>
      obtain ⟨qs, hqs⟩ := ih (fun o' ho' => hos o' (by simp [ho']))
      have ho := hos o (by simp)
      have h0 : probAt opt l o ≠ 0 := by
        have := hnz o (by rw [e]; exact (occurs_iff hl o).2 ho)
        rwa [e, outcomeProb_eq hl] at this
      have h1 := probAt_le opt l o
      have h2 := hq.total
      rw [e, totalProb_enc] at h2
      have h3 := probAt_nonneg opt l o
      have h4 := hq.cum0
      have h5 := hq.cum1
      have hol : o.length = opt.length := by
        obtain ⟨p, -, rfl⟩ := mem_outcomes.1 ho
        simp [outcomeOf]
      obtain ⟨cl, hcl⟩ := writeClassical_ok (cls := cls) (o := o) (vals := q.classical)
        (by rw [hq.classical]; exact hcls) (by omega)
      refine ⟨_ :: qs, List.Forall₂.cons ((collapse_iff (itemsAt_nodup hl o) (itemsAt_valid hl o)
        (rfl : probAt opt l o = _)).2 ⟨h0, measurable_check hq ht, _, cl,
          mulCum_of_le (mul_nonneg h4 h3) (by nlinarith), hcl, rfl⟩) hqs⟩
  obtain ⟨qs, hqs⟩ := this (outcomes opt l) (fun _ h => h)
  refine ⟨qs, (measure_enc hl e).2 ?_⟩
  rw [if_neg (by omega)]
  exact hqs

/-- **C27** Restatement for pairwise different target channels: classical channel `cls[i]` holds the photon number that every
remaining component has in optical channel `opt[i]`; all other classical channels are unchanged. -/
theorem C27_written (g : Cfg) (thr : ℝ) (m : ℕ) (q : QState) (opt cls : List ℕ) (hq : Measurable g m q)
    (hlen : cls.length = opt.length) (hd : cls.Nodup) (qs : List QState) (h : measure g thr m q opt cls = some qs)
    (q' : QState) (hq' : q' ∈ qs) :
    q'.classical.length = m ∧
    (∀ (i x n : ℕ), cls[i]? = some x → opt[i]? = some n → ∀ v s, Valid g v → IsName g v s → s ∈ q'.comps.map Prod.fst →
      q'.classical[x]? = some (v.getD n 0 : ℝ)) ∧
    (∀ n : ℕ, n ∉ cls → q'.classical[n]? = q.classical[n]?) := by
  obtain ⟨l, hl, e⟩ := exists_enc hq.wf
  obtain ⟨outs, -, -, hf⟩ := C26_outcomes g thr m q opt cls hq hlen qs h
  have hP : ∃ o, Produced g opt cls q o q' := by
    exact (forall₂_mem_right hf hq').imp (fun o h => h.2)
  obtain ⟨o, hP⟩ := hP
  refine ⟨?_, ?_, hP.kept⟩
  · have h' := (measure_enc hl e).1 h
    rw [if_neg (by omega)] at h'
    have : ∀ (os : List (List ℕ)) (qs : List QState), List.Forall₂ (fun o q' =>
        collapse g thr m q cls o (itemsAt opt l o) = some q') os qs → ∀ q' ∈ qs, q'.classical.length = m := by
      intro os qs hf
      induction hf with
      | nil => simp
      | cons hc _ ih =>
        rename_i o q₁ os qs _
        intro q'' hq''
        rcases List.mem_cons.1 hq'' with rfl | hm
        · obtain ⟨-, -, cum, cl, -, h2, rfl⟩ := (collapse_iff (itemsAt_nodup hl o) (itemsAt_valid hl o)
            (rfl : probAt opt l o = _)).1 hc
          show cl.length = m
          rw [(writeClassical_spec h2).1, hq.classical]
        · exact ih q'' hm
    exact this _ _ h' q' hq'
  · intro i x n hx hn v s hv hs hin
    refine hP.written i x n hx hn ?_ v s hv hs hin
    intro j hj hjx
    have hi' : i < cls.length := by
      by_contra hge
      rw [List.getElem?_eq_none (by omega)] at hx; cases hx
    have hj' : j < cls.length := by
      by_contra hge
      rw [List.getElem?_eq_none (by omega)] at hjx; cases hjx
    have := (List.getElem?_inj hi' hd).1 (hx.trans hjx.symm)
    omega

/-- **C28** Measuring the same optical channels again, writing to the same classical channels, is certain: every produced state
yields exactly one state, equal to it in all respects except that the second result is added to the history with probability 1. -/
theorem C28_repeat (g : Cfg) (thr : ℝ) (ht : 0 ≤ thr) (m : ℕ) (q : QState) (opt cls : List ℕ) (hq : Measurable g m q)
    (hlen : cls.length = opt.length) (qs : List QState) (h : measure g thr m q opt cls = some qs)
    (q' : QState) (hq' : q' ∈ qs) :
    measure g thr m q' opt cls = some [{ q' with results := q'.results ++ [⟨q'.classical, 1⟩] }] := by
  obtain ⟨l, hl, e⟩ := exists_enc hq.wf
  have h' := (measure_enc hl e).1 h
  rw [if_neg (by omega)] at h'
  obtain ⟨o, ho, hc⟩ := forall₂_mem_right h' hq'
  have h1 := probAt_le opt l o
  have h2 := hq.total
  rw [e, totalProb_enc] at h2
  have h3 := probAt_nonneg opt l o
  have h4 := hq.cum0
  have h5 := hq.cum1
  have h6 : q.cum * probAt opt l o ≤ 1 := by nlinarith
  have hP := produced_of_collapse hl e hq.cum0 h6 hc
  obtain ⟨h0, hcv, cum, cl, k1, k2, rfl⟩ := (collapse_iff (itemsAt_nodup hl o) (itemsAt_valid hl o) (rfl : probAt opt l o = _)).1 hc
  rw [mulCum_of_le (mul_nonneg h4 h3) h6] at k1
  obtain rfl := Option.some.inj k1
  have hok := scaled_ok (opt := opt) hl o (probAt opt l o)
  set l' := (itemsAt opt l o).map (scaled (probAt opt l o)) with hl'
  have hall : ∀ p ∈ l', outcomeOf opt p.1 = o := by
    intro p hp
    obtain ⟨r, hr, rfl⟩ := List.mem_map.1 hp
    exact of_decide_eq_true (List.mem_filter.1 hr).2
  have hsum : (l'.map (fun p => ‖p.2.amp‖ ^ 2)).sum = 1 := by
    have := hP.norm
    rwa [show totalProb (enc g l') = _ from totalProb_enc g l'] at this
  have hne : l' ≠ [] := by
    intro h0; rw [h0] at hsum; simp at hsum
  have hp1 : probAt opt l' o = 1 := by
    rw [probAt, itemsAt_single hall, itemsOf, List.map_map]; exact hsum
  refine (measure_enc hok rfl).2 ?_
  rw [if_neg (by omega), outcomes_single hne hall]
  refine List.Forall₂.cons ?_ List.Forall₂.nil
  refine (collapse_iff (itemsAt_nodup hok o) (itemsAt_valid hok o) (rfl : probAt opt l' o = _)).2 ?_
  rw [hp1]
  have hmq : Measurable g m (⟨q.initial, q.cum * probAt opt l o, enc g l', cl, q.results ++ [⟨cl, probAt opt l o⟩]⟩ : QState) :=
    ⟨hP.wf, hP.probs, hP.norm.le, mul_nonneg h4 h3, h6, by
      show cl.length = m
      rw [(writeClassical_spec k2).1, hq.classical]⟩
  refine ⟨one_ne_zero, measurable_check hmq ht, q.cum * probAt opt l o, cl, ?_, writeClassical_again k2, ?_⟩
  · show mulCum (q.cum * probAt opt l o) 1 = _
    rw [mulCum_of_le (by rw [mul_one]; exact mul_nonneg h4 h3) (by rw [mul_one]; exact h6), mul_one]
  · have : (itemsAt opt l' o).map (scaled 1) = l' := by
      rw [itemsAt_single hall, itemsOf, List.map_map]
      conv_rhs => rw [← List.map_id l']
      apply List.map_congr_left
      intro p hp
      obtain ⟨r, hr, rfl⟩ := List.mem_map.1 hp
      simp [scaled]
    rw [this]

/-- the identifier of a measurement is a non-empty string of digits -/
theorem measurementId_digits (kinds : List Bool) (idx : ℕ) :
    measurementId kinds idx ≠ [] ∧ ∀ c ∈ measurementId kinds idx, c.isDigit = true :=
  ⟨fmt_ne_nil _ _, fmt_digit _ _⟩

/-- **C29** Measuring a collection loses no state and merges none: the new collection contains, in order, exactly the states
produced from each input state, all under pairwise different identifiers, for any number of outcomes. -/
theorem C29_no_state_lost (g : Cfg) (thr : ℝ) (m : ℕ) (kinds : List Bool) (idx : ℕ) (opt cls : List ℕ) (coll out : Coll)
    (hn : (coll.map Prod.fst).Nodup)
    (h : measureColl g thr m (measurementId kinds idx) opt cls coll = some out) :
    (out.map Prod.fst).Nodup ∧
    ∃ qss : List (List QState), List.Forall₂ (fun iq qs => measure g thr m iq.2 opt cls = some qs) coll qss ∧
      out.map Prod.snd = qss.flatten := by
  obtain ⟨hm, hd⟩ := measurementId_digits kinds idx
  obtain ⟨qss, hf, rfl, hno⟩ := (measureColl_spec hm hd hn).1 h
  refine ⟨hno, qss, hf, ?_⟩
  have hl := hf.length_eq
  clear hf hn h hno
  induction coll generalizing qss with
  | nil => cases qss <;> simp_all
  | cons iq coll ih =>
    cases qss with
    | nil => simp at hl
    | cons qs qss =>
      simp only [List.zip_cons_cons, List.map_cons, List.flatten_cons, List.map_append]
      rw [ih qss (by simpa using hl)]
      congr 1
      rw [entriesOf, List.map_map, List.zipIdx_eq_zip_range']
      rw [show (Prod.snd ∘ fun qk : QState × ℕ => (iq.1 ++ ['-', 'M'] ++ measurementId kinds idx ++ marker qk.2, qk.1))
        = Prod.fst from rfl]
      rw [List.map_fst_zip (by simp)]

/-- **C29** Every produced state can be found back under an identifier starting with the identifier of the state it came from. -/
theorem C29_identifiers (g : Cfg) (thr : ℝ) (m : ℕ) (kinds : List Bool) (idx : ℕ) (opt cls : List ℕ) (coll out : Coll)
    (hn : (coll.map Prod.fst).Nodup)
    (h : measureColl g thr m (measurementId kinds idx) opt cls coll = some out)
    (i : List Char) (q : QState) (hi : (i, q) ∈ coll) :
    ∃ qs, measure g thr m q opt cls = some qs ∧ ∀ (k : ℕ) (q' : QState), qs[k]? = some q' →
      ∃ j, i <+: j ∧ (j, q') ∈ out := by
  obtain ⟨hm, hd⟩ := measurementId_digits kinds idx
  obtain ⟨qss, hf, rfl, hno⟩ := (measureColl_spec hm hd hn).1 h
  clear hno h hn
  induction hf with
  | nil => simp at hi
  | cons h1 hf ih =>
    rename_i iq qs coll qss
    rcases List.mem_cons.1 hi with rfl | hi
    · refine ⟨qs, h1, ?_⟩
      intro k q' hk
      refine ⟨i ++ ['-', 'M'] ++ measurementId kinds idx ++ marker k, ⟨['-', 'M'] ++ measurementId kinds idx ++ marker k, by simp⟩, ?_⟩
      simp only [List.zip_cons_cons, List.map_cons, List.flatten_cons, List.mem_append]
      left
      refine List.mem_map.2 ⟨(q', k), ?_, rfl⟩
      exact List.mem_zipIdx_iff_getElem?.2 hk
    · obtain ⟨qs', e1, e2⟩ := ih hi
      refine ⟨qs', e1, ?_⟩
      intro k q' hk
      obtain ⟨j, hj, hj'⟩ := e2 k q' hk
      refine ⟨j, hj, ?_⟩
      simp only [List.zip_cons_cons, List.map_cons, List.flatten_cons, List.mem_append]
      exact Or.inr hj'

/-- **C25** for a whole collection: measuring does not change the total probability of a collection of normalised states. -/
theorem C25_collection_probability (g : Cfg) (thr : ℝ) (m : ℕ) (kinds : List Bool) (idx : ℕ) (opt cls : List ℕ)
    (hlen : cls.length = opt.length) (coll out : Coll)
    (hn : (coll.map Prod.fst).Nodup) (hq : ∀ p ∈ coll, Measurable g m p.2 ∧ totalProb p.2.comps = 1)
    (h : measureColl g thr m (measurementId kinds idx) opt cls coll = some out) :
    (out.map (fun p => p.2.cum)).sum = (coll.map (fun p => p.2.cum)).sum := by
  obtain ⟨-, qss, hf, e⟩ := C29_no_state_lost g thr m kinds idx opt cls coll out hn h
  have : out.map (fun p => p.2.cum) = qss.flatten.map QState.cum := by rw [← e, List.map_map]; rfl
  rw [this]
  clear this e h hn
  induction hf with
  | nil => simp
  | cons h1 hf ih =>
    obtain ⟨hm, hp⟩ := hq _ List.mem_cons_self
    rw [List.flatten_cons, List.map_append, List.sum_append, ih (fun p hp => hq p (by simp [hp])),
      (C25_probability_conserved g thr m _ opt cls hm hlen _ h1).2 hp]
    simp

/-- **C25** Rounding: a product of cumulative probability and outcome probability slightly above 1 (as can result from
floating-point amplitudes whose squares add up to slightly more than 1) is stored as exactly 1, a product of 1.001 or more
stops the evaluation with an exception; no value above 1 is ever stored. -/
theorem C25_rounding (cum p : ℝ) :
    (∀ r, mulCum cum p = some r → 0 ≤ r ∧ r ≤ 1) ∧
    (1 < cum * p → cum * p < 1 + 1 / 2000 → mulCum cum p = some 1) ∧
    (1 + 1 / 1000 ≤ cum * p → mulCum cum p = none) := by
  have hs : ∀ x r : ℝ, setCum x = some r → 0 ≤ r ∧ r ≤ 1 := by
    intro x r h
    rw [setCum] at h
    split at h
    · rename_i hx; obtain rfl := Option.some.inj h; exact hx
    · cases h
  refine ⟨?_, ?_, ?_⟩
  · intro r h
    rw [mulCum] at h
    split at h
    · rename_i r' hr'
      exact hs _ _ (h ▸ hr')
    · exact hs _ _ h
  · intro h1 h2
    have hfl : ⌊cum * p * 1000⌋ = 1000 := by
      rw [Int.floor_eq_iff]
      constructor
      · push_cast; linarith
      · push_cast; linarith
    have hr : round3 (cum * p) = 1 := by
      rw [round3, roundHalfEven, hfl, if_pos (by push_cast; linarith)]
      norm_num
    rw [mulCum, setCum, if_neg (by intro h; linarith [h.2])]
    show setCum _ = _
    rw [hr, setCum, if_pos (by norm_num)]
  · intro h1
    have hfl : (1001 : ℤ) ≤ ⌊cum * p * 1000⌋ := by
      rw [Int.le_floor]; push_cast; linarith
    have hr : 1 < round3 (cum * p) := by
      have : (1001 : ℤ) ≤ roundHalfEven (cum * p * 1000) := by
        rw [roundHalfEven]; split_ifs <;> omega
      have : (1001 : ℝ) ≤ (roundHalfEven (cum * p * 1000) : ℝ) := by exact_mod_cast this
      rw [round3]; linarith
    rw [mulCum, setCum, if_neg (by intro h; linarith [h.2])]
    show setCum _ = _
    rw [setCum, if_neg (by intro h; linarith [h.2])]

/-! Non-vacuity: the two-component state `(|0,1⟩ + |1,0⟩)/√2` with four classical channels, of which number 2 is written. -/
section NonVacuity

/-- two optical channels, photon numbers 0 and 1 -/
private def g₂ : Cfg := ⟨2, 2, true⟩

private noncomputable def bell : QState where
  initial := "psi".toList
  cum := 1 / 2
  comps := [(['0', '1'], ⟨(Real.sqrt (1 / 2) : ℂ), 1 / 2⟩), (['1', '0'], ⟨(Real.sqrt (1 / 2) : ℂ), 1 / 2⟩)]
  classical := [0, 0, 7, 0]
  results := []

private theorem norm_half : ‖(Real.sqrt (1 / 2) : ℂ)‖ ^ 2 = 1 / 2 := by
  rw [Complex.norm_real, Real.norm_eq_abs, sq_abs, Real.sq_sqrt (by norm_num)]

private theorem bell_enc : bell.comps = enc g₂ [([0, 1], ⟨(Real.sqrt (1 / 2) : ℂ), 1 / 2⟩), ([1, 0], ⟨(Real.sqrt (1 / 2) : ℂ), 1 / 2⟩)] := by
  rfl

private theorem bell_ok : VOk g₂ [([0, 1], ⟨(Real.sqrt (1 / 2) : ℂ), 1 / 2⟩), ([1, 0], ⟨(Real.sqrt (1 / 2) : ℂ), 1 / 2⟩)] := by
  refine ⟨by simp, ?_⟩
  intro p hp
  rcases List.mem_cons.1 hp with rfl | hp
  · exact ⟨rfl, by decide⟩
  · rcases List.mem_cons.1 hp with rfl | hp
    · exact ⟨rfl, by decide⟩
    · cases hp

private theorem bell_measurable : Measurable g₂ 4 bell ∧ totalProb bell.comps = 1 := by
  have ht : totalProb bell.comps = 1 := by
    rw [bell_enc, totalProb_enc]
    simp only [List.map_cons, List.map_nil, List.sum_cons, List.sum_nil, norm_half]; norm_num
  refine ⟨⟨by rw [bell_enc]; exact wf_enc bell_ok, ?_, ht.le, by norm_num [bell], by norm_num [bell], rfl⟩, ht⟩
  intro p hp
  rw [bell] at hp
  rcases List.mem_cons.1 hp with rfl | hp
  · exact norm_half.symm
  · rcases List.mem_cons.1 hp with rfl | hp
    · exact norm_half.symm
    · cases hp

/-- the measurement of channel 1 into classical channel 2 succeeds, so the hypotheses of all theorems above can be met -/
private theorem bell_success : ∃ qs, measure g₂ 0.0001 4 bell [1] [2] = some qs := by
  apply C26_success g₂ 0.0001 (by norm_num) 4 bell [1] [2] bell_measurable.1 rfl (by simp)
  intro o ho
  rw [bell_enc, occurs_iff bell_ok] at ho
  rw [bell_enc, outcomeProb_eq bell_ok]
  obtain ⟨p, hp, rfl⟩ := mem_outcomes.1 ho
  rcases List.mem_cons.1 hp with rfl | hp
  · simp [probAt, itemsAt, itemsOf, outcomeOf]
  · rcases List.mem_cons.1 hp with rfl | hp
    · simp [probAt, itemsAt, itemsOf, outcomeOf]
    · cases hp

example : ∃ qs, measure g₂ 0.0001 4 bell [1] [2] = some qs ∧ (qs.map QState.cum).sum = 1 / 2 ∧ qs.length = 2 ∧
    ∀ q' ∈ qs, measure g₂ 0.0001 4 q' [1] [2] = some [{ q' with results := q'.results ++ [⟨q'.classical, 1⟩] }] := by
  obtain ⟨qs, h⟩ := bell_success
  refine ⟨qs, h, ?_, ?_, ?_⟩
  · exact (C25_probability_conserved g₂ 0.0001 4 bell [1] [2] bell_measurable.1 rfl _ h).2 bell_measurable.2
  · have h' := ((measure_enc bell_ok bell_enc).1 h).length_eq
    rw [← h']; rfl
  · exact C28_repeat g₂ 0.0001 (by norm_num) 4 bell [1] [2] bell_measurable.1 rfl _ h

example : ∃ out, measureColl g₂ 0.0001 4 (measurementId [false, true] 1) [1] [2] [("a".toList, bell), ("b".toList, bell)] = some out ∧
    (out.map (fun p => p.2.cum)).sum = 1 / 2 + 1 / 2 := by
  obtain ⟨qs, h⟩ := bell_success
  have hn : (([("a".toList, bell), ("b".toList, bell)] : Coll).map Prod.fst).Nodup := by decide
  have hsome : ∃ out, measureColl g₂ 0.0001 4 (measurementId [false, true] 1) [1] [2] [("a".toList, bell), ("b".toList, bell)] = some out := by
    rw [measureColl]
    simp only [List.foldlM_cons, List.foldlM_nil, h, Option.bind_eq_bind, Option.bind_some]
    exact ⟨_, rfl⟩
  obtain ⟨out, ho⟩ := hsome
  refine ⟨out, ho, ?_⟩
  rw [C25_collection_probability g₂ _ 4 _ _ [1] [2] rfl _ _ hn ?_ ho]
  · simp [bell]
  · intro p hp
    rcases List.mem_cons.1 hp with rfl | hp
    · exact bell_measurable
    · rcases List.mem_cons.1 hp with rfl | hp
      · exact bell_measurable
      · cases hp

/-- 26 outcomes and more: markers `z`, `aa`, `ba` -/
example : marker 25 = ['z'] ∧ marker 26 = ['a', 'a'] ∧ marker 27 = ['b', 'a'] ∧ marker 0 = ['a'] := by decide

end NonVacuity

end Verif.Props
