/-
Property C129: what a measurement does to the density matrix.
-/
import Verif.Spec.Dephasing
import Verif.Props.Measurement
import Verif.Props.Collection

namespace Verif.Props
open Verif Spec

theorem outcomeProb_nonneg' (g : Cfg) (opt : List ℕ) (c : Comps) (o : List ℕ) : 0 ≤ outcomeProb g opt c o := by
  classical
  refine List.sum_nonneg (fun x hx => ?_)
  obtain ⟨p, _, rfl⟩ := List.mem_map.1 hx
  split_ifs
  · positivity
  · exact le_refl _

theorem ampOf_absent {c : Comps} {s : Name} (h : s ∉ c.map Prod.fst) : ampOf c s = 0 := by
  unfold ampOf
  rw [Dict.get?_eq_none.2 h]
  rfl

theorem produced_entry {g : Cfg} {opt cls : List ℕ} {q q' : QState} {o : List ℕ} (h : Produced g opt cls q o q') {v w : Vals} {s t : Name} (hv : Valid g v) (hs : IsName g v s) (hw : Valid g w)
    (ht : IsName g w t) : (q'.cum : ℂ) * (star (ampOf q'.comps s) * ampOf q'.comps t) =
      if select opt v = o ∧ select opt w = o then (q.cum : ℂ) * (star (ampOf q.comps s) * ampOf q.comps t) else 0 := by
  have h0 : ∀ (u : Vals) (n : Name), Valid g u → IsName g u n → select opt u ≠ o → ampOf q'.comps n = 0 :=
    fun u n hu hn ho => ampOf_absent (fun hm => ho ((h.mem u n hu hn).1 hm).2.symm)
  by_cases hc : select opt v = o ∧ select opt w = o
  · rw [if_pos hc, h.amp v s hv hs hc.1.symm, h.amp w t hw ht hc.2.symm, h.cum]
    have hp : 0 < outcomeProb g opt q.comps o := lt_of_le_of_ne (outcomeProb_nonneg' g opt q.comps o) h.pos.symm
    have hsq : ((Real.sqrt (outcomeProb g opt q.comps o) : ℝ) : ℂ) * ((Real.sqrt (outcomeProb g opt q.comps o) : ℝ) : ℂ) = ((outcomeProb g opt q.comps o : ℝ) : ℂ) := by
      rw [← Complex.ofReal_mul, Real.mul_self_sqrt hp.le]
    have hne : ((Real.sqrt (outcomeProb g opt q.comps o) : ℝ) : ℂ) ≠ 0 := by
      rw [Ne, Complex.ofReal_eq_zero]
      exact (Real.sqrt_pos.2 hp).ne'
    rw [star_div₀, show star ((Real.sqrt (outcomeProb g opt q.comps o) : ℝ) : ℂ) = ((Real.sqrt (outcomeProb g opt q.comps o) : ℝ) : ℂ) from Complex.conj_ofReal _, Complex.ofReal_mul, ← hsq]
    field_simp
  · rw [if_neg hc]
    by_cases h1 : select opt v = o
    · rw [h0 w t hw ht (fun h2 => hc ⟨h1, h2⟩), mul_zero, mul_zero]
    · rw [h0 v s hv hs h1, star_zero, zero_mul, mul_zero]

theorem measure_entry {g : Cfg} {thr : ℝ} {m : ℕ} {q : QState} {opt cls : List ℕ} (hq : Measurable g m q) (hlen : cls.length = opt.length) {qs : List QState} (h : measure g thr m q opt cls = some qs)
    {v w : Vals} {s t : Name} (hv : Valid g v) (hs : IsName g v s) (hw : Valid g w) (ht : IsName g w t) :
    (qs.map (fun q' => (q'.cum : ℂ) * (star (ampOf q'.comps s) * ampOf q'.comps t))).sum = if select opt v = select opt w then (q.cum : ℂ) * (star (ampOf q.comps s) * ampOf q.comps t) else 0 := by
  obtain ⟨outs, hnd, hocc, hf⟩ := C26_outcomes g thr m q opt cls hq hlen qs h
  have hsum : (qs.map (fun q' => (q'.cum : ℂ) * (star (ampOf q'.comps s) * ampOf q'.comps t))).sum =
      (outs.map (fun o => if select opt v = o ∧ select opt w = o then (q.cum : ℂ) * (star (ampOf q.comps s) * ampOf q.comps t) else 0)).sum := by
    clear hnd hocc h
    induction hf with
    | nil => rfl
    | cons a _ ih =>
      rw [List.map_cons, List.map_cons, List.sum_cons, List.sum_cons, produced_entry a hv hs hw ht, ih]
  rw [hsum]
  by_cases e : select opt v = select opt w
  · rw [if_pos e]
    by_cases hm : select opt v ∈ outs
    · clear hsum hf hocc h
      induction outs with
      | nil => cases hm
      | cons o outs ih =>
        rw [List.map_cons, List.sum_cons]
        rcases List.mem_cons.1 hm with h1 | h1
        · rw [if_pos ⟨h1, e ▸ h1⟩]
          have : outs.map (fun o => if select opt v = o ∧ select opt w = o then (q.cum : ℂ) * (star (ampOf q.comps s) * ampOf q.comps t) else 0) = outs.map (fun _ => 0) := by
            refine List.map_congr_left (fun o' ho' => if_neg (fun h2 => ?_))
            exact (List.nodup_cons.1 hnd).1 (by rw [← h1, h2.1]; exact ho')
          rw [this]
          simp
        · have hno : ¬ (select opt v = o ∧ select opt w = o) := fun h2 => (List.nodup_cons.1 hnd).1 (by rw [← h2.1]; exact h1)
          rw [if_neg hno, zero_add, ih (List.nodup_cons.1 hnd).2 h1]
    · have h0 : ampOf q.comps s = 0 := ampOf_absent (fun hmem => hm ((hocc _).2 ⟨v, s, hv, hs, hmem, rfl⟩))
      rw [h0, star_zero, zero_mul, mul_zero]
      simp
  · rw [if_neg e]
    have : outs.map (fun o => if select opt v = o ∧ select opt w = o then (q.cum : ℂ) * (star (ampOf q.comps s) * ampOf q.comps t) else 0) = outs.map (fun _ => 0) :=
      List.map_congr_left (fun o _ => if_neg (fun h2 => e (h2.1.trans h2.2.symm)))
    rw [this]
    simp

theorem measure_initial {g : Cfg} {thr : ℝ} {m : ℕ} {q : QState} {opt cls : List ℕ} (hq : Measurable g m q) (hlen : cls.length = opt.length) {qs : List QState} (h : measure g thr m q opt cls = some qs) :
    ∀ q' ∈ qs, q'.initial = q.initial ∧ WellFormed g q'.comps := by
  intro q' hq'
  obtain ⟨outs, -, -, hf⟩ := C26_outcomes g thr m q opt cls hq hlen qs h
  obtain ⟨o, -, hP⟩ := forall₂_mem_right hf hq'
  exact ⟨hP.initial, hP.wf⟩

/-- **C129** A measurement removes the coherence between different results and nothing else: the entry of the density matrix of each initial state for two basis states with the same photon numbers
in the measured channels is unchanged, all other entries become 0. -/
theorem C129_decoherence (g : Cfg) (hg : g.Ok) (thr : ℝ) (m : ℕ) (kinds : List Bool) (idx : ℕ) (opt cls : List ℕ) (hlen : cls.length = opt.length) (coll out : Coll) (hid : (coll.map Prod.fst).Nodup)
    (hq : ∀ p ∈ coll, Measurable g m p.2) (h : measureColl g thr m (measurementId kinds idx) opt cls coll = some out) (label : List Char) :
    ∃ dm dm', densityMatrix g coll label = some dm ∧ densityMatrix g out label = some dm' ∧
      ∀ v w, Valid g v → Valid g w → dm' (g.indexOf v) (g.indexOf w) = if select opt v = select opt w then dm (g.indexOf v) (g.indexOf w) else 0 := by
  obtain ⟨-, qss, hf, hout⟩ := C29_no_state_lost g thr m kinds idx opt cls coll out hid h
  have hwf : ∀ p ∈ out, WellFormed g p.2.comps := by
    intro p hp
    have : p.2 ∈ qss.flatten := by rw [← hout]; exact List.mem_map.2 ⟨p, hp, rfl⟩
    obtain ⟨qs, hqs, hm⟩ := List.mem_flatten.1 this
    obtain ⟨iq, hi, e⟩ := forall₂_mem_right hf hqs
    exact (measure_initial (hq iq hi) hlen e p.2 hm).2
  obtain ⟨dm, d1, d2⟩ := C37_entries g hg coll (fun p hp => (hq p hp).wf) label
  obtain ⟨dm', e1, e2⟩ := C37_entries g hg out hwf label
  refine ⟨dm, dm', d1, e1, fun v w hv hw => ?_⟩
  have hsv := (isName_iff hv).2 (rfl : g.stdName v = g.stdName v)
  have hsw := (isName_iff hw).2 (rfl : g.stdName w = g.stdName w)
  rw [d2 v w _ _ hv hsv hw hsw, e2 v w _ _ hv hsv hw hsw]
  have h1 : (out.filter (fun p => p.2.initial = label)).map (fun p => (p.2.cum : ℂ) * (star (ampOf p.2.comps (g.stdName v)) * ampOf p.2.comps (g.stdName w))) =
      (qss.flatten.filter (fun q => q.initial = label)).map (fun q => (q.cum : ℂ) * (star (ampOf q.comps (g.stdName v)) * ampOf q.comps (g.stdName w))) := by
    rw [← hout, List.filter_map, List.map_map]
    rfl
  rw [h1]
  clear h1 e1 e2 d1 d2 hout h hwf hid
  induction hf with
  | nil => simp
  | @cons p qs coll qss a _ ih =>
    rw [List.flatten_cons, List.filter_append, List.map_append, List.sum_append, ih (fun p hp => hq p (List.mem_cons_of_mem _ hp)), List.filter_cons]
    have hi := measure_initial (hq p List.mem_cons_self) hlen a
    have hent := measure_entry (hq p List.mem_cons_self) hlen a hv hsv hw hsw
    by_cases hl : p.2.initial = label
    · rw [List.filter_eq_self.2 (fun q' hq' => decide_eq_true ((hi q' hq').1.trans hl)), hent, if_pos (decide_eq_true hl), List.map_cons, List.sum_cons]
      split_ifs <;> simp
    · rw [List.filter_eq_nil_iff.2 (fun q' hq' e => hl ((hi q' hq').1.symm.trans (decide_eq_true_iff.1 e))), if_neg (fun e => hl (decide_eq_true_iff.1 e))]
      simp

/-- **C129** The probabilities of all photon numbers (the diagonal) stay the same. -/
theorem C129_diagonal (g : Cfg) (hg : g.Ok) (thr : ℝ) (m : ℕ) (kinds : List Bool) (idx : ℕ) (opt cls : List ℕ) (hlen : cls.length = opt.length) (coll out : Coll) (hid : (coll.map Prod.fst).Nodup)
    (hq : ∀ p ∈ coll, Measurable g m p.2) (h : measureColl g thr m (measurementId kinds idx) opt cls coll = some out) (label : List Char) :
    ∃ dm dm', densityMatrix g coll label = some dm ∧ densityMatrix g out label = some dm' ∧ ∀ v, Valid g v → dm' (g.indexOf v) (g.indexOf v) = dm (g.indexOf v) (g.indexOf v) := by
  obtain ⟨dm, dm', h1, h2, h3⟩ := C129_decoherence g hg thr m kinds idx opt cls hlen coll out hid hq h label
  exact ⟨dm, dm', h1, h2, fun v hv => by rw [h3 v v hv hv, if_pos rfl]⟩

/-- **C129** No signalling: the reduced density matrix of channels that are not measured stays the same. -/
theorem C129_no_signalling (g : Cfg) (hg : g.Ok) (thr : ℝ) (m : ℕ) (kinds : List Bool) (idx : ℕ) (opt cls : List ℕ) (hlen : cls.length = opt.length) (coll out : Coll) (hid : (coll.map Prod.fst).Nodup)
    (hq : ∀ p ∈ coll, Measurable g m p.2) (h : measureColl g thr m (measurementId kinds idx) opt cls coll = some out) (label : List Char) (keep : List ℕ) (hopt : ∀ j ∈ opt, j < g.C ∧ j ∉ keep) :
    ∃ dm dm', densityMatrix g coll label = some dm ∧ densityMatrix g out label = some dm' ∧ ∀ a b, reducedEntry g keep dm' a b = reducedEntry g keep dm a b := by
  classical
  obtain ⟨dm, dm', h1, h2, h3⟩ := C129_decoherence g hg thr m kinds idx opt cls hlen coll out hid hq h label
  refine ⟨dm, dm', h1, h2, fun a b => ?_⟩
  unfold reducedEntry
  refine Finset.sum_congr rfl (fun i hi => Finset.sum_congr rfl (fun j hj => ?_))
  by_cases hc : select keep (g.valuesFromIndex i) = a ∧ select keep (g.valuesFromIndex j) = b ∧ SameOutside g keep (g.valuesFromIndex i) (g.valuesFromIndex j)
  · rw [if_pos hc, if_pos hc]
    have e := h3 _ _ (g.valid_valuesFromIndex hg.1 i) (g.valid_valuesFromIndex hg.1 j)
    rw [g.indexOf_valuesFromIndex (Finset.mem_range.1 hi), g.indexOf_valuesFromIndex (Finset.mem_range.1 hj)] at e
    rw [e, if_pos]
    unfold select
    exact List.map_congr_left (fun n hn => hc.2.2 n (hopt n hn).1 (hopt n hn).2)
  · rw [if_neg hc, if_neg hc]

/-! ### The hypotheses are met -/

section NonVacuity

/-- two optical channels, photon numbers 0 and 1 -/
private def dg : Cfg := ⟨2, 2, true⟩

private noncomputable def dComps : VComps := [([0, 1], ⟨3 / 5, 9 / 25⟩), ([1, 0], ⟨4 / 5, 16 / 25⟩)]

/-- `3/5 |0,1⟩ + 4/5 |1,0⟩` -/
private noncomputable def dState : QState := ⟨"psi".toList, 1, enc dg dComps, [0, 0], []⟩

private theorem d_ok : VOk dg dComps := by
  refine ⟨by simp [dComps], ?_⟩
  intro p hp
  simp only [dComps, List.mem_cons, List.not_mem_nil, or_false] at hp
  rcases hp with rfl | rfl <;> exact ⟨rfl, by decide⟩

private theorem d35 : ‖(3 / 5 : ℂ)‖ ^ 2 = 9 / 25 := by rw [norm_div]; norm_num
private theorem d45 : ‖(4 / 5 : ℂ)‖ ^ 2 = 16 / 25 := by rw [norm_div]; norm_num

private theorem d_measurable : Measurable dg 2 dState := by
  refine ⟨wf_enc d_ok, ?_, ?_, by norm_num [dState], by norm_num [dState], rfl⟩
  · intro p hp
    obtain ⟨r, hr, rfl⟩ := List.mem_map.1 hp
    simp only [dComps, List.mem_cons, List.not_mem_nil, or_false] at hr
    rcases hr with rfl | rfl
    · exact d35.symm
    · exact d45.symm
  · rw [dState, totalProb_enc, dComps]
    simp only [List.map_cons, List.map_nil, List.sum_cons, List.sum_nil, d35, d45]
    norm_num

/-- Measuring channel 0 of this state: the coherence 12/25 between the two components becomes 0, the two probabilities stay. -/
example : ∃ out dm dm', measureColl dg 0 2 (measurementId [true] 0) [0] [0] [("a".toList, dState)] = some out ∧ densityMatrix dg [("a".toList, dState)] "psi".toList = some dm ∧
    densityMatrix dg out "psi".toList = some dm' ∧ dm (dg.indexOf [0, 1]) (dg.indexOf [1, 0]) = 12 / 25 ∧ dm' (dg.indexOf [0, 1]) (dg.indexOf [1, 0]) = 0 ∧
    dm' (dg.indexOf [0, 1]) (dg.indexOf [0, 1]) = dm (dg.indexOf [0, 1]) (dg.indexOf [0, 1]) := by
  have hid : (([("a".toList, dState)] : Coll).map Prod.fst).Nodup := by decide
  have hq : ∀ p ∈ ([("a".toList, dState)] : Coll), Measurable dg 2 p.2 := by
    intro p hp
    obtain rfl : p = ("a".toList, dState) := by simpa using hp
    exact d_measurable
  obtain ⟨qs, hqs⟩ := C26_success dg 0 le_rfl 2 dState [0] [0] d_measurable rfl (by simp) (by
    intro o ho
    rw [dState, occurs_iff d_ok] at ho
    rw [dState, outcomeProb_eq d_ok]
    obtain ⟨p, hp, rfl⟩ := mem_outcomes.1 ho
    simp only [dComps, List.mem_cons, List.not_mem_nil, or_false] at hp
    rcases hp with rfl | rfl <;> simp [probAt, itemsAt, itemsOf, outcomeOf, dComps])
  obtain ⟨c, hc⟩ : ∃ c, measureColl dg 0 2 (measurementId [true] 0) [0] [0] [("a".toList, dState)] = some c := by
    rw [measureColl]
    simp only [List.foldlM_cons, List.foldlM_nil, hqs, Option.bind_eq_bind, Option.bind_some]
    exact ⟨_, rfl⟩
  obtain ⟨dm, dm', h1, h2, h3⟩ := C129_decoherence dg (by decide) 0 2 [true] 0 [0] [0] rfl _ c hid hq hc "psi".toList
  refine ⟨c, dm, dm', hc, h1, h2, ?_, ?_, ?_⟩
  · obtain ⟨e, e1, e2⟩ := C37_entries dg (by decide) [("a".toList, dState)] (fun p hp => (hq p hp).wf) "psi".toList
    obtain rfl := Option.some.inj (h1.symm.trans e1)
    rw [e2 [0, 1] [1, 0] "01".toList "10".toList (by decide) ((isName_iff (by decide)).2 (by decide)) (by decide) ((isName_iff (by decide)).2 (by decide))]
    have ha : ampOf dState.comps "01".toList = 3 / 5 := rfl
    have hb : ampOf dState.comps "10".toList = 4 / 5 := rfl
    have hl : dState.initial = "psi".toList := rfl
    have hcum : dState.cum = 1 := rfl
    rw [List.filter_cons, if_pos (decide_eq_true hl), List.filter_nil, List.map_cons, List.map_nil, List.sum_cons, List.sum_nil, ha, hb, hcum]
    norm_num
  · rw [h3 [0, 1] [1, 0] (by decide) (by decide), if_neg (by decide)]
  · rw [h3 [0, 1] [0, 1] (by decide) (by decide), if_pos rfl]

end NonVacuity

end Verif.Props
