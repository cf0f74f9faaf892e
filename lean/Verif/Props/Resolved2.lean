/-
C51, C65, C66: the groups of a photon-resolved measurement.
-/
import Verif.Props.Resolved
import Verif.Props.Columns

namespace Verif.Props
open Verif Spec

/-! ### C66: the groups -/

/-- **C66, C51** Measuring a group (photon numbers below 10): there is exactly one new group for each outcome that occurs, without repetitions; it has the columns with this outcome;
the probability of the group is multiplied by the detection probability, and the photon numbers are written to the classical channels. -/
theorem C66_measure_partial (g : Cfg) (hL : g.L ≤ 10) (m : ℕ) (opt cls : List ℕ) (cols : List Column) (hm : MeasurableGroup g m cols) (_hwid : RealWidths cols) (hopt : ∀ ch ∈ opt, ch < g.C)
    (hcls : cls.length = opt.length) (hclm : ∀ n ∈ cls, n < m) :
    ∃ groups outs, measureGroup g opt cls cols = some groups ∧ outs.Nodup ∧
      (∀ o, o ∈ outs ↔ ∃ c ∈ cols, ∃ v, columnValues g c = some v ∧ o = opt.map (fun n => v.getD n 0)) ∧ List.Forall₂ (MeasuredGroup g opt cls cols) outs groups :=
  measureGroup_spec hL hm hopt hcls hclm

/-! ### C65: after the measurement -/

theorem mapM_forall2 {α β : Type*} {f : α → Option β} {l l' : List α} (h : List.Forall₂ (fun a b => f b = f a) l l') : l'.mapM f = l.mapM f := by
  induction h with
  | nil => rfl
  | cons h1 _ ih => rw [List.mapM_cons, List.mapM_cons, h1, ih]

theorem measured_same {g : Cfg} {cls o : List ℕ} {p S : ℝ} {c c' : Column} (h : MeasuredColumn g cls o p S c c') :
    columnValues g c' = columnValues g c ∧ photonsOf g c' = photonsOf g c := by
  have hfv : ∀ s s', MeasuredState cls o p s s' → firstValues g s' = firstValues g s := by
    intro s s' hs
    unfold firstValues
    rw [hs.comps]
  constructor
  · unfold columnValues
    rw [mapM_forall2 (h.states.imp hfv)]
  · unfold photonsOf listOfPhotons
    rw [mapM_forall2 (h.states.imp (fun s s' hs => by rw [hfv s s' hs, hs.info]))]

theorem measured_columnWith {g : Cfg} {cls o : List ℕ} {p S : ℝ} {c c' : Column} (h : MeasuredColumn g cls o p S c c') {v : Vals} (hc : ColumnWith g c v) : ColumnWith g c' v := by
  have hst : ∀ s' ∈ c'.states, ∃ s ∈ c.states, s'.q.comps = s.q.comps := by
    intro s' hs'
    obtain ⟨s, hs, hr⟩ := forall2_left_mem h.states.flip s' hs'
    exact ⟨s, hs, hr.comps⟩
  refine ⟨?_, ?_, by rw [(measured_same h).1]; exact hc.values, hc.valid⟩
  · intro s' hs'
    obtain ⟨s, hs, e⟩ := hst s' hs'
    rw [e]; exact hc.wf s hs
  · intro s' hs'
    obtain ⟨s, hs, e⟩ := hst s' hs'
    rw [e]; exact hc.single s hs

theorem norm_measured {cols : List Column} {g : Cfg} {cls o : List ℕ} {p S : ℝ} {grp : List Column} (h : List.Forall₂ (MeasuredColumn g cls o p S) cols grp) :
    (grp.map (fun c => ‖c.amp‖ ^ 2)).sum = (cols.map (fun c => ‖c.amp / ((Real.sqrt S : ℝ) : ℂ)‖ ^ 2)).sum := by
  induction h with
  | nil => rfl
  | cons h1 _ ih => rw [List.map_cons, List.map_cons, List.sum_cons, List.sum_cons, ih, h1.amp]

theorem mem_columnsReading {g : Cfg} {opt o : List ℕ} {cols : List Column} {c : Column} :
    c ∈ columnsReading g opt o cols ↔ c ∈ cols ∧ (columnValues g c).map (fun v => opt.map (fun n => v.getD n 0)) = some o := by
  unfold columnsReading
  rw [List.mem_filter, decide_eq_true_eq]

theorem amps_pos {g : Cfg} {m : ℕ} {cols : List Column} (hm : MeasurableGroup g m cols) {sub : List Column} (hs : ∀ c ∈ sub, c ∈ cols) (hne : sub ≠ []) :
    0 < (sub.map (fun c => ‖c.amp‖ ^ 2)).sum := by
  refine List.sum_pos _ ?_ (by simpa using hne)
  intro x hx
  obtain ⟨c, hc, rfl⟩ := List.mem_map.1 hx
  have := hm.amp c (hs c hc)
  positivity

/-- **C65** After a measurement the squared amplitudes of a group add up to 1, and every column alone has detection probability |amplitude|². -/
theorem C65_rescaled (g : Cfg) (m : ℕ) (opt cls : List ℕ) (cols : List Column) (hm : MeasurableGroup g m cols) (_hwid : RealWidths cols) (o : List ℕ) (grp : List Column) (hne : grp ≠ [])
    (h : MeasuredGroup g opt cls cols o grp) :
    (grp.map (fun c => ‖c.amp‖ ^ 2)).sum = 1 ∧ ∀ c ∈ grp, detectionProb g [c] = ‖c.amp‖ ^ 2 := by
  obtain ⟨p, _, t2⟩ := h
  have hsub : ∀ c ∈ columnsReading g opt o cols, c ∈ cols := fun c hc => (mem_columnsReading.1 hc).1
  have hne' : columnsReading g opt o cols ≠ [] := by
    intro h0
    rw [h0] at t2
    exact hne (List.forall₂_nil_left_iff.1 t2)
  refine ⟨?_, ?_⟩
  · rw [norm_measured t2]
    exact sum_rescaled (amps_pos hm hsub hne').ne'
  · intro c' hc'
    obtain ⟨c, hc, hcc⟩ := forall2_left_mem t2.flip c' hc'
    have h1 := one_le_overlapPermanent (photonsOf g c)
    have hb : c'.boson = Real.sqrt (overlapPermanent (photonsOf g c) (photonsOf g c)) := hcc.boson
    rw [detectionProb_one g c' (by rw [hb]; exact Real.sqrt_pos.2 (by linarith)), (measured_same hcc).2, hb, Real.sq_sqrt (by linarith)]
    field_simp

theorem measurable_again {g : Cfg} {m : ℕ} {opt cls o : List ℕ} {cols grp : List Column} (hm : MeasurableGroup g m cols) (h : MeasuredGroup g opt cls cols o grp) : MeasurableGroup g m grp := by
  obtain ⟨p, _, t2⟩ := h
  have hsub : ∀ c ∈ columnsReading g opt o cols, c ∈ cols := fun c hc => (mem_columnsReading.1 hc).1
  have hS : ∀ c ∈ columnsReading g opt o cols, 0 < ((columnsReading g opt o cols).map (fun c => ‖c.amp‖ ^ 2)).sum := fun c hc =>
    amps_pos hm hsub (List.ne_nil_of_mem hc)
  refine ⟨?_, ?_, ?_, ?_, ?_⟩
  · intro c' hc'
    obtain ⟨c, hc, hcc⟩ := forall2_left_mem t2.flip c' hc'
    obtain ⟨v, hv⟩ := hm.columns c (hsub c hc)
    exact ⟨v, measured_columnWith hcc hv⟩
  · intro c' hc'
    obtain ⟨c, hc, hcc⟩ := forall2_left_mem t2.flip c' hc'
    have : c'.amp = _ := hcc.amp
    rw [this]
    refine div_ne_zero (hm.amp c (hsub c hc)) ?_
    exact_mod_cast (Real.sqrt_pos.2 (hS c hc)).ne'
  · intro c' hc'
    obtain ⟨c, hc, hcc⟩ := forall2_left_mem t2.flip c' hc'
    have : c'.boson = _ := hcc.boson
    rw [this]
    exact Real.sqrt_pos.2 (by linarith [one_le_overlapPermanent (photonsOf g c)])
  · intro c' hc' d' hd'
    obtain ⟨c, hc, hcc⟩ := forall2_left_mem t2.flip c' hc'
    obtain ⟨d, hd, hdd⟩ := forall2_left_mem t2.flip d' hd'
    have e1 : c'.gprob = _ := hcc.gprob
    have e2 : d'.gprob = _ := hdd.gprob
    rw [e1, e2, hm.gprob c (hsub c hc) d (hsub d hd)]
  · intro c' hc' s' hs'
    obtain ⟨c, hc, hcc⟩ := forall2_left_mem t2.flip c' hc'
    have hst : List.Forall₂ (MeasuredState cls o p) c.states c'.states := hcc.states
    obtain ⟨s, hs, hss⟩ := forall2_left_mem hst.flip s' hs'
    have : s'.q.classical.length = s.q.classical.length := hss.length
    rw [this]
    exact hm.classical c (hsub c hc) s hs

theorem reading_again {g : Cfg} {opt cls o : List ℕ} {cols grp : List Column} (h : MeasuredGroup g opt cls cols o grp) : columnsReading g opt o grp = grp := by
  obtain ⟨p, _, t2⟩ := h
  refine List.filter_eq_self.2 ?_
  intro c' hc'
  obtain ⟨c, hc, hcc⟩ := forall2_left_mem t2.flip c' hc'
  rw [(measured_same hcc).1]
  simpa using (mem_columnsReading.1 hc).2

theorem single_outs {g : Cfg} {opt cls o : List ℕ} {cols grp : List Column} (h : MeasuredGroup g opt cls cols o grp) (hne : grp ≠ []) {outs : List (List ℕ)} (hn : outs.Nodup)
    (ho : ∀ o', o' ∈ outs ↔ ∃ c ∈ grp, ∃ v, columnValues g c = some v ∧ o' = opt.map (fun n => v.getD n 0)) : outs = [o] := by
  have hr := reading_again h
  have hall : ∀ c ∈ grp, (columnValues g c).map (fun v => opt.map (fun n => v.getD n 0)) = some o := by
    intro c hc
    rw [← hr] at hc
    exact (mem_columnsReading.1 hc).2
  have hmem : o ∈ outs := by
    rcases grp with _ | ⟨c, l⟩
    · exact absurd rfl hne
    · obtain ⟨v, hv, hvo⟩ := Option.map_eq_some_iff.1 (hall c List.mem_cons_self)
      exact (ho o).2 ⟨c, List.mem_cons_self, v, hv, hvo.symm⟩
  have honly : ∀ o' ∈ outs, o' = o := by
    intro o' ho'
    obtain ⟨c, hc, v, hv, rfl⟩ := (ho o').1 ho'
    have := hall c hc
    rw [hv] at this
    exact Option.some.inj this
  rcases outs with _ | ⟨a, l⟩
  · cases hmem
  · have ha := honly a List.mem_cons_self
    subst ha
    rcases l with _ | ⟨b, l⟩
    · rfl
    · have hb := honly b (by simp)
      subst hb
      simp at hn

/-- **C65** Measuring the same channels of a new group again confirms the outcome with probability 1 and changes no amplitude, provided the columns of the group have different photon
numbers. -/
theorem C65_repeat_partial (g : Cfg) (hL : g.L ≤ 10) (m : ℕ) (opt cls : List ℕ) (cols : List Column) (hm : MeasurableGroup g m cols) (hwid : RealWidths cols) (hopt : ∀ ch ∈ opt, ch < g.C)
    (hcls : cls.length = opt.length) (hclm : ∀ n ∈ cls, n < m) (groups : List (List Column)) (h : measureGroup g opt cls cols = some groups) (grp : List Column) (hg : grp ∈ groups)
    (hd : (grp.map (columnValues g)).Nodup) :
    ∃ grp', measureGroup g opt cls grp = some [grp'] ∧ List.Forall₂ (fun c c' : Column => c'.gprob = c.gprob ∧ c'.amp = c.amp ∧ c'.boson = c.boson) grp grp' := by
  obtain ⟨groups', outs, k1, k2, k3, k4⟩ := measureGroup_spec hL hm hopt hcls hclm
  rw [h] at k1
  obtain rfl := Option.some.inj k1
  obtain ⟨o, ho, hmg⟩ := forall2_left_mem k4.flip grp hg
  have hmg : MeasuredGroup g opt cls cols o grp := hmg
  have hne : grp ≠ [] := by
    intro h0
    obtain ⟨p, _, t2⟩ := hmg
    rw [h0] at t2
    obtain ⟨c, hc, v, hv, hvo⟩ := (k3 o).1 ho
    have : c ∈ columnsReading g opt o cols := mem_columnsReading.2 ⟨hc, by rw [hv, hvo]; rfl⟩
    rw [List.forall₂_nil_right_iff.1 t2] at this
    cases this
  have hm' := measurable_again hm hmg
  obtain ⟨groups'', outs', q1, q2, q3, q4⟩ := measureGroup_spec hL hm' hopt hcls hclm
  have houts := single_outs hmg hne q2 q3
  subst houts
  obtain ⟨hr1, hr2⟩ := C65_rescaled g m opt cls cols hm hwid o grp hne hmg
  rcases groups'' with _ | ⟨grp', l⟩
  · cases q4
  · rw [List.forall₂_cons] at q4
    obtain ⟨⟨p, t1, t2⟩, q5⟩ := q4
    rw [List.forall₂_nil_left_iff.1 q5] at q1
    refine ⟨grp', q1, ?_⟩
    rw [reading_again hmg] at t1 t2
    have hp : p = 1 := by
      rw [totalDetection_distinct t1 (fun c hc => by
        obtain ⟨v, hv⟩ := hm'.columns c hc
        exact ⟨v, hv.values⟩) hd, ← hr1]
      congr 1
      exact List.map_congr_left hr2
    rw [hr1] at t2
    subst hp
    obtain ⟨_, _, t3⟩ := hmg
    refine List.Forall₂.imp ?_ ((List.forall₂_and_left grp grp').2 ⟨fun c hc => hc, t2⟩)
    rintro c c' ⟨hc, hcc⟩
    obtain ⟨c0, _, hc0⟩ := forall2_left_mem t3.flip c hc
    refine ⟨by rw [hcc.gprob, mul_one], by rw [hcc.amp]; simp, ?_⟩
    have e1 : c.boson = Real.sqrt _ := hc0.boson
    rw [hcc.boson, e1, (measured_same hc0).2]

end Verif.Props
