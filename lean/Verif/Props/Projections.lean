/-
Property C128: photon-resolved measurement with a list of projections.
-/
import Verif.Spec.Projections
import Verif.Props.Interference

namespace Verif.Props
open Verif Spec MvPolynomial

theorem projections_mapM {g : Cfg} {cols : List Column} (h : ∀ c ∈ cols, ∃ v, ColumnWith g c v) {vs : List Vals} {names : List Name} (hv : ∀ v ∈ vs, Valid g v) (hn : List.Forall₂ (IsName g) vs names) :
    ∃ l, cols.mapM (fun c => (columnValues g c).map (fun v => (c, v))) = some l ∧
      (l.filter (fun x => keptBy g (some names) x.2)).map Prod.fst = cols.filter (fun c => ∃ v ∈ vs, columnValues g c = some v) := by
  have hnames : names = vs.map g.stdName := by
    induction hn with
    | nil => rfl
    | cons a _ ih => rw [(isName_iff (hv _ List.mem_cons_self)).1 a, List.map_cons, ← ih (fun v h => hv v (List.mem_cons_of_mem _ h))]
  induction cols with
  | nil => exact ⟨[], rfl, rfl⟩
  | cons c cols ih =>
    obtain ⟨l, h1, h2⟩ := ih (fun d hd => h d (List.mem_cons_of_mem _ hd))
    obtain ⟨w, hw⟩ := h c List.mem_cons_self
    refine ⟨(c, w) :: l, mapM_some_iff.2 (.cons (by rw [hw.values]; rfl) (mapM_some_iff.1 h1)), ?_⟩
    rw [List.filter_cons, List.filter_cons]
    have : (keptBy g (some names) w = true) ↔ decide (∃ v ∈ vs, columnValues g c = some v) = true := by
      simp only [keptBy, g.render_of_valid hw.valid, List.contains_iff_mem, hnames, List.mem_map, decide_eq_true_iff, hw.values, Option.some.injEq]
      constructor
      · rintro ⟨v, h1, h2⟩; exact ⟨v, h1, (g.stdName_inj (hv v h1).2 hw.valid.2 h2).symm⟩
      · rintro ⟨v, h1, rfl⟩; exact ⟨w, h1, rfl⟩
    by_cases hc : decide (∃ v ∈ vs, columnValues g c = some v) = true
    · rw [if_pos (this.2 hc), if_pos hc, List.map_cons, h2]
    · rw [if_neg (fun x => hc (this.1 x)), if_neg hc, h2]

/-- **C128** Without a list of projections the measurement is the ordinary one (C66, C101). -/
theorem C128_none (g : Cfg) (opt cls : List ℕ) (cols : List Column) (h : ∀ c ∈ cols, ∃ v, ColumnWith g c v) : measureGroupProj g none opt cls cols = measureGroup g opt cls cols := by
  have : ∃ l, cols.mapM (fun c => (columnValues g c).map (fun v => (c, v))) = some l ∧ l.map Prod.fst = cols := by
    induction cols with
    | nil => exact ⟨[], rfl, rfl⟩
    | cons c cols ih =>
      obtain ⟨l, h1, h2⟩ := ih (fun d hd => h d (List.mem_cons_of_mem _ hd))
      obtain ⟨w, hw⟩ := h c List.mem_cons_self
      exact ⟨(c, w) :: l, mapM_some_iff.2 (.cons (by rw [hw.values]; rfl) (mapM_some_iff.1 h1)), by rw [List.map_cons, h2]⟩
  obtain ⟨l, h1, h2⟩ := this
  unfold measureGroupProj
  rw [h1]
  simp only [Option.bind_some, keptBy, List.filter_true, h2]

/-- **C128** A list of projections that has all photon numbers of the group changes nothing. -/
theorem C128_complete (g : Cfg) (opt cls : List ℕ) (cols : List Column) (h : ∀ c ∈ cols, ∃ v, ColumnWith g c v) (vs : List Vals) (names : List Name) (hv : ∀ v ∈ vs, Valid g v)
    (hn : List.Forall₂ (IsName g) vs names) (hall : ∀ c ∈ cols, ∃ v ∈ vs, columnValues g c = some v) : measureGroupProj g (some names) opt cls cols = measureGroup g opt cls cols := by
  obtain ⟨l, h1, h2⟩ := projections_mapM h hv hn
  unfold measureGroupProj
  rw [h1, Option.bind_some, h2, List.filter_eq_self.2 (fun c hc => decide_eq_true (hall c hc))]

/-- **C128** With a list of projections a column with more photons in a channel than the circuit can hold is skipped: its photon numbers have no name, so no list contains them. -/
theorem C128_beyond_cutoff (g : Cfg) (opt cls : List ℕ) (pre post : List Column) (c : Column) (names : List Name) (v : Vals) (hc : columnValues g c = some v) (hv : ∃ x ∈ v, g.L ≤ x) :
    measureGroupProj g (some names) opt cls (pre ++ c :: post) = measureGroupProj g (some names) opt cls (pre ++ post) := by
  have hr : g.render v = none := by
    rcases h : g.render v with _ | nm
    · rfl
    · obtain ⟨x, hx, hl⟩ := hv
      exact absurd (render_lt h x hx) (by omega)
  unfold measureGroupProj
  rw [List.mapM_append, List.mapM_append, List.mapM_cons, hc]
  simp only [Option.bind_eq_bind, Option.map_some, Option.bind_some, Option.pure_def]
  rcases List.mapM (m := Option) _ pre with _ | a
  · rfl
  rcases List.mapM (m := Option) _ post with _ | b
  · rfl
  simp [keptBy, hr]

theorem kept_total {g : Cfg} {m : ℕ} {gp : ℝ} {α : ℕ → ℂ} {cols out : List Column} (h : PhotonGroup g m gp α cols out) (hα : ∀ ch, ‖α ch‖ = 1) {vs : List Vals} (hvs : ∀ v ∈ vs, Valid g v) {opt o : List ℕ} {p : ℝ}
    (ht : TotalDetection g (columnsReading g opt o (out.filter (fun c => ∃ v ∈ vs, columnValues g c = some v))) p) : p = bornKept vs opt o (groupPoly g cols) := by
  classical
  obtain ⟨ws, h1, h2, rfl⟩ := ht
  have hfil : ∀ v ∈ vs, opt.map (fun n => v.getD n 0) = o →
      (columnsReading g opt o (out.filter (fun c => ∃ v ∈ vs, columnValues g c = some v))).filter (fun c => columnValues g c = some v) = out.filter (fun c => columnValues g c = some v) := by
    intro v hv ho
    rw [filter_reading ho, List.filter_filter]
    refine List.filter_congr (fun c _ => ?_)
    by_cases e : columnValues g c = some v
    · have : ∃ w ∈ vs, columnValues g c = some w := ⟨v, hv, e⟩
      simp only [decide_eq_true e, decide_eq_true this, Bool.and_self]
    · simp only [decide_eq_false e, Bool.false_and]
  have hval : ∀ v ∈ ws, v ∈ vs ∧ opt.map (fun n => v.getD n 0) = o := by
    intro v hv
    obtain ⟨c, hc, e⟩ := (h2 v).1 hv
    obtain ⟨hc1, hc2⟩ := mem_columnsReading.1 hc
    obtain ⟨-, hc3⟩ := List.mem_filter.1 hc1
    obtain ⟨w, hw, e'⟩ := decide_eq_true_iff.1 hc3
    have := Option.some.inj (e.symm.trans e')
    rw [e] at hc2
    exact ⟨this ▸ hw, Option.some.inj hc2⟩
  unfold bornKept
  rw [← List.sum_toFinset _ h1]
  have hsub : ws.toFinset ⊆ vs.toFinset.filter (fun v => opt.map (fun n => v.getD n 0) = o) := by
    intro v hv
    rw [Finset.mem_filter, List.mem_toFinset]
    exact hval v (List.mem_toFinset.1 hv)
  rw [← Finset.sum_subset hsub]
  · refine Finset.sum_congr rfl (fun v hv => ?_)
    obtain ⟨q1, q2⟩ := hval v (List.mem_toFinset.1 hv)
    rw [h.born hα (hvs v q1), hfil v q1 q2]
  · intro v hv hnv
    obtain ⟨q1, q2⟩ := Finset.mem_filter.1 hv
    have q1 := List.mem_toFinset.1 q1
    rw [h.born hα (hvs v q1), ← hfil v q1 q2]
    have : (columnsReading g opt o (out.filter (fun c => ∃ v ∈ vs, columnValues g c = some v))).filter (fun c => columnValues g c = some v) = [] := by
      rw [List.filter_eq_nil_iff]
      intro c hc e
      exact hnv (List.mem_toFinset.2 ((h2 v).2 ⟨c, hc, by simpa using e⟩))
    rw [this, detectionProb_nil]

theorem measurable_filter {g : Cfg} {m : ℕ} {cols : List Column} (h : MeasurableGroup g m cols) (p : Column → Bool) : MeasurableGroup g m (cols.filter p) :=
  ⟨fun c hc => h.columns c (List.mem_filter.1 hc).1, fun c hc => h.amp c (List.mem_filter.1 hc).1, fun c hc => h.boson c (List.mem_filter.1 hc).1,
    fun c hc c' hc' => h.gprob c (List.mem_filter.1 hc).1 c' (List.mem_filter.1 hc').1, fun c hc => h.classical c (List.mem_filter.1 hc).1⟩

/-- **C128 (partial)** Measurement of an interference group with a list of projections: one new group per result that a column with listed photon numbers can give; all its columns have the
probability of the group times the probability (Born rule) of the listed photon numbers with this result, and the result in the classical channels; results without a group have probability 0.
Missing: cutoffs above 10, where the labels of the results are ambiguous (C66), and the history of measurements (`C66_fails`). -/
theorem C128_projections_partial (g : Cfg) (hL : g.L ≤ 10) (m : ℕ) (gp : ℝ) (opt cls : List ℕ) (cols : List Column) (h : InterferingGroup g m gp cols) (_hwid : RealWidths cols)
    (hopt : ∀ ch ∈ opt, ch < g.C) (hcls : cls.length = opt.length) (hclm : ∀ n ∈ cls, n < m) (vs : List Vals) (names : List Name) (hv : ∀ v ∈ vs, Valid g v) (hn : List.Forall₂ (IsName g) vs names) :
    ∃ N, ∀ fuel ≥ N, ∃ (photons : List Column) (ys : List (List Column)) (outs : List (List ℕ)), toPhotons g fuel cols = some photons ∧ measureGroupProj g (some names) opt cls photons = some ys ∧ outs.Nodup ∧
      (∀ o, o ∈ outs ↔ ∃ c ∈ photons, ∃ v ∈ vs, columnValues g c = some v ∧ o = opt.map (fun n => v.getD n 0)) ∧
      (∀ o, o ∉ outs → bornKept vs opt o (groupPoly g cols) = 0) ∧
      List.Forall₂ (fun o grp => grp ≠ [] ∧ ∀ c ∈ grp, c.gprob = gp * bornKept vs opt o (groupPoly g cols) ∧ c.states ≠ [] ∧ ∀ s ∈ c.states, Records cls o s.q.classical) outs ys := by
  refine ⟨totalWeight cols + 1, fun fuel hf => ?_⟩
  obtain ⟨α, hα, hst⟩ := h.phases
  have hcol : ∀ c ∈ cols, InterferingColumn g m gp α c := fun c hc =>
    ⟨hst c hc, h.fits c hc, h.nonempty c hc, h.amp c hc, h.boson c hc, h.gprob c hc, h.classical c hc⟩
  obtain ⟨out, o1, o2⟩ := photon_split hcol (fuel := fuel) (by omega)
  obtain ⟨l, l1, l2⟩ := projections_mapM o2.measurable.columns hv hn
  set kept := out.filter (fun c => ∃ v ∈ vs, columnValues g c = some v) with hkept
  have hsub : ∀ c ∈ kept, c ∈ out ∧ ∃ v ∈ vs, columnValues g c = some v := fun c hc => by
    obtain ⟨a, b⟩ := List.mem_filter.1 hc
    exact ⟨a, decide_eq_true_iff.1 b⟩
  obtain ⟨ys, outs, k1, k2, k3, k4⟩ := measureGroup_spec hL (measurable_filter o2.measurable (fun c => decide (∃ v ∈ vs, columnValues g c = some v))) hopt hcls hclm
  rw [← hkept] at k1 k3 k4
  refine ⟨out, ys, outs, o1, ?_, k2, ?_, ?_, ?_⟩
  · unfold measureGroupProj
    rw [l1, Option.bind_some, l2]
    exact k1
  · intro o
    rw [k3]
    constructor
    · rintro ⟨c, hc, v, e1, e2⟩
      obtain ⟨a, w, hw, e⟩ := hsub c hc
      have := Option.some.inj (e1.symm.trans e)
      exact ⟨c, a, v, this ▸ hw, e1, e2⟩
    · rintro ⟨c, hc, v, hv', e1, e2⟩
      exact ⟨c, List.mem_filter.2 ⟨hc, decide_eq_true ⟨v, hv', e1⟩⟩, v, e1, e2⟩
  · intro o ho
    have hnil : columnsReading g opt o kept = [] := by
      rw [List.eq_nil_iff_forall_not_mem]
      intro c hc
      obtain ⟨hc1, hc2⟩ := mem_columnsReading.1 hc
      obtain ⟨V, hV, _⟩ := o2.phases c (hsub c hc1).1
      rw [hV.values] at hc2
      exact ho ((k3 o).2 ⟨c, hc1, V, hV.values, (Option.some.inj hc2).symm⟩)
    have ht : TotalDetection g (columnsReading g opt o kept) 0 := by
      rw [hnil]
      exact ⟨[], by simp, by simp, by simp⟩
    exact (kept_total o2 hα hv ht).symm
  · have hmem : ∀ o ∈ outs, columnsReading g opt o kept ≠ [] := by
      intro o ho h0
      obtain ⟨c, hc, v, hv, e⟩ := (k3 o).1 ho
      have : c ∈ columnsReading g opt o kept := mem_columnsReading.2 ⟨hc, by rw [hv, e]; rfl⟩
      rw [h0] at this
      cases this
    clear k1 k2 k3
    induction k4 with
    | nil => exact .nil
    | @cons o grp outs ys q1 _ ih =>
      refine .cons ?_ (ih (fun o ho => hmem o (List.mem_cons_of_mem _ ho)))
      obtain ⟨p, t1, t2⟩ := q1
      have hp := kept_total o2 hα hv t1
      refine ⟨?_, ?_⟩
      · intro h0
        rw [h0] at t2
        exact hmem o List.mem_cons_self (List.forall₂_nil_right_iff.1 t2)
      · intro c' hc'
        obtain ⟨c, hc, e⟩ := forall2_left_mem t2.flip c' hc'
        have hco := (hsub c (mem_columnsReading.1 hc).1).1
        refine ⟨by rw [e.gprob, o2.gprob c hco, hp], ?_, ?_⟩
        · intro h0
          have hst := e.states
          rw [h0] at hst
          obtain ⟨V, hV, _⟩ := o2.phases c hco
          have hval := hV.values
          unfold columnValues at hval
          rw [List.forall₂_nil_right_iff.1 hst] at hval
          cases hval
        · intro s hs
          obtain ⟨s0, _, e'⟩ := forall2_left_mem e.states.flip s hs
          exact e'.written

/-! ### The hypotheses are met -/

section NonVacuity

/-- C128: two photons that overlap partly, behind a beam splitter; only the outcomes with both photons in one channel are looked at, channel 1 is measured. -/
example : ∃ N, ∀ fuel ≥ N, ∃ (photons : List Column) (ys : List (List Column)) (outs : List (List ℕ)), toPhotons colCfg fuel homGroup = some photons ∧
    measureGroupProj colCfg (some ["20".toList, "02".toList]) [1] [0] photons = some ys ∧ outs.Nodup ∧
    (∀ o, o ∈ outs ↔ ∃ c ∈ photons, ∃ v ∈ [[2, 0], [0, 2]], columnValues colCfg c = some v ∧ o = [1].map (fun n => v.getD n 0)) ∧
    (∀ o, o ∉ outs → bornKept [[2, 0], [0, 2]] [1] o (groupPoly colCfg homGroup) = 0) ∧
    List.Forall₂ (fun o grp => grp ≠ [] ∧ ∀ c ∈ grp, c.gprob = 1 * bornKept [[2, 0], [0, 2]] [1] o (groupPoly colCfg homGroup) ∧ c.states ≠ [] ∧ ∀ s ∈ c.states, Records [0] o s.q.classical) outs ys :=
  C128_projections_partial colCfg (by decide) 2 1 [1] [0] homGroup homInterfering homWidths (by decide) rfl (by decide) [[2, 0], [0, 2]] _ (by decide)
    (.cons ((isName_iff (by decide)).2 (by decide)) (.cons ((isName_iff (by decide)).2 (by decide)) .nil))
example : measureGroupProj colCfg (some ["20".toList, "02".toList, "11".toList]) [1] [0] homGroup = measureGroup colCfg [1] [0] homGroup :=
  C128_complete colCfg [1] [0] homGroup homMeasurable.columns [[2, 0], [0, 2], [1, 1]] _ (by decide)
    (.cons ((isName_iff (by decide)).2 (by decide)) (.cons ((isName_iff (by decide)).2 (by decide)) (.cons ((isName_iff (by decide)).2 (by decide)) .nil))) (by
      intro c hc
      rcases homMem hc with rfl | rfl | rfl | rfl
      · exact ⟨_, by simp, hom0.values⟩
      · exact ⟨[1, 1], by simp, hom1.values⟩
      · exact ⟨[1, 1], by simp, hom2.values⟩
      · exact ⟨[0, 2], by simp, hom3.values⟩)

/-- C128: a column of four photons in channel 0, where the circuit holds at most two per channel. -/
example : measureGroupProj colCfg (some ["20".toList]) [1] [0] [⟨[colState, colState], 1, 1, 1, 0⟩] = measureGroupProj colCfg (some ["20".toList]) [1] [0] [] :=
  C128_beyond_cutoff colCfg [1] [0] [] [] _ _ [4, 0] (by
    have h : firstValues colCfg colState = some [2, 0] := by rw [firstValues, show colState.q.comps = [("20".toList, ⟨Complex.I, 1⟩)] from rfl]; decide
    unfold columnValues
    simp only [List.mapM_cons, h, List.mapM_nil]
    rfl) ⟨4, by simp, by decide⟩

end NonVacuity

end Verif.Props
