/-
Property C101: photon-resolved measurement follows the Born rule for the polynomial of the interference group.
-/
import Verif.Lemmas.Interference3
import Verif.Props.Quick2

namespace Verif.Props
open Verif Spec MvPolynomial

theorem detectionProb_nil (g : Cfg) : detectionProb g [] = 0 := by simp [detectionProb]

theorem _root_.Verif.PhotonGroup.born {g : Cfg} {m : ℕ} {gp : ℝ} {α : ℕ → ℂ} {cols out : List Column} (h : PhotonGroup g m gp α cols out) (hα : ∀ ch, ‖α ch‖ = 1) {v : Vals} (hv : Valid g v) :
    bornProb v (groupPoly g cols) = detectionProb g (out.filter (fun c => columnValues g c = some v)) := by
  rw [← h.poly]
  refine born_detection h.photons (fun c hc => (h.phases c hc).imp (fun _ x => x.1)) hv (numbersPhase_norm hα v) ?_
  intro c hc e
  obtain ⟨V, h1, h2⟩ := h.phases c hc
  rw [h1.values] at e
  rw [h2, Option.some.inj e]

theorem filter_reading {g : Cfg} {opt o : List ℕ} {cols : List Column} {v : Vals} (h : opt.map (fun n => v.getD n 0) = o) :
    (columnsReading g opt o cols).filter (fun c => columnValues g c = some v) = cols.filter (fun c => columnValues g c = some v) := by
  unfold columnsReading
  rw [List.filter_filter]
  refine List.filter_congr (fun c _ => ?_)
  by_cases e : columnValues g c = some v
  · rw [e, Option.map_some, h]
    rw [decide_eq_true rfl, decide_eq_true rfl]
    rfl
  · rw [decide_eq_false e]
    rfl

theorem _root_.Verif.PhotonGroup.born_total {g : Cfg} {m : ℕ} {gp : ℝ} {α : ℕ → ℂ} {cols out : List Column} (h : PhotonGroup g m gp α cols out) (hα : ∀ ch, ‖α ch‖ = 1) {opt o : List ℕ} {p : ℝ}
    (ht : TotalDetection g (columnsReading g opt o out) p) : p = bornOutcome g opt o (groupPoly g cols) := by
  classical
  obtain ⟨vs, h1, h2, rfl⟩ := ht
  have hval : ∀ v ∈ vs, Valid g v ∧ opt.map (fun n => v.getD n 0) = o := by
    intro v hv
    obtain ⟨c, hc, e⟩ := (h2 v).1 hv
    obtain ⟨hc1, hc2⟩ := mem_columnsReading.1 hc
    obtain ⟨V, hV, _⟩ := h.phases c hc1
    have eV : V = v := Option.some.inj (hV.values.symm.trans e)
    subst eV
    rw [e] at hc2
    exact ⟨hV.valid, Option.some.inj hc2⟩
  unfold bornOutcome
  rw [finsum_cond_eq_sum_of_cond_iff (t := vs.toFinset) (f := fun v => bornProb v (groupPoly g cols)) (p := fun v => Valid g v ∧ opt.map (fun n => v.getD n 0) = o), List.sum_toFinset _ h1]
  · congr 1
    refine List.map_congr_left (fun v hv => ?_)
    obtain ⟨q1, q2⟩ := hval v hv
    rw [h.born hα q1, filter_reading q2]
  · intro v hne
    rw [List.mem_toFinset]
    constructor
    · rintro ⟨q1, q2⟩
      by_contra hno
      apply hne
      rw [h.born hα q1, ← filter_reading q2]
      have : (columnsReading g opt o out).filter (fun c => columnValues g c = some v) = [] := by
        rw [List.filter_eq_nil_iff]
        intro c hc e
        exact hno ((h2 v).2 ⟨c, hc, by simpa using e⟩)
      rw [this, detectionProb_nil]
    · exact hval v

theorem born_group {g : Cfg} (hL : g.L ≤ 10) {m : ℕ} {gp : ℝ} {opt cls : List ℕ} {cols : List Column} (h : InterferingGroup g m gp cols) (hopt : ∀ ch ∈ opt, ch < g.C) (hcls : cls.length = opt.length)
    (hclm : ∀ n ∈ cls, n < m) {fuel : ℕ} (hf : totalWeight cols < fuel + cols.length) :
    ∃ photons ys, toPhotons g fuel cols = some photons ∧ measureGroup g opt cls photons = some ys ∧ BornGroups g opt cls gp (groupPoly g cols) ys ∧
      ∃ outs : List (List ℕ), (∀ o, o ∈ outs ↔ ∃ c ∈ photons, ∃ v, columnValues g c = some v ∧ o = opt.map (fun n => v.getD n 0)) ∧ List.Forall₂ (MeasuredGroup g opt cls photons) outs ys := by
  obtain ⟨α, hα, hst⟩ := h.phases
  have hcol : ∀ c ∈ cols, InterferingColumn g m gp α c := fun c hc =>
    ⟨hst c hc, h.fits c hc, h.nonempty c hc, h.amp c hc, h.boson c hc, h.gprob c hc, h.classical c hc⟩
  obtain ⟨out, o1, o2⟩ := photon_split hcol hf
  obtain ⟨ys, outs, k1, k2, k3, k4⟩ := measureGroup_spec hL o2.measurable hopt hcls hclm
  refine ⟨out, ys, o1, k1, ⟨outs, k2, ?_, ?_, ?_⟩, outs, k3, k4⟩
  · intro o ho
    obtain ⟨_, _, v, _, rfl⟩ := (k3 o).1 ho
    simp
  · intro o ho
    have hnil : columnsReading g opt o out = [] := by
      rw [List.eq_nil_iff_forall_not_mem]
      intro c hc
      obtain ⟨hc1, hc2⟩ := mem_columnsReading.1 hc
      obtain ⟨V, hV, _⟩ := o2.phases c hc1
      rw [hV.values] at hc2
      exact ho ((k3 o).2 ⟨c, hc1, V, hV.values, (Option.some.inj hc2).symm⟩)
    have ht : TotalDetection g (columnsReading g opt o out) 0 := by
      rw [hnil]
      exact ⟨[], by simp, by simp, by simp⟩
    exact (o2.born_total hα ht).symm
  · have hmem : ∀ o ∈ outs, columnsReading g opt o out ≠ [] := by
      intro o ho h0
      obtain ⟨c, hc, v, hv, e⟩ := (k3 o).1 ho
      have : c ∈ columnsReading g opt o out := mem_columnsReading.2 ⟨hc, by rw [hv, e]; rfl⟩
      rw [h0] at this
      cases this
    clear k1 k2 k3
    induction k4 with
    | nil => exact .nil
    | @cons o grp outs ys q1 _ ih =>
      refine .cons ?_ (ih (fun o ho => hmem o (List.mem_cons_of_mem _ ho)))
      obtain ⟨p, t1, t2⟩ := q1
      have hp := o2.born_total hα t1
      refine ⟨?_, ?_⟩
      · intro h0
        rw [h0] at t2
        exact hmem o List.mem_cons_self (List.forall₂_nil_right_iff.1 t2)
      · intro c' hc'
        obtain ⟨c, hc, e⟩ := forall2_left_mem t2.flip c' hc'
        refine ⟨by rw [e.gprob, o2.gprob c (mem_columnsReading.1 hc).1, hp], ?_, ?_⟩
        · intro h0
          have hst := e.states
          rw [h0] at hst
          obtain ⟨V, hV, _⟩ := o2.phases c (mem_columnsReading.1 hc).1
          have hval := hV.values
          unfold columnValues at hval
          rw [List.forall₂_nil_right_iff.1 hst] at hval
          cases hval
        · intro s hs
          obtain ⟨s0, _, e'⟩ := forall2_left_mem e.states.flip s hs
          exact e'.written

/-- **C101** Photon-resolved measurement of one interference group: the columns of the new groups get the probability given by the Born rule for the polynomial of the group. -/
theorem C101_group_partial (g : Cfg) (hL : g.L ≤ 10) (m : ℕ) (gp : ℝ) (opt cls : List ℕ) (cols : List Column) (h : InterferingGroup g m gp cols) (_hwid : RealWidths cols) (hopt : ∀ ch ∈ opt, ch < g.C)
    (hcls : cls.length = opt.length) (hclm : ∀ n ∈ cls, n < m) :
    ∃ N, ∀ fuel ≥ N, ∃ photons ys, toPhotons g fuel cols = some photons ∧ measureGroup g opt cls photons = some ys ∧ BornGroups g opt cls gp (groupPoly g cols) ys := by
  refine ⟨totalWeight cols + 1, fun fuel hf => ?_⟩
  obtain ⟨photons, ys, h1, h2, h3, _⟩ := born_group hL h hopt hcls hclm (fuel := fuel) (by omega)
  exact ⟨photons, ys, h1, h2, h3⟩

/-- Photon-resolved measurement of a collection: every interference group is replaced by one group per possible outcome, with the probabilities of the Born rule. -/
theorem born_collection (g : Cfg) (hL : g.L ≤ 10) (m : ℕ) (opt cls : List ℕ) (G : Groups) (hG : Proper G) (gp : List Column → ℝ)
    (h : ∀ e ∈ G, ∀ x ∈ e.2, InterferingGroup g m (gp x.2) x.2) (hopt : ∀ ch ∈ opt, ch < g.C) (hcls : cls.length = opt.length) (hclm : ∀ n ∈ cls, n < m) :
    ∃ N, ∀ fuel ≥ N, ∃ l' G', measureCollection g fuel opt cls (writeGroups G) = some l' ∧ readGroups l' = some G' ∧ Proper G' ∧
      GroupsReplaced (fun cols ys => BornGroups g opt cls (gp cols) (groupPoly g cols) ys) G G' := by
  have hN : ∃ N, ∀ e ∈ G, ∀ x ∈ e.2, totalWeight x.2 < N := by
    refine ⟨((allGroups G).map totalWeight).sum + 1, ?_⟩
    intro e he x hx
    have : totalWeight x.2 ∈ (allGroups G).map totalWeight := List.mem_map.2 ⟨x.2, mem_allGroups.2 ⟨e, he, x, hx, rfl⟩, rfl⟩
    have := List.le_sum_of_mem this
    omega
  obtain ⟨N, hN⟩ := hN
  refine ⟨N, fun fuel hf => ?_⟩
  let S : List Column → List (List Column) → Prop := fun cols ys => BornGroups g opt cls (gp cols) (groupPoly g cols) ys ∧ ∃ photons, toPhotons g fuel cols = some photons ∧
    ∃ outs : List (List ℕ), (∀ o, o ∈ outs ↔ ∃ c ∈ photons, ∃ v, columnValues g c = some v ∧ o = opt.map (fun n => v.getD n 0)) ∧ List.Forall₂ (MeasuredGroup g opt cls photons) outs ys
  have hspec : ∀ cols ∈ allGroups G, ∃ ys, ((splitColumns g fuel cols).bind (fun cols => (cols.mapM (Column.singlePhotonStates g)).bind (measureGroup g opt cls))) = some ys ∧ S cols ys := by
    intro cols hc
    obtain ⟨e, he, x, hx, rfl⟩ := mem_allGroups.1 hc
    have := hN e he x hx
    obtain ⟨photons, ys, k1, k2, k3, outs, k4, k5⟩ := born_group hL (h e he x hx) hopt hcls hclm (fuel := fuel) (by omega)
    refine ⟨ys, ?_, k3, photons, k1, outs, k4, k5⟩
    unfold toPhotons at k1
    rw [← Option.bind_assoc, k1, Option.bind_some, k2]
  obtain ⟨r, r1, r2⟩ := mapM_exists hspec
  obtain ⟨G', q1, q2, q3⟩ := replaced_read (R := S) hG r2 (by
    rintro e he x hx y ⟨hb, photons, hph, outs, ho, hy⟩
    have hwf : WfCols g x.2 := by
      obtain ⟨α, _, hst⟩ := (h e he x hx).phases
      exact fun c hc s hs => (hst c hc s hs).splits.wf
    have hpg := (toPhotons_out hwf ((hG.groups e he).2.2 x hx) hph).1
    refine ⟨?_, ?_⟩
    · intro h0
      rw [h0] at hy
      have hz := List.forall₂_nil_right_iff.1 hy
      obtain ⟨c, hc⟩ := List.exists_mem_of_ne_nil _ hpg.nonempty
      obtain ⟨α, hα, hst⟩ := (h e he x hx).phases
      have := hN e he x hx
      obtain ⟨out, o1, o2⟩ := photon_split (g := g) (m := m) (gp := gp x.2) (α := α) (cols := x.2) (fun c hc =>
        ⟨hst c hc, (h e he x hx).fits c hc, (h e he x hx).nonempty c hc, (h e he x hx).amp c hc, (h e he x hx).boson c hc, (h e he x hx).gprob c hc, (h e he x hx).classical c hc⟩) (fuel := fuel) (by omega)
      rw [hph] at o1
      obtain rfl := Option.some.inj o1
      obtain ⟨V, hV, _⟩ := o2.phases c hc
      have := (ho (opt.map (fun n => V.getD n 0))).2 ⟨c, hc, V, hV.values, rfl⟩
      rw [hz] at this
      cases this
    · intro grp hg
      obtain ⟨o, ho', hh⟩ := forall2_left_mem hy.flip grp hg
      exact measured_proper hpg hh ((ho o).1 ho')) 0
  refine ⟨(r.flatten.zipIdx 0).flatMap (fun x => writeGroup x.2 x.1), G', ?_, q1, q2, ?_⟩
  · unfold measureCollection measureGroups
    rw [read_write hG, Option.bind_some]
    have r1' : (List.flatMap (fun (e : List Char × Dict ℕ (List Column)) => e.2.map Prod.snd) G).mapM
        (fun cols => (splitColumns g fuel cols).bind (fun cols => (cols.mapM (Column.singlePhotonStates g)).bind (measureGroup g opt cls))) = some r := r1
    rw [r1']
    rfl
  · refine List.Forall₂.imp ?_ q3
    rintro e e' ⟨h1, ys, h2, h3⟩
    exact ⟨h1, ys, h2.imp (fun _ _ hh => hh.1), h3⟩

/-- **C101** Photon-resolved measurement of a collection: every interference group is replaced by one group per possible outcome, with the probabilities of the Born rule. -/
theorem C101_collection_partial (g : Cfg) (hL : g.L ≤ 10) (m : ℕ) (opt cls : List ℕ) (G : Groups) (hG : Proper G) (gp : List Column → ℝ)
    (h : ∀ e ∈ G, ∀ x ∈ e.2, InterferingGroup g m (gp x.2) x.2) (_hwid : ∀ e ∈ G, ∀ x ∈ e.2, RealWidths x.2) (hopt : ∀ ch ∈ opt, ch < g.C) (hcls : cls.length = opt.length) (hclm : ∀ n ∈ cls, n < m) :
    ∃ N, ∀ fuel ≥ N, ∃ l' G', measureCollection g fuel opt cls (writeGroups G) = some l' ∧ readGroups l' = some G' ∧ Proper G' ∧
      GroupsReplaced (fun cols ys => BornGroups g opt cls (gp cols) (groupPoly g cols) ys) G G' := born_collection g hL m opt cls G hG gp h hopt hcls hclm

/-! ### The hypotheses are met -/

section NonVacuity

theorem homInterfering : InterferingGroup colCfg 2 1 homGroup := by
  have h10 : ∀ t, InterferingState colCfg (fun _ => 1) (homPhoton "10" t) := fun t => ⟨⟨wf_unit _ ⟨[1, 0], val10, (isName_iff val10).2 name10.symm⟩, by simp [homPhoton], by simp [homPhoton]⟩, by
    intro v n k h _ _
    simp only [homPhoton, List.cons.injEq, Prod.mk.injEq, and_true] at h
    rw [← h.2]
    exact ⟨by simp [numbersPhase], Or.inr rfl⟩, by simp [homPhoton]⟩
  have h01 : ∀ t, InterferingState colCfg (fun _ => 1) (homPhoton "01" t) := fun t => ⟨⟨wf_unit _ ⟨[0, 1], val01, (isName_iff val01).2 name01.symm⟩, by simp [homPhoton], by simp [homPhoton]⟩, by
    intro v n k h _ _
    simp only [homPhoton, List.cons.injEq, Prod.mk.injEq, and_true] at h
    rw [← h.2]
    exact ⟨by simp [numbersPhase], Or.inr rfl⟩, by simp [homPhoton]⟩
  have hw : ∀ (n : String) (t : ℝ) (w : Vals), (n = "10" ∨ n = "01") → (∃ p ∈ (homPhoton n t).q.comps, IsName colCfg w p.1 ∧ Valid colCfg w) → ∀ ch < 2, w.getD ch 0 ≤ 1 := by
    rintro n t w hn ⟨p, hp, h1, h2⟩ ch hch
    obtain rfl := List.mem_singleton.1 hp
    have h1 := (isName_iff h2).1 h1
    have : w = [1, 0] ∨ w = [0, 1] := by
      rcases hn with rfl | rfl
      · exact Or.inl (colCfg.stdName_inj h2.2 val10.2 (by rw [← h1, name10]))
      · exact Or.inr (colCfg.stdName_inj h2.2 val01.2 (by rw [← h1, name01]))
    rcases this with rfl | rfl <;> interval_cases ch <;> simp
  refine ⟨⟨fun _ => 1, by simp, ?_⟩, ?_, ?_, homMeasurable.amp, homMeasurable.boson, ?_, homMeasurable.classical⟩
  · intro c hc s hs
    rcases homMem hc with rfl | rfl | rfl | rfl <;>
    · rcases List.mem_cons.1 hs with rfl | hs
      · first | exact h10 _ | exact h01 _
      · obtain rfl := List.mem_singleton.1 hs
        first | exact h10 _ | exact h01 _
  · intro c hc ws hws ch hch
    have key : ∀ (n n' : String) (a : ℂ) (i : ℕ), (n = "10" ∨ n = "01") → (n' = "10" ∨ n' = "01") → c = homColumn n n' a i → (ws.map (fun w => w.getD ch 0)).sum < 3 := by
      rintro n n' a i hn hn' rfl
      cases hws with
      | cons e1 e2 =>
        cases e2 with
        | cons e2 e3 =>
          cases e3
          have k1 := hw _ _ _ hn e1 ch hch
          have k2 := hw _ _ _ hn' e2 ch hch
          simp only [List.map_cons, List.map_nil, List.sum_cons, List.sum_nil]
          omega
    rcases homMem hc with rfl | rfl | rfl | rfl
    · exact key _ _ _ _ (by simp) (by simp) rfl
    · exact key _ _ _ _ (by simp) (by simp) rfl
    · exact key _ _ _ _ (by simp) (by simp) rfl
    · exact key _ _ _ _ (by simp) (by simp) rfl
  · intro c hc
    rcases homMem hc with rfl | rfl | rfl | rfl <;> simp [homColumn]
  · intro c hc
    rcases homMem hc with rfl | rfl | rfl | rfl <;> rfl

/-- C101: two photons that overlap partly, behind a beam splitter. -/
example : ∃ N, ∀ fuel ≥ N, ∃ photons ys, toPhotons colCfg fuel homGroup = some photons ∧ measureGroup colCfg [0, 1] [0, 1] photons = some ys ∧ BornGroups colCfg [0, 1] [0, 1] 1 (groupPoly colCfg homGroup) ys :=
  C101_group_partial colCfg (by decide) 2 1 [0, 1] [0, 1] homGroup homInterfering homWidths (by decide) rfl (by decide)
example : ∃ N, ∀ fuel ≥ N, ∃ l' G', measureCollection colCfg fuel [0, 1] [0, 1] (writeGroups homGroups) = some l' ∧ readGroups l' = some G' ∧ Proper G' ∧
    GroupsReplaced (fun cols ys => BornGroups colCfg [0, 1] [0, 1] 1 (groupPoly colCfg cols) ys) homGroups G' :=
  C101_collection_partial colCfg (by decide) 2 [0, 1] [0, 1] homGroups homProper (fun _ => 1) (by
    intro e he x hx
    obtain rfl := List.mem_singleton.1 he
    obtain rfl := List.mem_singleton.1 hx
    exact homInterfering) homGroups_widths (by decide) rfl (by decide)

end NonVacuity

end Verif.Props
