/-
An experiment with Popescu-Rohrlich pairs from the gate to the measured probabilities.
-/
import Verif.Lemmas.PRExperiment4
import Verif.Props.Measurement

namespace Verif
open Spec Props

/-- What is known about the states after the optical nodes. -/
structure EndState (c : Circ) (boxes : List Box) (st : PRState) (steps : List (LocalStep boxes.length)) (s s' : PRState) : Prop where
  pr : s'.pr = s.pr
  same : s'.q.initial = s.q.initial ∧ s'.q.classical = s.q.classical ∧ s'.q.results = s.q.results ∧ s'.q.cum = s.q.cum
  wf : WellFormed c.g s'.q.comps
  probs : ProbsAgree s'.q.comps
  total : totalProb s'.q.comps = 1
  only : ∀ s0 ∈ s'.q.comps.map Prod.fst, ∃ w o, Valid c.g w ∧ s0 = c.g.stdName w ∧ HasPairs boxes o w ∧ outsideAmp c.g.L steps (outsideStart c.g boxes st.q.comps) w ≠ 0
  amp : ∀ x : Fin boxes.length → Fin 4, configuration s = List.ofFn x → ∀ w o, Valid c.g w → HasPairs boxes o w →
    ampOf s'.q.comps (c.g.stdName w) = endAmp c.g boxes st.q.comps steps w o x

theorem exists_endState {c : Circ} {boxes : List Box} {st : PRState} {steps : List (LocalStep boxes.length)} {n : Opt × List ℕ} {l : List (Opt × List ℕ)}
    (E : Experiment c boxes st steps (n :: l)) {ident : ℕ} {mid : List PRState} (hr : GateResult c.g boxes ident st mid) {s : PRState} (hs : s ∈ mid) :
    ∃ comps, applyOptical c.g c.thr c.full (basisKeys c.g) n l s.q.comps = some comps ∧ EndState c boxes st steps s ⟨{ s.q with comps := comps }, s.pr⟩ := by
  have hwf := mid_wf hr hs
  have htot : totalProb s.q.comps = 1 := (mid_total hr hs).trans E.normalised
  have hne : s.q.comps ≠ [] := by
    intro e
    rw [e] at htot
    simp [totalProb] at htot
  obtain ⟨x, hx⟩ : ∃ x : Fin boxes.length → Fin 4, configuration s = List.ofFn x := by
    have hlen := hr.complete.len s hs
    refine ⟨fun k => (configuration s)[k.val]'(by rw [hlen]; exact k.isLt), ?_⟩
    apply List.ext_getElem
    · simp [hlen]
    · intro i h1 h2
      simp
  have hon : ∀ m ∈ n :: l, OnChannels c.g m := by
    intro m hm
    obtain ⟨sp, -, h⟩ := forall₂_mem_right E.gates hm
    exact stepNode_on E.boxes_ok h
  have hun : ∀ m ∈ n :: l, m.1 ∈ Matrix.unitaryGroup (Fin 2) ℂ := by
    intro m hm
    obtain ⟨sp, -, h⟩ := forall₂_mem_right E.gates hm
    rw [h.matrix]
    exact h.unitary
  have happ := applyOptical_eq E.ok c.thr c.full n l (hon n List.mem_cons_self) (fun m hm => hon m (List.mem_cons_of_mem _ hm)) hwf hne
  obtain ⟨comps, h1, h2, h3, h4⟩ := fromVector_spec E.ok.1 c.thr (oneByOne c.g (n :: l) (vec c.g s.q.comps))
  rw [h1] at happ
  have hend : ∀ w, Valid c.g w → _ := fun w hw => amp_end E.ok E.two E.boxes_ok E.state.wf E.differ hr hs hx E.gates hw
  have hkept : ∀ i < c.g.size, ‖oneByOne c.g (n :: l) (vec c.g s.q.comps) i‖ ^ 2 < c.thr → oneByOne c.g (n :: l) (vec c.g s.q.comps) i = 0 := by
    intro i hi hlt
    have hw := c.g.valid_valuesFromIndex E.ok.1 i
    obtain ⟨e1, e2⟩ := hend _ hw
    rw [c.g.indexOf_valuesFromIndex hi] at e1 e2
    by_cases ho : ∃ o, HasPairs boxes o (c.g.valuesFromIndex i)
    · obtain ⟨o, ho⟩ := ho
      rw [e1 o ho] at hlt ⊢
      by_contra hc
      exact absurd (E.kept _ o x hw ho hc) (not_le.mpr hlt)
    · exact e2 (fun o h => ho ⟨o, h⟩)
  refine ⟨comps, happ, ⟨rfl, ⟨rfl, rfl, rfl, rfl⟩, h2, h3, ?_, ?_, ?_⟩⟩
  · obtain ⟨xv, hxv, hxi⟩ := toVector_spec E.ok.1 hwf
    have hcong := oneByOne_congr (n :: l) hxi
    obtain ⟨-, h5⟩ := C16_norm_preserved c.g E.ok c.thr c.full n l (hon n List.mem_cons_self) (fun m hm => hon m (List.mem_cons_of_mem _ hm)) hun _ comps hwf hne xv hxv happ
    show totalProb comps = 1
    rw [h5, htot]
    rw [Finset.sum_eq_zero, sub_zero]
    intro i hi
    rw [Finset.mem_filter, Finset.mem_range] at hi
    have hi1 : i < c.g.size := hi.1
    rw [hcong i hi1] at hi ⊢
    rw [hkept i hi1 hi.2]
    simp
  · intro s0 hs0
    have hmem := (Dict.mem_keys_iff).mp hs0
    obtain ⟨p, hp, e⟩ := List.mem_map.mp hs0
    obtain ⟨w, hw, hn⟩ := (wf_iff.mp h2).2 p hp
    rw [e] at hn
    subst hn
    have h5 := h4 _ (c.g.indexOf_lt hw)
    rw [nm_indexOf hw] at h5
    have hnz : oneByOne c.g (n :: l) (vec c.g s.q.comps) (c.g.indexOf w) ≠ 0 := by
      intro hz
      rw [hz, if_pos (by simpa using E.thr)] at h5
      rw [h5] at hmem
      simp at hmem
    obtain ⟨e1, e2⟩ := hend w hw
    by_cases ho : ∃ o, HasPairs boxes o w
    · obtain ⟨o, ho⟩ := ho
      rw [e1 o ho] at hnz
      exact ⟨w, o, hw, rfl, ho, (mul_ne_zero_iff.mp hnz).1⟩
    · exact absurd (e2 (fun o h => ho ⟨o, h⟩)) hnz
  · intro x' hx' w o hw ho
    obtain rfl : x' = x := List.ofFn_injective (hx'.symm.trans hx)
    have h5 := vec_fromVector E.ok.1 h1 (c.g.indexOf_lt hw)
    rw [vec_index hw] at h5
    show ampOf comps (c.g.stdName w) = _
    rw [h5]
    obtain ⟨e1, -⟩ := hend w hw
    split
    · rename_i hlt
      rw [← hkept _ (c.g.indexOf_lt hw) hlt, e1 o ho]
      rfl
    · rw [e1 o ho]
      rfl

theorem experiment_out {c : Circ} {boxes : List Box} {st : PRState} {steps : List (LocalStep boxes.length)} {n : Opt × List ℕ} {l : List (Opt × List ℕ)}
    (E : Experiment c boxes st steps (n :: l)) (ident : ℕ) :
    ∃ mid out, createPR c.g c.thr c.m boxes ident st = some mid ∧ GateResult c.g boxes ident st mid ∧ opticalPR c n l mid = some out ∧
      List.Forall₂ (EndState c boxes st steps) mid out := by
  have hv : CheckValid c.thr c.m st.q := measurable_check E.state E.thr.le
  obtain ⟨mid, h1, h2⟩ := createPR_spec E.two E.boxes_ok ident hv E.state.wf E.differ
  have hex : ∀ s : PRState, ∃ comps : Comps, s ∈ mid → applyOptical c.g c.thr c.full (basisKeys c.g) n l s.q.comps = some comps ∧ EndState c boxes st steps s ⟨{ s.q with comps := comps }, s.pr⟩ := by
    intro s
    by_cases hs : s ∈ mid
    · obtain ⟨comps, h⟩ := exists_endState E h2 hs
      exact ⟨comps, fun _ => h⟩
    · exact ⟨[], fun h => absurd h hs⟩
  choose F hF using hex
  refine ⟨mid, _, h1, h2, opticalPR_spec ?_ F (fun s hs => (hF s hs).1), ?_⟩
  · intro s hs
    obtain ⟨-, k2, -, k4⟩ := h2.kept s hs
    refine checkValid_of E.thr.le k4 (by rw [k2]; exact E.state.classical) ?_ ?_
    · intro p' hp'
      obtain ⟨p, -, e1, e2, -⟩ := forall₂_mem_right (h2.components s hs) hp'
      rw [e2, e1]
    · rw [mid_total h2 hs, E.normalised]
  · rw [List.forall₂_map_right_iff, List.forall₂_same]
    intro s hs
    exact (hF s hs).2

theorem configuration_congr {s s' : PRState} (h : s'.pr = s.pr) : configuration s' = configuration s := by
  unfold configuration
  rw [h]

theorem endState_set {c : Circ} {boxes : List Box} {st : PRState} {steps : List (LocalStep boxes.length)} {ident : ℕ} {mid out : List PRState}
    (hr : GateResult c.g boxes ident st mid) (h : List.Forall₂ (EndState c boxes st steps) mid out) :
    PRSet boxes.length (fun k => (boxes.get k).K) st.q.initial st.q.cum out := by
  have hcfg : out.map configuration = mid.map configuration := by
    have key : ∀ {a b : List PRState}, List.Forall₂ (EndState c boxes st steps) a b → b.map configuration = a.map configuration := by
      intro a b hab
      induction hab with
      | nil => rfl
      | cons h _ ih => rw [List.map_cons, List.map_cons, ih, configuration_congr h.pr]
    exact key h
  constructor
  · intro s' hs'
    obtain ⟨s, hs, e⟩ := forall₂_mem_right h hs'
    rw [e.pr]
    exact hr.complete.info s hs
  · intro s' hs'
    obtain ⟨s, hs, e⟩ := forall₂_mem_right h hs'
    exact (wf_iff.mp e.wf).1
  · intro x
    obtain ⟨s, hs, e⟩ := hr.complete.all x
    have : List.ofFn x ∈ out.map configuration := by
      rw [hcfg]
      exact List.mem_map.mpr ⟨s, hs, e⟩
    obtain ⟨s', hs', e'⟩ := List.mem_map.mp this
    exact ⟨s', hs', e'⟩
  · intro s' hs'
    obtain ⟨s, hs, e⟩ := forall₂_mem_right h hs'
    rw [configuration_congr e.pr]
    exact hr.complete.len s hs
  · rw [hcfg]
    exact hr.complete.once

theorem onlyOutside_steps {g : Cfg} {boxes : List Box} {steps : List (LocalStep boxes.length)} {nodes : List (Opt × List ℕ)} (hf : List.Forall₂ (StepNode g boxes) steps nodes) :
    ∀ {γ : Vals → ℂ}, OnlyOutside g boxes γ → OnlyOutside g boxes (outsideAmp g.L steps γ) := by
  induction hf with
  | nil => exact fun h => h
  | cons h _ ih => exact fun h1 => ih (onlyOutside_step h h1)

theorem endState_local {c : Circ} {boxes : List Box} {st : PRState} {steps : List (LocalStep boxes.length)} {nodes : List (Opt × List ℕ)}
    (E : Experiment c boxes st steps nodes) {ident : ℕ} {mid out : List PRState} (hr : GateResult c.g boxes ident st mid)
    (h : List.Forall₂ (EndState c boxes st steps) mid out) :
    LocalRun out (fun k => polarization steps k 0) (fun k => polarization steps k 1)
      (fun r : Rest c.g boxes (outsideAmp c.g.L steps (outsideStart c.g boxes st.q.comps)) => outsideAmp c.g.L steps (outsideStart c.g boxes st.q.comps) (c.g.valuesFromIndex r.1.val))
      (fun r o => c.g.stdName (fill c.g boxes r.1.val o)) := by
  have hγ : OnlyOutside c.g boxes (outsideAmp c.g.L steps (outsideStart c.g boxes st.q.comps)) := by
    exact onlyOutside_steps E.gates (outsideStart_only _)
  refine ⟨fun k => polarization_unitary E.gates k 0, fun k => polarization_unitary E.gates k 1, fun r => r.2.2, ?_, ?_, ?_, ?_⟩
  · intro r r' o o' e
    exact fill_inj E.ok E.two E.boxes_ok (c.g.stdName_inj (fill_spec E.ok E.two E.boxes_ok _ _).1.2 (fill_spec E.ok E.two E.boxes_ok _ _).1.2 e)
  · intro s' hs'
    obtain ⟨s, hs, e⟩ := forall₂_mem_right h hs'
    rw [e.same.2.2.2]
    exact (hr.kept s hs).2.2.2
  · intro s' hs' s0 hs0
    obtain ⟨s, hs, e⟩ := forall₂_mem_right h hs'
    obtain ⟨w, o, hw, rfl, ho, hne⟩ := e.only s0 hs0
    obtain ⟨r, hr⟩ := exists_fill E.ok E.two E.boxes_ok hγ hw ho hne
    exact ⟨r, o, by rw [hr]⟩
  · intro s' hs' x hx r o
    obtain ⟨s, hs, e⟩ := forall₂_mem_right h hs'
    rw [configuration_congr e.pr] at hx
    obtain ⟨h1, h2⟩ := fill_spec E.ok E.two E.boxes_ok r.1.val o
    rw [e.amp x hx _ o h1 (overwritten_hasPairs h2)]
    unfold endAmp
    congr 1
    exact hγ _ _ h1 (c.g.valid_valuesFromIndex E.ok.1 _) (fun i hi => h2.rest i hi)

theorem column_norm {U : Matrix (Fin 2) (Fin 2) ℂ} (hU : U ∈ Matrix.unitaryGroup (Fin 2) ℂ) (j : Fin 2) : ‖U 0 j‖ ^ 2 + ‖U 1 j‖ ^ 2 = 1 :=
  polWeight_row (transpose_unitary hU) j

/-- The weights of the components of the other channels add up to one. -/
theorem rest_norm {c : Circ} {boxes : List Box} {st : PRState} {steps : List (LocalStep boxes.length)} {nodes : List (Opt × List ℕ)}
    (E : Experiment c boxes st steps nodes) {ident : ℕ} {mid out : List PRState} (hr : GateResult c.g boxes ident st mid)
    (h : List.Forall₂ (EndState c boxes st steps) mid out) :
    ∑ r : Rest c.g boxes (outsideAmp c.g.L steps (outsideStart c.g boxes st.q.comps)), ‖outsideAmp c.g.L steps (outsideStart c.g boxes st.q.comps) (c.g.valuesFromIndex r.1.val)‖ ^ 2 = 1 := by
  classical
  have hset := endState_set hr h
  have hl := endState_local E hr h
  obtain ⟨s', hs', hx⟩ := hset.all (fun _ => 0)
  obtain ⟨s, hs, e⟩ := forall₂_mem_right h hs'
  have htot := e.total
  rw [totalProb_eq E.ok.1 e.wf] at htot
  have hinj : Function.Injective (fun ro : Rest c.g boxes (outsideAmp c.g.L steps (outsideStart c.g boxes st.q.comps)) × (Fin boxes.length → Fin 4) => c.g.indexOf (fill c.g boxes ro.1.1.val ro.2)) := by
    rintro ⟨r, o⟩ ⟨r', o'⟩ e'
    have := c.g.indexOf_inj (fill_spec E.ok E.two E.boxes_ok _ _).1 (fill_spec E.ok E.two E.boxes_ok _ _).1 e'
    obtain ⟨rfl, rfl⟩ := fill_inj E.ok E.two E.boxes_ok this
    rfl
  rw [← Finset.sum_of_injOn (s := (Finset.univ : Finset (Rest c.g boxes (outsideAmp c.g.L steps (outsideStart c.g boxes st.q.comps)) × (Fin boxes.length → Fin 4))))
    (f := fun ro => ‖ampOf s'.q.comps (c.g.stdName (fill c.g boxes ro.1.1.val ro.2))‖ ^ 2) (fun ro => c.g.indexOf (fill c.g boxes ro.1.1.val ro.2))
    (hinj.injOn) ?_ ?_ ?_] at htot
  · rw [Fintype.sum_prod_type] at htot
    rw [← htot]
    refine Finset.sum_congr rfl (fun r _ => ?_)
    symm
    rw [Finset.sum_congr rfl (fun o _ => by rw [hl.amp s' hs' _ hx r o, Complex.norm_mul, mul_pow, norm_prod, ← Finset.prod_pow])]
    rw [← Finset.mul_sum, sum_pi_prod (fun k q => ‖polarization steps k 0 (polA q) (polA 0) * polarization steps k 1 (polB q) (polB 0)‖ ^ 2)]
    rw [Finset.prod_eq_one, mul_one]
    intro k _
    rw [sum_pol (fun i j => ‖polarization steps k 0 i (polA 0) * polarization steps k 1 j (polB 0)‖ ^ 2)]
    simp only [Fin.sum_univ_two, Complex.norm_mul, mul_pow]
    have hA := column_norm (polarization_unitary E.gates k 0) (polA 0)
    have hB := column_norm (polarization_unitary E.gates k 1) (polB 0)
    linear_combination (‖polarization steps k 1 0 (polB 0)‖ ^ 2 + ‖polarization steps k 1 1 (polB 0)‖ ^ 2) * hA + hB
  · intro ro _
    simp only [Finset.coe_range, Set.mem_Iio]
    exact c.g.indexOf_lt (fill_spec E.ok E.two E.boxes_ok _ _).1
  · intro i hi hno
    rw [Finset.mem_range] at hi
    have hw := c.g.valid_valuesFromIndex E.ok.1 i
    have hz : ampOf s'.q.comps (c.g.stdName (c.g.valuesFromIndex i)) = 0 := by
      apply ampOf_of_not_mem
      intro hmem
      obtain ⟨r, o, e'⟩ := hl.only s' hs' _ hmem
      apply hno
      refine ⟨(r, o), by simp, ?_⟩
      have := c.g.stdName_inj hw.2 (fill_spec E.ok E.two E.boxes_ok _ _).1.2 e'
      show c.g.indexOf (fill c.g boxes r.1.val o) = i
      rw [← this, c.g.indexOf_valuesFromIndex hi]
    have := vec_index hw s'.q.comps
    rw [c.g.indexOf_valuesFromIndex hi] at this
    rw [this, hz]
    simp
  · intro ro _
    rw [vec_index (fill_spec E.ok E.two E.boxes_ok _ _).1]

end Verif
