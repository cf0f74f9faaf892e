/-
C53: photon columns. Splitting a group into columns, expanding columns into single photons and condensing them again.
-/
import Verif.Lemmas.Columns4

namespace Verif.Props
open Verif Spec MvPolynomial

/-- **C53** When `split_columns` succeeds, every state of every column has exactly one component, and the group still stands for the same
quantum state: the sum over the columns of amplitude / boson factor × product of the states is unchanged. -/
theorem C53_split (g : Cfg) (fuel : ℕ) (cols out : List Column) (hw : ∀ c ∈ cols, ∀ s ∈ c.states, WellFormed g s.q.comps)
    (h : splitColumns g fuel cols = some out) : groupPoly g out = groupPoly g cols ∧ ∀ c ∈ out, SingleComponents c := by
  obtain ⟨h1, _, h3⟩ := splitColumns_poly fuel h hw
  exact ⟨h1, fun c hc s hs => List.length_eq_one_iff.1 (h3 c hc s hs)⟩

/-- **C53** `split_columns` succeeds (and stops) when the states are valid, no state is empty, and states with three or more components are normalised and have no
component of amplitude zero. The number of columns is then the sum over the original columns of the product of the numbers of components. -/
theorem C53_split_defined (g : Cfg) (cols : List Column) (hw : ∀ c ∈ cols, ∀ s ∈ c.states, WellFormed g s.q.comps ∧ s.q.comps ≠ [] ∧
      (3 ≤ s.q.comps.length → totalProb s.q.comps = 1 ∧ ∀ p ∈ s.q.comps, p.2.amp ≠ 0)) :
    ∃ out, splitColumns g ((cols.map (fun c => (c.states.map (fun s => s.q.comps.length)).prod)).sum + 1) cols = some out ∧
      out.length = (cols.map (fun c => (c.states.map (fun s => s.q.comps.length)).prod)).sum := by
  have hs : SplCols g cols := fun c hc s hs => ⟨(hw c hc s hs).1, (hw c hc s hs).2.1, (hw c hc s hs).2.2⟩
  exact splitColumns_defined (totalWeight cols + 1) hs (by omega)

/-- **C53** Expanding a column into single photons: it always succeeds on states with one valid component of amplitude 1; every state then has one component with
at most one photon and amplitude 1; amplitude and quantum state of the column are unchanged. -/
theorem C53_single_photons (g : Cfg) (c : Column) (hw : ∀ s ∈ c.states, WellFormed g s.q.comps) (hs : SingleUnit c) :
    ∃ c', c.singlePhotonStates g = some c' ∧ columnPoly g c' = columnPoly g c ∧ c'.amp = c.amp ∧ c'.gprob = c.gprob ∧ SingleUnit c' ∧
      ∀ s ∈ c'.states, ∃ v, Valid g v ∧ v.sum ≤ 1 ∧ ∀ p ∈ s.q.comps, IsName g v p.1 := by
  have hv := hasVals_of_single hw hs
  obtain ⟨r, hr, hst⟩ : ∃ r, c.states.mapM (singlePhotons g) = some r ∧ ∀ x ∈ r, ∀ s ∈ x.1, ∃ v nm k, s.q.comps = [(nm, k)] ∧ k.amp = 1 ∧ Valid g v ∧ v.sum ≤ 1 ∧ IsName g v nm := by
    clear hw hs
    generalize c.states = l at hv
    induction l with
    | nil => exact ⟨[], rfl, by simp⟩
    | cons s l ih =>
      obtain ⟨r, h1, h2⟩ := ih (fun s hs => hv s (List.mem_cons_of_mem _ hs))
      obtain ⟨v, hv1, k, hc, hk⟩ := hv s List.mem_cons_self
      have hsp := singlePhotons_eq hv1 hc
      refine ⟨_ :: r, mapM_some_iff.2 (List.Forall₂.cons hsp (mapM_some_iff.1 h1)), ?_⟩
      intro x hx
      rcases List.mem_cons.1 hx with rfl | hx
      · intro t ht
        simp only at ht
        by_cases hsum : v.sum > 0
        · rw [if_pos hsum] at ht
          obtain ⟨ch, hch, rfl⟩ := List.mem_map.1 ht
          have ho := valid_oneHot hv1 hch
          refine ⟨oneHot v.length ch, _, _, rfl, hk, ho, ?_, (isName_iff ho).2 rfl⟩
          unfold oneHot
          rw [List.sum_set]
          simp
          split <;> simp
        · rw [if_neg hsum] at ht
          obtain rfl := List.mem_singleton.1 ht
          exact ⟨v, _, _, rfl, hk, hv1, by omega, (isName_iff hv1).2 rfl⟩
      · exact h2 x hx
  obtain ⟨e1, e2⟩ := singles_poly hv hr
  have hres : c.singlePhotonStates g = some { c with states := (r.map Prod.fst).flatten, boson := c.boson * (r.map Prod.snd).prod } := by
    unfold Column.singlePhotonStates; rw [hr]; rfl
  refine ⟨_, hres, ?_, rfl, rfl, ?_, ?_⟩
  · unfold columnPoly
    simp only
    rw [e1, ← mul_assoc, ← C_mul]
    congr 2
    have : ((r.map Prod.snd).prod : ℂ) ≠ 0 := by exact_mod_cast e2
    push_cast
    by_cases hb : (c.boson : ℂ) = 0
    · rw [hb]; simp
    · field_simp
  · intro s hs
    obtain ⟨x, hx, hsx⟩ := List.mem_flatten.1 hs
    obtain ⟨y, hy, rfl⟩ := List.mem_map.1 hx
    obtain ⟨v, nm, k, h1, h2, _⟩ := hst y hy s hsx
    exact ⟨(nm, k), h1, h2⟩
  · intro s hs
    obtain ⟨x, hx, hsx⟩ := List.mem_flatten.1 hs
    obtain ⟨y, hy, rfl⟩ := List.mem_map.1 hx
    obtain ⟨v, nm, k, h1, h2, h3, h4, h5⟩ := hst y hy s hsx
    refine ⟨v, h3, h4, ?_⟩
    intro p hp
    rw [h1] at hp
    obtain rfl := List.mem_singleton.1 hp
    exact h5

/-- **C53** Condensing a column of states with equal photon information to one state leaves the amplitude and the quantum state of the column unchanged. -/
theorem C53_condense (g : Cfg) (c c' : Column) (hw : ∀ s ∈ c.states, WellFormed g s.q.comps) (hs : SingleUnit c) (info : Option PInfo)
    (hi : ∀ s ∈ c.states, s.info = info) (h : c.condense g = some c') :
    c'.states.length = 1 ∧ c'.amp = c.amp ∧ columnPoly g c' = columnPoly g c := by
  refine ⟨?_, ?_, condense_poly (hasVals_of_single hw hs) info hi h⟩
  · obtain ⟨_, _, _, _, _, _, _, _, _, _, _, _, rfl⟩ := condense_some h
    rfl
  · obtain ⟨_, _, _, _, _, _, _, _, _, _, _, _, rfl⟩ := condense_some h
    rfl

/-- **C53** Round trip: a normalised state without zero amplitudes (a state with one component: amplitude 1) is made a group, split into columns, expanded into single photons
and generated again from the group. All steps succeed; the result has the same components with the same amplitudes, the same probability, classical values and
measurement results. -/
theorem C53_round_trip_partial (g : Cfg) (s : PState) (hw : WellFormed g s.q.comps) (hn : totalProb s.q.comps = 1) (ha : ∀ p ∈ s.q.comps, p.2.amp ≠ 0)
    (h1 : s.q.comps.length = 1 → ∀ p ∈ s.q.comps, p.2.amp = 1) (hcum : 0 ≤ s.q.cum ∧ s.q.cum ≤ 1) :
    ∃ out single q, splitColumns g (s.q.comps.length + 1) (groupOfState s) = some out ∧ out.mapM (Column.singlePhotonStates g) = some single ∧
      groupToState g 1 single = some q ∧ (q.comps.map Prod.fst).Perm (s.q.comps.map Prod.fst) ∧ (∀ nm, ampOf q.comps nm = ampOf s.q.comps nm) ∧
      q.cum = s.q.cum ∧ q.initial = s.q.initial ∧ q.classical = s.q.classical ∧ q.results = s.q.results := by
  have hne : s.q.comps ≠ [] := by
    intro h0
    rw [h0] at hn
    simp [totalProb] at hn
  obtain ⟨out, L, e1, e2, e3⟩ := split_stands (g := g) (s := s) ⟨hw, hne, fun _ => ⟨hn, ha⟩⟩ h1
  have hLn : (Dict.keys L).Nodup := (e2.map Prod.fst).nodup_iff.2 hw.nodup
  have hLne : L ≠ [] := fun h0 => hne (by subst h0; exact e2.nil_eq.symm)
  obtain ⟨single, f1, f2, y, f3, f4, f5⟩ := merge_cols e3 (by
    intro p hp
    have h2 := amp_le_totalProb (e2.mem_iff.1 hp)
    rw [hn] at h2
    refine ⟨mul_nonneg hcum.1 (by positivity), ?_⟩
    calc s.q.cum * ‖p.2.amp‖ ^ 2 ≤ 1 * 1 := mul_le_mul hcum.2 h2 (by positivity) (by norm_num)
      _ = 1 := by norm_num) hLn ([], none, none) (by simp [Dict.keys])
  obtain ⟨⟨r, hr, hsr⟩, hgp⟩ := f5 hLne
  rw [List.nil_append] at f4
  have hset : setFromDict g y.1 = some y.1 := by
    unfold setFromDict
    rw [if_pos]
    rw [List.all_eq_true]
    intro p hp
    rw [f4] at hp
    obtain ⟨p', hp', rfl⟩ := List.mem_map.1 hp
    obtain ⟨v, hv, hnm⟩ := hw.named p' (e2.mem_iff.1 hp')
    simp [containsName_of_isName hv hnm]
  refine ⟨out, single, { r with cum := s.q.cum, comps := y.1 }, e1, f1, ?_, ?_, ?_, rfl, hsr.1, hsr.2.1, hsr.2.2⟩
  · unfold groupToState
    rw [splitColumns_all_single 0 f2, Option.bind_some]
    have : mergeColumns g single = some y := f3
    rw [this, Option.bind_some, hr, Option.bind_some, hgp, Option.bind_some, hset]
    unfold setCum
    rw [if_pos hcum]
    rfl
  · simp only [f4, List.map_map]
    exact e2.map Prod.fst
  · intro nm
    simp only [f4]
    rw [ampOf_reprob]
    exact ampOf_perm e2 hLn nm

section Fails

/-- Two channels, at most two photons per channel. -/
def colCfg : Cfg := ⟨3, 2, true⟩

/-- A normalised state with two photons in the first channel and amplitude `i`. -/
noncomputable def colState : PState := ⟨⟨"initial".toList, 1, [("20".toList, ⟨Complex.I, 1⟩)], [], []⟩, none⟩

theorem colCfg_name : colCfg.stdName [2, 0] = "20".toList := by decide

theorem colCfg_valid : Valid colCfg [2, 0] := by decide

/-- **C53** The full claim fails for a state with a single component of amplitude other than 1 (here `i`, a normalised state): the phase is not moved to the column, the
round trip loses it, and expanding the two photons gives the amplitude `i` to both of them, which turns the state into `i` times the state. -/
theorem C53_fails : ∃ single q, splitColumns colCfg 2 (groupOfState colState) = some (groupOfState colState) ∧
    (groupOfState colState).mapM (Column.singlePhotonStates colCfg) = some single ∧ groupToState colCfg 1 single = some q ∧
    ampOf colState.q.comps "20".toList = Complex.I ∧ ampOf q.comps "20".toList = 1 ∧
    groupPoly colCfg single = C Complex.I * groupPoly colCfg (groupOfState colState) ∧
    groupPoly colCfg (groupOfState colState) ≠ 0 := by
  have hpc : photonChannels [2, 0] = [0, 0] := by decide
  have hv := colCfg_valid
  have hc : colState.q.comps = [(colCfg.stdName [2, 0], ⟨Complex.I, 1⟩)] := by rw [colCfg_name]; rfl
  have hsp := singlePhotons_eq hv hc
  rw [if_pos (by decide), hpc] at hsp
  have hv10 : Valid colCfg [1, 0] := by decide
  have hone : oneHot (List.length [2, 0]) 0 = [1, 0] := by decide
  simp only [List.map_cons, List.map_nil, hone] at hsp
  set t := oneComp colState (colCfg.stdName [1, 0]) Complex.I with ht
  set b := bosonOf [2, 0] with hb
  have hbp := bosonOf_pos [2, 0]
  rw [← hb] at hbp
  have hgd : groupOfState colState = [⟨[colState], 1, 1, 1, 0⟩] := rfl
  have hsing : (groupOfState colState).mapM (Column.singlePhotonStates colCfg) = some [⟨[t, t], 1, 1 * b, 1, 0⟩] := by
    rw [hgd]
    rw [mapM_some_iff]
    refine List.Forall₂.cons ?_ List.Forall₂.nil
    unfold Column.singlePhotonStates
    simp [hsp]
  have hfv : ∀ (s : PState) (v : Vals) (a : ℂ), Valid colCfg v → firstValues colCfg (oneComp s (colCfg.stdName v) a) = some v := by
    intro s v a hv
    unfold firstValues oneComp
    simp [colCfg.parse_stdName hv.2]
  have hmap : [t, t].mapM (firstValues colCfg) = some [[1, 0], [1, 0]] := by
    rw [mapM_some_iff]
    exact List.Forall₂.cons (hfv _ _ _ hv10) (List.Forall₂.cons (hfv _ _ _ hv10) List.Forall₂.nil)
  have hcond := condense_eq (g := colCfg) (c := ⟨[t, t], 1, 1 * b, 1, 0⟩) (v := [2, 0]) hmap (by rw [columnValues_eq hmap]; rfl) hv rfl (by simp)
  refine ⟨_, { colState.q with cum := 1, comps := [("20".toList, ⟨1, ‖(1 : ℂ)‖ ^ 2⟩)] }, ?_, hsing, ?_, ?_, ?_, ?_, ?_⟩
  · exact splitColumns_all_single 1 (by
      intro c hc s hs
      rw [hgd] at hc
      obtain rfl := List.mem_singleton.1 hc
      obtain rfl := List.mem_singleton.1 hs
      rfl)
  · unfold groupToState
    rw [splitColumns_all_single 0 (by
      intro c hc s hs
      obtain rfl := List.mem_singleton.1 hc
      simp only [List.mem_cons, List.not_mem_nil, or_false, or_self] at hs
      rw [hs]; rfl), Option.bind_some]
    have : mergeColumns colCfg [⟨[t, t], 1, 1 * b, 1, 0⟩] = some ([("20".toList, ⟨1, ‖(1 : ℂ)‖ ^ 2⟩)], some { colState.q with cum := 1, comps := [("20".toList, ⟨1, ‖(1 : ℂ)‖ ^ 2⟩)] }, some 1) := by
      unfold mergeColumns
      rw [List.foldlM_cons, if_neg (by simp), hcond]
      simp only [Option.bind_some, List.head?_cons, Option.map_some, List.foldl_cons, List.foldl_nil, colCfg_name, List.foldlM_nil, Option.bind_eq_bind]
      simp [Dict.set, t, oneComp]
    rw [this]
    have hset : setFromDict colCfg [("20".toList, ⟨1, ‖(1 : ℂ)‖ ^ 2⟩)] = some [("20".toList, ⟨1, ‖(1 : ℂ)‖ ^ 2⟩)] := by
      unfold setFromDict
      rw [if_pos]
      simp only [List.all_cons, List.all_nil, Bool.and_true, beq_iff_eq]
      exact containsName_of_isName hv ((isName_iff hv).2 colCfg_name.symm)
    simp only [Option.bind_some, hset, Option.map_some]
    unfold setCum
    rw [if_pos ⟨by norm_num, le_refl _⟩]
    rfl
  · rfl
  · rfl
  · unfold groupPoly columnPoly
    rw [hgd]
    simp only [List.map_cons, List.map_nil, List.sum_cons, List.sum_nil, add_zero, List.prod_cons, List.prod_nil, mul_one]
    rw [statePoly_single colState hv hc, ht, statePoly_oneComp colState hv10, ketPoly_eq, ketPoly_eq]
    have e1 : bosonOf [1, 0] = 1 := bosonOf_oneHot 2 0
    have e2 : monoX colState.info [2, 0] = monoX colState.info [1, 0] * monoX colState.info [1, 0] := monoX_add colState.info [1, 0] [1, 0] 0 rfl
    rw [e1, e2, ← hb]
    have hI : (C Complex.I * C Complex.I : MvPolynomial Mode ℂ) = C (-1) := by rw [← C_mul, Complex.I_mul_I]
    calc _ = (C Complex.I * C Complex.I) * (C (1 / ((1 * b : ℝ) : ℂ)) * (C (1 / ((1 : ℝ) : ℂ)) * C (1 / ((1 : ℝ) : ℂ)))) * (monoX colState.info [1, 0] * monoX colState.info [1, 0]) := by ring
      _ = _ := by
        have : (C (1 / ((1 : ℝ) : ℂ)) : MvPolynomial Mode ℂ) = 1 := by simp
        rw [this]
        simp only [one_mul, mul_one]
        ring
  · intro h0
    unfold groupPoly columnPoly at h0
    rw [hgd] at h0
    simp only [List.map_cons, List.map_nil, List.sum_cons, List.sum_nil, add_zero, List.prod_cons, List.prod_nil, mul_one] at h0
    rw [statePoly_single colState hv hc, ketPoly_eq, ← hb] at h0
    have h1 := congrArg (MvPolynomial.eval (fun _ => (1 : ℂ))) h0
    have hbc : (b : ℂ) ≠ 0 := by exact_mod_cast hbp.ne'
    simp [monoX, hbc] at h1

end Fails

section NonVacuity

/-- A state with three components. -/
noncomputable def colState3 : PState :=
  ⟨⟨"initial".toList, 1 / 2, [("20".toList, ⟨2 / 3, 4 / 9⟩), ("11".toList, ⟨2 * Complex.I / 3, 4 / 9⟩), ("02".toList, ⟨1 / 3, 1 / 9⟩)], [1], []⟩, some ⟨0, 1⟩⟩

theorem colState3_ok : WellFormed colCfg colState3.q.comps ∧ totalProb colState3.q.comps = 1 ∧ ∀ p ∈ colState3.q.comps, p.2.amp ≠ 0 := by
  refine ⟨wf_iff.2 ⟨by decide, ?_⟩, ?_, ?_⟩
  · intro p hp
    simp only [colState3, List.mem_cons, List.not_mem_nil, or_false] at hp
    rcases hp with rfl | rfl | rfl
    · exact ⟨[2, 0], by decide, by decide⟩
    · exact ⟨[1, 1], by decide, by decide⟩
    · exact ⟨[0, 2], by decide, by decide⟩
  · unfold totalProb colState3
    simp
    norm_num
  · intro p hp
    simp only [colState3, List.mem_cons, List.not_mem_nil, or_false] at hp
    rcases hp with rfl | rfl | rfl <;> simp

example : ∃ out single q, splitColumns colCfg 4 (groupOfState colState3) = some out ∧ out.mapM (Column.singlePhotonStates colCfg) = some single ∧
    groupToState colCfg 1 single = some q ∧ ampOf q.comps "11".toList = 2 * Complex.I / 3 ∧ q.cum = 1 / 2 := by
  obtain ⟨out, single, q, h1, h2, h3, _, h5, h6, _⟩ := C53_round_trip_partial colCfg colState3 colState3_ok.1 colState3_ok.2.1 colState3_ok.2.2
    (by intro h; simp [colState3] at h) (by unfold colState3; norm_num)
  exact ⟨out, single, q, h1, h2, h3, by rw [h5]; rfl, h6⟩

example : ∃ out, splitColumns colCfg 4 (groupOfState colState3) = some out ∧ out.length = 3 ∧ groupPoly colCfg out = groupPoly colCfg (groupOfState colState3) ∧
    ∀ c ∈ out, SingleComponents c := by
  have hw : ∀ c ∈ groupOfState colState3, ∀ s ∈ c.states, s = colState3 := by
    intro c hc s hs
    obtain rfl := List.mem_singleton.1 hc
    exact List.mem_singleton.1 hs
  obtain ⟨out, h1, h2⟩ := C53_split_defined colCfg (groupOfState colState3) (by
    intro c hc s hs
    rw [hw c hc s hs]
    exact ⟨colState3_ok.1, by simp [colState3], fun _ => ⟨colState3_ok.2.1, colState3_ok.2.2⟩⟩)
  exact ⟨out, h1, h2, C53_split colCfg 4 _ _ (by intro c hc s hs; rw [hw c hc s hs]; exact colState3_ok.1) h1⟩

/-- A column with the states '20' and '01'. -/
noncomputable def colTwo : Column :=
  ⟨[⟨⟨"initial".toList, 1, [("20".toList, ⟨1, 1⟩)], [], []⟩, none⟩, ⟨⟨"initial".toList, 1, [("01".toList, ⟨1, 1⟩)], [], []⟩, none⟩], 1 / 2, 1, 1, 0⟩

theorem colTwo_ok : (∀ s ∈ colTwo.states, WellFormed colCfg s.q.comps) ∧ SingleUnit colTwo ∧ ∀ s ∈ colTwo.states, s.info = none := by
  refine ⟨?_, ?_, ?_⟩
  · intro s hs
    simp only [colTwo, List.mem_cons, List.not_mem_nil, or_false] at hs
    rcases hs with rfl | rfl
    · exact wf_iff.2 ⟨by decide, by intro p hp; obtain rfl := List.mem_singleton.1 hp; exact ⟨[2, 0], by decide, by decide⟩⟩
    · exact wf_iff.2 ⟨by decide, by intro p hp; obtain rfl := List.mem_singleton.1 hp; exact ⟨[0, 1], by decide, by decide⟩⟩
  · intro s hs
    simp only [colTwo, List.mem_cons, List.not_mem_nil, or_false] at hs
    rcases hs with rfl | rfl
    · exact ⟨_, rfl, rfl⟩
    · exact ⟨_, rfl, rfl⟩
  · intro s hs
    simp only [colTwo, List.mem_cons, List.not_mem_nil, or_false] at hs
    rcases hs with rfl | rfl <;> rfl

example : ∃ c', colTwo.singlePhotonStates colCfg = some c' ∧ columnPoly colCfg c' = columnPoly colCfg colTwo := by
  obtain ⟨c', h1, h2, _⟩ := C53_single_photons colCfg colTwo colTwo_ok.1 colTwo_ok.2.1
  exact ⟨c', h1, h2⟩

example : ∃ c', colTwo.condense colCfg = some c' ∧ columnPoly colCfg c' = columnPoly colCfg colTwo := by
  have hmap : colTwo.states.mapM (firstValues colCfg) = some [[2, 0], [0, 1]] := by decide
  have hcond := condense_eq (g := colCfg) (c := colTwo) (v := [2, 1]) hmap (by rw [columnValues_eq hmap]; rfl) (by decide) rfl (by unfold colTwo; norm_num)
  exact ⟨_, hcond, (C53_condense colCfg colTwo _ colTwo_ok.1 colTwo_ok.2.1 none colTwo_ok.2.2 hcond).2.2⟩

end NonVacuity

end Verif.Props
