/-
C86: a whole experiment with Popescu-Rohrlich pairs: gate, optical nodes, measurement.
-/
import Verif.Lemmas.PRExperiment5
import Verif.Lemmas.OpticalNodes

namespace Verif.Props
open Verif Spec

theorem experiment_measured {n : ℕ} (hn : 0 < n) {g : Cfg} {thr : ℝ} {m : ℕ} {opt cls : List ℕ} (hcn : cls.Nodup) (hc : ∀ c ∈ cls, c < m) (ho : ∀ o ∈ opt, o < g.C)
    {R : Type} [Fintype R] {Ks : Fin n → ℝ} {init : List Char} {P : ℝ} (hP0 : 0 ≤ P) (hP1 : P ≤ 1) {coll : List PRState}
    (h : PRSet n Ks init P coll) (hK : ∀ k, 0 < Ks k) {U V : Fin n → Matrix (Fin 2) (Fin 2) ℂ} {γ : R → ℂ}
    {name : R → (Fin n → Fin 4) → Name} (hl : LocalRun coll U V γ name) (hγ : ∑ r, ‖γ r‖ ^ 2 = 1) (hname : ∀ r o, ∃ v, Valid g v ∧ IsName g v (name r o))
    (i : ℕ) (hi : ∀ st ∈ coll, setId st = i) (hcv : ∀ st ∈ coll, CheckValid thr m st.q) :
    ∃ histo first out after, measurePRGroup coll = some histo ∧ (histo.map Prod.fst).Nodup ∧ (∀ s, s ∈ histo.map Prod.fst ↔ ∃ r o, s = name r o) ∧
      (∀ r o, listedProb histo (name r o) = P * ‖γ r‖ ^ 2 * ∏ k, ((1 + pairCorrelation (Ks k) (U k (polA (o k))) (V k (polB (o k)))) / 4)) ∧
      first ∈ coll ∧ measurePR g thr m opt cls coll = some (out, after) ∧
      (out.map (fun s => s.q.cum)).sum = P ∧ List.Forall₂ (PRCollapsed g opt cls first.q init) histo out := by
  obtain ⟨d, rfl⟩ : ∃ d, n = d + 1 := ⟨n - 1, by omega⟩
  obtain ⟨histo, h1, h2, h3, h4⟩ := C72_local_optics h hK hl
  obtain ⟨histo', first, out, after, h1', h5, h6, h7, h8⟩ := C78_collapsed hcn hc ho hP0 hP1 h hK hl hγ hname i hi hcv
  obtain rfl : histo = histo' := Option.some.inj (h1.symm.trans h1')
  exact ⟨histo, first, out, after, h1, h2, h3, h4, h5, h6, h7, h8⟩

/-- C86: add pairs to a state, let any list of optical elements act on the photons of the pairs and on the other channels, and measure: no
step raises; the measurement lists photon numbers `w` with polarizations `o` of the pairs with the probability of the original state times
the squared amplitude of the other channels times (1 + correlation)/4 for every pair, where the correlation is that of the polarizations
into which the two photons of the pair have been turned; photon numbers without pairs are not listed; every listed outcome becomes one
collapsed state with its probability; the probabilities add up to that of the original state. -/
theorem C86_experiment {c : Circ} {boxes : List Box} {st : PRState} {steps : List (LocalStep boxes.length)} {n : Opt × List ℕ} {l : List (Opt × List ℕ)}
    (E : Experiment c boxes st steps (n :: l)) (ident : ℕ) {opt cls : List ℕ} (hcn : cls.Nodup) (hc : ∀ k ∈ cls, k < c.m) (ho : ∀ o ∈ opt, o < c.g.C) :
    ∃ mid out histo first res after, createPR c.g c.thr c.m boxes ident st = some mid ∧ opticalPR c n l mid = some out ∧
      measurePRGroup out = some histo ∧ (histo.map Prod.fst).Nodup ∧
      (∀ w o s, Valid c.g w → HasPairs boxes o w → IsName c.g w s →
        (s ∈ histo.map Prod.fst ↔ outsideAmp c.g.L steps (outsideStart c.g boxes st.q.comps) w ≠ 0) ∧
        listedProb histo s = st.q.cum * ‖outsideAmp c.g.L steps (outsideStart c.g boxes st.q.comps) w‖ ^ 2 *
          ∏ k, ((1 + pairCorrelation (boxes.get k).K (polarization steps k 0 (polA (o k))) (polarization steps k 1 (polB (o k)))) / 4)) ∧
      (∀ s ∈ histo.map Prod.fst, ∃ w o, Valid c.g w ∧ IsName c.g w s ∧ HasPairs boxes o w) ∧
      measurePR c.g c.thr c.m opt cls out = some (res, after) ∧
      first.classical = st.q.classical ∧ first.results = st.q.results ∧ List.Forall₂ (PRCollapsed c.g opt cls first st.q.initial) histo res ∧
      (res.map (fun s => s.q.cum)).sum = st.q.cum := by
  obtain ⟨mid, out, h1, hr, h2, hf⟩ := experiment_out E ident
  have hset := endState_set hr hf
  have hl := endState_local E hr hf
  have hγ := rest_norm E hr hf
  have hOnly : OnlyOutside c.g boxes (outsideAmp c.g.L steps (outsideStart c.g boxes st.q.comps)) :=
    onlyOutside_steps E.gates (outsideStart_only _)
  have hcv : ∀ s' ∈ out, CheckValid c.thr c.m s'.q := by
    intro s' hs'
    obtain ⟨s, hs, e⟩ := forall₂_mem_right hf hs'
    obtain ⟨-, k2, -, k4⟩ := hr.kept s hs
    exact checkValid_of E.thr.le (e.same.2.2.2.trans k4) (by rw [e.same.2.1, k2]; exact E.state.classical) e.probs e.total.le
  have hid : ∀ s' ∈ out, setId s' = ident := by
    intro s' hs'
    obtain ⟨s, hs, e⟩ := forall₂_mem_right hf hs'
    unfold setId
    rw [e.pr, hr.identified s hs]
    rfl
  obtain ⟨histo, first, res, after, k1, k2, k3, k4, k5, k6, k7, k8⟩ := experiment_measured (List.length_pos_of_ne_nil E.some_pair) hcn hc ho E.state.cum0 E.state.cum1
    hset E.quantum hl hγ (fun r o => ⟨_, (fill_spec E.ok E.two E.boxes_ok _ _).1, (isName_iff (fill_spec E.ok E.two E.boxes_ok _ _).1).mpr rfl⟩) ident hid hcv
  obtain ⟨s, hs, e⟩ := forall₂_mem_right hf k5
  obtain ⟨j1, j2, j3, -⟩ := hr.kept s hs
  refine ⟨mid, out, histo, first.q, res, after, h1, h2, k1, k2, ?_, ?_, k6, e.same.2.1.trans j2, e.same.2.2.1.trans j3, k8, k7⟩
  · intro w o s0 hw hp hn
    rw [isName_iff hw] at hn
    subst hn
    by_cases hne : outsideAmp c.g.L steps (outsideStart c.g boxes st.q.comps) w = 0
    · have hno : c.g.stdName w ∉ histo.map Prod.fst := by
        intro hm
        obtain ⟨r, o', e'⟩ := (k3 _).mp hm
        have hfs := fill_spec E.ok E.two E.boxes_ok r.1.val o'
        have := c.g.stdName_inj hw.2 hfs.1.2 e'
        apply r.2.2
        refine Eq.trans ?_ hne
        refine hOnly _ _ (c.g.valid_valuesFromIndex E.ok.1 _) hw ?_
        rw [this]
        exact overwritten_agree hfs.2
      refine ⟨⟨fun h => absurd h hno, fun h => absurd hne h⟩, ?_⟩
      rw [hne]
      unfold listedProb
      rw [Dict.get?_eq_none.mpr hno]
      simp
    · obtain ⟨r, hr'⟩ := exists_fill E.ok E.two E.boxes_ok hOnly hw hp hne
      refine ⟨⟨fun _ => hne, fun _ => (k3 _).mpr ⟨r, o, by rw [hr']⟩⟩, ?_⟩
      have := k4 r o
      rw [hr'] at this
      rw [this]
      have hfs := fill_spec E.ok E.two E.boxes_ok r.1.val o
      rw [hr'] at hfs
      rw [hOnly _ _ (c.g.valid_valuesFromIndex E.ok.1 _) hw (overwritten_agree hfs.2)]
  · intro s0 hs0
    obtain ⟨r, o, rfl⟩ := (k3 _).mp hs0
    have hfs := fill_spec E.ok E.two E.boxes_ok r.1.val o
    exact ⟨_, o, hfs.1, (isName_iff hfs.1).mpr rfl, overwritten_hasPairs hfs.2⟩

/-! ### a concrete experiment -/

/-- Equal mixture of the two polarizations. -/
noncomputable def mixing : Opt := !![((1 / Real.sqrt 2 : ℝ) : ℂ), ((1 / Real.sqrt 2 : ℝ) : ℂ); ((1 / Real.sqrt 2 : ℝ) : ℂ), -((1 / Real.sqrt 2 : ℝ) : ℂ)]

theorem half_root : ((1 / Real.sqrt 2 : ℝ) : ℂ) * ((1 / Real.sqrt 2 : ℝ) : ℂ) = 1 / 2 := by
  rw [← Complex.ofReal_mul, div_mul_div_comm, Real.mul_self_sqrt (by norm_num)]
  norm_num

theorem mixing_unitary : mixing ∈ Matrix.unitaryGroup (Fin 2) ℂ := by
  rw [Matrix.mem_unitaryGroup_iff]
  ext i j
  fin_cases i <;> fin_cases j <;> simp [mixing, Matrix.mul_apply, Fin.sum_univ_two, Complex.conj_ofReal, -one_div, -Complex.ofReal_div, half_root]

theorem swap_unitary : (!![0, 1; 1, 0] : Opt) ∈ Matrix.unitaryGroup (Fin 2) ℂ := by
  rw [Matrix.mem_unitaryGroup_iff]
  ext i j
  fin_cases i <;> fin_cases j <;> simp [Matrix.mul_apply, Fin.sum_univ_two]

/-- Six channels, photon numbers up to 1. -/
noncomputable def pairCirc : Circ := ⟨⟨2, 6, true⟩, 0, 1 / 1000, false, []⟩

/-- One photon in channel 4. -/
noncomputable def pairInput : PRState where
  q := { initial := "in".toList, cum := 1 / 3, comps := [("000010".toList, ⟨1, 1⟩)], classical := [], results := [] }
  pr := none

/-- One pair in channels 0..3. -/
noncomputable def earlyBox : List Box := [⟨[0, 1, 2, 3], 5⟩]

/-- Mix the polarizations of the first photon and swap channels 4 and 5. -/
noncomputable def pairSteps : List (LocalStep earlyBox.length) := [.photon ⟨0, by simp [earlyBox]⟩ 0 mixing, .elsewhere 4 5 !![0, 1; 1, 0]]

/-- The nodes for the two steps. -/
noncomputable def pairNodes : List (Opt × List ℕ) := [(mixing, [0, 1, 2, 3, 4, 5]), (!![0, 1; 1, 0], [4, 5, 2, 3, 0, 1])]

theorem gateAmp_swap_sum {L n m : ℕ} (hn : n < L) (hm : m < L) (f : ℕ → ℕ → ℂ) :
    ∑ a ∈ Finset.range L, ∑ b ∈ Finset.range L, gateAmp L !![0, 1; 1, 0] n m a b * f a b = if n + m < L then f m n else f n m := by
  have key : ∀ x y, x < L → y < L → (∀ a b, gateAmp L !![0, 1; 1, 0] n m a b = if a = x ∧ b = y then 1 else 0) →
      ∑ a ∈ Finset.range L, ∑ b ∈ Finset.range L, gateAmp L !![0, 1; 1, 0] n m a b * f a b = f x y := by
    intro x y hx hy h
    rw [Finset.sum_eq_single x, Finset.sum_eq_single y]
    · rw [h, if_pos ⟨rfl, rfl⟩, one_mul]
    · intro b _ hb
      rw [h, if_neg (fun e => hb e.2), zero_mul]
    · intro h'
      exact absurd (Finset.mem_range.mpr hy) h'
    · intro a _ ha
      refine Finset.sum_eq_zero (fun b _ => ?_)
      rw [h, if_neg (fun e => ha e.1), zero_mul]
    · intro h'
      exact absurd (Finset.mem_range.mpr hx) h'
  split
  · rename_i h
    refine key m n hm hn (fun a b => ?_)
    rw [gateAmp, if_pos h, bosonAmp_swap]
  · rename_i h
    refine key n m hn hm (fun a b => ?_)
    rw [gateAmp, if_neg h]
    congr 1
    exact propext ⟨fun e => ⟨e.1.symm, e.2.symm⟩, fun e => ⟨e.1.symm, e.2.symm⟩⟩

theorem pairOutside {w : Vals} (hw : Valid pairCirc.g w) (γ : Vals → ℂ) : outsideAmp pairCirc.g.L pairSteps γ w
    = if w.getD 4 0 + w.getD 5 0 < 2 then γ ((w.set 4 (w.getD 5 0)).set 5 (w.getD 4 0)) else γ ((w.set 4 (w.getD 4 0)).set 5 (w.getD 5 0)) := by
  exact gateAmp_swap_sum (L := 2) (valid_getD_lt hw (i := 4) (by decide)) (valid_getD_lt hw (i := 5) (by decide)) (fun a b => γ ((w.set 4 a).set 5 b))

theorem pairInput_start (w : Vals) : outsideStart pairCirc.g earlyBox pairInput.q.comps w = 0 ∨ outsideStart pairCirc.g earlyBox pairInput.q.comps w = 1 := by
  classical
  unfold outsideStart
  simp only [pairInput, List.map_cons, List.map_nil, List.sum_cons, List.sum_nil, add_zero]
  split
  · exact Or.inr rfl
  · exact Or.inl rfl

theorem pairSteps_first (k : Fin earlyBox.length) : polarization pairSteps k 0 = mixing.transpose := by
  obtain rfl : k = ⟨0, by simp [earlyBox]⟩ := Fin.ext (by have := k.isLt; simp [earlyBox] at this ⊢; omega)
  simp [polarization, pairSteps, polarizationStep]

theorem pairSteps_second (k : Fin earlyBox.length) : polarization pairSteps k 1 = 1 := by
  simp [polarization, pairSteps, polarizationStep]

theorem pairExperiment : Experiment pairCirc earlyBox pairInput pairSteps pairNodes where
  ok := by decide
  two := by decide
  boxes_ok := ⟨by simp [earlyBox], by simp [earlyBox], by simp [earlyBox, pairCirc]⟩
  some_pair := by simp [earlyBox]
  quantum := by simp [earlyBox]
  state := by
    refine ⟨⟨by simp [pairInput], ?_⟩, ?_, ?_, ?_, ?_, rfl⟩
    · intro p hp
      simp only [pairInput, List.mem_cons, List.not_mem_nil, or_false] at hp
      subst hp
      exact ⟨[0, 0, 0, 0, 1, 0], ⟨rfl, by simp [pairCirc]⟩, (isName_iff ⟨rfl, by simp [pairCirc]⟩).mpr (by simp only [pairCirc]; decide)⟩
    · intro p hp
      simp only [pairInput, List.mem_cons, List.not_mem_nil, or_false] at hp
      subst hp
      simp
    · simp [totalProb, pairInput]
    · norm_num [pairInput]
    · norm_num [pairInput]
  normalised := by simp [totalProb, pairInput]
  differ := by
    intro p hp p' hp' hne
    simp only [pairInput, List.mem_cons, List.not_mem_nil, or_false] at hp hp'
    exact absurd (hp ▸ hp' ▸ rfl) hne
  gates := by
    refine List.Forall₂.cons ⟨rfl, mixing_unitary, ?_, ?_, ?_⟩ (List.Forall₂.cons ⟨rfl, swap_unitary, ?_, ?_, ?_⟩ List.Forall₂.nil)
    · simp only [LocalStep.channels, photonChannel, earlyBox, pairCirc]
      decide
    · simp [LocalStep.channels, photonChannel, earlyBox]
    · intro h c M e
      cases e
    · simp only [LocalStep.channels, pairCirc]
      decide
    · simp [LocalStep.channels]
    · intro h c M e
      cases e
      simp [pairCirc, Outside, earlyBox]
  thr := by norm_num [pairCirc]
  kept := by
    intro w o x hw _ hne
    have hγ : outsideAmp pairCirc.g.L pairSteps (outsideStart pairCirc.g earlyBox pairInput.q.comps) w = 1 := by
      have h0 := (mul_ne_zero_iff.mp hne).1
      rw [pairOutside hw] at h0 ⊢
      split at h0
      · rw [if_pos (by assumption)]
        exact (pairInput_start _).resolve_left h0
      · rw [if_neg (by assumption)]
        exact (pairInput_start _).resolve_left h0
    have h1 := (mul_ne_zero_iff.mp hne).2
    unfold endAmp
    rw [hγ, one_mul]
    have hent : ∀ i j, ‖mixing i j‖ ^ 2 = 1 / 2 := by
      intro i j
      fin_cases i <;> fin_cases j <;> simp [mixing]
    have hprod : ∏ k, (polarization pairSteps k 0 (polA (o k)) (polA (x k)) * polarization pairSteps k 1 (polB (o k)) (polB (x k)))
        = mixing (polA (x ⟨0, by simp [earlyBox]⟩)) (polA (o ⟨0, by simp [earlyBox]⟩)) * (1 : Matrix (Fin 2) (Fin 2) ℂ) (polB (o ⟨0, by simp [earlyBox]⟩)) (polB (x ⟨0, by simp [earlyBox]⟩)) := by
      simp only [pairSteps_first, pairSteps_second]
      exact Fin.prod_univ_one _
    rw [hprod] at h1 ⊢
    have h2 : (1 : Matrix (Fin 2) (Fin 2) ℂ) (polB (o ⟨0, by simp [earlyBox]⟩)) (polB (x ⟨0, by simp [earlyBox]⟩)) = 1 := by
      rw [Matrix.one_apply]
      split
      · rfl
      · rename_i h
        rw [Matrix.one_apply, if_neg h, mul_zero] at h1
        exact absurd rfl h1
    rw [h2, mul_one, hent]
    norm_num [pairCirc]

/-- After mixing the polarizations of the first photon the four outcomes are equally likely: a quarter of the probability 1/3 of the input. -/
example : ∃ mid out histo, createPR pairCirc.g pairCirc.thr pairCirc.m earlyBox 7 pairInput = some mid ∧
    opticalPR pairCirc (mixing, [0, 1, 2, 3, 4, 5]) [(!![0, 1; 1, 0], [4, 5, 2, 3, 0, 1])] mid = some out ∧ measurePRGroup out = some histo ∧
    listedProb histo "101001".toList = 1 / 12 := by
  obtain ⟨mid, out, histo, first, res, after, h1, h2, h3, -, h5, -⟩ := C86_experiment pairExperiment 7 (opt := [0]) (cls := []) (by simp) (by simp) (by simp [pairCirc])
  refine ⟨mid, out, histo, h1, h2, h3, ?_⟩
  have hw : Valid pairCirc.g [1, 0, 1, 0, 0, 1] := ⟨rfl, by simp [pairCirc]⟩
  have hp : HasPairs earlyBox (fun _ => 0) [1, 0, 1, 0, 0, 1] := by
    intro k j c hj
    obtain rfl : k = ⟨0, by simp [earlyBox]⟩ := Fin.ext (by have := k.isLt; simp [earlyBox] at this ⊢; omega)
    have hj' : ([0, 1, 2, 3] : List ℕ)[j]? = some c := hj
    have hlt : j < 4 := (List.getElem?_eq_some_iff.mp hj').1
    interval_cases j <;> (obtain rfl : _ = c := Option.some.inj hj'; decide)
  rw [(h5 [1, 0, 1, 0, 0, 1] (fun _ => 0) _ hw hp ((isName_iff hw).mpr (by simp only [pairCirc]; decide))).2]
  have hγ : outsideAmp pairCirc.g.L pairSteps (outsideStart pairCirc.g earlyBox pairInput.q.comps) [1, 0, 1, 0, 0, 1] = 1 := by
    rw [pairOutside hw, if_pos (by decide)]
    refine outsideStart_mem (p := ("000010".toList, ⟨1, 1⟩)) pairExperiment.state.wf pairExperiment.differ (by simp [pairInput])
      (v := [0, 0, 0, 0, 1, 0]) ⟨rfl, by simp [pairCirc]⟩ ((isName_iff ⟨rfl, by simp [pairCirc]⟩).mpr (by simp only [pairCirc]; decide)) ?_
    intro i hi
    have : ∀ j ∈ [0, 1, 2, 3], i ≠ j := by
      rintro j hj rfl
      exact hi _ (List.mem_cons_self) hj
    match i with
    | 0 | 1 | 2 | 3 => simp at this
    | 4 => rfl
    | 5 => rfl
    | i + 6 => rfl
  rw [hγ]
  have hcor : ∀ k : Fin earlyBox.length, pairCorrelation (earlyBox.get k).K (polarization pairSteps k 0 (polA 0)) (polarization pairSteps k 1 (polB 0)) = 0 := by
    intro k
    rw [pairSteps_first, pairSteps_second]
    have ho : overlap (mixing.transpose (polA 0)) ((1 : Matrix (Fin 2) (Fin 2) ℂ) (polB 0)) = 1 / 2 := by
      have h1 : ‖((1 / Real.sqrt 2 : ℝ) : ℂ)‖ ^ 2 = 1 / 2 := by
        rw [Complex.norm_real, Real.norm_eq_abs, sq_abs, div_pow, Real.sq_sqrt (by norm_num)]
        norm_num
      have e1 : mixing.transpose (polA 0) = fun _ => ((1 / Real.sqrt 2 : ℝ) : ℂ) := by
        funext i
        fin_cases i <;> rfl
      have e2 : ((1 : Matrix (Fin 2) (Fin 2) ℂ) (polB 0)) = ![1, 0] := by
        funext i
        fin_cases i <;> rfl
      rw [e1, e2]
      unfold overlap polWeight
      simp only [Matrix.cons_val_zero, Matrix.cons_val_one, mul_one, mul_zero, add_zero, norm_star, h1, norm_one, norm_zero]
      norm_num
    unfold pairCorrelation
    rw [ho]
    norm_num
    exact correlation_zero (by simp [earlyBox])
  rw [Finset.prod_congr rfl (fun k _ => by rw [hcor k])]
  rw [Finset.prod_const, Finset.card_univ, Fintype.card_fin]
  norm_num [earlyBox, pairInput]

end Verif.Props
