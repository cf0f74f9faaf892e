/-
C51, C65, C66: cases where photon-resolved measurement does not do what one expects.
-/
import Verif.Props.Resolved2

namespace Verif.Props
open Verif Spec Equiv

/-! ### Two partially overlapping photons behind a beam splitter -/

/-- A single photon in the state `name`, delay `t`, width 1, two classical channels. -/
noncomputable def homPhoton (name : String) (t : ℝ) : PState := ⟨⟨"initial".toList, 1, [(name.toList, ⟨1, 1⟩)], [0, 0], []⟩, some ⟨t, 1⟩⟩

/-- One column with the photon of delay 0 in the state `n` and the photon of delay 1 in the state `n'`. -/
noncomputable def homColumn (n n' : String) (a : ℂ) (i : ℕ) : Column := ⟨[homPhoton n 0, homPhoton n' 1], a, 1, 1, i⟩

/-- The group behind a 50/50 beam splitter: photon 0 goes to (10 + 01)/√2, photon 1 to (10 - 01)/√2. -/
noncomputable def homGroup : List Column := [homColumn "10" "10" (1/2) 0, homColumn "10" "01" (-1/2) 1, homColumn "01" "10" (1/2) 2, homColumn "01" "01" (-1/2) 3]

theorem homColumn_widths (n n' : String) (a : ℂ) (i : ℕ) : ∀ s ∈ (homColumn n n' a i).states, RealWidth s.info := by
  intro s hs x hx
  simp only [homColumn, List.mem_cons, List.not_mem_nil, or_false] at hs
  rcases hs with rfl | rfl <;> (cases hx; norm_num)

theorem homWidths : RealWidths homGroup := by
  intro c hc
  simp only [homGroup, List.mem_cons, List.not_mem_nil, or_false] at hc
  rcases hc with rfl | rfl | rfl | rfl <;> exact homColumn_widths _ _ _ _

theorem homVals {n : String} {v : Vals} (t : ℝ) (hv : Valid colCfg v) (hn : colCfg.stdName v = n.toList) : HasVals colCfg (homPhoton n t) v :=
  ⟨hv, ⟨1, 1⟩, by rw [hn]; rfl, rfl⟩

theorem homFirst {n : String} {v : Vals} (t : ℝ) (hv : Valid colCfg v) (hn : colCfg.stdName v = n.toList) : firstValues colCfg (homPhoton n t) = some v :=
  firstValues_of (homVals t hv hn)

theorem homWith {n n' : String} {v v' w : Vals} (a : ℂ) (i : ℕ) (hv : Valid colCfg v) (hn : colCfg.stdName v = n.toList) (hv' : Valid colCfg v') (hn' : colCfg.stdName v' = n'.toList)
    (hw : Valid colCfg w) (hs : List.zipWith (· + ·) v' v = w) : ColumnWith colCfg (homColumn n n' a i) w := by
  refine ⟨?_, ?_, ?_, hw⟩
  · intro s hs
    have : s = homPhoton n 0 ∨ s = homPhoton n' 1 := by simpa [homColumn] using hs
    rcases this with rfl | rfl
    · exact wf_unit _ ⟨v, hv, (isName_iff hv).2 hn.symm⟩
    · exact wf_unit _ ⟨v', hv', (isName_iff hv').2 hn'.symm⟩
  · intro s hs
    have : s = homPhoton n 0 ∨ s = homPhoton n' 1 := by simpa [homColumn] using hs
    rcases this with rfl | rfl <;> exact ⟨_, rfl⟩
  · have hm : (homColumn n n' a i).states.mapM (firstValues colCfg) = some [v, v'] :=
      mapM_some_iff.2 (List.Forall₂.cons (homFirst 0 hv hn) (List.Forall₂.cons (homFirst 1 hv' hn') List.Forall₂.nil))
    rw [columnValues_eq hm]
    simpa using hs

theorem val10 : Valid colCfg [1, 0] := by decide
theorem val01 : Valid colCfg [0, 1] := by decide
theorem name10 : colCfg.stdName [1, 0] = "10".toList := by decide
theorem name01 : colCfg.stdName [0, 1] = "01".toList := by decide

theorem hom0 : ColumnWith colCfg (homColumn "10" "10" (1/2) 0) [2, 0] := homWith _ _ val10 name10 val10 name10 (by decide) (by decide)
theorem hom1 : ColumnWith colCfg (homColumn "10" "01" (-1/2) 1) [1, 1] := homWith _ _ val10 name10 val01 name01 (by decide) (by decide)
theorem hom2 : ColumnWith colCfg (homColumn "01" "10" (1/2) 2) [1, 1] := homWith _ _ val01 name01 val10 name10 (by decide) (by decide)
theorem hom3 : ColumnWith colCfg (homColumn "01" "01" (-1/2) 3) [0, 2] := homWith _ _ val01 name01 val01 name01 (by decide) (by decide)

theorem homMeasurable : MeasurableGroup colCfg 2 homGroup := by
  have h : ∀ c ∈ homGroup, c = homColumn "10" "10" (1/2) 0 ∨ c = homColumn "10" "01" (-1/2) 1 ∨ c = homColumn "01" "10" (1/2) 2 ∨ c = homColumn "01" "01" (-1/2) 3 := by
    intro c hc; simpa [homGroup] using hc
  refine ⟨?_, ?_, ?_, ?_, ?_⟩
  · intro c hc
    rcases h c hc with rfl | rfl | rfl | rfl
    · exact ⟨_, hom0⟩
    · exact ⟨_, hom1⟩
    · exact ⟨_, hom2⟩
    · exact ⟨_, hom3⟩
  · intro c hc
    rcases h c hc with rfl | rfl | rfl | rfl <;> simp [homColumn]
  · intro c hc
    rcases h c hc with rfl | rfl | rfl | rfl <;> simp [homColumn]
  · intro c hc c' hc'
    have e : ∀ c ∈ homGroup, c.gprob = 1 := by
      intro c hc
      rcases h c hc with rfl | rfl | rfl | rfl <;> rfl
    rw [e c hc, e c' hc']
  · intro c hc s hs
    have e : ∀ n n' a i, s ∈ (homColumn n n' a i).states → s.q.classical.length = 2 := by
      intro n n' a i hs
      have : s = homPhoton n 0 ∨ s = homPhoton n' 1 := by simpa [homColumn] using hs
      rcases this with rfl | rfl <;> rfl
    rcases h c hc with rfl | rfl | rfl | rfl <;> exact e _ _ _ _ hs

theorem homReading : columnsReading colCfg [0, 1] [1, 1] homGroup = [homColumn "10" "01" (-1/2) 1, homColumn "01" "10" (1/2) 2] := by
  unfold columnsReading homGroup
  rw [List.filter_cons_of_neg (by rw [hom0.values]; decide), List.filter_cons_of_pos (by rw [hom1.values]; decide), List.filter_cons_of_pos (by rw [hom2.values]; decide),
    List.filter_cons_of_neg (by rw [hom3.values]; decide), List.filter_nil]

theorem homPhotons {n n' : String} {c c' : ℕ} {v v' : Vals} (a : ℂ) (i : ℕ) (hv : Valid colCfg v) (hn : colCfg.stdName v = n.toList) (hv' : Valid colCfg v')
    (hn' : colCfg.stdName v' = n'.toList) (hp : photonChannels v = [c]) (hp' : photonChannels v' = [c']) :
    photonsOf colCfg (homColumn n n' a i) = [(c, some ⟨0, 1⟩), (c', some ⟨1, 1⟩)] := by
  unfold photonsOf listOfPhotons
  have hm : (homColumn n n' a i).states.mapM (fun s => (firstValues colCfg s).map (fun v => (photonChannels v).map (fun ch => (ch, s.info)))) =
      some [[(c, some ⟨0, 1⟩)], [(c', some ⟨1, 1⟩)]] := by
    refine mapM_some_iff.2 (List.Forall₂.cons ?_ (List.Forall₂.cons ?_ List.Forall₂.nil))
    · rw [homFirst 0 hv hn, Option.map_some, hp]; rfl
    · rw [homFirst 1 hv' hn', Option.map_some, hp']; rfl
  rw [hm]
  rfl

/-- Permanent of two photon lists of length 2. -/
theorem overlapPermanent_two (a b c d : Photon) : overlapPermanent [a, b] [c, d] = photonInner a c * photonInner b d + photonInner a d * photonInner b c := by
  unfold overlapPermanent Matrix.permanent
  have hu : (Finset.univ : Finset (Perm (Fin [a, b].length))) = {1, swap 0 1} := by
    show (Finset.univ : Finset (Perm (Fin 2))) = {1, swap 0 1}
    decide
  rw [hu, Finset.sum_pair (by
    show (1 : Perm (Fin 2)) ≠ swap 0 1
    decide)]
  have e : ∀ f : Fin [a, b].length → ℝ, ∏ i, f i = f 0 * f 1 := fun f => Fin.prod_univ_two f
  rw [e, e]
  simp only [Matrix.of_apply, Perm.one_apply, swap_apply_left, swap_apply_right]
  rfl

theorem hom_overlap : photonOverlap (some ⟨0, 1⟩) (some ⟨1, 1⟩) * photonOverlap (some ⟨1, 1⟩) (some ⟨0, 1⟩) = 1 / 2 := by
  have h2 : (0 - 1 : ℝ) / Real.sqrt (1 ^ 2 + 1 ^ 2) = -(1 / Real.sqrt 2) := by norm_num; ring
  have h3 : (1 - 0 : ℝ) / Real.sqrt (1 ^ 2 + 1 ^ 2) = 1 / Real.sqrt 2 := by norm_num
  have hs : (1 / Real.sqrt 2) ^ 2 = 1 / 2 := by rw [div_pow, Real.sq_sqrt (by norm_num)]; norm_num
  unfold photonOverlap
  simp only
  rw [← Real.exp_add, h2, h3, neg_sq, hs, show -1 * Real.log 2 * (1 / 2) + -1 * Real.log 2 * (1 / 2) = -Real.log 2 by ring, Real.exp_neg, Real.exp_log (by norm_num)]
  norm_num

theorem hom_det (a : ℂ) (c1 c2 : Column) (h1 : photonsOf colCfg c1 = [(0, some ⟨0, 1⟩), (1, some ⟨1, 1⟩)]) (h2 : photonsOf colCfg c2 = [(1, some ⟨0, 1⟩), (0, some ⟨1, 1⟩)])
    (a1 : c1.amp = -a) (a2 : c2.amp = a) (b1 : c1.boson = 1) (b2 : c2.boson = 1) : detectionProb colCfg [c1, c2] = ‖a‖ ^ 2 := by
  have hx := hom_overlap
  have e : ∀ b k, photonsOf colCfg b = photonsOf colCfg k → (photonsOf colCfg b = [(0, some ⟨0, 1⟩), (1, some ⟨1, 1⟩)] ∨ photonsOf colCfg b = [(1, some ⟨0, 1⟩), (0, some ⟨1, 1⟩)]) →
      overlapPermanent (photonsOf colCfg b) (photonsOf colCfg k) = 1 := by
    intro b k hbk hor
    rw [← hbk]
    rcases hor with h | h <;>
    · rw [h, overlapPermanent_two]
      simp [photonInner, photonOverlap_self]
  have f1 : overlapPermanent (photonsOf colCfg c1) (photonsOf colCfg c2) = 1 / 2 := by
    rw [h1, h2, overlapPermanent_two, ← hx]
    simp [photonInner]
  have f2 : overlapPermanent (photonsOf colCfg c2) (photonsOf colCfg c1) = 1 / 2 := by
    rw [h1, h2, overlapPermanent_two, ← hx]
    simp [photonInner]
  unfold detectionProb crossTerm
  simp only [List.map_cons, List.map_nil, List.sum_cons, List.sum_nil, add_zero]
  rw [e c1 c1 rfl (Or.inl h1), e c2 c2 rfl (Or.inr h2), f1, f2, a1, a2, b1, b2]
  have : starRingEnd ℂ (-a) * -a / ((1 * 1 : ℝ) : ℂ) * ((1 : ℝ) : ℂ) + starRingEnd ℂ a * -a / ((1 * 1 : ℝ) : ℂ) * ((1 / 2 : ℝ) : ℂ) +
      (starRingEnd ℂ (-a) * a / ((1 * 1 : ℝ) : ℂ) * ((1 / 2 : ℝ) : ℂ) + starRingEnd ℂ a * a / ((1 * 1 : ℝ) : ℂ) * ((1 : ℝ) : ℂ)) = starRingEnd ℂ a * a := by
    push_cast
    rw [map_neg]
    ring
  rw [this, norm_mul, RCLike.norm_conj]
  ring

theorem hom_first : ∃ groups grp, measureGroup colCfg [0, 1] [0, 1] homGroup = some groups ∧ grp ∈ groups ∧ MeasuredGroup colCfg [0, 1] [0, 1] homGroup [1, 1] grp := by
  obtain ⟨groups, outs, k1, k2, k3, k4⟩ := measureGroup_spec (g := colCfg) (by decide) homMeasurable (opt := [0, 1]) (cls := [0, 1]) (by decide) rfl (by decide)
  have ho : [1, 1] ∈ outs := (k3 _).2 ⟨homColumn "10" "01" (-1/2) 1, by simp [homGroup], [1, 1], hom1.values, rfl⟩
  obtain ⟨grp, hg, hmg⟩ := forall2_left_mem k4 _ ho
  exact ⟨groups, grp, k1, hg, hmg⟩

/-- **C65** The full claim fails: two photons with partial overlap (delay 1, widths 1) behind a 50/50 beam splitter are found in different channels with probability 1/4. The rescaling of the
amplitudes leaves out the interference of the two columns, so measuring again finds this outcome with probability 1/2 only, and probability is lost. -/
theorem C65_fails : ∃ groups grp grp', measureGroup colCfg [0, 1] [0, 1] homGroup = some groups ∧ grp ∈ groups ∧ grp ≠ [] ∧
    (∀ c ∈ grp, columnValues colCfg c = some [1, 1] ∧ c.gprob = 1 / 4) ∧ measureGroup colCfg [0, 1] [0, 1] grp = some [grp'] ∧ grp' ≠ [] ∧ ∀ c ∈ grp', c.gprob = 1 / 8 := by
  obtain ⟨groups, grp, k1, hg, hmg⟩ := hom_first
  have hm' := measurable_again homMeasurable hmg
  obtain ⟨groups'', outs', q1, q2, q3, q4⟩ := measureGroup_spec (g := colCfg) (by decide) hm' (opt := [0, 1]) (cls := [0, 1]) (by decide) rfl (by decide)
  obtain ⟨p, t1, t2⟩ := id hmg
  rw [homReading] at t1 t2
  have hS : (([homColumn "10" "01" (-1/2) 1, homColumn "01" "10" (1/2) 2].map (fun c => ‖c.amp‖ ^ 2)).sum) = 1 / 2 := by
    simp [homColumn]; norm_num
  rw [hS] at t2
  -- the two new columns
  rcases grp with _ | ⟨d1, _ | ⟨d2, _ | ⟨d3, l⟩⟩⟩
  · cases t2
  · cases t2 with | cons _ h => cases h
  swap
  · cases t2 with | cons _ h => cases h with | cons _ h => cases h
  rw [List.forall₂_cons, List.forall₂_cons] at t2
  obtain ⟨m1, m2, _⟩ := t2
  have ph1 := homPhotons (-1/2) 1 val10 name10 val01 name01 (c := 0) (c' := 1) (by decide) (by decide)
  have ph2 := homPhotons (1/2) 2 val01 name01 val10 name10 (c := 1) (c' := 0) (by decide) (by decide)
  have total : ∀ (c1 c2 : Column) (p a : ℝ), TotalDetection colCfg [c1, c2] p → columnValues colCfg c1 = some [1, 1] → columnValues colCfg c2 = some [1, 1] →
      detectionProb colCfg [c1, c2] = a → p = a := by
    intro c1 c2 p a ⟨vs, h1, h2, h3⟩ e1 e2 e3
    have hvs : vs = [[1, 1]] := by
      have hall : ∀ v, v ∈ vs ↔ v = [1, 1] := by
        intro v
        rw [h2]
        constructor
        · rintro ⟨c, hc, hv⟩
          rcases List.mem_cons.1 hc with rfl | hc
          · rw [e1] at hv; exact (Option.some.inj hv).symm
          · obtain rfl := List.mem_singleton.1 hc
            rw [e2] at hv; exact (Option.some.inj hv).symm
        · rintro rfl
          exact ⟨c1, by simp, e1⟩
      rcases vs with _ | ⟨a, l⟩
      · have := (hall [1, 1]).2 rfl; cases this
      · have ha := (hall a).1 List.mem_cons_self
        subst ha
        rcases l with _ | ⟨b, l⟩
        · rfl
        · have hb := (hall b).1 (by simp)
          subst hb
          simp at h1
    rw [h3, hvs]
    simp only [List.map_cons, List.map_nil, List.sum_cons, List.sum_nil, add_zero]
    rw [List.filter_cons_of_pos (by rw [e1]; simp), List.filter_cons_of_pos (by rw [e2]; simp), List.filter_nil]
    exact e3
  have hp : p = 1 / 4 := by
    refine total _ _ p (1 / 4) t1 hom1.values hom2.values ?_
    rw [hom_det (1/2) _ _ ph1 ph2 (by simp [homColumn]; ring) rfl rfl rfl]
    norm_num
  subst hp
  have v1 : columnValues colCfg d1 = some [1, 1] := by rw [(measured_same m1).1]; exact hom1.values
  have v2 : columnValues colCfg d2 = some [1, 1] := by rw [(measured_same m2).1]; exact hom2.values
  have g1 : d1.gprob = 1 / 4 := by rw [m1.gprob]; simp [homColumn]
  have g2 : d2.gprob = 1 / 4 := by rw [m2.gprob]; simp [homColumn]
  have houts := single_outs hmg (by simp) q2 q3
  subst houts
  rcases groups'' with _ | ⟨grp', l⟩
  · cases q4
  rw [List.forall₂_cons] at q4
  obtain ⟨⟨p', u1, u2⟩, q5⟩ := q4
  rw [List.forall₂_nil_left_iff.1 q5] at q1
  rw [reading_again hmg] at u1 u2
  have hper : ∀ (n n' : String) (a : ℂ) (i : ℕ) (l : List Photon), photonsOf colCfg (homColumn n n' a i) = l →
      (l = [(0, some ⟨0, 1⟩), (1, some ⟨1, 1⟩)] ∨ l = [(1, some ⟨0, 1⟩), (0, some ⟨1, 1⟩)]) → Real.sqrt (overlapPermanent l l) = 1 := by
    intro n n' a i l _ hor
    rcases hor with h | h <;>
    · rw [h, overlapPermanent_two]
      simp [photonInner, photonOverlap_self]
  have hp' : p' = 1 / 2 := by
    refine total d1 d2 p' (1 / 2) u1 v1 v2 ?_
    rw [hom_det ((1/2 : ℂ) / ((Real.sqrt (1/2) : ℝ) : ℂ)) d1 d2 (by rw [(measured_same m1).2]; exact ph1) (by rw [(measured_same m2).2]; exact ph2) (by rw [m1.amp]; simp [homColumn]; ring)
      (by rw [m2.amp]; rfl) (by rw [m1.boson, ph1]; exact hper _ _ _ _ _ ph1 (Or.inl rfl)) (by rw [m2.boson, ph2]; exact hper _ _ _ _ _ ph2 (Or.inr rfl))]
    rw [norm_div, div_pow, Complex.norm_real, Real.norm_eq_abs, sq_abs, Real.sq_sqrt (by norm_num)]
    norm_num
  subst hp'
  refine ⟨groups, [d1, d2], grp', k1, hg, by simp, ?_, q1, ?_, ?_⟩
  · intro c hc
    rcases List.mem_cons.1 hc with rfl | hc
    · exact ⟨v1, g1⟩
    · obtain rfl := List.mem_singleton.1 hc
      exact ⟨v2, g2⟩
  · intro h0
    rw [h0] at u2
    cases u2
  · intro c' hc'
    obtain ⟨c, hc, hcc⟩ := forall2_left_mem u2.flip c' hc'
    have e : c'.gprob = c.gprob * (1 / 2) := hcc.gprob
    rw [e]
    rcases List.mem_cons.1 hc with rfl | hc
    · rw [g1]; norm_num
    · obtain rfl := List.mem_singleton.1 hc
      rw [g2]; norm_num

/-- **C66** One measurement should add one entry to the measurement history, as the ordinary measurement does. It adds one entry per measured channel: measuring two channels of a new group adds two. -/
theorem C66_fails : ∃ groups grp, measureGroup colCfg [0, 1] [0, 1] homGroup = some groups ∧ grp ∈ groups ∧ grp ≠ [] ∧ ∀ c ∈ grp, c.states ≠ [] ∧
    ∀ s ∈ c.states, s.q.classical = [1, 1] ∧ s.q.results.length = 2 ∧ s.q.cum = 1 := by
  obtain ⟨groups, grp, k1, hg, hmg⟩ := hom_first
  refine ⟨groups, grp, k1, hg, ?_, ?_⟩
  · intro h0
    obtain ⟨p, _, t2⟩ := hmg
    rw [h0, homReading] at t2
    cases t2
  · intro c' hc'
    obtain ⟨p, _, t2⟩ := hmg
    obtain ⟨c, hc, hcc⟩ := forall2_left_mem t2.flip c' hc'
    have hst : List.Forall₂ (MeasuredState [0, 1] [1, 1] p) c.states c'.states := hcc.states
    have hcs : ∃ n n' a i, c = homColumn n n' a i := by
      rw [homReading] at hc
      rcases List.mem_cons.1 hc with rfl | hc
      · exact ⟨_, _, _, _, rfl⟩
      · obtain rfl := List.mem_singleton.1 hc
        exact ⟨_, _, _, _, rfl⟩
    obtain ⟨n, n', a, i, rfl⟩ := hcs
    refine ⟨?_, ?_⟩
    · intro h0
      rw [h0] at hst
      cases hst
    · intro s' hs'
      obtain ⟨s, hs, hss⟩ := forall2_left_mem hst.flip s' hs'
      have hss : MeasuredState [0, 1] [1, 1] p s s' := hss
      have hs2 : s.q.classical.length = 2 ∧ s.q.results = [] ∧ s.q.cum = 1 := by
        have : s = homPhoton n 0 ∨ s = homPhoton n' 1 := by simpa [homColumn] using hs
        rcases this with rfl | rfl <;> exact ⟨rfl, rfl, rfl⟩
      refine ⟨?_, ?_, by rw [hss.cum, hs2.2.2]⟩
      · have w0 := hss.written 0 0 rfl (by intro j hj; rcases j with _ | _ | j <;> simp_all)
        have w1 := hss.written 1 1 rfl (by intro j hj; rcases j with _ | _ | j <;> simp_all)
        have hl := hss.length
        rw [hs2.1] at hl
        obtain ⟨x, y, hxy⟩ := List.length_eq_two.1 hl
        rw [hxy] at w0 w1 ⊢
        simp at w0 w1
        rw [w0, w1]
      · rw [hss.results, hs2.2.1]
        simp

/-! ### C51: the labels of the outcomes -/

/-- **C51** Photon numbers below 10: different outcomes have different labels. -/
theorem C51_labels_partial (g : Cfg) (hL : g.L ≤ 10) (opt : List ℕ) (v w : Vals) (hv : Valid g v) (hw : Valid g w) (hopt : ∀ ch ∈ opt, ch < g.C) :
    outcomeLabel opt v = outcomeLabel opt w ↔ opt.map (fun n => v.getD n 0) = opt.map (fun n => w.getD n 0) := by
  rw [outcomeLabel_eq (by rw [hv.1]; exact hopt), outcomeLabel_eq (by rw [hw.1]; exact hopt), Option.some.injEq]
  constructor
  · exact outcomeLabel_inj hL hv hw
  · intro h
    show ((opt.map (fun n => v.getD n 0)).map pyStr).flatten = _
    rw [h]
    rfl

/-- Two channels, at most 11 photons per channel. -/
def labCfg : Cfg := ⟨12, 2, true⟩

/-- A column with one state. -/
noncomputable def labColumn (name : String) (i : ℕ) : Column := ⟨[⟨⟨"initial".toList, 1, [(name.toList, ⟨1, 1⟩)], [0, 0], []⟩, none⟩], 1, 1, 1, i⟩

theorem labWith {name : String} {v : Vals} (i : ℕ) (hv : Valid labCfg v) (hn : labCfg.stdName v = name.toList) : ColumnWith labCfg (labColumn name i) v := by
  refine ⟨?_, ?_, ?_, hv⟩
  · intro s hs
    obtain rfl := List.mem_singleton.1 hs
    exact wf_unit _ ⟨v, hv, (isName_iff hv).2 hn.symm⟩
  · intro s hs
    obtain rfl := List.mem_singleton.1 hs
    exact ⟨_, rfl⟩
  · have hm : (labColumn name i).states.mapM (firstValues labCfg) = some [v] :=
      mapM_some_iff.2 (List.Forall₂.cons (firstValues_of ⟨hv, ⟨1, 1⟩, by rw [hn], rfl⟩) List.Forall₂.nil)
    rw [columnValues_eq hm]
    rfl

/-- **C51** With photon numbers of two digits the outcomes (1, 11) and (11, 1) get the same label: measuring both channels gives one group with both columns, and the values (1, 11)
are written to the classical channels of both. -/
theorem C51_fails : ∃ d1 d2, measureGroup labCfg [0, 1] [0, 1] [labColumn "0111" 0, labColumn "1101" 1] = some [[d1, d2]] ∧
    columnValues labCfg d1 = some [1, 11] ∧ columnValues labCfg d2 = some [11, 1] ∧ ∀ c ∈ [d1, d2], c.states ≠ [] ∧ ∀ s ∈ c.states, s.q.classical = [1, 11] := by
  have hv1 : Valid labCfg [1, 11] := by decide
  have hv2 : Valid labCfg [11, 1] := by decide
  have w1 := labWith 0 hv1 (name := "0111") (by decide)
  have w2 := labWith 1 hv2 (name := "1101") (by decide)
  have hm : MeasurableGroup labCfg 2 [labColumn "0111" 0, labColumn "1101" 1] := by
    have h : ∀ c ∈ [labColumn "0111" 0, labColumn "1101" 1], c = labColumn "0111" 0 ∨ c = labColumn "1101" 1 := by intro c hc; simpa using hc
    refine ⟨?_, ?_, ?_, ?_, ?_⟩
    · intro c hc
      rcases h c hc with rfl | rfl
      · exact ⟨_, w1⟩
      · exact ⟨_, w2⟩
    · intro c hc
      rcases h c hc with rfl | rfl <;> simp [labColumn]
    · intro c hc
      rcases h c hc with rfl | rfl <;> simp [labColumn]
    · intro c hc c' hc'
      rcases h c hc with rfl | rfl <;> rcases h c' hc' with rfl | rfl <;> rfl
    · intro c hc s hs
      rcases h c hc with rfl | rfl <;>
      · obtain rfl := List.mem_singleton.1 hs
        rfl
  obtain ⟨grp, p, k1, k2, k3⟩ := outcomeGroup_spec (g := labCfg) (m := 2) (opt := [0, 1]) (cls := [0, 1]) (o := [1, 11]) (sub := [(labColumn "0111" 0, [1, 11]), (labColumn "1101" 1, [11, 1])])
    (by simp) (by
      intro x hx
      rcases List.mem_cons.1 hx with rfl | hx
      · exact w1
      · obtain rfl := List.mem_singleton.1 hx
        exact w2) hm (by decide) (by decide) rfl (by decide)
  rcases grp with _ | ⟨d1, _ | ⟨d2, _ | ⟨d3, l⟩⟩⟩
  · cases k3
  · cases k3 with | cons _ h => cases h
  swap
  · cases k3 with | cons _ h => cases h with | cons _ h => cases h
  have k3' : List.Forall₂ _ [labColumn "0111" 0, labColumn "1101" 1] [d1, d2] := k3
  rw [List.forall₂_cons, List.forall₂_cons] at k3'
  obtain ⟨m1, m2, _⟩ := k3'
  refine ⟨d1, d2, ?_, ?_, ?_, ?_⟩
  · unfold measureGroup
    have hmap : [labColumn "0111" 0, labColumn "1101" 1].mapM (fun c => (columnValues labCfg c).bind (fun v => (outcomeLabel [0, 1] v).map (fun lab => (lab, c, v)))) =
        some [("111".toList, labColumn "0111" 0, [1, 11]), ("111".toList, labColumn "1101" 1, [11, 1])] := by
      have l1 : outcomeLabel [0, 1] [1, 11] = some "111".toList := by decide
      have l2 : outcomeLabel [0, 1] [11, 1] = some "111".toList := by decide
      refine mapM_some_iff.2 (List.Forall₂.cons ?_ (List.Forall₂.cons ?_ List.Forall₂.nil))
      · rw [w1.values, Option.bind_some, l1]; rfl
      · rw [w2.values, Option.bind_some, l2]; rfl
    rw [hmap, Option.bind_some]
    have hg : groupBy (fun x : List Char × Column × Vals => x.1) [("111".toList, labColumn "0111" 0, [1, 11]), ("111".toList, labColumn "1101" 1, [11, 1])] =
        [("111".toList, [("111".toList, labColumn "0111" 0, [1, 11]), ("111".toList, labColumn "1101" 1, [11, 1])])] := by
      unfold groupBy
      simp [Dict.set, Dict.get?]
    rw [hg, List.mapM_cons]
    simp only [List.map_cons, List.map_nil]
    rw [k1]
    rfl
  · rw [(measured_same m1).1]; exact w1.values
  · rw [(measured_same m2).1]; exact w2.values
  · have hst : ∀ name i d S, MeasuredColumn labCfg [0, 1] [1, 11] p S (labColumn name i) d → d.states ≠ [] ∧ ∀ s ∈ d.states, s.q.classical = [1, 11] := by
      intro name i d S hd
      have hs := hd.states
      refine ⟨(by intro h0; rw [h0] at hs; cases hs), ?_⟩
      intro s' hs'
      obtain ⟨s, hs1, hss⟩ := forall2_left_mem hs.flip s' hs'
      have hss : MeasuredState [0, 1] [1, 11] p s s' := hss
      obtain rfl := List.mem_singleton.1 hs1
      have x0 := hss.written 0 0 rfl (by intro j hj; rcases j with _ | _ | j <;> simp_all)
      have x1 := hss.written 1 1 rfl (by intro j hj; rcases j with _ | _ | j <;> simp_all)
      have hl := hss.length
      obtain ⟨x, y, hxy⟩ := List.length_eq_two.1 (show s'.q.classical.length = 2 from hl)
      rw [hxy] at x0 x1 ⊢
      simp at x0 x1
      rw [x0, x1]
    intro c hc
    rcases List.mem_cons.1 hc with rfl | hc
    · exact hst _ _ _ _ m1
    · obtain rfl := List.mem_singleton.1 hc
      exact hst _ _ _ _ m2

/-! ### The hypotheses are met -/

section NonVacuity

theorem homPair_with : ∀ c ∈ [homColumn "10" "01" (-1/2) 1, homColumn "01" "10" (1/2) 2], ColumnWith colCfg c [1, 1] := by
  intro c hc
  rcases List.mem_cons.1 hc with rfl | hc
  · exact hom1
  · obtain rfl := List.mem_singleton.1 hc
    exact hom2

/-- C63: two photons with partial overlap behind a beam splitter are found in different channels with probability 1/4, between 0 (identical) and 1/2 (fully distinguishable). -/
example : columnListProbability colCfg [1, 1] [homColumn "10" "01" (-1/2) 1, homColumn "01" "10" (1/2) 2] = some (1 / 4) := by
  rw [C63_outcome colCfg [1, 1] _ homPair_with (fun c hc => by
    rcases List.mem_cons.1 hc with rfl | hc
    · exact homColumn_widths _ _ _ _
    · obtain rfl := List.mem_singleton.1 hc
      exact homColumn_widths _ _ _ _), hom_det (1/2) _ _ (homPhotons (-1/2) 1 val10 name10 val01 name01 (c := 0) (c' := 1) (by decide) (by decide))
    (homPhotons (1/2) 2 val01 name01 val10 name10 (c := 1) (c' := 0) (by decide) (by decide)) (by simp [homColumn]; ring) rfl rfl rfl]
  norm_num

/-- A column of two identical photons (no photon information). -/
noncomputable def sameColumn (n n' : String) (a : ℂ) : Column :=
  ⟨[⟨⟨"initial".toList, 1, [(n.toList, ⟨1, 1⟩)], [0], []⟩, none⟩, ⟨⟨"initial".toList, 1, [(n'.toList, ⟨1, 1⟩)], [0], []⟩, none⟩], a, 1, 1, 0⟩

theorem sameWith {n n' : String} {v v' w : Vals} (a : ℂ) (hv : Valid colCfg v) (hn : colCfg.stdName v = n.toList) (hv' : Valid colCfg v') (hn' : colCfg.stdName v' = n'.toList)
    (hw : Valid colCfg w) (hs : List.zipWith (· + ·) v' v = w) : ColumnWith colCfg (sameColumn n n' a) w := by
  refine ⟨?_, ?_, ?_, hw⟩
  · intro s hs
    simp only [sameColumn, List.mem_cons, List.not_mem_nil, or_false] at hs
    rcases hs with rfl | rfl
    · exact wf_unit _ ⟨v, hv, (isName_iff hv).2 hn.symm⟩
    · exact wf_unit _ ⟨v', hv', (isName_iff hv').2 hn'.symm⟩
  · intro s hs
    simp only [sameColumn, List.mem_cons, List.not_mem_nil, or_false] at hs
    rcases hs with rfl | rfl <;> exact ⟨_, rfl⟩
  · have hm : (sameColumn n n' a).states.mapM (firstValues colCfg) = some [v, v'] :=
      mapM_some_iff.2 (List.Forall₂.cons (firstValues_of ⟨hv, ⟨1, 1⟩, by rw [hn], rfl⟩) (List.Forall₂.cons (firstValues_of ⟨hv', ⟨1, 1⟩, by rw [hn'], rfl⟩) List.Forall₂.nil))
    rw [columnValues_eq hm]
    simpa using hs

/-- C64: the Hong-Ou-Mandel effect: identical photons never leave in different channels. -/
example : columnListProbability colCfg [1, 1] [sameColumn "10" "01" (-1/2), sameColumn "01" "10" (1/2)] = some 0 := by
  have h : ∀ c ∈ [sameColumn "10" "01" (-1/2), sameColumn "01" "10" (1/2)], ColumnWith colCfg c [1, 1] ∧ c.boson = 1 ∧ ∀ s ∈ c.states, s.info = none := by
    intro c hc
    have hi : ∀ n n' a, ∀ s ∈ (sameColumn n n' a).states, s.info = none := by
      intro n n' a s hs
      simp only [sameColumn, List.mem_cons, List.not_mem_nil, or_false] at hs
      rcases hs with rfl | rfl <;> rfl
    rcases List.mem_cons.1 hc with rfl | hc
    · exact ⟨sameWith _ val10 name10 val01 name01 (by decide) (by decide), rfl, hi _ _ _⟩
    · obtain rfl := List.mem_singleton.1 hc
      exact ⟨sameWith _ val01 name01 val10 name10 (by decide) (by decide), rfl, hi _ _ _⟩
  rw [C64_identical colCfg [1, 1] _ (fun c hc => (h c hc).1) (by
    intro c hc
    rw [(h c hc).2.1]
    simp [bosonOf]) (fun c hc s hs x hx => by rw [(h c hc).2.2 s hs] at hx; cases hx) (by
    intro b hb k hk s hs t ht
    rw [(h b hb).2.2 s hs, (h k hk).2.2 t ht]
    rfl)]
  simp [sameColumn]
  norm_num

/-- C64: the state of three components, first channel measured: three groups. -/
example : ∃ groups, measureGroups colCfg 4 [0] [0] [groupOfState colState3] = some groups ∧ ∃ grp ∈ groups, grp ≠ [] ∧
    ∀ c ∈ grp, c.gprob = 1 / 2 * outcomeProb colCfg [0] colState3.q.comps [1] := by
  obtain ⟨groups, outs, h1, h2, h3, h4⟩ := C64_born_partial colCfg (by decide) 1 colState3 [0] [0] colState3_ok.1 colState3_ok.2.1 colState3_ok.2.2
    (by intro h; simp [colState3] at h) rfl (fun x hx => by simp [colState3] at hx <;> (rw [← hx]; norm_num)) (by decide) rfl (by decide)
  refine ⟨groups, h1, ?_⟩
  obtain ⟨grp, hg, h5, h6⟩ := forall2_left_mem h4 [1] ((h3 [1]).2 ⟨[1, 1], "11".toList, by decide, (isName_iff (by decide)).2 (by decide), by simp [colState3], rfl⟩)
  exact ⟨grp, hg, h5, h6⟩

/-- C65, C66: the groups of the two photons behind a beam splitter. -/
example : ∃ groups outs, measureGroup colCfg [0, 1] [0, 1] homGroup = some groups ∧ outs.Nodup ∧ [1, 1] ∈ outs ∧ [2, 0] ∈ outs ∧
    List.Forall₂ (MeasuredGroup colCfg [0, 1] [0, 1] homGroup) outs groups := by
  obtain ⟨groups, outs, h1, h2, h3, h4⟩ := C66_measure_partial colCfg (by decide) 2 [0, 1] [0, 1] homGroup homMeasurable homWidths (by decide) rfl (by decide)
  exact ⟨groups, outs, h1, h2, (h3 _).2 ⟨_, by simp [homGroup], _, hom1.values, rfl⟩, (h3 _).2 ⟨homColumn "10" "10" (1/2) 0, by simp [homGroup], _, hom0.values, rfl⟩, h4⟩

example : ∃ grp, MeasuredGroup colCfg [0, 1] [0, 1] homGroup [1, 1] grp ∧ grp ≠ [] ∧ (grp.map (fun c => ‖c.amp‖ ^ 2)).sum = 1 := by
  obtain ⟨groups, grp, k1, hg, hmg⟩ := hom_first
  have hne : grp ≠ [] := by
    intro h0
    obtain ⟨p, _, t2⟩ := hmg
    rw [h0, homReading] at t2
    cases t2
  exact ⟨grp, hmg, hne, (C65_rescaled colCfg 2 [0, 1] [0, 1] homGroup homMeasurable homWidths [1, 1] grp hne hmg).1⟩

theorem homReading20 : columnsReading colCfg [0, 1] [2, 0] homGroup = [homColumn "10" "10" (1/2) 0] := by
  unfold columnsReading homGroup
  rw [List.filter_cons_of_pos (by rw [hom0.values]; decide), List.filter_cons_of_neg (by rw [hom1.values]; decide), List.filter_cons_of_neg (by rw [hom2.values]; decide),
    List.filter_cons_of_neg (by rw [hom3.values]; decide), List.filter_nil]

/-- C65: measuring again confirms the outcome (2, 0). -/
example : ∃ groups grp grp', measureGroup colCfg [0, 1] [0, 1] homGroup = some groups ∧ grp ∈ groups ∧ grp.length = 1 ∧ measureGroup colCfg [0, 1] [0, 1] grp = some [grp'] ∧
    List.Forall₂ (fun c c' : Column => c'.gprob = c.gprob ∧ c'.amp = c.amp ∧ c'.boson = c.boson) grp grp' := by
  obtain ⟨groups, outs, k1, k2, k3, k4⟩ := measureGroup_spec (g := colCfg) (by decide) homMeasurable (opt := [0, 1]) (cls := [0, 1]) (by decide) rfl (by decide)
  have ho : [2, 0] ∈ outs := (k3 _).2 ⟨homColumn "10" "10" (1/2) 0, by simp [homGroup], [2, 0], hom0.values, rfl⟩
  obtain ⟨grp, hg, hmg⟩ := forall2_left_mem k4 _ ho
  have hl : grp.length = 1 := by
    obtain ⟨p, _, t2⟩ := hmg
    rw [homReading20] at t2
    exact t2.length_eq.symm
  obtain ⟨grp', h1, h2⟩ := C65_repeat_partial colCfg (by decide) 2 [0, 1] [0, 1] homGroup homMeasurable homWidths (by decide) rfl (by decide) groups k1 grp hg (by
    obtain ⟨c, rfl⟩ := List.length_eq_one_iff.1 hl
    simp)
  exact ⟨groups, grp, grp', k1, hg, hl, h1, h2⟩

example : outcomeLabel [0] [1, 0] ≠ outcomeLabel [0] [0, 1] := by
  rw [Ne, C51_labels_partial colCfg (by decide) [0] [1, 0] [0, 1] val10 val01 (by decide)]
  decide

end NonVacuity

end Verif.Props
