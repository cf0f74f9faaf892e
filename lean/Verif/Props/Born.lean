/-
Property C117: what a measurement after optical elements finds.
-/
import Verif.Lemmas.Born
import Verif.Props.Locality
import Verif.Props.Plot

namespace Verif.Props
open Verif Spec

theorem nodes_unitary {g : Cfg} {gates : List Gate} {nodes : List (Opt × List ℕ)} (h : LosslessElements g gates nodes) :
    ∀ k ∈ nodes, OnChannels g k ∧ k.1 ∈ Matrix.unitaryGroup (Fin 2) ℂ := by
  obtain ⟨hf, hu⟩ := h
  intro k hk
  refine ⟨gates_onChannels hf k hk, ?_⟩
  induction hf with
  | nil => simp at hk
  | cons h1 _ ih =>
    rcases List.mem_cons.1 hk with rfl | hk
    · rw [h1.matrix]; exact hu _ (by simp)
    · exact ih (fun e he => hu e (by simp [he])) hk

/-- a sendable state after the nodes can be measured -/
theorem sent_measurable {g : Cfg} (hg : g.Ok) {thr : ℝ} (ht : 0 < thr) {full : Bool} {gates : List Gate} {n : Opt × List ℕ} {l : List (Opt × List ℕ)}
    (hu : LosslessElements g gates (n :: l)) {m : ℕ} {q : QState} (hq : Sendable g m q) :
    ∃ c', applyOptical g thr full (standardKeys g) n l q.comps = some c' ∧ Measurable g m { q with comps := c' } ∧
      ∀ opt o, Occurs g opt c' o → outcomeProb g opt c' o ≠ 0 := by
  have hn := nodes_unitary hu
  have he := applyOptical_eq hg thr full n l (hn n (by simp)).1 (fun k hk => (hn k (by simp [hk])).1) hq.measurable.wf hq.nonempty
  obtain ⟨c', hc', hw, hp, hget⟩ := fromVector_spec hg.1 thr (oneByOne g (n :: l) (vec g q.comps))
  refine ⟨c', by rw [he, hc'], ⟨hw, hp, ?_, hq.measurable.cum0, hq.measurable.cum1, hq.measurable.classical⟩, ?_⟩
  · show totalProb c' ≤ 1
    refine le_trans ?_ hq.measurable.total
    rw [totalProb_eq hg.1 hw, totalProb_eq hg.1 hq.measurable.wf, ← oneByOne_norm hg (n :: l) (vec g q.comps) hn]
    apply Finset.sum_le_sum
    intro i hi
    rw [vec_fromVector hg.1 hc' (Finset.mem_range.1 hi)]
    split <;> simp
  · intro opt o ho h0
    obtain ⟨v, s, hv, hs, hm, hr⟩ := ho
    rw [outcomeProb_vec hg.1 hw] at h0
    have hi := g.indexOf_lt hv
    have h1 := (Finset.sum_eq_zero_iff_of_nonneg (fun i _ => by positivity)).1 h0 _ (Finset.mem_range.2 hi)
    have hpart : outcomeOf opt (g.valuesFromIndex (g.indexOf v)) = o := by rw [g.valuesFromIndex_indexOf hv]; exact hr.symm
    rw [norm_part_sq, if_pos hpart, vec_index hv, ← (isName_iff hv).1 hs] at h1
    obtain ⟨p, hp', rfl⟩ := List.mem_map.1 hm
    have hgn := hget _ hi
    have hnm : g.nm (g.indexOf v) = p.1 := by
      rw [(isName_iff hv).1 hs]; unfold Cfg.nm; rw [g.valuesFromIndex_indexOf hv]
    rw [hnm] at hgn
    rw [ampOf] at h1
    split at hgn
    · exact absurd hm ((Dict.get?_eq_none).1 hgn)
    · rename_i hlt
      rw [hgn] at h1
      simp only [Option.elim_some] at h1
      exact hlt (by rw [h1]; exact ht)

/-- the Born rule, with the values shown -/
theorem born_main (env : ℕ → Circ) (rnd : ℕ → ℕ → Bool → ℕ → ℕ → ℕ) (j : ℕ) (c : Circ) (hc : env j = c) (hg : c.g.Ok) (ht : 0 < c.thr)
    (gates : List Gate) (n : Opt × List ℕ) (l : List (Opt × List ℕ)) (hu : LosslessElements c.g gates (n :: l))
    (opt cls : List ℕ) (hk : c.nodes = opticals (n :: l) ++ [.measurement opt cls]) (hlen : cls.length = opt.length) (hnd : cls.Nodup) (hcls : ∀ x ∈ cls, x < c.m)
    (coll : Coll) (hid : (coll.map Prod.fst).Nodup) (hq : ∀ p ∈ coll, Sendable c.g c.m p.2) (fuel : ℕ) (hf : l.length + 2 < fuel) :
    ∃ out, evalAll env rnd fuel j coll = some out ∧ (∀ p ∈ out, (∃ v, ShownNat c.g.L (cls.map (fun n : ℕ => (n : ℤ))) p.2 v) ∧ (∃ r ∈ coll, p.2.initial = r.2.initial) ∧ p.2.classical.length = c.m) ∧ ∀ (k : List Char) (v : List ℕ),
      probOf out (fun s => s.initial = k ∧ Shown (cls.map (fun n : ℕ => (n : ℤ))) s (v.map (fun n : ℕ => (n : ℝ)))) =
        (coll.map (fun p => if p.2.initial = k then p.2.cum * findProb c.g c.thr (opticsSubst gates (statePolynomial c.g p.2)) opt v else 0)).sum := by
  classical
  subst hc
  set c := env j
  rw [eval_optics_then_measure env rnd j n l opt cls hk fuel hf]
  have hex : ∀ cs : Coll, (∀ p ∈ cs, p ∈ coll) → ∃ gated : Coll, List.Forall₂ (fun p p' => ∃ comps, applyOptical c.g c.thr c.full (basisKeys c.g) n l p.2.comps = some comps ∧
        p' = (p.1, { p.2 with comps := comps })) cs gated := by
    intro cs
    induction cs with
    | nil => intro _; exact ⟨[], List.Forall₂.nil⟩
    | cons p cs ih =>
      intro hcs
      obtain ⟨gd, hgd⟩ := ih (fun p hp => hcs p (by simp [hp]))
      obtain ⟨d, hd, -⟩ := sent_measurable (full := c.full) hg ht hu (hq p (hcs p (by simp)))
      exact ⟨(p.1, { p.2 with comps := d }) :: gd, List.Forall₂.cons ⟨d, hd, rfl⟩ hgd⟩
  obtain ⟨gated, hgated⟩ := hex coll (fun p hp => hp)
  clear hex
  have hopt : opticalColl c n l coll = some gated :=
    (opticalColl_iff c n l coll hid gated).2 ⟨fun p hp => measurable_check (hq p hp).measurable ht.le, hgated⟩
  have hidg : (gated.map Prod.fst).Nodup := by
    have : gated.map Prod.fst = coll.map Prod.fst := by
      clear hopt hq hid
      induction hgated with
      | nil => rfl
      | @cons a b cs gd h1 _ ih =>
        obtain ⟨d, -, rfl⟩ := h1
        rw [List.map_cons, List.map_cons, ih]
    rw [this]; exact hid
  have hparts : ∃ qss : List (List QState), List.Forall₂ (fun p' qs => measure c.g c.thr c.m p'.2 opt cls = some qs) gated qss ∧
      (∀ s ∈ qss.flatten, (∃ v, ShownNat c.g.L (cls.map (fun n : ℕ => (n : ℤ))) s v) ∧ (∃ r ∈ coll, s.initial = r.2.initial) ∧ s.classical.length = c.m) ∧
      ∀ (k : List Char) (v : List ℕ), (qss.flatten.map (fun s => if s.initial = k ∧ Shown (cls.map (fun n : ℕ => (n : ℤ))) s (v.map (fun n : ℕ => (n : ℝ))) then s.cum else 0)).sum
        = (coll.map (fun p => if p.2.initial = k then p.2.cum * findProb c.g c.thr (opticsSubst gates (statePolynomial c.g p.2)) opt v else 0)).sum := by
    clear hopt hid hidg
    induction hgated with
    | nil => exact ⟨[], List.Forall₂.nil, by simp, by simp⟩
    | @cons p p' cs gd h1 _ ih =>
      obtain ⟨d, hd, rfl⟩ := h1
      obtain ⟨qss, hq1, hsh, hq2⟩ := ih (fun p hp => hq p (by simp [hp]))
      obtain ⟨d', hd', hme, hnz⟩ := sent_measurable (full := c.full) hg ht hu (hq p (by simp))
      obtain rfl : d = d' := Option.some.inj (hd.symm.trans hd')
      obtain ⟨qs, hqs⟩ := C26_success c.g c.thr ht.le c.m { p.2 with comps := d } opt cls hme hlen hcls (fun o ho => hnz opt o ho)
      refine ⟨qs :: qss, List.Forall₂.cons hqs hq1, ?_, ?_⟩
      · intro s hs
        rcases List.mem_append.1 (List.flatten_cons ▸ hs) with hs | hs
        · obtain ⟨k1, k2⟩ := measured_kept hg.1 hme hlen hnd hcls hqs hs
          exact ⟨shown_nat hg.1 hme hlen hnd hqs hs, ⟨p, by simp, k1⟩, k2⟩
        · obtain ⟨k1, ⟨r, hr, k2⟩, k3⟩ := hsh s hs
          exact ⟨k1, ⟨r, by simp [hr], k2⟩, k3⟩
      intro k v
      rw [List.flatten_cons, List.map_append, List.sum_append, hq2 k v, List.map_cons, List.sum_cons, measure_shown hme hlen hnd hqs k v]
      congr 1
      rw [outcomeProb_born hg c.full hu.1 (hq p (by simp)) hd' hme.wf opt v]
  obtain ⟨qss, hq1, hsh, hq2⟩ := hparts
  obtain ⟨out, hout, hflat⟩ := measureColl_of_parts (c.nodes.map Node.isMeasurement) (l.length + 1) hidg hq1
  refine ⟨out, ?_, ?_, ?_⟩
  · show (opticalColl c n l coll).bind _ = some out
    rw [hopt]; exact hout
  · intro p hp
    exact hsh p.2 (by rw [← hflat]; exact List.mem_map_of_mem hp)
  · intro k v
    rw [probOf_sum, hflat]
    convert hq2 k v

/-- **C117 (partial)** The Born rule for a whole circuit: optical elements followed by a measurement, evaluated for any collection of states. The
evaluation succeeds, and the states of the result with initial label `k` in which the classical channels show the photon numbers `v` have
together the probability that the Born rule gives: for each input state with label `k`, its cumulative probability times the probability to
find `v` in the state whose creation operators were replaced by those of the optical elements, without the amplitudes below the threshold
(`C117_close`: this changes the probability by at most the threshold times the number of basis states).
Missing: inputs at or above the cutoff, channel pairs with first channel >= 2 and second channel 0 (C07). -/
theorem C117_born_partial (env : ℕ → Circ) (rnd : ℕ → ℕ → Bool → ℕ → ℕ → ℕ) (j : ℕ) (c : Circ) (hc : env j = c) (hg : c.g.Ok) (ht : 0 < c.thr)
    (gates : List Gate) (n : Opt × List ℕ) (l : List (Opt × List ℕ)) (hu : LosslessElements c.g gates (n :: l))
    (opt cls : List ℕ) (hk : c.nodes = opticals (n :: l) ++ [.measurement opt cls]) (hlen : cls.length = opt.length) (hnd : cls.Nodup) (hcls : ∀ x ∈ cls, x < c.m)
    (coll : Coll) (hid : (coll.map Prod.fst).Nodup) (hq : ∀ p ∈ coll, Sendable c.g c.m p.2) (fuel : ℕ) (hf : l.length + 2 < fuel) :
    ∃ out, evalAll env rnd fuel j coll = some out ∧ ∀ (k : List Char) (v : List ℕ),
      probOf out (fun s => s.initial = k ∧ Shown (cls.map (fun n : ℕ => (n : ℤ))) s (v.map (fun n : ℕ => (n : ℝ)))) =
        (coll.map (fun p => if p.2.initial = k then p.2.cum * findProb c.g c.thr (opticsSubst gates (statePolynomial c.g p.2)) opt v else 0)).sum := by
  obtain ⟨out, h1, -, h2⟩ := born_main env rnd j c hc hg ht gates n l hu opt cls hk hlen hnd hcls coll hid hq fuel hf
  exact ⟨out, h1, h2⟩

/-- **C117** Leaving out the amplitudes below the threshold decreases the probabilities by at most the threshold times the number of basis states. -/
theorem C117_close (g : Cfg) (hg : g.Ok) (thr : ℝ) (ht : 0 ≤ thr) (P : MvPolynomial Mode ℂ) (opt v : List ℕ) :
    findProb g thr P opt v ≤ findProb g 0 P opt v ∧ findProb g 0 P opt v ≤ findProb g thr P opt v + (g.L ^ g.C : ℕ) * thr :=
  findProb_close hg.1 ht P opt v

/-- **C117 (partial)** The histogram of the result: it can be plotted, different outcomes have different bars, and for each initial label `k` and each bar
there is an outcome `v` such that the bar has the height the Born rule gives for `v`; every outcome found has its bar.
Missing: as in `C117_born_partial`. -/
theorem C117_histogram_partial (env : ℕ → Circ) (rnd : ℕ → ℕ → Bool → ℕ → ℕ → ℕ) (j : ℕ) (c : Circ) (hc : env j = c) (hg : c.g.Ok) (ht : 0 < c.thr)
    (gates : List Gate) (n : Opt × List ℕ) (l : List (Opt × List ℕ)) (hu : LosslessElements c.g gates (n :: l))
    (opt cls : List ℕ) (hk : c.nodes = opticals (n :: l) ++ [.measurement opt cls]) (hlen : cls.length = opt.length) (hnd : cls.Nodup) (hcls : ∀ x ∈ cls, x < c.m)
    (hne : cls ≠ []) (coll : Coll) (hid : (coll.map Prod.fst).Nodup) (hq : ∀ p ∈ coll, Sendable c.g c.m p.2) (fuel : ℕ) (hf : l.length + 2 < fuel) :
    ∃ out d, evalAll env rnd fuel j coll = some out ∧ histogram c.g c.m [] (cls.map (fun n : ℕ => (n : ℤ))) out = some d ∧
      ∀ k bars, (k, bars) ∈ d → ∃ label : List ℕ → Name, (∀ v w, (∀ n ∈ v, n < c.g.L) → (∀ n ∈ w, n < c.g.L) → label v = label w → v = w) ∧
        (bars.map Prod.fst).Nodup ∧
        (∀ b ∈ bars, ∃ v, b = (label v,
          (coll.map (fun p => if p.2.initial = k then p.2.cum * findProb c.g c.thr (opticsSubst gates (statePolynomial c.g p.2)) opt v else 0)).sum)) ∧
        ∀ p ∈ out, ∀ v, ShownNat c.g.L (cls.map (fun n : ℕ => (n : ℤ))) p.2 v → label v ∈ bars.map Prod.fst := by
  classical
  obtain ⟨out, h1, hsh, h2⟩ := born_main env rnd j c hc hg ht gates n l hu opt cls hk hlen hnd hcls coll hid hq fuel hf
  have hch : shownChannels c.m (cls.map (fun n : ℕ => (n : ℤ))) = cls.map (fun n : ℕ => (n : ℤ)) := if_neg (by simpa using hne)
  obtain ⟨d, hd⟩ := (C48_defined c.g c.m [] (cls.map (fun n : ℕ => (n : ℤ))) out).2 (fun p hp _ => by
    obtain ⟨v, hv, -⟩ := (hsh p hp).1
    exact ⟨_, by rw [hch]; exact hv⟩)
  refine ⟨out, d, h1, hd, ?_⟩
  intro k bars hb
  obtain ⟨label, l1, l2, l3⟩ := C48_outcomes_partial hd (fun p hp _ => by rw [hch]; exact (hsh p hp).1) k bars hb
  rw [hch] at l2 l3
  obtain ⟨hnb, -⟩ := (C48_bars hd).2.2 k bars hb
  refine ⟨label, l1, hnb, ?_, ?_⟩
  · intro b hbm
    obtain ⟨p, hp, ha, v, hv, hl⟩ := l3 b hbm
    have hm := l2 p hp ha v hv
    refine ⟨v, ?_⟩
    have hb2 : b = (label v, probOf out (fun s => s.initial = k ∧ ShownNat c.g.L (cls.map (fun n : ℕ => (n : ℤ))) s v)) :=
      List.inj_on_of_nodup_map hnb hbm hm hl
    rw [hb2, ← h2 k v]
    congr 2
    funext s
    exact propext ⟨fun h => ⟨h.1, h.2.1⟩, fun h => ⟨h.1, h.2, hv.2⟩⟩
  · intro p hp v hv
    exact List.mem_map.2 ⟨_, l2 p hp (Or.inl rfl) v hv, rfl⟩

/-! ### C118: a single photon -/

theorem gateNode_of {g : Cfg} {h c : ℕ} (hh : h < g.C) (hc : c < g.C) (hne : h ≠ c) (ho : ¬ (2 ≤ h ∧ c = 0)) {θ φ : ℝ} {n : Opt × List ℕ}
    (hn : genericRotation g h c θ φ = some n) : GateNode g ⟨genericMatrix θ φ, h, c⟩ n := by
  unfold genericRotation at hn
  obtain ⟨tl, e, rfl⟩ := Option.map_eq_some_iff.1 hn
  exact ⟨hh, hc, hne, ho, rfl, e⟩

/-- **C118 (partial)** A single photon is found like a classical field is distributed: after optical elements the probability to find it in
channel `j` is the squared modulus of the amplitude that the elements give to the field in channel `j` (amplitudes whose squared modulus is
below the threshold are dropped). Measured are the channels `opt`; the outcomes belonging to channels outside `opt` are all zeros.
Missing: channel pairs with first channel >= 2 and second channel 0 (C07). -/
theorem C118_field_partial (env : ℕ → Circ) (rnd : ℕ → ℕ → Bool → ℕ → ℕ → ℕ) (j : ℕ) (c : Circ) (hc : env j = c) (hg : c.g.Ok) (hL : 2 ≤ c.g.L) (ht : 0 < c.thr)
    (gates : List Gate) (n : Opt × List ℕ) (l : List (Opt × List ℕ)) (hu : LosslessElements c.g gates (n :: l))
    (opt cls : List ℕ) (hk : c.nodes = opticals (n :: l) ++ [.measurement opt cls]) (hlen : cls.length = opt.length) (hnd : cls.Nodup) (hcls : ∀ x ∈ cls, x < c.m)
    (id : List Char) (q : QState) (hq : Measurable c.g c.m q) (hne : q.comps ≠ []) (u : ℕ → ℂ) (hs : SinglePhoton c.g q u) (fuel : ℕ) (hf : l.length + 2 < fuel) :
    ∃ out, evalAll env rnd fuel j [(id, q)] = some out ∧ ∀ v : List ℕ,
      probOf out (fun s => s.initial = q.initial ∧ Shown (cls.map (fun n : ℕ => (n : ℤ))) s (v.map (fun n : ℕ => (n : ℝ)))) =
        q.cum * open Classical in ∑ x ∈ Finset.range c.g.C, if v = foundFor opt x ∧ c.thr ≤ ‖fieldAfter gates u x‖ ^ 2 then ‖fieldAfter gates u x‖ ^ 2 else 0 := by
  obtain ⟨out, h1, h2⟩ := C117_born_partial env rnd j c hc hg ht gates n l hu opt cls hk hlen hnd hcls [(id, q)] (by simp) (by
    intro p hp
    rw [List.mem_singleton.1 hp]
    exact ⟨hq, hne, fun p hp v hv hval => by rw [hs.one p hp v hval hv]; omega⟩) fuel hf
  refine ⟨out, h1, fun v => ?_⟩
  rw [h2 q.initial v]
  simp only [List.map_cons, List.map_nil, List.sum_cons, List.sum_nil, add_zero, if_true]
  rw [statePoly_field hL hq.wf hs, opticsSubst_field hu.1, findProb_field hg hL ht]

/-- amplitude 1 in one channel -/
noncomputable def fieldIn (a : ℕ) : ℕ → ℂ := fun j => if j = a then 1 else 0

theorem foundFor_pair {a b j : ℕ} (hne : a ≠ b) : ([1, 0] = foundFor [a, b] j ↔ j = a) ∧ ([0, 1] = foundFor [a, b] j ↔ j = b) := by
  unfold foundFor
  constructor
  · by_cases h : j = a
    · subst h; simp [Ne.symm hne]
    · by_cases h' : j = b
      · subst h'; simp [h, Ne.symm h]
      · simp [h, Ne.symm h]
  · by_cases h : j = b
    · subst h; simp [hne]
    · simp [h, Ne.symm h]

open Classical in
theorem pair_sum {C a b : ℕ} (ha : a < C) (hb : b < C) (hne : a ≠ b) (thr : ℝ) (f : ℕ → ℂ) :
    (∑ x ∈ Finset.range C, if [1, 0] = foundFor [a, b] x ∧ thr ≤ ‖f x‖ ^ 2 then ‖f x‖ ^ 2 else 0) = (if thr ≤ ‖f a‖ ^ 2 then ‖f a‖ ^ 2 else 0) ∧
    (∑ x ∈ Finset.range C, if [0, 1] = foundFor [a, b] x ∧ thr ≤ ‖f x‖ ^ 2 then ‖f x‖ ^ 2 else 0) = (if thr ≤ ‖f b‖ ^ 2 then ‖f b‖ ^ 2 else 0) := by
  constructor
  · rw [Finset.sum_eq_single a]
    · simp [(foundFor_pair hne).1]
    · intro x _ hx; rw [if_neg (fun h => hx ((foundFor_pair hne).1.1 h.1))]
    · intro h; exact absurd (Finset.mem_range.2 ha) h
  · rw [Finset.sum_eq_single b]
    · simp [(foundFor_pair hne).2]
    · intro x _ hx; rw [if_neg (fun h => hx ((foundFor_pair hne).2.1 h.1))]
    · intro h; exact absurd (Finset.mem_range.2 hb) h

theorem mixMatrix : genericMatrix (Real.pi / 8) Real.pi = !![((Real.sqrt 2 / 2 : ℝ) : ℂ), ((Real.sqrt 2 / 2 : ℝ) : ℂ); ((Real.sqrt 2 / 2 : ℝ) : ℂ), -((Real.sqrt 2 / 2 : ℝ) : ℂ)] := by
  have h1 : Real.cos (Real.pi / 8) ^ 2 - Real.sin (Real.pi / 8) ^ 2 = Real.sqrt 2 / 2 := by
    rw [← Real.cos_pi_div_four, show Real.pi / 4 = 2 * (Real.pi / 8) by ring, Real.cos_two_mul']
  have h2 : 2 * Real.cos (Real.pi / 8) * Real.sin (Real.pi / 8) = Real.sqrt 2 / 2 := by
    rw [← Real.sin_pi_div_four, show Real.pi / 4 = 2 * (Real.pi / 8) by ring, Real.sin_two_mul]; ring
  unfold genericMatrix
  rw [Real.cos_pi, Real.sin_pi]
  ext i j
  fin_cases i <;> fin_cases j
  · show (_ : ℂ) = _
    simp only [Matrix.of_apply, Matrix.cons_val', Matrix.cons_val_zero, Matrix.cons_val_one, Fin.zero_eta, Fin.mk_one]
    rw [← h1]; push_cast; ring
  · simp only [Matrix.of_apply, Matrix.cons_val', Matrix.cons_val_zero, Matrix.cons_val_one, Fin.zero_eta, Fin.mk_one]
    rw [← h2]; push_cast; ring
  · simp only [Matrix.of_apply, Matrix.cons_val', Matrix.cons_val_zero, Matrix.cons_val_one, Fin.zero_eta, Fin.mk_one]
    rw [← h2]; push_cast; ring
  · simp only [Matrix.of_apply, Matrix.cons_val', Matrix.cons_val_zero, Matrix.cons_val_one, Fin.zero_eta, Fin.mk_one]
    rw [← h1]; push_cast; ring

theorem mix_step {a b : ℕ} (hne : a ≠ b) (u : ℕ → ℂ) :
    fieldStep u ⟨genericMatrix (Real.pi / 8) Real.pi, a, b⟩ a = ((Real.sqrt 2 / 2 : ℝ) : ℂ) * (u a + u b) ∧
    fieldStep u ⟨genericMatrix (Real.pi / 8) Real.pi, a, b⟩ b = ((Real.sqrt 2 / 2 : ℝ) : ℂ) * (u a - u b) := by
  rw [mixMatrix]
  constructor
  · simp only [fieldStep, if_true, Matrix.of_apply, Matrix.cons_val', Matrix.cons_val_zero, Matrix.cons_val_one]
    ring
  · simp only [fieldStep, if_true, if_neg hne.symm, Matrix.of_apply, Matrix.cons_val', Matrix.cons_val_zero, Matrix.cons_val_one]
    ring

/-- the phase shifter multiplies the field of its channel -/
theorem phase_step {h b : ℕ} (hne : h ≠ b) (φ : ℝ) (u : ℕ → ℂ) (j : ℕ) :
    fieldStep u ⟨genericMatrix 0 φ, h, b⟩ j = if j = b then ((Real.cos φ : ℂ) + Complex.I * (Real.sin φ : ℂ)) * u b else u j := by
  have hm : genericMatrix 0 φ = !![1, 0; 0, (Real.cos φ : ℂ) + Complex.I * (Real.sin φ : ℂ)] := by
    unfold genericMatrix
    simp
  rw [hm]
  by_cases h1 : j = h
  · subst h1
    simp [fieldStep, hne]
  · by_cases h2 : j = b
    · subst h2; simp [fieldStep, h1]
    · simp [fieldStep, h1, h2]

theorem fringe_a (φ : ℝ) (s : ℂ) (hs : s * s = 1 / 2) :
    ‖s * (s * (1 + 0) + ((Real.cos φ : ℂ) + Complex.I * (Real.sin φ : ℂ)) * (s * (1 - 0)))‖ ^ 2 = Real.cos (φ / 2) ^ 2 := by
  have e : s * (s * (1 + 0) + ((Real.cos φ : ℂ) + Complex.I * (Real.sin φ : ℂ)) * (s * (1 - 0))) = ⟨(1 + Real.cos φ) / 2, Real.sin φ / 2⟩ := by
    rw [show s * (s * (1 + 0) + ((Real.cos φ : ℂ) + Complex.I * (Real.sin φ : ℂ)) * (s * (1 - 0))) = (s * s) * (1 + ((Real.cos φ : ℂ) + Complex.I * (Real.sin φ : ℂ))) by ring, hs]
    apply Complex.ext <;> simp [-Complex.ofReal_cos, -Complex.ofReal_sin] <;> ring
  rw [e, Complex.sq_norm, Complex.normSq_mk, Real.cos_sq, show 2 * (φ / 2) = φ by ring]
  nlinarith [Real.sin_sq_add_cos_sq φ]

theorem fringe_b (φ : ℝ) (s : ℂ) (hs : s * s = 1 / 2) :
    ‖s * (s * (1 + 0) - ((Real.cos φ : ℂ) + Complex.I * (Real.sin φ : ℂ)) * (s * (1 - 0)))‖ ^ 2 = Real.sin (φ / 2) ^ 2 := by
  have e : s * (s * (1 + 0) - ((Real.cos φ : ℂ) + Complex.I * (Real.sin φ : ℂ)) * (s * (1 - 0))) = ⟨(1 - Real.cos φ) / 2, -Real.sin φ / 2⟩ := by
    rw [show s * (s * (1 + 0) - ((Real.cos φ : ℂ) + Complex.I * (Real.sin φ : ℂ)) * (s * (1 - 0))) = (s * s) * (1 - ((Real.cos φ : ℂ) + Complex.I * (Real.sin φ : ℂ))) by ring, hs]
    apply Complex.ext <;> simp [-Complex.ofReal_cos, -Complex.ofReal_sin] <;> ring
  rw [e, Complex.sq_norm, Complex.normSq_mk, Real.sin_sq_eq_half_sub, show 2 * (φ / 2) = φ by ring]
  nlinarith [Real.sin_sq_add_cos_sq φ]

/-- **C118 (partial)** Mach-Zehnder interferometer: a photon sent into channel `a` of a 50/50 beam splitter, phase shift `φ` in channel `b`, a second 50/50 beam
splitter and a measurement of both channels: it is found in `a` with probability cos²(φ/2) and in `b` with probability sin²(φ/2), for all `φ`
(0 instead of a probability below the threshold). Missing: first channel >= 2 and second channel 0 (C07). -/
theorem C118_mach_zehnder_partial (env : ℕ → Circ) (rnd : ℕ → ℕ → Bool → ℕ → ℕ → ℕ) (j : ℕ) (c : Circ) (hc : env j = c) (hg : c.g.Ok) (hL : 2 ≤ c.g.L) (ht : 0 < c.thr)
    (a b : ℕ) (ha : a < c.g.C) (hb : b < c.g.C) (hne : a ≠ b) (ho : ¬ (2 ≤ a ∧ b = 0)) (φ : ℝ) (mix phase : Opt × List ℕ)
    (hmix : mix5050 c.g a b = some mix) (hphase : phaseShift c.g b φ = some phase)
    (x y : ℕ) (hx : x < c.m) (hy : y < c.m) (hxy : x ≠ y) (hk : c.nodes = opticals [mix, phase, mix] ++ [.measurement [a, b] [x, y]])
    (id : List Char) (q : QState) (hq : Measurable c.g c.m q) (hcomps : q.comps ≠ []) (hs : SinglePhoton c.g q (fieldIn a)) (fuel : ℕ) (hf : 4 < fuel) :
    ∃ out, evalAll env rnd fuel j [(id, q)] = some out ∧
      probOf out (fun s => s.initial = q.initial ∧ s.classical[x]? = some 1 ∧ s.classical[y]? = some 0)
        = q.cum * (if c.thr ≤ Real.cos (φ / 2) ^ 2 then Real.cos (φ / 2) ^ 2 else 0) ∧
      probOf out (fun s => s.initial = q.initial ∧ s.classical[x]? = some 0 ∧ s.classical[y]? = some 1)
        = q.cum * (if c.thr ≤ Real.sin (φ / 2) ^ 2 then Real.sin (φ / 2) ^ 2 else 0) := by
  classical
  obtain ⟨h, hh, hhb, hph⟩ : ∃ h, h < c.g.C ∧ h ≠ b ∧ GateNode c.g ⟨genericMatrix 0 φ, h, b⟩ phase := by
    have hC := hg.2
    unfold phaseShift at hphase
    by_cases hb0 : b = 0
    · rw [if_pos hb0] at hphase
      subst hb0
      exact ⟨1, by omega, by omega, gateNode_of (by omega) (by omega) (by omega) (by omega) hphase⟩
    · rw [if_neg hb0] at hphase
      exact ⟨0, by omega, fun e => hb0 e.symm, gateNode_of (by omega) hb (fun e => hb0 e.symm) (by omega) hphase⟩
  have hmn : GateNode c.g ⟨genericMatrix (Real.pi / 8) Real.pi, a, b⟩ mix := gateNode_of ha hb hne ho hmix
  have hu : LosslessElements c.g [⟨genericMatrix (Real.pi / 8) Real.pi, a, b⟩, ⟨genericMatrix 0 φ, h, b⟩, ⟨genericMatrix (Real.pi / 8) Real.pi, a, b⟩] [mix, phase, mix] := by
    refine ⟨.cons hmn (.cons hph (.cons hmn .nil)), ?_⟩
    intro e he
    simp only [List.mem_cons, List.not_mem_nil, or_false] at he
    rcases he with rfl | rfl | rfl
    · exact (C17_wave_plate _ _ 0).1
    · exact (C17_wave_plate _ _ 0).1
    · exact (C17_wave_plate _ _ 0).1
  obtain ⟨out, h1, h2⟩ := C118_field_partial env rnd j c hc hg hL ht _ mix [phase, mix] hu [a, b] [x, y] hk rfl (by simp [hxy])
    (by simp [hx, hy]) id q hq hcomps (fieldIn a) hs fuel (by simpa using hf)
  refine ⟨out, h1, ?_⟩
  set f := fieldAfter [⟨genericMatrix (Real.pi / 8) Real.pi, a, b⟩, ⟨genericMatrix 0 φ, h, b⟩, ⟨genericMatrix (Real.pi / 8) Real.pi, a, b⟩] (fieldIn a) with hfd
  have hsq : ((Real.sqrt 2 / 2 : ℝ) : ℂ) * ((Real.sqrt 2 / 2 : ℝ) : ℂ) = 1 / 2 := by
    rw [← Complex.ofReal_mul, show Real.sqrt 2 / 2 * (Real.sqrt 2 / 2) = (Real.sqrt 2 * Real.sqrt 2) / 4 by ring, Real.mul_self_sqrt (by norm_num)]
    push_cast; norm_num
  have fa : ‖f a‖ ^ 2 = Real.cos (φ / 2) ^ 2 := by
    rw [← fringe_a φ _ hsq, hfd]
    show ‖fieldStep (fieldStep (fieldStep (fieldIn a) _) _) _ a‖ ^ 2 = _
    rw [(mix_step hne _).1, phase_step hhb, phase_step hhb, if_neg hne, if_pos rfl, (mix_step hne _).1, (mix_step hne _).2]
    simp [fieldIn, hne.symm]
  have fb : ‖f b‖ ^ 2 = Real.sin (φ / 2) ^ 2 := by
    rw [← fringe_b φ _ hsq, hfd]
    show ‖fieldStep (fieldStep (fieldStep (fieldIn a) _) _) _ b‖ ^ 2 = _
    rw [(mix_step hne _).2, phase_step hhb, phase_step hhb, if_neg hne, if_pos rfl, (mix_step hne _).1, (mix_step hne _).2]
    simp [fieldIn, hne.symm]
  have e1 := h2 [1, 0]
  have e2 := h2 [0, 1]
  rw [(pair_sum ha hb hne c.thr f).1, fa] at e1
  rw [(pair_sum ha hb hne c.thr f).2, fb] at e2
  have sh : ∀ (s : QState) (p r : ℕ), Shown ([x, y].map (fun n : ℕ => (n : ℤ))) s ([p, r].map (fun n : ℕ => (n : ℝ))) ↔
      s.classical[x]? = some (p : ℝ) ∧ s.classical[y]? = some (r : ℝ) := by
    intro s p r
    simp [Shown, pyGet_nat]
  simp only [sh] at e1 e2
  refine ⟨?_, ?_⟩
  · rw [← e1]; simp
  · rw [← e2]; simp

/-- **C118 (partial)** Polarization (Malus): a photon in channel `a` sent through a half-wave plate at angle `θ` on the channels `a` and `b`, followed by a
measurement of both channels: it is found in `a` with probability cos²(2θ) and in `b` with probability sin²(2θ), for all `θ` (0 instead of a
probability below the threshold). Missing: first channel >= 2 and second channel 0 (C07). -/
theorem C118_malus_partial (env : ℕ → Circ) (rnd : ℕ → ℕ → Bool → ℕ → ℕ → ℕ) (j : ℕ) (c : Circ) (hc : env j = c) (hg : c.g.Ok) (hL : 2 ≤ c.g.L) (ht : 0 < c.thr)
    (a b : ℕ) (ha : a < c.g.C) (hb : b < c.g.C) (hne : a ≠ b) (ho : ¬ (2 ≤ a ∧ b = 0)) (θ : ℝ) (plate : Opt × List ℕ)
    (hplate : halfWavePlate c.g a b θ = some plate)
    (x y : ℕ) (hx : x < c.m) (hy : y < c.m) (hxy : x ≠ y) (hk : c.nodes = opticals [plate] ++ [.measurement [a, b] [x, y]])
    (id : List Char) (q : QState) (hq : Measurable c.g c.m q) (hcomps : q.comps ≠ []) (hs : SinglePhoton c.g q (fieldIn a)) (fuel : ℕ) (hf : 2 < fuel) :
    ∃ out, evalAll env rnd fuel j [(id, q)] = some out ∧
      probOf out (fun s => s.initial = q.initial ∧ s.classical[x]? = some 1 ∧ s.classical[y]? = some 0)
        = q.cum * (if c.thr ≤ Real.cos (2 * θ) ^ 2 then Real.cos (2 * θ) ^ 2 else 0) ∧
      probOf out (fun s => s.initial = q.initial ∧ s.classical[x]? = some 0 ∧ s.classical[y]? = some 1)
        = q.cum * (if c.thr ≤ Real.sin (2 * θ) ^ 2 then Real.sin (2 * θ) ^ 2 else 0) := by
  classical
  have hmn : GateNode c.g ⟨genericMatrix θ Real.pi, a, b⟩ plate := gateNode_of ha hb hne ho hplate
  have hu : LosslessElements c.g [⟨genericMatrix θ Real.pi, a, b⟩] [plate] := by
    refine ⟨.cons hmn .nil, ?_⟩
    intro e he
    rw [List.mem_singleton.1 he]
    exact (C17_wave_plate _ _ 0).1
  obtain ⟨out, h1, h2⟩ := C118_field_partial env rnd j c hc hg hL ht _ plate [] hu [a, b] [x, y] hk rfl (by simp [hxy])
    (by simp [hx, hy]) id q hq hcomps (fieldIn a) hs fuel (by simpa using hf)
  refine ⟨out, h1, ?_⟩
  have fa : ‖fieldAfter [⟨genericMatrix θ Real.pi, a, b⟩] (fieldIn a) a‖ ^ 2 = Real.cos (2 * θ) ^ 2 := by
    have : fieldAfter [⟨genericMatrix θ Real.pi, a, b⟩] (fieldIn a) a = ((Real.cos (2 * θ) : ℝ) : ℂ) := by
      show fieldStep (fieldIn a) _ a = _
      rw [Real.cos_two_mul', genericMatrix, Real.cos_pi, Real.sin_pi]
      simp only [fieldStep, fieldIn, if_true, if_neg hne.symm, Matrix.of_apply, Matrix.cons_val', Matrix.cons_val_zero, Matrix.cons_val_one]
      push_cast; ring
    rw [this, Complex.norm_real, Real.norm_eq_abs, sq_abs]
  have fb : ‖fieldAfter [⟨genericMatrix θ Real.pi, a, b⟩] (fieldIn a) b‖ ^ 2 = Real.sin (2 * θ) ^ 2 := by
    have : fieldAfter [⟨genericMatrix θ Real.pi, a, b⟩] (fieldIn a) b = ((Real.sin (2 * θ) : ℝ) : ℂ) := by
      show fieldStep (fieldIn a) _ b = _
      rw [Real.sin_two_mul, genericMatrix, Real.cos_pi, Real.sin_pi]
      simp only [fieldStep, fieldIn, if_true, if_neg hne.symm, Matrix.of_apply, Matrix.cons_val', Matrix.cons_val_zero, Matrix.cons_val_one]
      push_cast; ring
    rw [this, Complex.norm_real, Real.norm_eq_abs, sq_abs]
  have e1 := h2 [1, 0]
  have e2 := h2 [0, 1]
  rw [(pair_sum ha hb hne c.thr _).1, fa] at e1
  rw [(pair_sum ha hb hne c.thr _).2, fb] at e2
  have sh : ∀ (s : QState) (p r : ℕ), Shown ([x, y].map (fun n : ℕ => (n : ℤ))) s ([p, r].map (fun n : ℕ => (n : ℝ))) ↔
      s.classical[x]? = some (p : ℝ) ∧ s.classical[y]? = some (r : ℝ) := by
    intro s p r
    simp [Shown, pyGet_nat]
  simp only [sh] at e1 e2
  refine ⟨?_, ?_⟩
  · rw [← e1]; simp
  · rw [← e2]; simp

/-! ### The hypotheses are met -/

section NonVacuity

/-- three channels, at most one photon each -/
def bornCfg : Cfg := ⟨2, 3, true⟩

/-- one photon in channel 1 -/
noncomputable def bornState : QState := ⟨['0', '1', '0'], 1, [(['0', '1', '0'], ⟨1, 1⟩)], [0, 0], []⟩

theorem bornState_ok : Measurable bornCfg 2 bornState ∧ SinglePhoton bornCfg bornState (fieldIn 1) := by
  have hv : Valid bornCfg [0, 1, 0] := by decide
  have hn : IsName bornCfg [0, 1, 0] ['0', '1', '0'] := (isName_iff hv).2 (by decide)
  refine ⟨⟨⟨by simp [bornState], ?_⟩, ?_, ?_, by norm_num [bornState], by norm_num [bornState], by simp [bornState]⟩, ?_, ?_⟩
  · intro p hp
    rw [List.mem_singleton.1 hp]
    exact ⟨_, hv, hn⟩
  · intro p hp
    rw [List.mem_singleton.1 hp]
    simp
  · simp [bornState, totalProb]
  · intro p hp v hv' hn'
    rw [List.mem_singleton.1 hp] at hn'
    have : v = [0, 1, 0] := bornCfg.stdName_inj hv'.2 hv.2 (by rw [← (isName_iff hv').1 hn', ← (isName_iff hv).1 hn])
    rw [this]; rfl
  · intro j hj nm hnm
    have hj3 : j = 0 ∨ j = 1 ∨ j = 2 := by have : j < 3 := hj; omega
    rcases hj3 with rfl | rfl | rfl
    · rw [(isName_iff (by decide)).1 hnm, show bornCfg.stdName (onePhoton bornCfg.C 0) = ['1', '0', '0'] by decide]
      simp [ampOf, bornState, Dict.get?, fieldIn]
    · rw [(isName_iff (by decide)).1 hnm, show bornCfg.stdName (onePhoton bornCfg.C 1) = ['0', '1', '0'] by decide]
      simp [ampOf, bornState, Dict.get?, fieldIn]
    · rw [(isName_iff (by decide)).1 hnm, show bornCfg.stdName (onePhoton bornCfg.C 2) = ['0', '0', '1'] by decide]
      simp [ampOf, bornState, Dict.get?, fieldIn]

theorem bornOk : bornCfg.Ok := by decide

/-- C118: the interferometer on channels 1 and 2 of three channels, for every phase; C117 for the same circuit. -/
example (φ : ℝ) : ∃ (mix phase : Opt × List ℕ) (c : Circ), c.g = bornCfg ∧ c.nodes = opticals [mix, phase, mix] ++ [.measurement [1, 2] [0, 1]] ∧
    ∃ out, evalAll (fun _ => c) (fun _ _ _ _ _ => 0) 5 0 [(['x'], bornState)] = some out ∧
      probOf out (fun s => s.initial = ['0', '1', '0'] ∧ s.classical[0]? = some 1 ∧ s.classical[1]? = some 0)
        = 1 * (if (1 / 1000 : ℝ) ≤ Real.cos (φ / 2) ^ 2 then Real.cos (φ / 2) ^ 2 else 0) := by
  obtain ⟨mix, hmix⟩ : ∃ mix, mix5050 bornCfg 1 2 = some mix := ⟨_, rfl⟩
  obtain ⟨phase, hphase⟩ : ∃ phase, phaseShift bornCfg 2 φ = some phase := ⟨_, rfl⟩
  refine ⟨mix, phase, ⟨bornCfg, 2, 1 / 1000, true, opticals [mix, phase, mix] ++ [.measurement [1, 2] [0, 1]]⟩, rfl, rfl, ?_⟩
  obtain ⟨out, h1, h2, -⟩ := C118_mach_zehnder_partial (fun _ => ⟨bornCfg, 2, 1 / 1000, true, opticals [mix, phase, mix] ++ [.measurement [1, 2] [0, 1]]⟩)
    (fun _ _ _ _ _ => 0) 0 _ rfl bornOk (by decide : 2 ≤ bornCfg.L) (by norm_num) 1 2 (by decide : 1 < bornCfg.C) (by decide : 2 < bornCfg.C) (by decide) (by decide) φ mix phase hmix hphase 0 1 (by decide : 0 < 2) (by decide : 1 < 2)
    (by decide) rfl ['x'] bornState bornState_ok.1 (by simp [bornState]) bornState_ok.2 5 (by decide)
  exact ⟨out, h1, h2⟩

example (θ : ℝ) : ∃ (plate : Opt × List ℕ) (c : Circ), c.g = bornCfg ∧ c.nodes = opticals [plate] ++ [.measurement [1, 2] [0, 1]] ∧
    ∃ out, evalAll (fun _ => c) (fun _ _ _ _ _ => 0) 3 0 [(['x'], bornState)] = some out ∧
      probOf out (fun s => s.initial = ['0', '1', '0'] ∧ s.classical[0]? = some 1 ∧ s.classical[1]? = some 0)
        = 1 * (if (1 / 1000 : ℝ) ≤ Real.cos (2 * θ) ^ 2 then Real.cos (2 * θ) ^ 2 else 0) := by
  obtain ⟨plate, hplate⟩ : ∃ plate, halfWavePlate bornCfg 1 2 θ = some plate := ⟨_, rfl⟩
  refine ⟨plate, ⟨bornCfg, 2, 1 / 1000, true, opticals [plate] ++ [.measurement [1, 2] [0, 1]]⟩, rfl, rfl, ?_⟩
  obtain ⟨out, h1, h2, -⟩ := C118_malus_partial (fun _ => ⟨bornCfg, 2, 1 / 1000, true, opticals [plate] ++ [.measurement [1, 2] [0, 1]]⟩)
    (fun _ _ _ _ _ => 0) 0 _ rfl bornOk (by decide : 2 ≤ bornCfg.L) (by norm_num) 1 2 (by decide : 1 < bornCfg.C) (by decide : 2 < bornCfg.C) (by decide) (by decide) θ plate hplate 0 1 (by decide : 0 < 2) (by decide : 1 < 2)
    (by decide) rfl ['x'] bornState bornState_ok.1 (by simp [bornState]) bornState_ok.2 3 (by decide)
  exact ⟨out, h1, h2⟩

/-- C117: one element with any unitary matrix on channels 1 and 2, two input states with different labels and probabilities. -/
example (M : Opt) (hM : M ∈ Matrix.unitaryGroup (Fin 2) ℂ) : ∃ out d,
    evalAll (fun _ => ⟨bornCfg, 2, 1 / 1000, true, opticals [(M, [1, 2, 0])] ++ [.measurement [1, 2] [0, 1]]⟩) (fun _ _ _ _ _ => 0) 3 0
      [(['x'], bornState), (['y'], { bornState with initial := ['0'], cum := 1 / 3 })] = some out ∧ histogram bornCfg 2 [] [0, 1] out = some d := by
  have hsend : ∀ q : QState, q.comps = bornState.comps → q.cum = 1 ∨ q.cum = 1 / 3 → q.classical = [0, 0] → Sendable bornCfg 2 q := by
    intro q h1 h2 h3
    obtain ⟨⟨a1, a2, a3, a4, a5, a6⟩, a7⟩ := bornState_ok
    refine ⟨⟨h1 ▸ a1, h1 ▸ a2, h1 ▸ a3, ?_, ?_, by simp [h3]⟩, by simp [h1, bornState], fun p hp v hv hval => ?_⟩
    · rcases h2 with h | h <;> rw [h] <;> norm_num
    · rcases h2 with h | h <;> rw [h] <;> norm_num
    · rw [a7.one p (h1 ▸ hp) v hval hv]; decide
  obtain ⟨out, d, h1, h2, -⟩ := C117_histogram_partial (fun _ => ⟨bornCfg, 2, 1 / 1000, true, opticals [(M, [1, 2, 0])] ++ [.measurement [1, 2] [0, 1]]⟩)
    (fun _ _ _ _ _ => 0) 0 _ rfl bornOk (by norm_num) [⟨M, 1, 2⟩] (M, [1, 2, 0]) []
    ⟨.cons ⟨(by decide : 1 < bornCfg.C), (by decide : 2 < bornCfg.C), (by decide : 1 ≠ 2), (by decide : ¬ (2 ≤ 1 ∧ 2 = 0)), rfl, (show tensorList 3 [1, 2] = some [1, 2, 0] by decide)⟩ .nil, by simpa using hM⟩ [1, 2] [0, 1] rfl rfl (by decide) (by decide : ∀ x ∈ [0, 1], x < 2) (by decide)
    [(['x'], bornState), (['y'], { bornState with initial := ['0'], cum := 1 / 3 })] (by decide)
    (by
      intro p hp
      simp only [List.mem_cons, List.not_mem_nil, or_false] at hp
      rcases hp with rfl | rfl
      · exact hsend _ rfl (Or.inl rfl) rfl
      · exact hsend _ rfl (Or.inr rfl) rfl) 3 (by decide)
  exact ⟨out, d, h1, h2⟩

end NonVacuity

end Verif.Props
