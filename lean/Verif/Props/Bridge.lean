/-
Property C88: what a bridge does to the states.
-/
import Verif.Lemmas.Bridge2
import Verif.Props.Evaluate
import Verif.Props.Reduce

namespace Verif.Props
open Verif Spec

theorem arrives_of {c next : Circ} (hleft : next.g.left = c.g.left) {s s1 : VS} {v : Vals} (h : ArrV c next s v s1) (hgood : s.Good c.g c.m)
    (hgood' : s1.Good ⟨next.g.L, next.g.C, c.g.left⟩ c.m) :
    Arrives c next (s.toQ c.g) v ((s1.setCls next.m).toQ ⟨next.g.L, next.g.C, c.g.left⟩) := by
  have hcfg : (⟨next.g.L, next.g.C, c.g.left⟩ : Cfg) = next.g := by rw [← hleft]
  rw [hcfg] at hgood' ⊢
  refine ⟨h.initial, h.results, h.cum, ?_, ?_, ?_⟩
  · show (List.range next.m).map (fun n => s1.classical.getD n 0) = _
    rw [h.classical]; rfl
  · show totalProb (enc next.g s1.l) = 1
    rw [totalProb_enc, hgood'.total]
  · intro w n n' hw hs hv hn hn'
    rw [isName_iff hw] at hn
    subst hn
    show ampOf (enc next.g s1.l) n' = ampOf (enc c.g s.l) _ * _
    rw [ampOf_enc hgood.ok.valid hw, ← h.amps w hw hs]
    rw [isName_iff hv] at hn'
    subst hn'
    exact ampOf_enc hgood'.ok.valid hv

/-- **C88** A bridge brings every state of a collection of valid normalised states into the next circuit: for every choice of photon
numbers in the channels that the next circuit does not have (one choice if it has them all) with non-zero probability, the corresponding
part of the state arrives, and nothing else does; probability is conserved for every initial state, and the result is again a collection of
valid normalised states. Required: the same naming convention, photon numbers that the next circuit allows, at least one classical
channel in the next circuit if there are any, and, if channels are added, cumulative probabilities not below the threshold. -/
theorem C88_bridge_partial (c next : Circ) (hg : c.g.Ok) (hg' : next.g.Ok) (hleft : next.g.left = c.g.left) (hthr : 0 < c.thr)
    (hm : 0 < next.m ∨ c.m = 0) (coll : Coll) (hne : coll ≠ []) (hc : Normalised c.g c.m coll) (hz : NoZeros coll)
    (hfit : PhotonsFit c next coll)
    (hbig : c.g.C < next.g.C ∨ c.m < next.m → ∀ p ∈ coll, ∀ v, Valid c.g v → lostProb c next p.2 v ≠ 0 → c.thr ≤ p.2.cum * lostProb c next p.2 v)
    (r r' : ℕ → ℕ → ℕ) :
    ∃ out, reshape c next r r' coll = some out ∧ out.g = next.g ∧ out.m = next.m ∧ out.thr = c.thr ∧
      Normalised next.g next.m out.states ∧ NoZeros out.states ∧
      (∀ e ∈ out.states, ∃ p ∈ coll, ∃ v, Valid c.g v ∧ lostProb c next p.2 v ≠ 0 ∧ Arrives c next p.2 v e.2) ∧
      (∀ p ∈ coll, ∀ v, Valid c.g v → lostProb c next p.2 v ≠ 0 → ∃ e ∈ out.states, Arrives c next p.2 v e.2) ∧
      ∀ label, labelTotal label out.states = labelTotal label coll := by
  obtain ⟨vs, hvs⟩ := exists_reps (thr := c.thr) hc hz
  have hfit' : ∀ s ∈ vs, ∀ p ∈ s.l, ∀ x ∈ p.1, x < next.g.L := by
    intro s hs p hp x hx
    obtain ⟨q, hq, e⟩ := hvs.of_mem hs
    have hv := (hvs.good s hs).ok.valid p hp
    refine hfit q hq (c.g.stdName p.1) ?_ p.1 hv ((isName_iff hv).2 rfl) x hx
    rw [e]
    exact List.mem_map.2 ⟨(c.g.stdName p.1, p.2), List.mem_map.2 ⟨p, hp, rfl⟩, rfl⟩
  have harr : c.g.C < next.g.C ∨ c.m < next.m → ∀ s ∈ vs, ∀ s' ∈ s.optical c next, c.thr ≤ s'.cum := by
    intro hcond s hs s' hs'
    obtain ⟨v, hv, hP, ha⟩ := arrV_source hg (hvs.good s hs) hs'
    obtain ⟨q, hq, e⟩ := hvs.of_mem hs
    have := hbig hcond q hq v hv (by rw [e]; exact hP)
    rw [e] at this
    rw [ha.cum]; exact this
  obtain ⟨out, h1, og, om, ot, hr⟩ := reshape_reps hg hg' hthr hm hvs hne hfit' (by
    intro hC s hs
    have hlong : s.optical c next = [s.pad (next.g.C - c.g.C) 0] := by rw [VS.optical, if_pos hC]
    have := harr (Or.inl hC) s hs (s.pad (next.g.C - c.g.C) 0) (by rw [hlong]; simp)
    exact this) (fun hmm => harr (Or.inr hmm)) r r'
  have hcfg : (⟨next.g.L, next.g.C, c.g.left⟩ : Cfg) = next.g := by rw [← hleft]
  have hgood1 : ∀ s ∈ vs, ∀ s1 ∈ s.optical c next, s1.Good ⟨next.g.L, next.g.C, c.g.left⟩ c.m := by
    intro s hs s1 hs1
    have h2 := hr.good (s1.setCls next.m) (List.mem_flatMap.2 ⟨s, hs, List.mem_map.2 ⟨s1, hs1, rfl⟩⟩)
    rw [og] at h2
    have h3 := optical_good hg (hvs.good s hs) s1 hs1
    exact ⟨h2.ok, h3.total, h3.probs, h3.nz, h3.cum0, h3.cum1, h3.cls⟩
  have hnorm := hr.normalised
  rw [og, om, hcfg] at hnorm
  refine ⟨out, h1, by rw [og, hcfg], om, ot, hnorm.1, hnorm.2, ?_, ?_, ?_⟩
  · intro e he
    obtain ⟨s2, hs2, e2⟩ := hr.mem he
    obtain ⟨s, hs, hs2⟩ := List.mem_flatMap.1 hs2
    obtain ⟨s1, hs1, rfl⟩ := List.mem_map.1 hs2
    obtain ⟨v, hv, hP, ha⟩ := arrV_source hg (hvs.good s hs) hs1
    obtain ⟨q, hq, eq⟩ := hvs.of_mem hs
    refine ⟨q, hq, v, hv, by rw [eq]; exact hP, ?_⟩
    rw [eq, e2, og]
    exact arrives_of hleft ha (hvs.good s hs) (hgood1 s hs s1 hs1)
  · intro p hp v hv hP
    obtain ⟨s, hs, e⟩ := hvs.mem hp
    have hP' : lostProb c next (s.toQ c.g) v ≠ 0 := by rw [e] at hP; exact hP
    obtain ⟨s1, hs1, ha⟩ := arrV_target (hvs.good s hs) hv hP'
    obtain ⟨q, hq, eq⟩ := hr.of_mem (List.mem_flatMap.2 ⟨s, hs, List.mem_map.2 ⟨s1, hs1, rfl⟩⟩)
    refine ⟨q, hq, ?_⟩
    rw [e, eq, og]
    exact arrives_of hleft ha (hvs.good s hs) (hgood1 s hs s1 hs1)
  · intro label
    have h2 := hvs.labelTotal label
    simp only at h2
    rw [hr.labelTotal, h2]
    clear * - hvs
    have hgood := hvs.good
    clear hvs
    induction vs with
    | nil => rfl
    | cons s vs ih =>
      rw [List.flatMap_cons, List.map_append, List.sum_append, List.map_cons, List.sum_cons, ih (fun s hs => hgood s (by simp [hs]))]
      congr 1
      rw [List.map_map]
      have h3 := optical_sum (next := next) (hgood s (by simp))
      by_cases hl : s.initial = label
      · rw [if_pos hl, ← h3]
        congr 1
        apply List.map_congr_left
        intro s1 hs1
        show (if s1.initial = label then s1.cum else 0) = _
        rw [optical_initial hs1, if_pos hl]
      · rw [if_neg hl]
        apply List.sum_eq_zero
        intro x hx
        obtain ⟨s1, hs1, rfl⟩ := List.mem_map.1 hx
        show (if s1.initial = label then s1.cum else 0) = _
        rw [optical_initial hs1, if_neg hl]

/-- three channels and two classical ones, followed by two channels with up to two photons and one classical channel -/
noncomputable def threeCirc : Circ := ⟨g₃, 2, 1 / 10000, false, []⟩
noncomputable def twoCirc : Circ := ⟨⟨3, 2, true⟩, 1, 1 / 10000, false, []⟩

/-- the entangled state of `Props/Reduce` satisfies the hypotheses; the part with no photon in the third channel arrives with probability 9/25 -/
example : ∃ out, reshape threeCirc twoCirc (fun _ _ => 0) (fun _ _ => 0) [("a".toList, ent)] = some out ∧
    ∃ e ∈ out.states, e.2.cum = 9 / 25 ∧ e.2.classical = [5] ∧ ampOf e.2.comps "10".toList = 1 := by
  have hmem : ∀ p ∈ [("a".toList, ent)], p = ("a".toList, ent) := by simp
  obtain ⟨out, h1, -, -, -, -, -, -, h3, -⟩ := C88_bridge_partial threeCirc twoCirc (by decide) (by decide) rfl (by norm_num [threeCirc]) (Or.inl (by simp [twoCirc]))
    [("a".toList, ent)] (by simp) ⟨by simp, by
      intro p hp
      obtain rfl := hmem p hp
      refine ⟨⟨ent_wf, ?_, ent_total.le, by norm_num [ent], by norm_num [ent], rfl⟩, ent_total⟩
      intro c hc
      simp only [ent, List.mem_cons, List.not_mem_nil, or_false] at hc
      rcases hc with rfl | rfl <;> norm_num⟩ (by
      intro p hp c hc
      obtain rfl := hmem p hp
      simp only [ent, List.mem_cons, List.not_mem_nil, or_false] at hc
      rcases hc with rfl | rfl <;> norm_num) (by
      intro p _ s _ v hv _ x hx
      have := hv.2 x hx
      have h2 : x < 2 := this
      show x < 3
      omega) (by
      rintro (h | h)
      · exact absurd h (by decide)
      · exact absurd h (by simp [threeCirc, twoCirc])) (fun _ _ => 0) (fun _ _ => 0)
  have hv : Valid threeCirc.g [1, 0, 0] := ⟨rfl, by decide⟩
  have hv2 : Valid threeCirc.g [0, 1, 1] := ⟨rfl, by decide⟩
  have hP : lostProb threeCirc twoCirc ent [1, 0, 0] = 9 / 25 := by
    have e1 : (∃ w, Valid g₃ w ∧ IsName g₃ w "100".toList ∧ SameOutside g₃ (List.range 2) [1, 0, 0] w) := by
      exact ⟨[1, 0, 0], hv, (isName_iff hv).2 rfl, fun _ _ _ => rfl⟩
    have e2 : ¬ (∃ w, Valid g₃ w ∧ IsName g₃ w "011".toList ∧ SameOutside g₃ (List.range 2) [1, 0, 0] w) := by
      rintro ⟨w, hw, hn, hs⟩
      rw [isName_iff hw] at hn
      have : w = [0, 1, 1] := g₃.stdName_inj hw.2 hv2.2 (hn.symm.trans rfl)
      subst this
      have := hs 2 (by decide) (by decide)
      simp at this
    show outsideProb g₃ (List.range 2) ent.comps [1, 0, 0] = _
    simp only [outsideProb, ent, List.map_cons, List.map_nil, List.sum_cons, List.sum_nil]
    rw [if_pos e1, if_neg e2]
    norm_num
  obtain ⟨e, he, ha⟩ := h3 ("a".toList, ent) (by simp) [1, 0, 0] hv (by rw [hP]; norm_num)
  refine ⟨out, h1, e, he, ?_, ?_, ?_⟩
  · rw [ha.cum, hP]; norm_num [ent]
  · rw [ha.classical]; simp [twoCirc, ent]
  · have hv' : Valid twoCirc.g [1, 0] := ⟨rfl, by decide⟩
    have := ha.amps [1, 0, 0] "100".toList "10".toList hv (fun _ _ _ => rfl) hv' ((isName_iff hv).2 rfl) ((isName_iff hv').2 rfl)
    rw [this, hP]
    have e3 : ampOf ent.comps "100".toList = 3 / 5 := by simp [ampOf, ent, Dict.get?]
    rw [e3, show (1 : ℝ) / (9 / 25) = (5 / 3) ^ 2 by norm_num, Real.sqrt_sq (by norm_num)]
    push_cast
    norm_num

/-- **C88** violated for a next circuit without classical channels: all classical values arrive instead of none. -/
theorem C88_no_classical_fails (c next : Circ) (hm : next.m = 0) (hm' : 0 < c.m) (hg' : next.g.Ok) (coll : Coll) (r r' : ℕ → ℕ → ℕ) (out : Collection)
    (h : reshape c next r r' coll = some out) (hne : out.states ≠ []) : out.m = c.m ∧ out.m ≠ next.m := by
  have hL : next.g.L ≠ 0 := by have := hg'.1; omega
  obtain ⟨states, b, d, h1, h2, h3, h4⟩ := reshape_parts.1 h
  obtain ⟨-, a2, -, a4⟩ := adjustLength_shape hL h4
  have hd : d.states ≠ [] := fun he => hne (a4 he)
  rw [if_neg (by omega), if_pos (by omega), hm] at h3
  obtain ⟨-, e2, e3⟩ := reduceColl_shape h3
  have hb : b.states ≠ [] := fun he => hd (by rw [e2 he]; exact he)
  have hbm : b.m = c.m := by
    split at h2
    · exact (extendColl_shape h2).2.1
    · split at h2
      · obtain ⟨-, f2, f3⟩ := reduceColl_shape h2
        have hs : states ≠ [] := fun he => hb (by rw [f2 he]; exact he)
        have := (f3 hs).2
        simpa using this
      · obtain rfl := Option.some.inj h2; rfl
  have : out.m = c.m := by
    rw [a2, (e3 hb).2, ← hbm]
    simp
  exact ⟨this, by omega⟩

/-- a circuit that only connects to circuit number 1 -/
noncomputable def onlyBridge : Circ := ⟨⟨2, 2, true⟩, 2, 1 / 10000, false, [.bridge 1]⟩
/-- a circuit with the other naming convention that measures both channels -/
noncomputable def reversedMeasure : Circ := ⟨⟨2, 2, false⟩, 2, 1 / 10000, false, [.measurement [0, 1] [0, 1]]⟩
/-- one photon in channel 1 -/
noncomputable def photonIn1 : Coll := [(['a'], ⟨['0', '1'], 1, [(['0', '1'], ⟨1, 1⟩)], [0, 0], []⟩)]

/-- **C88** violated for circuits with different naming conventions: a photon in channel 1 of the first circuit is found in channel 0 by the
measurement in the second. -/
theorem C88_names_fails : ∃ (env : ℕ → Circ) (coll : Coll), (∀ k, (env k).g.Ok) ∧ Normalised (env 0).g (env 0).m coll ∧
    (∃ i q, coll = [(i, q)] ∧ ∃ s, IsName (env 0).g [0, 1] s ∧ ampOf q.comps s = 1) ∧
    ∀ rnd fuel, 3 ≤ fuel → ∃ i q, evalAll env rnd fuel 0 coll = some [(i, q)] ∧ q.classical = [1, 0] := by
  refine ⟨fun k => if k = 0 then onlyBridge else reversedMeasure, photonIn1, ?_, ?_, ?_, ?_⟩
  · intro k; by_cases h : k = 0
    · simp only [if_pos h]; decide
    · simp only [if_neg h]; decide
  · refine ⟨by simp [photonIn1], ?_⟩
    intro p hp
    obtain rfl : p = (['a'], ⟨['0', '1'], 1, [(['0', '1'], ⟨1, 1⟩)], [0, 0], []⟩) := by simpa [photonIn1] using hp
    refine ⟨⟨?_, ?_, by simp [totalProb], by simp, by simp, by simp [onlyBridge]⟩, by simp [totalProb]⟩
    · exact wf_enc (g := ⟨2, 2, true⟩) (l := [([0, 1], ⟨1, 1⟩)]) ⟨by simp, by intro p hp; simp at hp; subst hp; exact ⟨rfl, by decide⟩⟩
    · intro p hp
      obtain rfl : p = (['0', '1'], ⟨1, 1⟩) := by simpa using hp
      simp
  · exact ⟨_, _, rfl, ['0', '1'], (isName_iff (g := ⟨2, 2, true⟩) (v := [0, 1]) ⟨rfl, by decide⟩).2 rfl, by simp [ampOf, Dict.get?]⟩
  · intro rnd fuel hf
    obtain ⟨f, rfl⟩ : ∃ f, fuel = f + 3 := ⟨fuel - 3, by omega⟩
    have hc : copyColl (1 / 10000) 2 photonIn1 = some photonIn1 := by
      refine (copyColl_iff (by simp [photonIn1])).2 ⟨?_, rfl⟩
      intro p hp
      obtain rfl : p = (['a'], ⟨['0', '1'], 1, [(['0', '1'], ⟨1, 1⟩)], [0, 0], []⟩) := by simpa [photonIn1] using hp
      norm_num [CheckValid]
    have h1 : Cfg.parse ⟨2, 2, true⟩ ['0', '1'] = some [0, 1] := by decide
    have h2 : Cfg.render ⟨2, 2, true⟩ [0, 1] = some ['0', '1'] := by decide
    have ha : adjustLength ⟨⟨2, 2, true⟩, 2, 1 / 10000, photonIn1⟩ 2 = some ⟨⟨2, 2, true⟩, 2, 1 / 10000, photonIn1⟩ := by
      norm_num [adjustLength, photonIn1, newState, Cfg.Ok, h1, h2, Dict.set, CheckValid]
    have hr : ∀ r r', reshape onlyBridge reversedMeasure r r' photonIn1 = some ⟨⟨2, 2, true⟩, 2, 1 / 10000, photonIn1⟩ := by
      intro r r'
      exact reshape_parts.2 ⟨photonIn1, _, _, hc, by rw [if_neg (by decide), if_neg (by decide)],
        by rw [if_neg (by simp [onlyBridge, reversedMeasure]), if_neg (by simp [onlyBridge, reversedMeasure])]; rfl, ha⟩
    have h3 : Cfg.parse ⟨2, 2, false⟩ ['0', '1'] = some [1, 0] := by decide
    have h4 : Cfg.render ⟨2, 2, false⟩ [1, 0] = some ['0', '1'] := by decide
    have h5 : Cfg.containsName ⟨2, 2, false⟩ ['0', '1'] = some true := by decide
    have hmeas : measure ⟨2, 2, false⟩ (1 / 10000) 2 ⟨['0', '1'], 1, [(['0', '1'], ⟨1, 1⟩)], [0, 0], []⟩ [0, 1] [0, 1]
        = some [⟨['0', '1'], 1, [(['0', '1'], ⟨1, 1⟩)], [1, 0], [⟨[1, 0], 1⟩]⟩] := by
      norm_num [measure, h3, h4, h5, groupBy, Dict.set, Dict.get?, outcomeOf, collapse, copyState, CheckValid, mulCum, setCum, writeClassical,
        setFromDict, Dict.ofList]
    have hrange : List.range onlyBridge.nodes.length = [0] := rfl
    have hrange' : List.range reversedMeasure.nodes.length = [0] := rfl
    refine ⟨['a'] ++ ['-', 'M'] ++ measurementId (reversedMeasure.nodes.map Node.isMeasurement) 0 ++ marker 0,
      ⟨['0', '1'], 1, [(['0', '1'], ⟨1, 1⟩)], [1, 0], [⟨[1, 0], 1⟩]⟩, ?_, rfl⟩
    rw [evalAll, if_pos rfl, hrange, evalNodes_bridge (n := 1) (by simp [onlyBridge]) (by simp [onlyBridge]), if_pos rfl, if_neg (by decide), hr, hrange']
    simp only [Option.bind_some]
    rw [evalNodes]
    have hn : reversedMeasure.nodes[0]? = some (.measurement [0, 1] [0, 1]) := rfl
    have hm : ∀ mid, measureColl reversedMeasure.g reversedMeasure.thr reversedMeasure.m mid [0, 1] [0, 1] photonIn1
        = some [(['a'] ++ ['-', 'M'] ++ mid ++ marker 0, ⟨['0', '1'], 1, [(['0', '1'], ⟨1, 1⟩)], [1, 0], [⟨[1, 0], 1⟩]⟩)] := by
      intro mid
      simp only [measureColl, photonIn1, List.foldlM_cons, List.foldlM_nil]
      rw [show reversedMeasure.g = ⟨2, 2, false⟩ from rfl, show reversedMeasure.thr = 1 / 10000 from rfl, show reversedMeasure.m = 2 from rfl, hmeas]
      rfl
    simp only [if_neg (show ¬ (1 = 0) by decide), hn, hm, Option.bind_some, remaining, List.foldr, ge_iff_le, le_refl, if_true, evalNodes]
    simp [reversedMeasure]

end Verif.Props
