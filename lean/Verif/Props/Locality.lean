/-
Properties C111 - C113: nodes that act on different channels do not interfere with each other.
-/
import Verif.Lemmas.Locality2

namespace Verif.Props
open Verif Spec

/-- **C111 (partial)** Two neighbouring optical nodes given on disjoint channel pairs can be exchanged anywhere in a list of optical
nodes: the resulting state is exactly the same (any matrices, also non-unitary ones; both settings of `use_full_fock_matrix`; any
threshold). Missing: first channel >= 2 together with second channel 0 (`C111_commute_fails`). -/
theorem C111_commute_partial (g : Cfg) (hg : g.Ok) (thr : ℝ) (useFull : Bool) (pre post : List (Opt × List ℕ)) (n m : Opt × List ℕ)
    (hpre : ∀ k ∈ pre, OnChannels g k) (hpost : ∀ k ∈ post, OnChannels g k) (h₁ c₁ h₂ c₂ : ℕ)
    (hn : GivenOn g n h₁ c₁) (hm : GivenOn g m h₂ c₂) (hdis : h₁ ≠ h₂ ∧ h₁ ≠ c₂ ∧ c₁ ≠ h₂ ∧ c₁ ≠ c₂)
    (c : Comps) (h : WellFormed g c) (hne : c ≠ []) (k k' : Opt × List ℕ) (l l' : List (Opt × List ℕ))
    (e : k :: l = pre ++ n :: m :: post) (e' : k' :: l' = pre ++ m :: n :: post) :
    applyOptical g thr useFull (standardKeys g) k l c = applyOptical g thr useFull (standardKeys g) k' l' c := by
  have all : ∀ (a : Opt × List ℕ), a ∈ pre ++ n :: m :: post → OnChannels g a := by
    intro a ha
    simp only [List.mem_append, List.mem_cons] at ha
    rcases ha with ha | rfl | rfl | ha
    exacts [hpre a ha, hn.onChannels, hm.onChannels, hpost a ha]
  have all' : ∀ (a : Opt × List ℕ), a ∈ pre ++ m :: n :: post → OnChannels g a := by
    intro a ha
    apply all
    simp only [List.mem_append, List.mem_cons] at ha ⊢
    tauto
  rw [← e] at all
  rw [← e'] at all'
  rw [applyOptical_eq hg thr useFull k l (all k (by simp)) (fun a ha => all a (by simp [ha])) h hne,
    applyOptical_eq hg thr useFull k' l' (all' k' (by simp)) (fun a ha => all' a (by simp [ha])) h hne, e, e']
  exact fromVector_congr thr (oneByOne_swap hg pre post hn hm hdis.1 hdis.2.1 hdis.2.2.1 hdis.2.2.2 _)

/-- **C111 (partial)** The same for a run of optical nodes evaluated on a whole collection. -/
theorem C111_collection_partial (c : Circ) (hg : c.g.Ok) (pre post : List (Opt × List ℕ)) (n m : Opt × List ℕ)
    (hpre : ∀ k ∈ pre, OnChannels c.g k) (hpost : ∀ k ∈ post, OnChannels c.g k) (h₁ c₁ h₂ c₂ : ℕ)
    (hn : GivenOn c.g n h₁ c₁) (hm : GivenOn c.g m h₂ c₂) (hdis : h₁ ≠ h₂ ∧ h₁ ≠ c₂ ∧ c₁ ≠ h₂ ∧ c₁ ≠ c₂)
    (coll : Coll) (hid : (coll.map Prod.fst).Nodup) (hwf : ∀ p ∈ coll, WellFormed c.g p.2.comps ∧ p.2.comps ≠ [])
    (k k' : Opt × List ℕ) (l l' : List (Opt × List ℕ))
    (e : k :: l = pre ++ n :: m :: post) (e' : k' :: l' = pre ++ m :: n :: post) :
    opticalColl c k l coll = opticalColl c k' l' coll := by
  apply Option.ext
  intro out
  rw [opticalColl_iff c k l coll hid, opticalColl_iff c k' l' coll hid]
  refine and_congr_right fun _ => ?_
  apply forall₂_mem_congr
  intro p p' hp
  rw [show basisKeys c.g = standardKeys c.g from rfl,
    C111_commute_partial c.g hg c.thr c.full pre post n m hpre hpost h₁ c₁ h₂ c₂ hn hm hdis p.2.comps (hwf p hp).1 (hwf p hp).2 k k' l l' e e']

/-! ### C112 -/

/-- **C112 (partial)** Unitary optical nodes given on channels that are not measured do not change the probability of any outcome,
except for what the threshold removes: the probability of an outcome can only decrease, by no more than the total probability that was
lost, which is at most the threshold times the number of basis states. Missing: nodes with first channel >= 2 and second channel 0
(`C112_statistics_fails`). -/
theorem C112_statistics_partial (g : Cfg) (hg : g.Ok) (thr : ℝ) (ht : 0 ≤ thr) (useFull : Bool) (opt : List ℕ) (hr : ∀ j ∈ opt, j < g.C)
    (n : Opt × List ℕ) (l : List (Opt × List ℕ)) (hn : Elsewhere g opt (n :: l)) (c c' : Comps) (h : WellFormed g c) (hne : c ≠ [])
    (hc : applyOptical g thr useFull (standardKeys g) n l c = some c') (o : List ℕ) :
    outcomeProb g opt c' o ≤ outcomeProb g opt c o ∧
    outcomeProb g opt c o ≤ outcomeProb g opt c' o + (totalProb c - totalProb c') ∧
    totalProb c - totalProb c' ≤ (g.L ^ g.C : ℕ) * thr := by
  have hon : ∀ k ∈ n :: l, OnChannels g k := fun k hk => (hn k hk).1.onChannels
  rw [applyOptical_eq hg thr useFull n l (hon n (by simp)) (fun k hk => hon k (by simp [hk])) h hne] at hc
  obtain ⟨c'', hc'', hw, -, -⟩ := fromVector_spec hg.1 thr (oneByOne g (n :: l) (vec g c))
  rw [hc] at hc''
  obtain rfl := Option.some.inj hc''
  rw [outcomeProb_before hg hr hn h, outcomeProb_vec hg.1 hw, totalProb_before hg hn h, totalProb_eq hg.1 hw]
  set y := oneByOne g (n :: l) (vec g c)
  have hv : ∀ i ∈ Finset.range g.size, vec g c' i = if ‖y i‖ ^ 2 < thr then 0 else y i :=
    fun i hi => vec_fromVector hg.1 hc (Finset.mem_range.1 hi)
  refine ⟨?_, ?_, ?_⟩
  · apply Finset.sum_le_sum
    intro i hi
    rw [norm_part_sq, norm_part_sq, hv i hi]
    by_cases ho : outcomeOf opt (g.valuesFromIndex i) = o
    · rw [if_pos ho, if_pos ho]
      split <;> simp
    · rw [if_neg ho, if_neg ho]
  · rw [← Finset.sum_sub_distrib, ← Finset.sum_add_distrib]
    apply Finset.sum_le_sum
    intro i hi
    rw [norm_part_sq, norm_part_sq, hv i hi]
    by_cases ho : outcomeOf opt (g.valuesFromIndex i) = o
    · rw [if_pos ho, if_pos ho]
      split <;> simp
    · rw [if_neg ho, if_neg ho]
      split <;> simp
  · rw [← Finset.sum_sub_distrib, show g.L ^ g.C = g.size from rfl]
    calc ∑ i ∈ Finset.range g.size, (‖y i‖ ^ 2 - ‖vec g c' i‖ ^ 2) ≤ ∑ _i ∈ Finset.range g.size, thr := by
          apply Finset.sum_le_sum
          intro i hi
          rw [hv i hi]
          split
          · rename_i hlt; simpa using hlt.le
          · simpa using ht
      _ = g.size * thr := by rw [Finset.sum_const, Finset.card_range, nsmul_eq_mul]

/-- **C112 (partial)** If the threshold removes nothing of the state then all outcome probabilities are exactly the same. -/
theorem C112_exact_partial (g : Cfg) (hg : g.Ok) (thr : ℝ) (ht : 0 ≤ thr) (useFull : Bool) (opt : List ℕ) (hr : ∀ j ∈ opt, j < g.C)
    (n : Opt × List ℕ) (l : List (Opt × List ℕ)) (hn : Elsewhere g opt (n :: l)) (c c' : Comps) (h : WellFormed g c) (hne : c ≠ [])
    (hc : applyOptical g thr useFull (standardKeys g) n l c = some c') (hloss : totalProb c' = totalProb c) (o : List ℕ) :
    outcomeProb g opt c' o = outcomeProb g opt c o := by
  obtain ⟨h1, h2, -⟩ := C112_statistics_partial g hg thr ht useFull opt hr n l hn c c' h hne hc o
  rw [hloss] at h2
  linarith

/-! ### C113 -/

/-- **C113 (partial)** Measurement and unitary optical nodes on other channels can be exchanged: a collection that is first measured and
then sent through the nodes contains exactly the same states (components, classical values, probabilities, measurement history and
initial label) as the collection that is first sent through the nodes and then measured, up to the order of the states and their
identifiers. Assumed: the threshold removes nothing of the states; missing: nodes with first channel >= 2 and second channel 0. -/
theorem C113_collection_partial (c : Circ) (hg : c.g.Ok) (ht : 0 < c.thr) (opt cls : List ℕ) (hr : ∀ j ∈ opt, j < c.g.C) (n : Opt × List ℕ)
    (l : List (Opt × List ℕ)) (hn : Elsewhere c.g opt (n :: l)) (coll : Coll) (hid : (coll.map Prod.fst).Nodup)
    (hq : ∀ p ∈ coll, Measurable c.g c.m p.2 ∧ p.2.comps ≠ [])
    (hloss : ∀ p ∈ coll, ∀ d, applyOptical c.g c.thr c.full (standardKeys c.g) n l p.2.comps = some d → totalProb d = totalProb p.2.comps)
    (kinds kinds' : List Bool) (idx idx' : ℕ) (mid : Coll) (hm : measureColl c.g c.thr c.m (measurementId kinds idx) opt cls coll = some mid) :
    ∃ gated outA outB, opticalColl c n l coll = some gated ∧
      measureColl c.g c.thr c.m (measurementId kinds' idx') opt cls gated = some outA ∧
      opticalColl c n l mid = some outB ∧ (outA.map Prod.snd).Perm (outB.map Prod.snd) :=
  defer_coll hg ht hr n l hn hid hq hloss kinds kinds' idx idx' hm

/-- the node list entries for optical nodes -/
def opticals (ns : List (Opt × List ℕ)) : List Node := ns.map (fun n => .optical n.1 n.2)

theorem opticals_get (ns : List (Opt × List ℕ)) (i : ℕ) (hi : i < ns.length) : (opticals ns)[i]? = some (.optical ns[i].1 ns[i].2) := by
  unfold opticals
  rw [List.getElem?_map, List.getElem?_eq_getElem hi]; rfl

theorem eval_optics_then_measure (env : ℕ → Circ) (rnd : ℕ → ℕ → Bool → ℕ → ℕ → ℕ) (k : ℕ) (n : Opt × List ℕ) (l : List (Opt × List ℕ))
    (opt cls : List ℕ) (hk : (env k).nodes = opticals (n :: l) ++ [.measurement opt cls]) (fuel : ℕ) (hf : l.length + 2 < fuel) (coll : Coll) :
    evalAll env rnd fuel k coll = (opticalColl (env k) n l coll).bind
      (measureColl (env k).g (env k).thr (env k).m (measurementId ((env k).nodes.map Node.isMeasurement) (l.length + 1)) opt cls) := by
  have hlen : (env k).nodes.length = l.length + 2 := by rw [hk]; simp [opticals]
  have hopt : ∀ i < l.length + 1, ∃ M tl, (env k).nodes[i]? = some (.optical M tl) := by
    intro i hi
    rw [hk, List.getElem?_append_left (by simp [opticals]; omega)]
    exact ⟨_, _, opticals_get (n :: l) i (by simp; omega)⟩
  have hmeas : (env k).nodes[l.length + 1]? = some (.measurement opt cls) := by
    rw [hk, List.getElem?_append_right (by simp [opticals])]; simp [opticals]
  unfold evalAll
  rw [hlen, List.range_succ, evalNodes_append (List.range (l.length + 1)) [l.length + 1] (f₁ := l.length + 2) (f₂ := 2)]
  · congr 1
    · rw [eval_optical_list (ns := n :: l) _ (by simp) _ (by omega), runEff]
      · have : List.Forall₂ (fun i (n : Opt × List ℕ) => (env k).nodes[i]? = some (.optical n.1 n.2)) (List.range (l.length + 1)) (n :: l) := by
          rw [List.forall₂_iff_get]
          refine ⟨by simp, ?_⟩
          intro i h1 h2
          rw [hk, List.getElem?_append_left (by simp [opticals] at h2 ⊢; omega)]
          simpa using opticals_get (n :: l) i h2
        rw [opticalNodes_eq this]
      · rw [List.forall₂_iff_get]
        refine ⟨by simp, ?_⟩
        intro i h1 h2
        rw [hk, List.getElem?_append_left (by simp [opticals] at h2 ⊢; omega)]
        simpa using opticals_get (n :: l) i h2
    · funext coll'
      rw [evalNodes_sorted_node (by simp) (by simp [hlen]) (by rw [hmeas]; simp) (by simp [isOpt, hmeas, Node.isOptical])]
      simp only [nodeEff, hmeas]
      cases measureColl (env k).g (env k).thr (env k).m (measurementId ((env k).nodes.map Node.isMeasurement) (l.length + 1)) opt cls coll' <;> rfl
  · rw [← List.range_succ]; exact List.pairwise_lt_range
  · rw [← List.range_succ]; intro j hj; rw [hlen]; exact List.mem_range.1 hj
  · rw [← List.range_succ]
    intro i hi b
    by_cases e : i = l.length + 1
    · subst e; rw [hmeas]; simp
    · obtain ⟨M, tl, h⟩ := hopt i (by have := List.mem_range.1 hi; omega)
      rw [h]; simp
  · intro i _ j hj
    simp at hj
    subst hj
    simp [isOpt, hmeas, Node.isOptical]
  · simp; omega
  · simp
  · simp

theorem eval_measure_then_optics (env : ℕ → Circ) (rnd : ℕ → ℕ → Bool → ℕ → ℕ → ℕ) (k : ℕ) (n : Opt × List ℕ) (l : List (Opt × List ℕ))
    (opt cls : List ℕ) (hk : (env k).nodes = .measurement opt cls :: opticals (n :: l)) (fuel : ℕ) (hf : 2 < fuel) (coll : Coll) :
    evalAll env rnd fuel k coll = (measureColl (env k).g (env k).thr (env k).m
      (measurementId ((env k).nodes.map Node.isMeasurement) 0) opt cls coll).bind (opticalColl (env k) n l) := by
  obtain ⟨f, rfl⟩ : ∃ f, fuel = f + 1 := ⟨fuel - 1, by omega⟩
  have hlen : (env k).nodes.length = l.length + 2 := by rw [hk]; simp [opticals]
  have hmeas : (env k).nodes[0]? = some (.measurement opt cls) := by rw [hk]; rfl
  unfold evalAll
  rw [hlen, show List.range (l.length + 2) = 0 :: (List.range (l.length + 1)).map Nat.succ from List.range_succ_eq_map]
  rw [evalNodes_sorted_node _ _ (by rw [hmeas]; simp) (by simp [isOpt, hmeas, Node.isOptical])]
  · simp only [nodeEff, hmeas]
    congr 1
    funext coll'
    have : List.Forall₂ (fun i (n : Opt × List ℕ) => (env k).nodes[i]? = some (.optical n.1 n.2))
        ((List.range (l.length + 1)).map Nat.succ) (n :: l) := by
      rw [List.forall₂_map_left_iff, List.forall₂_iff_get]
      refine ⟨by simp, ?_⟩
      intro i h1 h2
      rw [hk]
      simpa using opticals_get (n :: l) i h2
    rw [eval_optical_list this (by simp) _ (by omega), runEff, opticalNodes_eq this]
  · rw [← List.range_succ_eq_map]; exact List.pairwise_lt_range
  · rw [← List.range_succ_eq_map, hlen]; intro j hj; exact List.mem_range.1 hj

/-- **C113 (partial)** The same for two circuits with the same settings, one listing the optical nodes before the measurement and one
after it: if the circuit that measures first evaluates then so does the other one, and they end with the same states up to order and
identifiers. -/
theorem C113_circuits_partial (a b : Circ) (hs : b.g = a.g ∧ b.m = a.m ∧ b.thr = a.thr ∧ b.full = a.full) (hg : a.g.Ok) (ht : 0 < a.thr)
    (opt cls : List ℕ) (hr : ∀ j ∈ opt, j < a.g.C) (n : Opt × List ℕ) (l : List (Opt × List ℕ)) (hn : Elsewhere a.g opt (n :: l))
    (ha : a.nodes = opticals (n :: l) ++ [.measurement opt cls]) (hb : b.nodes = .measurement opt cls :: opticals (n :: l))
    (coll : Coll) (hid : (coll.map Prod.fst).Nodup) (hq : ∀ p ∈ coll, Measurable a.g a.m p.2 ∧ p.2.comps ≠ [])
    (hloss : ∀ p ∈ coll, ∀ d, applyOptical a.g a.thr a.full (standardKeys a.g) n l p.2.comps = some d → totalProb d = totalProb p.2.comps)
    (rnd rnd' : ℕ → ℕ → Bool → ℕ → ℕ → ℕ) (fuel : ℕ) (hf : l.length + 2 < fuel) (outB : Coll)
    (hB : evalAll (fun _ => b) rnd' fuel 0 coll = some outB) :
    ∃ outA, evalAll (fun _ => a) rnd fuel 0 coll = some outA ∧ (outA.map Prod.snd).Perm (outB.map Prod.snd) := by
  rw [eval_measure_then_optics (fun _ => b) rnd' 0 n l opt cls hb fuel (by omega)] at hB
  rw [eval_optics_then_measure (fun _ => a) rnd 0 n l opt cls ha fuel hf]
  simp only [hs.1, hs.2.1, hs.2.2.1] at hB
  obtain ⟨mid, hm, hB⟩ := Option.bind_eq_some_iff.1 hB
  obtain ⟨gated, outA, outB', h1, h2, h3, h4⟩ := defer_coll hg ht hr n l hn hid hq hloss _ (a.nodes.map Node.isMeasurement) _ (l.length + 1) hm
  have e : opticalColl b n l mid = opticalColl a n l mid := by
    unfold opticalColl opticalGroups
    simp only [hs.1, hs.2.1, hs.2.2.1, hs.2.2.2]
  rw [e, h3] at hB
  obtain rfl := Option.some.inj hB
  exact ⟨outA, by rw [h1]; exact h2, h4⟩

/-- **C113** The assumption that the threshold removes nothing is met for every collection if only the threshold is small enough. -/
theorem C113_small_thresholds (g : Cfg) (hg : g.Ok) (useFull : Bool) (n : Opt × List ℕ) (l : List (Opt × List ℕ))
    (hn : ∀ k ∈ n :: l, OnChannels g k ∧ k.1 ∈ Matrix.unitaryGroup (Fin 2) ℂ) (coll : Coll)
    (hw : ∀ p ∈ coll, WellFormed g p.2.comps ∧ p.2.comps ≠ []) :
    ∃ t : ℝ, 0 < t ∧ ∀ thr ≤ t, ∀ p ∈ coll, ∀ d, applyOptical g thr useFull (standardKeys g) n l p.2.comps = some d →
      totalProb d = totalProb p.2.comps := by
  have single : ∀ c : Comps, WellFormed g c → c ≠ [] → ∃ t : ℝ, 0 < t ∧ ∀ thr ≤ t, ∀ d,
      applyOptical g thr useFull (standardKeys g) n l c = some d → totalProb d = totalProb c := by
    intro c hc hne
    set y := oneByOne g (n :: l) (vec g c) with hy
    have hmin : ∃ t : ℝ, 0 < t ∧ ∀ i ∈ Finset.range g.size, y i ≠ 0 → t ≤ ‖y i‖ ^ 2 := by
      generalize Finset.range g.size = s
      classical
      induction s using Finset.induction_on with
      | empty => exact ⟨1, one_pos, by simp⟩
      | insert a s _ ih =>
        obtain ⟨t, ht, h⟩ := ih
        by_cases ha : y a = 0
        · refine ⟨t, ht, ?_⟩
          intro i hi hne
          rcases Finset.mem_insert.1 hi with rfl | hi
          · exact absurd ha hne
          · exact h i hi hne
        · have : 0 < ‖y a‖ := norm_pos_iff.2 ha
          refine ⟨min t (‖y a‖ ^ 2), lt_min ht (by positivity), ?_⟩
          intro i hi hne
          rcases Finset.mem_insert.1 hi with rfl | hi
          · exact min_le_right _ _
          · exact (min_le_left _ _).trans (h i hi hne)
    obtain ⟨t, ht, h⟩ := hmin
    refine ⟨t, ht, ?_⟩
    intro thr hthr d hd
    rw [applyOptical_eq hg thr useFull n l (hn n (by simp)).1 (fun k hk => (hn k (by simp [hk])).1) hc hne, ← hy] at hd
    obtain ⟨c'', hc'', hw', -, -⟩ := fromVector_spec hg.1 thr y
    rw [hd] at hc''
    obtain rfl := Option.some.inj hc''
    rw [totalProb_eq hg.1 hw', totalProb_eq hg.1 hc, ← oneByOne_norm hg (n :: l) (vec g c) hn, ← hy]
    refine Finset.sum_congr rfl fun i hi => ?_
    rw [vec_fromVector hg.1 hd (Finset.mem_range.1 hi)]
    split
    · rename_i hlt
      have : y i = 0 := by
        by_contra hne
        exact absurd (h i hi hne) (not_le.2 (lt_of_lt_of_le hlt hthr))
      rw [this]
    · rfl
  induction coll with
  | nil => exact ⟨1, one_pos, by simp⟩
  | cons p coll ih =>
    obtain ⟨t, ht, h⟩ := ih (fun q hq => hw q (by simp [hq]))
    obtain ⟨t', ht', h'⟩ := single p.2.comps (hw p (by simp)).1 (hw p (by simp)).2
    refine ⟨min t t', lt_min ht ht', ?_⟩
    intro thr hthr q hq
    rcases List.mem_cons.1 hq with rfl | hq
    · exact h' thr (hthr.trans (min_le_right _ _))
    · exact h thr (hthr.trans (min_le_left _ _)) q hq

/-! ### Counterexamples: first channel 3, second channel 0 -/

section Fails

/-- four channels, at most one photon each -/
private def g₄ : Cfg := ⟨2, 4, true⟩

/-- exchange of two channels -/
private def flip : Opt := !![0, 1; 1, 0]

private theorem flip_unitary : flip ∈ Matrix.unitaryGroup (Fin 2) ℂ := by
  rw [Matrix.mem_unitaryGroup_iff]
  ext i j
  fin_cases i <;> fin_cases j <;> simp [flip, Matrix.mul_apply, Fin.sum_univ_two, Matrix.star_apply]

/-- one photon in the channels given by `v` -/
private noncomputable def basis (v : Vals) : Comps := enc g₄ [(v, ⟨1, 1⟩)]

private theorem basis_ok {v : Vals} (hv : Valid g₄ v) : VOk g₄ [(v, (⟨1, 1⟩ : Comp))] := ⟨by simp, by simpa using hv⟩

private theorem basis_vec {v : Vals} (hv : Valid g₄ v) (i : ℕ) (hi : i < g₄.size) : vec g₄ (basis v) i = if g₄.indexOf v = i then 1 else 0 := by
  have := vec_cons (g := g₄) (c := []) (by decide) (p := (g₄.stdName v, ⟨1, 1⟩)) hv rfl hi
  rw [vec_nil] at this
  exact this

private theorem mulVec_basis {F : SqArr} (hF : F.size = g₄.size) {u : Vals} (hu : Valid g₄ u) (i : ℕ) :
    F.mulVec (vec g₄ (basis u)) i = F.at_ i (g₄.indexOf u) := by
  rw [SqArr.mulVec, hF, Finset.sum_eq_single (g₄.indexOf u)]
  · rw [basis_vec hu _ (g₄.indexOf_lt hu), if_pos rfl, mul_one]
  · intro k hk hne
    rw [basis_vec hu _ (Finset.mem_range.1 hk), if_neg (fun e => hne e.symm), mul_zero]
  · intro h; exact absurd (Finset.mem_range.2 (g₄.indexOf_lt hu)) h

private theorem flip_amp : gateAmp 2 flip 1 0 0 1 = 1 ∧ gateAmp 2 flip 0 1 1 0 = 1 ∧ gateAmp 2 flip 1 0 1 0 = 0 ∧ gateAmp 2 flip 0 0 0 0 = 1 := by
  refine ⟨?_, ?_, ?_, ?_⟩ <;> simp [gateAmp, bosonAmp, genPoly, flip, Polynomial.coeff_one]

private theorem lists : tensorList 4 [3, 0] = some [1, 3, 2, 0] ∧ tensorList 4 [1, 2] = some [1, 2, 0, 3] := by decide

/-- **C112 fails** for a node given on channels 3 and 0: measuring channel 1 (on which the node was not given) the outcome "one photon"
is impossible without the node and certain with it. -/
theorem C112_statistics_fails : ∃ (g : Cfg) (thr : ℝ) (n : Opt × List ℕ) (c c' : Comps), g.Ok ∧ 0 < thr ∧ thr < 1 ∧
    tensorList g.C [3, 0] = some n.2 ∧ 3 < g.C ∧ n.1 ∈ Matrix.unitaryGroup (Fin 2) ℂ ∧ WellFormed g c ∧ totalProb c = 1 ∧
    applyOptical g thr false (standardKeys g) n [] c = some c' ∧
    outcomeProb g [1] c [1] = 0 ∧ 1 ≤ outcomeProb g [1] c' [1] := by
  have hu : Valid g₄ [0, 0, 0, 1] := by decide
  have hv : Valid g₄ [0, 1, 0, 0] := by decide
  have hok := basis_ok hu
  have hw : WellFormed g₄ (basis _) := wf_enc hok
  have hon : OnChannels g₄ (flip, [1, 3, 2, 0]) := ⟨3, 0, by decide, by decide, by decide, lists.1⟩
  obtain ⟨c', hc', hw', -, -⟩ := fromVector_spec (g := g₄) (by decide) (1 / 2) (oneByOne g₄ [(flip, [1, 3, 2, 0])] (vec g₄ (basis [0, 0, 0, 1])))
  refine ⟨g₄, 1 / 2, (flip, [1, 3, 2, 0]), basis [0, 0, 0, 1], c', by decide, by norm_num, by norm_num, lists.1, by decide, flip_unitary, hw,
    by simp [basis, totalProb_enc], ?_, ?_, ?_⟩
  · rw [applyOptical_eq (by decide) _ _ _ [] hon (by simp) hw (by simp [basis, enc])]
    exact hc'
  · show outcomeProb g₄ [1] (enc g₄ _) [1] = 0
    rw [outcomeProb_eq hok]
    simp [probAt, itemsAt, itemsOf, outcomeOf]
  · rw [outcomeProb_vec (by decide) hw']
    have hy : oneByOne g₄ [(flip, [1, 3, 2, 0])] (vec g₄ (basis [0, 0, 0, 1])) (g₄.indexOf [0, 1, 0, 0]) = 1 := by
      show (FullMatrix g₄ (flip, [1, 3, 2, 0])).mulVec _ _ = 1
      rw [mulVec_basis (fullMatrix_size _ _) hu]
      rw [C13_misaddressed g₄ (by decide) flip 3 (by decide) (by decide) (FullMatrix g₄ (flip, [1, 3, 2, 0])) ⟨_, lists.1, rfl⟩ _ _ hv hu]
      rw [if_pos (by decide)]
      exact flip_amp.1
    have := Finset.single_le_sum (f := fun i => ‖part g₄ [1] [1] (vec g₄ c') i‖ ^ 2) (fun i _ => by positivity)
      (Finset.mem_range.2 (g₄.indexOf_lt hv))
    refine le_trans ?_ this
    rw [norm_part_sq, g₄.valuesFromIndex_indexOf hv, if_pos (by decide), vec_fromVector (by decide) hc' (g₄.indexOf_lt hv), hy]
    norm_num

/-- **C111 fails** for nodes given on channels 3, 0 and on channels 1, 2: the order matters. -/
theorem C111_commute_fails : ∃ (g : Cfg) (thr : ℝ) (n m : Opt × List ℕ) (c : Comps), g.Ok ∧ 0 < thr ∧ thr < 1 ∧
    tensorList g.C [3, 0] = some n.2 ∧ tensorList g.C [1, 2] = some m.2 ∧ 3 < g.C ∧ n.1 ∈ Matrix.unitaryGroup (Fin 2) ℂ ∧
    m.1 ∈ Matrix.unitaryGroup (Fin 2) ℂ ∧ WellFormed g c ∧ totalProb c = 1 ∧
    applyOptical g thr false (standardKeys g) n [m] c ≠ applyOptical g thr false (standardKeys g) m [n] c := by
  have hu : Valid g₄ [0, 1, 0, 0] := by decide
  have hv : Valid g₄ [0, 0, 0, 1] := by decide
  have hok := basis_ok hu
  have hw : WellFormed g₄ (basis _) := wf_enc hok
  have hon : OnChannels g₄ (flip, [1, 3, 2, 0]) := ⟨3, 0, by decide, by decide, by decide, lists.1⟩
  have hom : OnChannels g₄ (flip, [1, 2, 0, 3]) := ⟨1, 2, by decide, by decide, by decide, lists.2⟩
  have hgm : GivenOn g₄ (flip, [1, 2, 0, 3]) 1 2 := ⟨by decide, by decide, by decide, by decide, lists.2⟩
  refine ⟨g₄, 1 / 2, (flip, [1, 3, 2, 0]), (flip, [1, 2, 0, 3]), basis [0, 1, 0, 0], by decide, by norm_num, by norm_num, lists.1, lists.2,
    by decide, flip_unitary, flip_unitary, hw, by simp [basis, totalProb_enc], ?_⟩
  rw [applyOptical_eq (by decide) _ _ _ [_] hon (by simpa using hom) hw (by simp [basis, enc]),
    applyOptical_eq (by decide) _ _ _ [_] hom (by simpa using hon) hw (by simp [basis, enc])]
  intro heq
  obtain ⟨c', hc', -⟩ := fromVector_spec (g := g₄) (by decide) (1 / 2)
    (oneByOne g₄ [(flip, [1, 3, 2, 0]), (flip, [1, 2, 0, 3])] (vec g₄ (basis [0, 1, 0, 0])))
  rw [hc'] at heq
  have hi := g₄.indexOf_lt hv
  have h1 := vec_fromVector (by decide) hc' hi
  have h2 := vec_fromVector (by decide) heq.symm hi
  rw [h1] at h2
  have y1 : oneByOne g₄ [(flip, [1, 3, 2, 0]), (flip, [1, 2, 0, 3])] (vec g₄ (basis [0, 1, 0, 0])) (g₄.indexOf [0, 0, 0, 1]) = 1 := by
    show (FullMatrix g₄ (flip, [1, 2, 0, 3])).mulVec ((FullMatrix g₄ (flip, [1, 3, 2, 0])).mulVec _) _ = 1
    rw [SqArr.mulVec, fullMatrix_size, Finset.sum_eq_single (g₄.indexOf [0, 0, 0, 1])]
    · rw [mulVec_basis (fullMatrix_size _ _) hu, givenOn_entry (by decide) hgm hv hv, if_pos (by decide)]
      rw [C13_misaddressed g₄ (by decide) flip 3 (by decide) (by decide) (FullMatrix g₄ (flip, [1, 3, 2, 0])) ⟨_, lists.1, rfl⟩ _ _ hv hu]
      rw [if_pos (by decide)]
      show gateAmp 2 flip 0 0 0 0 * gateAmp 2 flip 0 1 1 0 = 1
      rw [flip_amp.2.2.2, flip_amp.2.1, mul_one]
    · intro k hk hne
      have hk := Finset.mem_range.1 hk
      have hkv := g₄.valid_valuesFromIndex (by decide) k
      have hki := g₄.indexOf_valuesFromIndex hk
      rw [← hki, givenOn_entry (by decide) hgm hv hkv]
      by_contra hcon
      obtain ⟨ha, hb⟩ := ne_zero_of_ite (left_ne_zero_of_mul hcon)
      have hb := gateAmp_conserves hb
      apply hne
      rw [← hki]
      congr 1
      apply ext_getD (C := 4) hkv.1 hv.1
      intro i hi
      have a0 := ha 0 (by decide) (by decide) (by decide)
      have a3 := ha 3 (by decide) (by decide) (by decide)
      change 0 + 0 = _ at hb
      interval_cases i
      · exact a0.symm
      · show _ = 0; omega
      · show _ = 0; omega
      · exact a3.symm
    · intro h; exact absurd (Finset.mem_range.2 (g₄.indexOf_lt hv)) h
  have y2 : oneByOne g₄ [(flip, [1, 2, 0, 3]), (flip, [1, 3, 2, 0])] (vec g₄ (basis [0, 1, 0, 0])) (g₄.indexOf [0, 0, 0, 1]) = 0 := by
    show (FullMatrix g₄ (flip, [1, 3, 2, 0])).mulVec ((FullMatrix g₄ (flip, [1, 2, 0, 3])).mulVec _) _ = 0
    rw [SqArr.mulVec, fullMatrix_size]
    apply Finset.sum_eq_zero
    intro k hk
    have hk := Finset.mem_range.1 hk
    have hkv := g₄.valid_valuesFromIndex (by decide) k
    have hki := g₄.indexOf_valuesFromIndex hk
    rw [← hki, mulVec_basis (fullMatrix_size _ _) hu, givenOn_entry (by decide) hgm hkv hu,
      C13_misaddressed g₄ (by decide) flip 3 (by decide) (by decide) (FullMatrix g₄ (flip, [1, 3, 2, 0])) ⟨_, lists.1, rfl⟩ _ _ hv hkv]
    by_contra hcon
    obtain ⟨ha, -⟩ := ne_zero_of_ite (left_ne_zero_of_mul hcon)
    obtain ⟨hb, hb'⟩ := ne_zero_of_ite (right_ne_zero_of_mul hcon)
    have a2 : 0 = (g₄.valuesFromIndex k).getD 2 0 := ha 2 (by decide) (by decide) (by decide)
    have hc := gateAmp_conserves hb'
    change _ = 1 + 0 at hc
    rw [← a2] at hb' hc
    rw [show (g₄.valuesFromIndex k).getD 1 0 = 1 by omega] at hb'
    exact hb' flip_amp.2.2.1
  rw [y1, y2] at h2
  norm_num at h2

/-! ### The hypotheses can be met -/

/-- two nodes on disjoint pairs of four channels -/
example : GivenOn g₄ (flip, [1, 2, 0, 3]) 1 2 ∧ ∃ tl, GivenOn g₄ (flip, tl) 0 3 :=
  ⟨⟨by decide, by decide, by decide, by decide, lists.2⟩, [0, 3, 2, 1], ⟨by decide, by decide, by decide, by decide, by decide⟩⟩

/-- one photon in channel 0 or 1 -/
private noncomputable def half : VComps := [([1, 0, 0, 0], ⟨(Real.sqrt (1 / 2) : ℂ), 1 / 2⟩), ([0, 1, 0, 0], ⟨(Real.sqrt (1 / 2) : ℂ), 1 / 2⟩)]

private theorem half_norm : ‖(Real.sqrt (1 / 2) : ℂ)‖ ^ 2 = 1 / 2 := by
  rw [Complex.norm_real, Real.norm_eq_abs, sq_abs, Real.sq_sqrt (by norm_num)]

private theorem half_ok : VOk g₄ half := by
  refine ⟨by simp [half], ?_⟩
  intro p hp
  simp only [half, List.mem_cons, List.not_mem_nil, or_false] at hp
  rcases hp with rfl | rfl
  · exact ⟨rfl, by decide⟩
  · exact ⟨rfl, by decide⟩

private noncomputable def halfState : QState := ⟨"psi".toList, 1, enc g₄ half, [0, 7], []⟩

private theorem half_measurable : Measurable g₄ 2 halfState ∧ halfState.comps ≠ [] := by
  refine ⟨⟨wf_enc half_ok, ?_, ?_, by norm_num [halfState], by norm_num [halfState], rfl⟩, by simp [halfState, enc, half]⟩
  · intro p hp
    simp only [halfState, enc, half, List.map_cons, List.map_nil, List.mem_cons, List.not_mem_nil, or_false] at hp
    rcases hp with rfl | rfl <;> exact half_norm.symm
  · rw [halfState, totalProb_enc]
    simp only [half, List.map_cons, List.map_nil, List.sum_cons, List.sum_nil, half_norm]; norm_num

/-- for all small enough positive thresholds: measuring channel 0 before or after exchanging channels 1 and 2 of
`(|1,0,0,0> + |0,1,0,0>)/√2` both works and gives the same two states -/
example : ∃ t : ℝ, 0 < t ∧ ∀ thr, 0 < thr → thr ≤ t → ∀ rnd, ∃ outA outB,
    evalAll (fun _ => ⟨g₄, 2, thr, false, [.optical flip [1, 2, 0, 3], .measurement [0] [1]]⟩) rnd 9 0 [("a".toList, halfState)] = some outA ∧
    evalAll (fun _ => ⟨g₄, 2, thr, false, [.measurement [0] [1], .optical flip [1, 2, 0, 3]]⟩) rnd 9 0 [("a".toList, halfState)] = some outB ∧
    (outA.map Prod.snd).Perm (outB.map Prod.snd) := by
  have hgm : GivenOn g₄ (flip, [1, 2, 0, 3]) 1 2 := ⟨by decide, by decide, by decide, by decide, lists.2⟩
  have hE : Elsewhere g₄ [0] [(flip, [1, 2, 0, 3])] := by
    intro k hk
    simp only [List.mem_cons, List.not_mem_nil, or_false] at hk
    subst hk
    exact ⟨⟨1, 2, hgm, by decide, by decide⟩, flip_unitary⟩
  have hq : ∀ p ∈ [("a".toList, halfState)], Measurable g₄ 2 p.2 ∧ p.2.comps ≠ [] := by
    intro p hp
    simp only [List.mem_cons, List.not_mem_nil, or_false] at hp
    subst hp
    exact half_measurable
  obtain ⟨t, ht, h⟩ := C113_small_thresholds g₄ (by decide) false (flip, [1, 2, 0, 3]) [] (fun k hk => ⟨(hE k hk).1.onChannels, (hE k hk).2⟩)
    [("a".toList, halfState)] (fun p hp => ⟨(hq p hp).1.wf, (hq p hp).2⟩)
  refine ⟨t, ht, ?_⟩
  intro thr h0 hthr rnd
  have hok4 : g₄.Ok := by decide
  have hr4 : ∀ j ∈ [0], j < g₄.C := by decide
  obtain ⟨qs, hqs⟩ := C26_success g₄ thr h0.le 2 halfState [0] [1] half_measurable.1 rfl (by simp) (by
    intro o ho
    rw [halfState, occurs_iff half_ok] at ho
    rw [halfState, outcomeProb_eq half_ok]
    obtain ⟨p, hp, rfl⟩ := mem_outcomes.1 ho
    simp only [half, List.mem_cons, List.not_mem_nil, or_false] at hp
    rcases hp with rfl | rfl <;> simp [probAt, itemsAt, itemsOf, outcomeOf, half])
  obtain ⟨mid, hmid⟩ : ∃ mid, measureColl g₄ thr 2 (measurementId [true, false] 0) [0] [1] [("a".toList, halfState)] = some mid := by
    rw [measureColl]
    simp only [List.foldlM_cons, List.foldlM_nil, hqs, Option.bind_eq_bind, Option.bind_some]
    exact ⟨_, rfl⟩
  obtain ⟨-, -, outB, -, -, hB, -⟩ := C113_collection_partial ⟨g₄, 2, thr, false, []⟩ hok4 h0 [0] [1] hr4 (flip, [1, 2, 0, 3]) [] hE
    [("a".toList, halfState)] (by simp) hq (h thr hthr) [true, false] [] 0 0 mid hmid
  have eB : evalAll (fun _ => ⟨g₄, 2, thr, false, [.measurement [0] [1], .optical flip [1, 2, 0, 3]]⟩) rnd 9 0 [("a".toList, halfState)] = some outB := by
    rw [eval_measure_then_optics _ rnd 0 (flip, [1, 2, 0, 3]) [] [0] [1] rfl 9 (by norm_num)]
    show (measureColl g₄ thr 2 (measurementId [true, false] 0) [0] [1] [("a".toList, halfState)]).bind _ = _
    rw [hmid]
    exact hB
  obtain ⟨outA, hA, hp⟩ := C113_circuits_partial ⟨g₄, 2, thr, false, [.optical flip [1, 2, 0, 3], .measurement [0] [1]]⟩
    ⟨g₄, 2, thr, false, [.measurement [0] [1], .optical flip [1, 2, 0, 3]]⟩ ⟨rfl, rfl, rfl, rfl⟩ hok4 h0 [0] [1] hr4
    (flip, [1, 2, 0, 3]) [] hE rfl rfl [("a".toList, halfState)] (by simp) hq (h thr hthr) rnd rnd 9 (by norm_num) outB eB
  exact ⟨outA, outB, hA, eB, hp⟩

end Fails

end Verif.Props
