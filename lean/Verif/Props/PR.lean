/-
C72 - C76: Popescu-Rohrlich pairs: outcome probabilities, total probability, no signalling, strength of the correlations.
-/
import Verif.Lemmas.PR4
import Mathlib.Analysis.SpecialFunctions.Pow.Asymptotics
import Mathlib.Analysis.SpecialFunctions.Pow.Continuity

namespace Verif.Props
open Verif Spec

/-! ### A concrete run: one pair, first photon through `U`, second through `V` -/

/-- Names of the four outcomes for one pair in channels 0..3: HH, HV, VH, VV. -/
def pairName (q : Fin 4) : Name := (["1010".toList, "1001".toList, "0110".toList, "0101".toList] : List Name).getD q.val []

theorem pairName_inj : Function.Injective pairName := by decide

/-- The state of configuration `x` after the two matrices. -/
noncomputable def pairState (U V : Matrix (Fin 2) (Fin 2) ℂ) (K P : ℝ) (x : Fin 4) : PRState where
  q := { initial := "start".toList, cum := 1 / 2, comps := (List.finRange 4).map (fun o => (pairName o, ⟨U (polA o) (polA x) * V (polB o) (polB x), ‖U (polA o) (polA x) * V (polB o) (polB x)‖ ^ 2⟩)), classical := [0, 0, 0, 0], results := [] }
  pr := some { ident := 7, config := [x], quantum := [K], initialOut := "start".toList, origCum := P }

/-- All four states. -/
noncomputable def pairRun (U V : Matrix (Fin 2) (Fin 2) ℂ) (K P : ℝ) : List PRState := (List.finRange 4).map (pairState U V K P)

/-- Outcome names as a function of the polarizations of pair 0; there are no other channels. -/
def pairNames (_ : Unit) (o : Fin 1 → Fin 4) : Name := pairName (o 0)

theorem pairState_keys (U V : Matrix (Fin 2) (Fin 2) ℂ) (K P : ℝ) (x : Fin 4) :
    (pairState U V K P x).q.comps.map Prod.fst = (List.finRange 4).map pairName := by
  unfold pairState
  simp only [List.map_map]
  rfl

theorem pairState_amp (U V : Matrix (Fin 2) (Fin 2) ℂ) (K P : ℝ) (x o : Fin 4) :
    ampOf (pairState U V K P x).q.comps (pairName o) = U (polA o) (polA x) * V (polB o) (polB x) := by
  have hn : (Dict.keys (pairState U V K P x).q.comps).Nodup := by
    show ((pairState U V K P x).q.comps.map Prod.fst).Nodup
    rw [pairState_keys]
    exact (List.nodup_finRange 4).map pairName_inj
  exact ampOf_of_mem (p := (pairName o, ⟨U (polA o) (polA x) * V (polB o) (polB x), ‖U (polA o) (polA x) * V (polB o) (polB x)‖ ^ 2⟩)) hn
    (List.mem_map.mpr ⟨o, List.mem_finRange o, rfl⟩)

theorem pairRun_set (U V : Matrix (Fin 2) (Fin 2) ℂ) (K P : ℝ) : PRSet 1 (fun _ => K) "start".toList P (pairRun U V K P) where
  info := by
    intro st hst
    obtain ⟨x, -, rfl⟩ := List.mem_map.mp hst
    exact ⟨_, rfl, rfl, rfl, rfl⟩
  dict := by
    intro st hst
    obtain ⟨x, -, rfl⟩ := List.mem_map.mp hst
    rw [pairState_keys]
    exact (List.nodup_finRange 4).map pairName_inj
  all := fun x => ⟨pairState U V K P (x 0), List.mem_map.mpr ⟨x 0, List.mem_finRange _, rfl⟩, by simp [pairState, configuration]⟩
  len := by
    intro st hst
    obtain ⟨x, -, rfl⟩ := List.mem_map.mp hst
    rfl
  once := by
    unfold pairRun
    rw [List.map_map]
    refine (List.nodup_finRange 4).map ?_
    intro x y h
    simpa [pairState, configuration] using h

theorem pairRun_local {U V : Matrix (Fin 2) (Fin 2) ℂ} (hU : U ∈ Matrix.unitaryGroup (Fin 2) ℂ) (hV : V ∈ Matrix.unitaryGroup (Fin 2) ℂ) (K P : ℝ) :
    LocalRun (pairRun U V K P) (fun _ => U) (fun _ => V) (fun _ : Unit => 1) pairNames where
  unitA := fun _ => hU
  unitB := fun _ => hV
  nonzero := fun _ => one_ne_zero
  inj := fun r r' o o' h => ⟨rfl, funext (fun k => by
    obtain rfl : k = 0 := Fin.ext (by omega)
    exact pairName_inj h)⟩
  cum := by
    intro st hst
    obtain ⟨x, -, rfl⟩ := List.mem_map.mp hst
    simp [pairState]
  only := by
    intro st hst s hs
    obtain ⟨x, -, rfl⟩ := List.mem_map.mp hst
    rw [pairState_keys, List.mem_map] at hs
    obtain ⟨o, -, rfl⟩ := hs
    exact ⟨(), fun _ => o, rfl⟩
  amp := by
    intro st hst x hx r o
    obtain ⟨y, -, rfl⟩ := List.mem_map.mp hst
    obtain rfl : y = x 0 := by simpa [pairState, configuration] using hx
    unfold pairNames
    rw [pairState_amp]
    simp

/-! ### C72 -/

/-- C72: whenever the amplitude of every outcome is a product over pairs and photons, the measurement succeeds, lists exactly the
components that occur, each once, and gives each the squared amplitude summed over configurations, times for each pair
(1 + correlation)/2, times the probability of the original state. Any number of pairs, any positive quantumness. -/
theorem C72_product_outcomes {d : ℕ} {Ks : Fin (d + 1) → ℝ} {init : List Char} {P : ℝ} {coll : List PRState} (h : PRSet (d + 1) Ks init P coll)
    (hK : ∀ k, 0 < Ks k) (c : Name → ℂ) (a b : Name → Fin (d + 1) → Fin 2 → ℂ)
    (hp : ∀ s, Arises coll s → ProductOutcome coll s (c s) (a s) (b s)) :
    ∃ histo, measurePRGroup coll = some histo ∧ (histo.map Prod.fst).Nodup ∧ (∀ s, s ∈ histo.map Prod.fst ↔ Arises coll s) ∧
      ∀ sp ∈ histo, sp.2 = P * (‖c sp.1‖ ^ 2 * ∏ k, (polWeight (a sp.1 k) * polWeight (b sp.1 k) * ((1 + pairCorrelation (Ks k) (a sp.1 k) (b sp.1 k)) / 2))) :=
  measurePRGroup_prod h hK c a b hp

/-- C72: after local optics the probability to find polarizations `o` is the original probability times the weight of the other channels
times, for each pair, (1 + correlation)/4. -/
theorem C72_local_optics {d : ℕ} {R : Type} {Ks : Fin (d + 1) → ℝ} {init : List Char} {P : ℝ} {coll : List PRState} (h : PRSet (d + 1) Ks init P coll)
    (hK : ∀ k, 0 < Ks k) {U V : Fin (d + 1) → Matrix (Fin 2) (Fin 2) ℂ} {γ : R → ℂ} {name : R → (Fin (d + 1) → Fin 4) → Name}
    (hl : LocalRun coll U V γ name) :
    ∃ histo, measurePRGroup coll = some histo ∧ (histo.map Prod.fst).Nodup ∧ (∀ s, s ∈ histo.map Prod.fst ↔ ∃ r o, s = name r o) ∧
      ∀ r o, listedProb histo (name r o) = P * ‖γ r‖ ^ 2 * ∏ k, ((1 + pairCorrelation (Ks k) (U k (polA (o k))) (V k (polB (o k)))) / 4) :=
  localRun_prob h hK hl

theorem one_unitary : (1 : Matrix (Fin 2) (Fin 2) ℂ) ∈ Matrix.unitaryGroup (Fin 2) ℂ := one_mem _

/-- Without any optics a pair is found with equal polarizations: HH with probability 1/2 and HV with probability 0. -/
example : ∃ histo, measurePRGroup (pairRun 1 1 5 1) = some histo ∧ listedProb histo "1010".toList = 1 / 2 ∧ listedProb histo "1001".toList = 0 := by
  obtain ⟨histo, h1, -, -, h4⟩ := C72_local_optics (pairRun_set 1 1 5 1) (fun _ => by norm_num) (pairRun_local one_unitary one_unitary 5 1)
  have ho : overlap ((1 : Matrix (Fin 2) (Fin 2) ℂ) 0) ((1 : Matrix (Fin 2) (Fin 2) ℂ) 0) = 1 := by simp [overlap, polWeight]
  have ho' : overlap ((1 : Matrix (Fin 2) (Fin 2) ℂ) 0) ((1 : Matrix (Fin 2) (Fin 2) ℂ) 1) = 0 := by simp [overlap]
  refine ⟨histo, h1, ?_, ?_⟩
  · refine (h4 () (fun _ => 0)).trans ?_
    rw [Fin.prod_univ_one]
    show 1 * ‖(1 : ℂ)‖ ^ 2 * ((1 + correlation 5 (2 * overlap ((1 : Matrix (Fin 2) (Fin 2) ℂ) 0) ((1 : Matrix (Fin 2) (Fin 2) ℂ) 0) - 1)) / 4) = 1 / 2
    rw [ho, correlation]
    norm_num
  · refine (h4 () (fun _ => 1)).trans ?_
    rw [Fin.prod_univ_one]
    show 1 * ‖(1 : ℂ)‖ ^ 2 * ((1 + correlation 5 (2 * overlap ((1 : Matrix (Fin 2) (Fin 2) ℂ) 0) ((1 : Matrix (Fin 2) (Fin 2) ℂ) 1) - 1)) / 4) = 0
    rw [ho', correlation]
    norm_num

/-! ### C73 -/

/-- C73: after local optics the probabilities of all outcomes add up to the probability of the original state (times the norm of the
state of the other channels, which is 1 for a normalised input). -/
theorem C73_total_probability_partial {d : ℕ} {R : Type} [Fintype R] {Ks : Fin (d + 1) → ℝ} {init : List Char} {P : ℝ} {coll : List PRState}
    (h : PRSet (d + 1) Ks init P coll) (hK : ∀ k, 0 < Ks k) {U V : Fin (d + 1) → Matrix (Fin 2) (Fin 2) ℂ} {γ : R → ℂ}
    {name : R → (Fin (d + 1) → Fin 4) → Name} (hl : LocalRun coll U V γ name) :
    ∃ histo, measurePRGroup coll = some histo ∧ (histo.map Prod.snd).sum = P * ∑ r, ‖γ r‖ ^ 2 := by
  classical
  obtain ⟨histo, h1, h2, h3, h4⟩ := localRun_prob h hK hl
  refine ⟨histo, h1, ?_⟩
  have hF : ∀ p ∈ histo, p.2 = listedProb histo p.1 := fun p hp => by unfold listedProb; rw [Dict.get?_of_mem (v := p.2) h2 hp]; rfl
  rw [dict_sum_list h2 hF]
  have himg : (histo.map Prod.fst).toFinset = Finset.univ.image (fun ro : R × (Fin (d + 1) → Fin 4) => name ro.1 ro.2) := by
    ext s
    rw [List.mem_toFinset, h3, Finset.mem_image]
    exact ⟨fun ⟨r, o, e⟩ => ⟨(r, o), Finset.mem_univ _, e.symm⟩, fun ⟨ro, _, e⟩ => ⟨ro.1, ro.2, e.symm⟩⟩
  rw [himg, Finset.sum_image (fun ro _ ro' _ e => Prod.ext (hl.inj _ _ _ _ e).1 (hl.inj _ _ _ _ e).2),
    Fintype.sum_prod_type' (f := fun (r : R) (o : Fin (d + 1) → Fin 4) => listedProb histo (name r o))]
  simp only [h4]
  rw [Finset.mul_sum]
  refine Finset.sum_congr rfl (fun r _ => ?_)
  rw [← Finset.mul_sum, sum_pi_prod (fun k q => (1 + pairCorrelation (Ks k) (U k (polA q)) (V k (polB q))) / 4)]
  rw [Finset.prod_congr rfl (fun k _ => sum_pair (hK k) (hl.unitA k) (hl.unitB k)), Finset.prod_const_one, mul_one]

example : ∃ histo, measurePRGroup (pairRun 1 1 5 (1 / 3)) = some histo ∧ (histo.map Prod.snd).sum = 1 / 3 := by
  obtain ⟨histo, h1, h2⟩ := C73_total_probability_partial (pairRun_set 1 1 5 (1 / 3)) (fun _ => by norm_num) (pairRun_local one_unitary one_unitary 5 (1 / 3))
  exact ⟨histo, h1, by rw [h2]; simp⟩

/-! ### C74 -/

/-- C74 (no signalling): the probability that the first photons are found with polarizations `i`, whatever happens to the second photons,
is `(1/2)^n` times the weight of the other channels: it depends neither on the optics of the second photons nor on the quantumness. -/
theorem C74_marginal_first {d : ℕ} {R : Type} {Ks : Fin (d + 1) → ℝ} {init : List Char} {P : ℝ} {coll : List PRState}
    (h : PRSet (d + 1) Ks init P coll) (hK : ∀ k, 0 < Ks k) {U V : Fin (d + 1) → Matrix (Fin 2) (Fin 2) ℂ} {γ : R → ℂ}
    {name : R → (Fin (d + 1) → Fin 4) → Name} (hl : LocalRun coll U V γ name) :
    ∃ histo, measurePRGroup coll = some histo ∧ ∀ (r : R) (i : Fin (d + 1) → Fin 2),
      ∑ o ∈ Finset.univ.filter (fun o : Fin (d + 1) → Fin 4 => ∀ k, polA (o k) = i k), listedProb histo (name r o) = P * ‖γ r‖ ^ 2 * (1 / 2) ^ (d + 1) := by
  obtain ⟨histo, h1, h2, h3, h4⟩ := localRun_prob h hK hl
  refine ⟨histo, h1, fun r i => ?_⟩
  simp only [h4]
  rw [← Finset.mul_sum, filter_prod_eq (fun k q => (1 + pairCorrelation (Ks k) (U k (polA q)) (V k (polB q))) / 4) polA i]
  rw [Finset.prod_congr rfl (fun k _ => sum_pair_A (hK k) (hl.unitA k) (hl.unitB k) (i k)), Finset.prod_const, Finset.card_univ, Fintype.card_fin]

/-- C74 for the second photons. -/
theorem C74_marginal_second {d : ℕ} {R : Type} {Ks : Fin (d + 1) → ℝ} {init : List Char} {P : ℝ} {coll : List PRState}
    (h : PRSet (d + 1) Ks init P coll) (hK : ∀ k, 0 < Ks k) {U V : Fin (d + 1) → Matrix (Fin 2) (Fin 2) ℂ} {γ : R → ℂ}
    {name : R → (Fin (d + 1) → Fin 4) → Name} (hl : LocalRun coll U V γ name) :
    ∃ histo, measurePRGroup coll = some histo ∧ ∀ (r : R) (j : Fin (d + 1) → Fin 2),
      ∑ o ∈ Finset.univ.filter (fun o : Fin (d + 1) → Fin 4 => ∀ k, polB (o k) = j k), listedProb histo (name r o) = P * ‖γ r‖ ^ 2 * (1 / 2) ^ (d + 1) := by
  obtain ⟨histo, h1, h2, h3, h4⟩ := localRun_prob h hK hl
  refine ⟨histo, h1, fun r j => ?_⟩
  simp only [h4]
  rw [← Finset.mul_sum, filter_prod_eq (fun k q => (1 + pairCorrelation (Ks k) (U k (polA q)) (V k (polB q))) / 4) polB j]
  rw [Finset.prod_congr rfl (fun k _ => sum_pair_B (hK k) (hl.unitA k) (hl.unitB k) (j k)), Finset.prod_const, Finset.card_univ, Fintype.card_fin]

/-- C74 as two experiments: whoever handles the second photons may change the optics (`V` to `V'`), and even the quantumness may differ;
what is seen on the first photons is the same. -/
theorem C74_no_signalling {d : ℕ} {R : Type} {Ks Ks' : Fin (d + 1) → ℝ} {init init' : List Char} {P : ℝ} {coll coll' : List PRState}
    (h : PRSet (d + 1) Ks init P coll) (h' : PRSet (d + 1) Ks' init' P coll') (hK : ∀ k, 0 < Ks k) (hK' : ∀ k, 0 < Ks' k)
    {U V V' : Fin (d + 1) → Matrix (Fin 2) (Fin 2) ℂ} {γ : R → ℂ} {name : R → (Fin (d + 1) → Fin 4) → Name}
    (hl : LocalRun coll U V γ name) (hl' : LocalRun coll' U V' γ name) :
    ∃ histo histo', measurePRGroup coll = some histo ∧ measurePRGroup coll' = some histo' ∧ ∀ (r : R) (i : Fin (d + 1) → Fin 2),
      ∑ o ∈ Finset.univ.filter (fun o : Fin (d + 1) → Fin 4 => ∀ k, polA (o k) = i k), listedProb histo (name r o)
      = ∑ o ∈ Finset.univ.filter (fun o : Fin (d + 1) → Fin 4 => ∀ k, polA (o k) = i k), listedProb histo' (name r o) := by
  obtain ⟨histo, h1, h2⟩ := C74_marginal_first h hK hl
  obtain ⟨histo', h1', h2'⟩ := C74_marginal_first h' hK' hl'
  exact ⟨histo, histo', h1, h1', fun r i => (h2 r i).trans (h2' r i).symm⟩

/-! ### C76 -/

theorem correlation_abs_le {K x : ℝ} (hK : 0 < K) (hx : |x| ≤ 1) : |correlation K x| ≤ 1 := by
  have h := abs_le.mp hx
  unfold correlation
  by_cases h0 : 0 ≤ x
  · rw [if_pos h0, abs_of_nonneg (Real.rpow_nonneg h0 _)]
    exact Real.rpow_le_one h0 h.2 (by positivity)
  · rw [if_neg h0, abs_neg, abs_of_nonneg (Real.rpow_nonneg (by linarith) _)]
    exact Real.rpow_le_one (by linarith) (by linarith) (by positivity)

theorem innerR_stokes_abs {a b : Fin 2 → ℂ} (ha : 0 < polWeight a) (hb : 0 < polWeight b) : |2 * overlap a b - 1| ≤ 1 := by
  have h1 := innerR_stokes ha hb
  have h2 := innerR_stokes ha ha
  have h3 := innerR_stokes hb hb
  rw [overlap_self ha] at h2
  rw [overlap_self hb] at h3
  rw [← h1]
  unfold innerR at *
  rw [Fin.sum_univ_three] at *
  rw [abs_le]
  constructor
  · nlinarith [sq_nonneg (stokes a 0 + stokes b 0), sq_nonneg (stokes a 1 + stokes b 1), sq_nonneg (stokes a 2 + stokes b 2)]
  · nlinarith [sq_nonneg (stokes a 0 - stokes b 0), sq_nonneg (stokes a 1 - stokes b 1), sq_nonneg (stokes a 2 - stokes b 2)]

theorem pairCorrelation_abs_le {K : ℝ} (hK : 0 < K) {a b : Fin 2 → ℂ} (ha : 0 < polWeight a) (hb : 0 < polWeight b) : |pairCorrelation K a b| ≤ 1 :=
  correlation_abs_le hK (innerR_stokes_abs ha hb)

/-- C76: the correlation read from the probabilities of a measurement, for any pair and whatever the other pairs do, is the signed `1/K`-th
power of the alignment of the two measured polarizations. -/
theorem C76_measured_correlation {d : ℕ} {R : Type} [Fintype R] [Nonempty R] {Ks : Fin (d + 1) → ℝ} {init : List Char} {P : ℝ} {coll : List PRState}
    (h : PRSet (d + 1) Ks init P coll) (hP : 0 < P) (hK : ∀ k, 0 < Ks k) {U V : Fin (d + 1) → Matrix (Fin 2) (Fin 2) ℂ} {γ : R → ℂ}
    {name : R → (Fin (d + 1) → Fin 4) → Name} (hl : LocalRun coll U V γ name) :
    ∃ histo, measurePRGroup coll = some histo ∧ ∀ k, measuredCorrelation histo name k = correlation (Ks k) (2 * overlap (U k 0) (V k 0) - 1) := by
  obtain ⟨histo, h1, h2, h3, h4⟩ := localRun_prob h hK hl
  refine ⟨histo, h1, fun k => ?_⟩
  have hg : 0 < ∑ r, ‖γ r‖ ^ 2 := Finset.sum_pos (fun r _ => pow_pos (norm_pos_iff.mpr (hl.nonzero r)) 2) Finset.univ_nonempty
  have hden : ∑ r, ∑ o, listedProb histo (name r o) = P * ∑ r, ‖γ r‖ ^ 2 := by
    simp only [h4]
    rw [Finset.mul_sum]
    refine Finset.sum_congr rfl (fun r _ => ?_)
    rw [← Finset.mul_sum, sum_pi_prod (fun k q => (1 + pairCorrelation (Ks k) (U k (polA q)) (V k (polB q))) / 4)]
    rw [Finset.prod_congr rfl (fun k _ => sum_pair (hK k) (hl.unitA k) (hl.unitB k)), Finset.prod_const_one, mul_one]
  have hnum : ∑ r, ∑ o, (if polA (o k) = polB (o k) then (1 : ℝ) else -1) * listedProb histo (name r o) = (P * ∑ r, ‖γ r‖ ^ 2) * pairCorrelation (Ks k) (U k 0) (V k 0) := by
    simp only [h4]
    rw [Finset.mul_sum, Finset.sum_mul]
    refine Finset.sum_congr rfl (fun r _ => ?_)
    have hterm : ∀ o : Fin (d + 1) → Fin 4, (if polA (o k) = polB (o k) then (1 : ℝ) else -1) * (P * ‖γ r‖ ^ 2 * ∏ k, ((1 + pairCorrelation (Ks k) (U k (polA (o k))) (V k (polB (o k)))) / 4))
        = P * ‖γ r‖ ^ 2 * ∏ k', ((if k' = k then (if polA (o k') = polB (o k') then (1 : ℝ) else -1) else 1) * ((1 + pairCorrelation (Ks k') (U k' (polA (o k'))) (V k' (polB (o k')))) / 4)) := by
      intro o
      rw [Finset.prod_mul_distrib, Finset.prod_ite_eq' Finset.univ k]
      simp only [Finset.mem_univ, if_true]
      ring
    simp only [hterm]
    rw [← Finset.mul_sum, sum_pi_prod (fun k' q => (if k' = k then (if polA q = polB q then (1 : ℝ) else -1) else 1) * ((1 + pairCorrelation (Ks k') (U k' (polA q)) (V k' (polB q))) / 4))]
    congr 1
    rw [Finset.prod_eq_single k]
    · simp only [if_true]
      exact sum_pair_sign (hK k) (hl.unitA k) (hl.unitB k)
    · intro k' _ hk'
      simp only [if_neg hk', one_mul]
      exact sum_pair (hK k') (hl.unitA k') (hl.unitB k')
    · simp
  unfold measuredCorrelation
  rw [hnum, hden, mul_div_cancel_left₀ _ (mul_pos hP hg).ne']
  rfl

/-- The four experiments of a CHSH test on pair `k`: first photon with `U` or `U'`, second photon with `V` or `V'`. -/
noncomputable def chsh {n : ℕ} (K : ℝ) (U U' V V' : Fin n → Matrix (Fin 2) (Fin 2) ℂ) (k : Fin n) : ℝ :=
  pairCorrelation K (U k 0) (V k 0) + pairCorrelation K (U k 0) (V' k 0) + pairCorrelation K (U' k 0) (V k 0) - pairCorrelation K (U' k 0) (V' k 0)

theorem tsirelson {a a' b b' : Fin 2 → ℂ} (ha : 0 < polWeight a) (ha' : 0 < polWeight a') (hb : 0 < polWeight b) (hb' : 0 < polWeight b') :
    |(2 * overlap a b - 1) + (2 * overlap a b' - 1) + (2 * overlap a' b - 1) - (2 * overlap a' b' - 1)| ≤ 2 * Real.sqrt 2 := by
  have h1 := innerR_stokes ha ha
  have h2 := innerR_stokes ha' ha'
  have h3 := innerR_stokes hb hb
  have h4 := innerR_stokes hb' hb'
  rw [overlap_self ha] at h1
  rw [overlap_self ha'] at h2
  rw [overlap_self hb] at h3
  rw [overlap_self hb'] at h4
  rw [← innerR_stokes ha hb, ← innerR_stokes ha hb', ← innerR_stokes ha' hb, ← innerR_stokes ha' hb']
  unfold innerR at *
  rw [Fin.sum_univ_three] at *
  rw [Fin.sum_univ_three, Fin.sum_univ_three, Fin.sum_univ_three]
  have hs : Real.sqrt 2 * Real.sqrt 2 = 2 := Real.mul_self_sqrt (by norm_num)
  have hs0 : 0 < Real.sqrt 2 := Real.sqrt_pos.mpr (by norm_num)
  generalize stokes a 0 = a0 at *
  generalize stokes a 1 = a1 at *
  generalize stokes a 2 = a2 at *
  generalize stokes a' 0 = c0 at *
  generalize stokes a' 1 = c1 at *
  generalize stokes a' 2 = c2 at *
  generalize stokes b 0 = b0 at *
  generalize stokes b 1 = b1 at *
  generalize stokes b 2 = b2 at *
  generalize stokes b' 0 = e0 at *
  generalize stokes b' 1 = e1 at *
  generalize stokes b' 2 = e2 at *
  generalize Real.sqrt 2 = r at *
  set S := a0 * b0 + a1 * b1 + a2 * b2 + (a0 * e0 + a1 * e1 + a2 * e2) + (c0 * b0 + c1 * b1 + c2 * b2) - (c0 * e0 + c1 * e1 + c2 * e2) with hS
  have hup : 0 ≤ 8 - 2 * r * S := by
    have hid : 8 - 2 * r * S = (r * a0 - (b0 + e0)) ^ 2 + (r * a1 - (b1 + e1)) ^ 2 + (r * a2 - (b2 + e2)) ^ 2
        + ((r * c0 - (b0 - e0)) ^ 2 + (r * c1 - (b1 - e1)) ^ 2 + (r * c2 - (b2 - e2)) ^ 2) := by
      rw [hS]
      linear_combination (-2) * h1 + (-2) * h2 + (-2) * h3 + (-2) * h4 - (a0 * a0 + a1 * a1 + a2 * a2) * hs - (c0 * c0 + c1 * c1 + c2 * c2) * hs
    rw [hid]; positivity
  have hlo : 0 ≤ 8 + 2 * r * S := by
    have hid : 8 + 2 * r * S = (r * a0 + (b0 + e0)) ^ 2 + (r * a1 + (b1 + e1)) ^ 2 + (r * a2 + (b2 + e2)) ^ 2
        + ((r * c0 + (b0 - e0)) ^ 2 + (r * c1 + (b1 - e1)) ^ 2 + (r * c2 + (b2 - e2)) ^ 2) := by
      rw [hS]
      linear_combination (-2) * h1 + (-2) * h2 + (-2) * h3 + (-2) * h4 - (a0 * a0 + a1 * a1 + a2 * a2) * hs - (c0 * c0 + c1 * c1 + c2 * c2) * hs
    rw [hid]; positivity
  rw [abs_le]
  constructor
  · nlinarith
  · nlinarith

theorem correlation_one (x : ℝ) : correlation 1 x = x := by
  unfold correlation
  by_cases h : 0 ≤ x
  · rw [if_pos h]; simp
  · rw [if_neg h]; simp

/-- C76: with quantumness 1 no choice of the four measurements exceeds the Tsirelson bound. -/
theorem C76_quantum_bound {n : ℕ} {U U' V V' : Fin n → Matrix (Fin 2) (Fin 2) ℂ} (hU : ∀ k, U k ∈ Matrix.unitaryGroup (Fin 2) ℂ)
    (hU' : ∀ k, U' k ∈ Matrix.unitaryGroup (Fin 2) ℂ) (hV : ∀ k, V k ∈ Matrix.unitaryGroup (Fin 2) ℂ) (hV' : ∀ k, V' k ∈ Matrix.unitaryGroup (Fin 2) ℂ)
    (k : Fin n) : |chsh 1 U U' V V' k| ≤ 2 * Real.sqrt 2 := by
  unfold chsh pairCorrelation
  simp only [correlation_one]
  exact tsirelson (by rw [polWeight_row (hU k)]; exact one_pos) (by rw [polWeight_row (hU' k)]; exact one_pos)
    (by rw [polWeight_row (hV k)]; exact one_pos) (by rw [polWeight_row (hV' k)]; exact one_pos)

/-- C76: with any quantumness the four correlations never exceed 4. -/
theorem C76_algebraic_bound {n : ℕ} {K : ℝ} (hK : 0 < K) {U U' V V' : Fin n → Matrix (Fin 2) (Fin 2) ℂ} (hU : ∀ k, U k ∈ Matrix.unitaryGroup (Fin 2) ℂ)
    (hU' : ∀ k, U' k ∈ Matrix.unitaryGroup (Fin 2) ℂ) (hV : ∀ k, V k ∈ Matrix.unitaryGroup (Fin 2) ℂ) (hV' : ∀ k, V' k ∈ Matrix.unitaryGroup (Fin 2) ℂ)
    (k : Fin n) : |chsh K U U' V V' k| ≤ 4 := by
  have hw : ∀ {W : Fin n → Matrix (Fin 2) (Fin 2) ℂ}, (∀ k, W k ∈ Matrix.unitaryGroup (Fin 2) ℂ) → 0 < polWeight (W k 0) :=
    fun h => by rw [polWeight_row (h k)]; exact one_pos
  have h1 := abs_le.mp (pairCorrelation_abs_le hK (hw hU) (hw hV))
  have h2 := abs_le.mp (pairCorrelation_abs_le hK (hw hU) (hw hV'))
  have h3 := abs_le.mp (pairCorrelation_abs_le hK (hw hU') (hw hV))
  have h4 := abs_le.mp (pairCorrelation_abs_le hK (hw hU') (hw hV'))
  unfold chsh
  rw [abs_le]
  constructor <;> linarith

theorem rotation_unitary (θ : ℝ) : rotation θ ∈ Matrix.unitaryGroup (Fin 2) ℂ := by
  rw [Matrix.mem_unitaryGroup_iff]
  have h : (Real.cos θ : ℂ) * Real.cos θ + (Real.sin θ : ℂ) * Real.sin θ = 1 := by
    have := Real.cos_sq_add_sin_sq θ
    have h2 : Real.cos θ * Real.cos θ + Real.sin θ * Real.sin θ = 1 := by rw [← this]; ring
    exact_mod_cast h2
  ext i j
  rw [Matrix.mul_apply, Fin.sum_univ_two]
  fin_cases i <;> fin_cases j <;> simp only [rotation, Matrix.star_apply, Matrix.of_apply, Matrix.cons_val', Matrix.cons_val_zero, Matrix.cons_val_one, Matrix.cons_val_fin_one, Fin.zero_eta, Fin.mk_one, Complex.star_def, map_neg, Complex.conj_ofReal]
  · simpa using h
  · simp; ring
  · simp; ring
  · rw [Matrix.one_apply_eq]
    linear_combination h

theorem overlap_rotation (α β : ℝ) : 2 * overlap (rotation α 0) (rotation β 0) - 1 = Real.cos (2 * (α - β)) := by
  unfold overlap
  rw [polWeight_row (rotation_unitary α), polWeight_row (rotation_unitary β)]
  have h : star (rotation α 0 0) * rotation β 0 0 + star (rotation α 0 1) * rotation β 0 1 = ((Real.cos (α - β) : ℝ) : ℂ) := by
    simp only [rotation, Matrix.of_apply, Matrix.cons_val', Matrix.cons_val_zero, Matrix.cons_val_one, Matrix.cons_val_fin_one, Complex.star_def, Complex.conj_ofReal]
    rw [Real.cos_sub]
    push_cast
    ring
  rw [h, Complex.norm_real, Real.norm_eq_abs, sq_abs, Real.cos_two_mul]
  ring

theorem cos_pi_div_four_pow (K : ℝ) : correlation K (Real.cos (Real.pi / 4)) = (Real.sqrt 2 / 2) ^ (1 / K) := by
  rw [Real.cos_pi_div_four]
  unfold correlation
  rw [if_pos (by positivity)]

/-- C76: at the standard CHSH settings (0 and 45 degrees against ±22.5 degrees) the four correlations add up to `4 * (1/√2)^(1/K)`. -/
theorem C76_standard_settings {n : ℕ} {K : ℝ} (hK : 0 < K) (k : Fin n) :
    chsh K (fun _ => rotation 0) (fun _ => rotation (Real.pi / 4)) (fun _ => rotation (Real.pi / 8)) (fun _ => rotation (-(Real.pi / 8))) k
      = 4 * (Real.sqrt 2 / 2) ^ (1 / K) := by
  unfold chsh pairCorrelation
  simp only [overlap_rotation]
  rw [show 2 * (0 - Real.pi / 8) = -(Real.pi / 4) by ring, show 2 * (0 - -(Real.pi / 8)) = Real.pi / 4 by ring,
    show 2 * (Real.pi / 4 - Real.pi / 8) = Real.pi / 4 by ring, show 2 * (Real.pi / 4 - -(Real.pi / 8)) = Real.pi - Real.pi / 4 by ring,
    Real.cos_neg, Real.cos_pi_sub, correlation_neg hK, cos_pi_div_four_pow]
  ring

/-- C76: at these settings the Tsirelson bound `2√2` is exceeded exactly when the quantumness is above 1. -/
theorem C76_beyond_quantum {n : ℕ} {K : ℝ} (hK : 0 < K) (k : Fin n) :
    2 * Real.sqrt 2 < chsh K (fun _ => rotation 0) (fun _ => rotation (Real.pi / 4)) (fun _ => rotation (Real.pi / 8)) (fun _ => rotation (-(Real.pi / 8))) k ↔ 1 < K := by
  rw [C76_standard_settings hK]
  have hs0 : 0 < Real.sqrt 2 := Real.sqrt_pos.mpr (by norm_num)
  have hs2 : Real.sqrt 2 * Real.sqrt 2 = 2 := Real.mul_self_sqrt (by norm_num)
  have hb : Real.sqrt 2 / 2 < 1 := by nlinarith
  have hb0 : 0 < Real.sqrt 2 / 2 := by positivity
  rw [show 2 * Real.sqrt 2 = 4 * ((Real.sqrt 2 / 2) ^ (1 : ℝ)) by rw [Real.rpow_one]; ring]
  rw [mul_lt_mul_iff_right₀ (by norm_num : (0 : ℝ) < 4), Real.rpow_lt_rpow_left_iff_of_base_lt_one hb0 hb, div_lt_one hK]

/-- C76: in the limit of large quantumness the value tends to 4, the maximum. -/
theorem C76_limit {n : ℕ} (k : Fin n) :
    Filter.Tendsto (fun K : ℝ => chsh K (fun _ => rotation 0) (fun _ => rotation (Real.pi / 4)) (fun _ => rotation (Real.pi / 8)) (fun _ => rotation (-(Real.pi / 8))) k)
      Filter.atTop (nhds 4) := by
  have h1 : Filter.Tendsto (fun K : ℝ => 4 * (Real.sqrt 2 / 2) ^ (1 / K)) Filter.atTop (nhds 4) := by
    have hb0 : Real.sqrt 2 / 2 ≠ 0 := by positivity
    have h0 : Filter.Tendsto (fun K : ℝ => 1 / K) Filter.atTop (nhds 0) := by simpa using tendsto_inv_atTop_zero
    have := ((Real.continuousAt_const_rpow hb0 (b := 0)).tendsto.comp h0).const_mul 4
    simpa using this
  refine h1.congr' ?_
  filter_upwards [Filter.eventually_gt_atTop 0] with K hK
  rw [C76_standard_settings hK]

/-- C76 as an experiment: four runs with two settings on each side. The correlations read from the four measurements, combined as in the
CHSH inequality, never exceed 4; and for a pair with quantumness 1 they never exceed `2√2`. -/
theorem C76_chsh_experiment {d : ℕ} {R : Type} [Fintype R] [Nonempty R] {Ks : Fin (d + 1) → ℝ} {init : List Char} {P : ℝ}
    (run : Fin 2 → Fin 2 → List PRState) (A B : Fin 2 → Fin (d + 1) → Matrix (Fin 2) (Fin 2) ℂ) {γ : R → ℂ} {name : R → (Fin (d + 1) → Fin 4) → Name}
    (h : ∀ i j, PRSet (d + 1) Ks init P (run i j)) (hP : 0 < P) (hK : ∀ k, 0 < Ks k) (hl : ∀ i j, LocalRun (run i j) (A i) (B j) γ name) :
    ∃ histo : Fin 2 → Fin 2 → List (Name × ℝ), (∀ i j, measurePRGroup (run i j) = some (histo i j)) ∧ ∀ k,
      |measuredCorrelation (histo 0 0) name k + measuredCorrelation (histo 0 1) name k + measuredCorrelation (histo 1 0) name k
        - measuredCorrelation (histo 1 1) name k| ≤ 4 ∧
      (Ks k = 1 → |measuredCorrelation (histo 0 0) name k + measuredCorrelation (histo 0 1) name k + measuredCorrelation (histo 1 0) name k
        - measuredCorrelation (histo 1 1) name k| ≤ 2 * Real.sqrt 2) := by
  have key := fun i j => C76_measured_correlation (h i j) hP hK (hl i j)
  choose histo h1 h2 using key
  refine ⟨histo, h1, fun k => ?_⟩
  rw [h2, h2, h2, h2]
  have hA := fun i => (hl i 0).unitA
  have hB := fun j => (hl 0 j).unitB
  refine ⟨C76_algebraic_bound (hK k) (hA 0) (hA 1) (hB 0) (hB 1) k, fun h1 => ?_⟩
  rw [h1]
  exact C76_quantum_bound (hA 0) (hA 1) (hB 0) (hB 1) k

/-- Non-vacuity: the four runs exist, and the measured correlations add up to the value above. -/
example : ∃ h₁ h₂ h₃ h₄,
    measurePRGroup (pairRun (rotation 0) (rotation (Real.pi / 8)) 2 1) = some h₁ ∧
    measurePRGroup (pairRun (rotation 0) (rotation (-(Real.pi / 8))) 2 1) = some h₂ ∧
    measurePRGroup (pairRun (rotation (Real.pi / 4)) (rotation (Real.pi / 8)) 2 1) = some h₃ ∧
    measurePRGroup (pairRun (rotation (Real.pi / 4)) (rotation (-(Real.pi / 8))) 2 1) = some h₄ ∧
    measuredCorrelation h₁ pairNames 0 + measuredCorrelation h₂ pairNames 0 + measuredCorrelation h₃ pairNames 0 - measuredCorrelation h₄ pairNames 0
      = 4 * (Real.sqrt 2 / 2) ^ (1 / 2 : ℝ) := by
  have key : ∀ α β : ℝ, ∃ histo, measurePRGroup (pairRun (rotation α) (rotation β) 2 1) = some histo ∧
      measuredCorrelation histo pairNames 0 = pairCorrelation 2 (rotation α 0) (rotation β 0) := by
    intro α β
    obtain ⟨histo, h1, h2⟩ := C76_measured_correlation (pairRun_set (rotation α) (rotation β) 2 1) one_pos (fun _ => by norm_num)
      (pairRun_local (rotation_unitary α) (rotation_unitary β) 2 1)
    exact ⟨histo, h1, h2 0⟩
  obtain ⟨h1, e1, c1⟩ := key 0 (Real.pi / 8)
  obtain ⟨h2, e2, c2⟩ := key 0 (-(Real.pi / 8))
  obtain ⟨h3, e3, c3⟩ := key (Real.pi / 4) (Real.pi / 8)
  obtain ⟨h4, e4, c4⟩ := key (Real.pi / 4) (-(Real.pi / 8))
  refine ⟨h1, h2, h3, h4, e1, e2, e3, e4, ?_⟩
  rw [c1, c2, c3, c4]
  exact C76_standard_settings (n := 1) (by norm_num) 0

/-! ### C75 -/

/-- C75 (part): with quantumness 1 and optics that keep polarizations linear (real matrices), the outcomes have the probabilities of the
regular entangled state ('1010' + '0101')/√2. Missing: optics with complex amplitudes, see `C75_regular_entanglement_fails`. -/
theorem C75_regular_entanglement_partial {U V : Matrix (Fin 2) (Fin 2) ℂ} (hU : U ∈ Matrix.unitaryGroup (Fin 2) ℂ) (hV : V ∈ Matrix.unitaryGroup (Fin 2) ℂ)
    (hUr : ∀ i j, star (U i j) = U i j) {init : List Char} {coll : List PRState} {R : Type} (h : PRSet 1 (fun _ => 1) init 1 coll) {name : R → (Fin 1 → Fin 4) → Name}
    {γ : R → ℂ} (hl : LocalRun coll (fun _ => U) (fun _ => V) γ name) :
    ∃ histo, measurePRGroup coll = some histo ∧ ∀ r o, listedProb histo (name r o) = ‖γ r‖ ^ 2 * entangledProb U V (polA (o 0)) (polB (o 0)) := by
  obtain ⟨histo, h1, h2, h3, h4⟩ := localRun_prob h (fun _ => one_pos) hl
  refine ⟨histo, h1, fun r o => ?_⟩
  rw [h4, Fin.prod_univ_one]
  unfold pairCorrelation entangledProb overlap
  rw [correlation_one, polWeight_row hU, polWeight_row hV, hUr, hUr, ← mul_add, Complex.norm_mul, mul_pow, Complex.norm_real, Real.norm_eq_abs, sq_abs, div_pow,
    Real.sq_sqrt (by norm_num)]
  ring

/-- A quarter wave plate at 45 degrees, up to a phase. -/
noncomputable def quarterPlate : Matrix (Fin 2) (Fin 2) ℂ :=
  ((1 / Real.sqrt 2 : ℝ) : ℂ) • !![1, Complex.I; Complex.I, 1]

theorem inv_sqrt_two_sq : ((1 / Real.sqrt 2 : ℝ) : ℂ) * ((1 / Real.sqrt 2 : ℝ) : ℂ) = 1 / 2 := by
  have h : (1 / Real.sqrt 2) * (1 / Real.sqrt 2) = 1 / 2 := by
    rw [div_mul_div_comm, Real.mul_self_sqrt (by norm_num)]
    norm_num
  rw [← Complex.ofReal_mul, h]
  norm_num

theorem quarterPlate_unitary : quarterPlate ∈ Matrix.unitaryGroup (Fin 2) ℂ := by
  rw [Matrix.mem_unitaryGroup_iff]
  have h := inv_sqrt_two_sq
  generalize ((1 / Real.sqrt 2 : ℝ) : ℂ) = t at *
  have hq : quarterPlate = ((1 / Real.sqrt 2 : ℝ) : ℂ) • !![1, Complex.I; Complex.I, 1] := rfl
  have hI := Complex.I_mul_I
  have h2 := inv_sqrt_two_sq
  ext i j
  rw [Matrix.mul_apply, Fin.sum_univ_two, hq]
  fin_cases i <;> fin_cases j <;> simp only [Matrix.star_apply, Matrix.smul_apply, smul_eq_mul, Matrix.of_apply, Matrix.cons_val', Matrix.cons_val_zero, Matrix.cons_val_one, Matrix.cons_val_fin_one, Fin.zero_eta, Fin.mk_one, Complex.star_def, map_mul, map_one, Complex.conj_I, Complex.conj_ofReal, Matrix.one_apply_eq]
  · linear_combination 2 * h2 - ((1 / Real.sqrt 2 : ℝ) : ℂ) * ((1 / Real.sqrt 2 : ℝ) : ℂ) * hI
  · rw [Matrix.one_apply_ne (by decide)]; ring
  · rw [Matrix.one_apply_ne (by decide)]; ring
  · linear_combination 2 * h2 - ((1 / Real.sqrt 2 : ℝ) : ℂ) * ((1 / Real.sqrt 2 : ℝ) : ℂ) * hI

/-- C75 is violated for circular polarization: with a quarter wave plate at 45 degrees in front of each detector, quantumness 1 gives
probability 1/2 for outcome '1010', while the regular entangled state ('1010' + '0101')/√2 gives 0. -/
theorem C75_regular_entanglement_fails : ∃ histo, measurePRGroup (pairRun quarterPlate quarterPlate 1 1) = some histo ∧
    listedProb histo "1010".toList = 1 / 2 ∧ entangledProb quarterPlate quarterPlate 0 0 = 0 := by
  obtain ⟨histo, h1, -, -, h4⟩ := C72_local_optics (pairRun_set quarterPlate quarterPlate 1 1) (fun _ => by norm_num)
    (pairRun_local quarterPlate_unitary quarterPlate_unitary 1 1)
  refine ⟨histo, h1, ?_, ?_⟩
  · refine (h4 () (fun _ => 0)).trans ?_
    rw [Fin.prod_univ_one]
    unfold pairCorrelation
    simp only [show polA 0 = 0 from rfl, show polB 0 = 0 from rfl]
    rw [overlap_self (by rw [polWeight_row quarterPlate_unitary]; exact one_pos), correlation_one]
    norm_num
  · unfold entangledProb quarterPlate
    simp only [Matrix.smul_apply, smul_eq_mul, Matrix.of_apply, Matrix.cons_val', Matrix.cons_val_zero, Matrix.cons_val_one, Matrix.cons_val_fin_one]
    have hI := Complex.I_mul_I
    rw [← mul_add]
    have : ((1 / Real.sqrt 2 : ℝ) : ℂ) * 1 * (((1 / Real.sqrt 2 : ℝ) : ℂ) * 1) + ((1 / Real.sqrt 2 : ℝ) : ℂ) * Complex.I * (((1 / Real.sqrt 2 : ℝ) : ℂ) * Complex.I) = 0 := by
      linear_combination ((1 / Real.sqrt 2 : ℝ) : ℂ) * ((1 / Real.sqrt 2 : ℝ) : ℂ) * hI
    rw [this]
    simp

/-- Non-vacuity of `C75_regular_entanglement_partial`: rotated detectors. -/
example (α β : ℝ) : ∃ histo, measurePRGroup (pairRun (rotation α) (rotation β) 1 1) = some histo ∧
    listedProb histo "1010".toList = entangledProb (rotation α) (rotation β) 0 0 := by
  obtain ⟨histo, h1, h2⟩ := C75_regular_entanglement_partial (rotation_unitary α) (rotation_unitary β)
    (by intro i j; fin_cases i <;> fin_cases j <;> simp [rotation, Complex.conj_ofReal, -Complex.ofReal_cos, -Complex.ofReal_sin]) (pairRun_set (rotation α) (rotation β) 1 1) (pairRun_local (rotation_unitary α) (rotation_unitary β) 1 1)
  refine ⟨histo, h1, ?_⟩
  refine (h2 () (fun _ => 0)).trans ?_
  rw [norm_one, one_pow, one_mul]
  rfl

end Verif.Props
