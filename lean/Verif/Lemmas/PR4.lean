/- Helper lemmas about Popescu-Rohrlich pairs: measurement of a set, sums over outcomes. -/
import Verif.Lemmas.PR3
import Verif.Spec.PRRun

namespace Verif
open Spec

theorem dict_sum_list {l : List (Name × ℝ)} (hn : (l.map Prod.fst).Nodup) {F : Name → ℝ} (hF : ∀ p ∈ l, p.2 = F p.1) :
    (l.map Prod.snd).sum = ∑ s ∈ (l.map Prod.fst).toFinset, F s := by
  rw [List.sum_toFinset _ hn, List.map_map]
  congr 1
  exact List.map_congr_left (fun p hp => hF p hp)

theorem correlation_neg {K : ℝ} (hK : 0 < K) (x : ℝ) : correlation K (-x) = -correlation K x := by
  rcases lt_trichotomy x 0 with h | h | h
  · unfold correlation
    rw [if_pos (by linarith), if_neg (by linarith), neg_neg]
  · rw [h, neg_zero, correlation_zero hK, neg_zero]
  · unfold correlation
    rw [if_neg (by linarith), if_pos h.le, neg_neg]

theorem polWeight_row {U : Matrix (Fin 2) (Fin 2) ℂ} (hU : U ∈ Matrix.unitaryGroup (Fin 2) ℂ) (i : Fin 2) : polWeight (U i) = 1 := by
  have h := congrFun (congrFun (Matrix.mem_unitaryGroup_iff.mp hU) i) i
  rw [Matrix.mul_apply, Matrix.one_apply_eq, Fin.sum_univ_two] at h
  simp only [Matrix.star_apply, Complex.star_def, Complex.mul_conj, Complex.normSq_eq_norm_sq] at h
  unfold polWeight
  exact_mod_cast h

theorem overlap_rows {U : Matrix (Fin 2) (Fin 2) ℂ} (hU : U ∈ Matrix.unitaryGroup (Fin 2) ℂ) {b : Fin 2 → ℂ} (hb : 0 < polWeight b) :
    overlap (U 0) b + overlap (U 1) b = 1 := by
  have h := Matrix.mem_unitaryGroup_iff'.mp hU
  have h00 := congrFun (congrFun h 0) 0
  have h01 := congrFun (congrFun h 0) 1
  have h11 := congrFun (congrFun h 1) 1
  rw [Matrix.mul_apply, Fin.sum_univ_two, Matrix.one_apply] at h00 h01 h11
  simp only [Matrix.star_apply] at h00 h01 h11
  unfold overlap
  rw [polWeight_row hU, polWeight_row hU, one_mul, ← add_div]
  rw [div_eq_one_iff_eq hb.ne']
  have hn : ∀ z : ℂ, ((‖z‖ ^ 2 : ℝ) : ℂ) = star z * z := by
    intro z
    rw [Complex.star_def, ← Complex.normSq_eq_conj_mul_self, Complex.normSq_eq_norm_sq]
  have hc : ((‖star (U 0 0) * b 0 + star (U 0 1) * b 1‖ ^ 2 + ‖star (U 1 0) * b 0 + star (U 1 1) * b 1‖ ^ 2 : ℝ) : ℂ) = ((polWeight b : ℝ) : ℂ) := by
    rw [Complex.ofReal_add, hn, hn]
    unfold polWeight
    rw [Complex.ofReal_add, hn, hn]
    simp only [star_add, star_mul, star_star]
    simp only [if_true, if_false, show ((0 : Fin 2) = 1) = False by simp] at h00 h01 h11
    have h10 : star (U 0 1) * U 0 0 + star (U 1 1) * U 1 0 = 0 := by
      have := congrArg star h01
      simp only [star_add, star_mul, star_star, star_zero] at this
      exact this
    linear_combination (star (b 0) * b 0) * h00 + (star (b 1) * b 1) * h11 + (star (b 0) * b 1) * h10 + (star (b 1) * b 0) * h01
  exact_mod_cast hc

theorem overlap_comm (a b : Fin 2 → ℂ) : overlap a b = overlap b a := by
  unfold overlap
  rw [mul_comm (polWeight a)]
  congr 2
  rw [← norm_star]
  congr 1
  simp only [star_add, star_mul, star_star]

theorem pairCorrelation_rows {K : ℝ} (hK : 0 < K) {U : Matrix (Fin 2) (Fin 2) ℂ} (hU : U ∈ Matrix.unitaryGroup (Fin 2) ℂ) {b : Fin 2 → ℂ} (hb : 0 < polWeight b) :
    pairCorrelation K (U 1) b = -pairCorrelation K (U 0) b := by
  unfold pairCorrelation
  rw [← correlation_neg hK]
  congr 1
  have := overlap_rows hU hb
  linarith

theorem pairCorrelation_comm (K : ℝ) (a b : Fin 2 → ℂ) : pairCorrelation K a b = pairCorrelation K b a := by
  unfold pairCorrelation
  rw [overlap_comm]

/-- The correlations for the four outcomes of one pair. -/
theorem pairCorrelation_signs {K : ℝ} (hK : 0 < K) {U V : Matrix (Fin 2) (Fin 2) ℂ} (hU : U ∈ Matrix.unitaryGroup (Fin 2) ℂ)
    (hV : V ∈ Matrix.unitaryGroup (Fin 2) ℂ) (i j : Fin 2) :
    pairCorrelation K (U i) (V j) = if i = j then pairCorrelation K (U 0) (V 0) else -pairCorrelation K (U 0) (V 0) := by
  have hw : ∀ j, 0 < polWeight (V j) := fun j => by rw [polWeight_row hV]; exact one_pos
  have hw' : ∀ j, 0 < polWeight (U j) := fun j => by rw [polWeight_row hU]; exact one_pos
  have h1 : pairCorrelation K (U 0) (V 1) = -pairCorrelation K (U 0) (V 0) := by
    rw [pairCorrelation_comm, pairCorrelation_rows hK hV (hw' 0), pairCorrelation_comm]
  fin_cases i <;> fin_cases j
  · rfl
  · exact h1
  · exact pairCorrelation_rows hK hU (hw 0)
  · show pairCorrelation K (U 1) (V 1) = pairCorrelation K (U 0) (V 0)
    rw [pairCorrelation_rows hK hU (hw 1), h1, neg_neg]

/-- Measurement of a set whose outcomes are products. -/
theorem measurePRGroup_prod {d : ℕ} {Ks : Fin (d + 1) → ℝ} {init : List Char} {P : ℝ} {coll : List PRState} (h : PRSet (d + 1) Ks init P coll)
    (hK : ∀ k, 0 < Ks k) (c : Name → ℂ) (a b : Name → Fin (d + 1) → Fin 2 → ℂ)
    (hp : ∀ s, Arises coll s → ProductOutcome coll s (c s) (a s) (b s)) :
    ∃ histo, measurePRGroup coll = some histo ∧ (histo.map Prod.fst).Nodup ∧ (∀ s, s ∈ histo.map Prod.fst ↔ Arises coll s) ∧
      ∀ sp ∈ histo, sp.2 = P * (‖c sp.1‖ ^ 2 * ∏ k, (polWeight (a sp.1 k) * polWeight (b sp.1 k) * ((1 + pairCorrelation (Ks k) (a sp.1 k) (b sp.1 k)) / 2))) := by
  have hst : ∀ st ∈ coll, st.pr.isSome ∧ st.q.comps.keys.Nodup := fun st hs => by
    obtain ⟨i, hi, _⟩ := h.info st hs
    exact ⟨by rw [hi]; rfl, h.dict st hs⟩
  obtain ⟨G, hG, hGn, hGg⟩ := groupConfigs_spec hst h.once
  obtain ⟨st₀, hst₀, -⟩ := h.all (fun _ => 0)
  obtain ⟨ref, rest, hcoll⟩ : ∃ ref rest, coll = ref :: rest := List.exists_cons_of_ne_nil (List.ne_nil_of_mem hst₀)
  obtain ⟨i, hi, hq, hin, hP⟩ := h.info ref (by rw [hcoll]; exact List.mem_cons_self)
  have hocc : ∀ s, s ∈ G.keys ↔ Arises coll s := by
    intro s
    rw [Dict.mem_keys_iff]
    constructor
    · rintro ⟨e, he⟩
      rw [hGg] at he
      have hne : entryOf coll s ≠ [] := by
        intro h0
        rw [if_pos h0] at he
        exact absurd he (by simp)
      obtain ⟨p, hp⟩ := List.exists_mem_of_ne_nil _ hne
      unfold entryOf at hp
      rw [List.mem_filterMap] at hp
      obtain ⟨st, hs, h1⟩ := hp
      rw [Option.map_eq_some_iff] at h1
      obtain ⟨k, hk, _⟩ := h1
      exact ⟨st, hs, Dict.mem_keys_iff.mpr ⟨k, hk⟩⟩
    · rintro ⟨st, hs, hm⟩
      obtain ⟨k, hk⟩ := Dict.mem_keys_iff.mp hm
      have hne : entryOf coll s ≠ [] := by
        apply List.ne_nil_of_mem (a := ((st.pr.map PRInfo.config).getD [], k.amp * (Real.sqrt st.q.cum : ℂ)))
        unfold entryOf
        rw [List.mem_filterMap]
        exact ⟨st, hs, by rw [hk]; rfl⟩
      exact ⟨_, by rw [hGg, if_neg hne]⟩
  set F : Name → ℝ := fun s => P * (‖c s‖ ^ 2 * ∏ k, (polWeight (a s k) * polWeight (b s k) * ((1 + pairCorrelation (Ks k) (a s k) (b s k)) / 2))) with hF
  have heach : ∀ oe ∈ G, (prOutcomeProb i.quantum i.origCum oe.2).map (fun p => (oe.1, p)) = some (oe.1, F oe.1) := by
    intro oe hoe
    have hoc : Arises coll oe.1 := (hocc oe.1).mp (List.mem_map.mpr ⟨oe, hoe, rfl⟩)
    obtain ⟨hc, hw, hamp⟩ := hp oe.1 hoc
    have he : oe.2 = entryOf coll oe.1 := by
      have h1 := Dict.get?_of_mem hGn hoe
      rw [hGg] at h1
      by_cases h0 : entryOf coll oe.1 = []
      · rw [if_pos h0] at h1; exact absurd h1 (by simp)
      · rw [if_neg h0] at h1
        exact (Option.some.inj h1).symm
    rw [he, hq, hP, prOutcomeProb_prod (nodup_entryOf h.once _) ?_ hK ?_ hc (fun k => (hw k).1) (fun k => (hw k).2)]
    · rfl
    · intro p hp
      have := keys_entryOf _ (List.mem_map.mpr ⟨p, hp, rfl⟩ : p.1 ∈ (entryOf coll oe.1).keys)
      rw [List.mem_map] at this
      obtain ⟨st, hs, hst⟩ := this
      rw [← hst]
      exact h.len st hs
    · intro x
      obtain ⟨st, hs, hx⟩ := h.all x
      rw [← hx]
      show ((entryOf coll oe.1).get? ((st.pr.map PRInfo.config).getD [])).getD 0 = _
      rw [get_entryOf h.once hs]
      exact hamp st hs x hx
  refine ⟨G.map (fun oe => (oe.1, F oe.1)), ?_, ?_, ?_, ?_⟩
  · unfold measurePRGroup
    rw [hG, hcoll]
    simp only [List.head?_cons, Option.bind_eq_bind, Option.bind_some, hi]
    exact mapM_some_of heach
  · rw [List.map_map]
    exact hGn
  · intro s
    rw [List.map_map]
    exact hocc s
  · intro sp hsp
    rw [List.mem_map] at hsp
    obtain ⟨oe, _, rfl⟩ := hsp
    rfl

theorem listedProb_of_mem {histo : List (Name × ℝ)} (hn : (histo.map Prod.fst).Nodup) {F : Name → ℝ} (hF : ∀ sp ∈ histo, sp.2 = F sp.1) {s : Name}
    (hs : s ∈ histo.map Prod.fst) : listedProb histo s = F s := by
  rw [List.mem_map] at hs
  obtain ⟨sp, hsp, rfl⟩ := hs
  unfold listedProb
  rw [Dict.get?_of_mem (v := sp.2) hn hsp]
  exact hF sp hsp

theorem polWeight_const_mul_row (l : ℂ) (hl : l ≠ 0) {a : Fin 2 → ℂ} (h : 0 < polWeight a) : 0 < polWeight (fun i => l * a i) := by
  rw [polWeight_smul]
  exact mul_pos (pow_pos (norm_pos_iff.mpr hl) 2) h

/-- Probabilities after local optics. -/
theorem localRun_prob {d : ℕ} {R : Type} {Ks : Fin (d + 1) → ℝ} {init : List Char} {P : ℝ} {coll : List PRState} (h : PRSet (d + 1) Ks init P coll)
    (hK : ∀ k, 0 < Ks k) {U V : Fin (d + 1) → Matrix (Fin 2) (Fin 2) ℂ} {γ : R → ℂ} {name : R → (Fin (d + 1) → Fin 4) → Name}
    (hl : LocalRun coll U V γ name) :
    ∃ histo, measurePRGroup coll = some histo ∧ (histo.map Prod.fst).Nodup ∧ (∀ s, s ∈ histo.map Prod.fst ↔ ∃ r o, s = name r o) ∧
      ∀ r o, listedProb histo (name r o) = P * ‖γ r‖ ^ 2 * ∏ k, ((1 + pairCorrelation (Ks k) (U k (polA (o k))) (V k (polB (o k)))) / 4) := by
  classical
  have hocc : ∀ s, Arises coll s ↔ ∃ r o, s = name r o := by
    intro s
    constructor
    · rintro ⟨st, hs, hm⟩
      exact hl.only st hs s hm
    · rintro ⟨r, o, rfl⟩
      have hA : ∀ k, ∃ i, U k (polA (o k)) i ≠ 0 := fun k => exists_of_weight (by rw [polWeight_row (hl.unitA k)]; exact one_pos)
      have hB : ∀ k, ∃ i, V k (polB (o k)) i ≠ 0 := fun k => exists_of_weight (by rw [polWeight_row (hl.unitB k)]; exact one_pos)
      choose i hi using hA
      choose j hj using hB
      obtain ⟨st, hs, hx⟩ := h.all (fun k => pol (i k) (j k))
      refine ⟨st, hs, ?_⟩
      by_contra hm
      have h0 : ampOf st.q.comps (name r o) = 0 := ampOf_of_not_mem hm
      rw [hl.amp st hs _ hx] at h0
      refine mul_ne_zero (hl.nonzero r) (Finset.prod_ne_zero_iff.mpr (fun k _ => ?_)) h0
      have h1 : polA (pol (i k) (j k)) = i k := Fin.ext (by show (2 * (i k).val + (j k).val) / 2 = _; omega)
      have h2 : polB (pol (i k) (j k)) = j k := Fin.ext (by show (2 * (i k).val + (j k).val) % 2 = _; omega)
      rw [h1, h2]
      exact mul_ne_zero (hi k) (hj k)
  have hdec : ∀ s, ∃ ro : Option (R × (Fin (d + 1) → Fin 4)), ∀ r o, s = name r o → ro = some (r, o) := by
    intro s
    by_cases hs : ∃ r o, s = name r o
    · obtain ⟨r, o, rfl⟩ := hs
      refine ⟨some (r, o), fun r' o' e => ?_⟩
      obtain ⟨rfl, rfl⟩ := hl.inj _ _ _ _ e
      rfl
    · exact ⟨none, fun r o e => absurd ⟨r, o, e⟩ hs⟩
  choose dec hdec using hdec
  set sq : ℂ := ((Real.sqrt ((1 / 2 : ℝ) ^ (d + 1)) : ℝ) : ℂ) with hsq
  have hsqn : ‖sq‖ ^ 2 = (1 / 2 : ℝ) ^ (d + 1) := by
    rw [hsq, Complex.norm_real, Real.norm_eq_abs, sq_abs, Real.sq_sqrt (by positivity)]
  have hsq0 : sq ≠ 0 := by
    intro h0
    rw [h0, norm_zero] at hsqn
    have : (0 : ℝ) < (1 / 2 : ℝ) ^ (d + 1) := by positivity
    rw [← hsqn] at this
    norm_num at this
  obtain ⟨histo, h1, h2, h3, h4⟩ := measurePRGroup_prod h hK
    (fun s => (dec s).elim 0 (fun ro => γ ro.1 * sq)) (fun s k => (dec s).elim (fun _ => 0) (fun ro => U k (polA (ro.2 k))))
    (fun s k => (dec s).elim (fun _ => 0) (fun ro => V k (polB (ro.2 k)))) (by
      intro s hs
      obtain ⟨r, o, e⟩ := (hocc s).mp hs
      simp only [hdec s r o e, Option.elim_some]
      refine ⟨mul_ne_zero (hl.nonzero r) hsq0, fun k => ⟨?_, ?_⟩, ?_⟩
      · rw [polWeight_row (hl.unitA k)]; exact one_pos
      · rw [polWeight_row (hl.unitB k)]; exact one_pos
      · intro st hst x hx
        rw [e, hl.amp st hst x hx, hl.cum st hst]
        ring)
  refine ⟨histo, h1, h2, fun s => (h3 s).trans (hocc s), fun r o => ?_⟩
  rw [listedProb_of_mem h2 (F := fun s => P * (‖(dec s).elim 0 fun ro => γ ro.1 * sq‖ ^ 2 * ∏ k, polWeight ((dec s).elim (fun _ => 0) fun ro => U k (polA (ro.2 k))) *
      polWeight ((dec s).elim (fun _ => 0) fun ro => V k (polB (ro.2 k))) * ((1 + pairCorrelation (Ks k) ((dec s).elim (fun _ => 0) fun ro => U k (polA (ro.2 k)))
      ((dec s).elim (fun _ => 0) fun ro => V k (polB (ro.2 k)))) / 2))) h4 ((h3 _).mpr ((hocc _).mpr ⟨r, o, rfl⟩))]
  simp only [hdec _ r o rfl, Option.elim_some]
  rw [Complex.norm_mul, mul_pow, hsqn]
  have : ∀ k, polWeight (U k (polA (o k))) * polWeight (V k (polB (o k))) * ((1 + pairCorrelation (Ks k) (U k (polA (o k))) (V k (polB (o k)))) / 2)
      = 2 * ((1 + pairCorrelation (Ks k) (U k (polA (o k))) (V k (polB (o k)))) / 4) := by
    intro k
    rw [polWeight_row (hl.unitA k), polWeight_row (hl.unitB k)]
    ring
  simp only [this]
  rw [Finset.prod_mul_distrib, Finset.prod_const, Finset.card_univ, Fintype.card_fin]
  have h22 : (1 / 2 : ℝ) ^ (d + 1) * 2 ^ (d + 1) = 1 := by rw [← mul_pow]; norm_num
  linear_combination (P * ‖γ r‖ ^ 2 * ∏ k, ((1 + pairCorrelation (Ks k) (U k (polA (o k))) (V k (polB (o k)))) / 4)) * h22

theorem sum_pi_prod {n : ℕ} (F : Fin n → Fin 4 → ℝ) : ∑ o : Fin n → Fin 4, ∏ k, F k (o k) = ∏ k, ∑ q, F k q := by
  rw [Finset.prod_univ_sum, Fintype.piFinset_univ]

/-- Sum over the outcomes of one pair. -/
theorem sum_pair {K : ℝ} (hK : 0 < K) {U V : Matrix (Fin 2) (Fin 2) ℂ} (hU : U ∈ Matrix.unitaryGroup (Fin 2) ℂ)
    (hV : V ∈ Matrix.unitaryGroup (Fin 2) ℂ) : ∑ q, (1 + pairCorrelation K (U (polA q)) (V (polB q))) / 4 = 1 := by
  rw [sum_pol (fun i j => (1 + pairCorrelation K (U i) (V j)) / 4)]
  obtain ⟨E, hE⟩ : ∃ E, E = pairCorrelation K (U 0) (V 0) := ⟨_, rfl⟩
  have hs := pairCorrelation_signs hK hU hV
  rw [← hE] at hs
  simp only [Fin.sum_univ_two, hs]
  simp
  ring

/-- Sum over the outcomes of one pair with a sign. -/
theorem sum_pair_sign {K : ℝ} (hK : 0 < K) {U V : Matrix (Fin 2) (Fin 2) ℂ} (hU : U ∈ Matrix.unitaryGroup (Fin 2) ℂ)
    (hV : V ∈ Matrix.unitaryGroup (Fin 2) ℂ) :
    ∑ q, (if polA q = polB q then (1 : ℝ) else -1) * ((1 + pairCorrelation K (U (polA q)) (V (polB q))) / 4) = pairCorrelation K (U 0) (V 0) := by
  rw [sum_pol (fun i j => (if i = j then (1 : ℝ) else -1) * ((1 + pairCorrelation K (U i) (V j)) / 4))]
  obtain ⟨E, hE⟩ : ∃ E, E = pairCorrelation K (U 0) (V 0) := ⟨_, rfl⟩
  have hs := pairCorrelation_signs hK hU hV
  rw [← hE] at hs
  simp only [Fin.sum_univ_two, hs]
  simp
  ring

/-- Marginal of one pair. -/
theorem sum_pair_A {K : ℝ} (hK : 0 < K) {U V : Matrix (Fin 2) (Fin 2) ℂ} (hU : U ∈ Matrix.unitaryGroup (Fin 2) ℂ)
    (hV : V ∈ Matrix.unitaryGroup (Fin 2) ℂ) (i : Fin 2) :
    ∑ q, (if polA q = i then (1 + pairCorrelation K (U (polA q)) (V (polB q))) / 4 else 0) = 1 / 2 := by
  rw [sum_pol (fun i' j => (if i' = i then (1 + pairCorrelation K (U i') (V j)) / 4 else 0))]
  obtain ⟨E, hE⟩ : ∃ E, E = pairCorrelation K (U 0) (V 0) := ⟨_, rfl⟩
  have hs := pairCorrelation_signs hK hU hV
  rw [← hE] at hs
  simp only [Fin.sum_univ_two, hs]
  fin_cases i <;> simp <;> ring

theorem sum_pair_B {K : ℝ} (hK : 0 < K) {U V : Matrix (Fin 2) (Fin 2) ℂ} (hU : U ∈ Matrix.unitaryGroup (Fin 2) ℂ)
    (hV : V ∈ Matrix.unitaryGroup (Fin 2) ℂ) (j : Fin 2) :
    ∑ q, (if polB q = j then (1 + pairCorrelation K (U (polA q)) (V (polB q))) / 4 else 0) = 1 / 2 := by
  rw [sum_pol (fun i j' => (if j' = j then (1 + pairCorrelation K (U i) (V j')) / 4 else 0))]
  obtain ⟨E, hE⟩ : ∃ E, E = pairCorrelation K (U 0) (V 0) := ⟨_, rfl⟩
  have hs := pairCorrelation_signs hK hU hV
  rw [← hE] at hs
  simp only [Fin.sum_univ_two, hs]
  fin_cases j <;> simp <;> ring

theorem filter_prod_eq {n : ℕ} (F : Fin n → Fin 4 → ℝ) (side : Fin 4 → Fin 2) (i : Fin n → Fin 2) :
    ∑ o ∈ Finset.univ.filter (fun o : Fin n → Fin 4 => ∀ k, side (o k) = i k), ∏ k, F k (o k) = ∏ k, ∑ q, (if side q = i k then F k q else 0) := by
  rw [← sum_pi_prod, Finset.sum_filter]
  refine Finset.sum_congr rfl (fun o _ => ?_)
  by_cases h : ∀ k, side (o k) = i k
  · rw [if_pos h]
    exact Finset.prod_congr rfl (fun k _ => by rw [if_pos (h k)])
  · rw [if_neg h]
    push Not at h
    obtain ⟨k, hk⟩ := h
    exact (Finset.prod_eq_zero (Finset.mem_univ k) (by rw [if_neg hk])).symm

end Verif
