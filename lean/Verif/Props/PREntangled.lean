/-
C73 (counterexample) and C77: outcomes that are not products.
-/
import Verif.Lemmas.PR9
import Verif.Props.PR

namespace Verif.Props
open Verif Spec

/-! ### C73: the total probability can exceed 1 -/

/-- Components after the two photons of a pair in the channels 0..3 met on 50/50 beam splitters between channels 0 and 2 and between 1 and 3
(creation operators: 0 -> (0 + 2)/√2, 2 -> (0 - 2)/√2, 1 -> (1 + 3)/√2, 3 -> (1 - 3)/√2), for the initial polarizations HH, HV, VH, VV. -/
noncomputable def meetComps (x : Fin 4) : List (Name × ℂ) :=
  ([[("2000".toList, ((1 / Real.sqrt 2 : ℝ) : ℂ)), ("0020".toList, -((1 / Real.sqrt 2 : ℝ) : ℂ))],
    [("1100".toList, 1 / 2), ("1001".toList, -1 / 2), ("0110".toList, 1 / 2), ("0011".toList, -1 / 2)],
    [("1100".toList, 1 / 2), ("1001".toList, 1 / 2), ("0110".toList, -1 / 2), ("0011".toList, -1 / 2)],
    [("0200".toList, ((1 / Real.sqrt 2 : ℝ) : ℂ)), ("0002".toList, -((1 / Real.sqrt 2 : ℝ) : ℂ))]] : List (List (Name × ℂ))).getD x.val []

/-- The state of configuration `x`. -/
noncomputable def meetState (K P : ℝ) (x : Fin 4) : PRState where
  q := { initial := "start".toList, cum := 1 / 2, comps := (meetComps x).map (fun p => (p.1, ⟨p.2, ‖p.2‖ ^ 2⟩)), classical := [0, 0, 0, 0], results := [] }
  pr := some { ident := 7, config := [x], quantum := [K], initialOut := "start".toList, origCum := P }

/-- All four states. -/
noncomputable def meetRun (K P : ℝ) : List PRState := (List.finRange 4).map (meetState K P)

/-- The eight possible outcomes. -/
def meetNames : List Name := ["2000".toList, "0020".toList, "1100".toList, "1001".toList, "0110".toList, "0011".toList, "0200".toList, "0002".toList]

theorem meetComps_nodup (x : Fin 4) : ((meetComps x).map Prod.fst).Nodup := by
  fin_cases x <;> simp [meetComps]

theorem meetRun_set (K P : ℝ) : PRSet 1 (fun _ => K) "start".toList P (meetRun K P) where
  info := by
    intro st hst
    obtain ⟨x, -, rfl⟩ := List.mem_map.mp hst
    exact ⟨_, rfl, rfl, rfl, rfl⟩
  dict := by
    intro st hst
    obtain ⟨x, -, rfl⟩ := List.mem_map.mp hst
    simp only [meetState, List.map_map]
    exact meetComps_nodup x
  all := fun x => ⟨meetState K P (x 0), List.mem_map.mpr ⟨x 0, List.mem_finRange _, rfl⟩, by simp [meetState, configuration]⟩
  len := by
    intro st hst
    obtain ⟨x, -, rfl⟩ := List.mem_map.mp hst
    rfl
  once := by
    unfold meetRun
    rw [List.map_map]
    refine (List.nodup_finRange 4).map ?_
    intro x y h
    simpa [meetState, configuration] using h

/-- The amplitude of outcome `s` from configuration `x`. -/
noncomputable def meetAmp (s : Name) (x : Fin 4) : ℂ := ((Dict.get? (meetComps x) s).getD 0)

theorem meet_ampOf (K P : ℝ) (x : Fin 4) (s : Name) : ampOf (meetState K P x).q.comps s = meetAmp s x := by
  unfold ampOf meetAmp meetState
  simp only
  generalize meetComps x = l
  induction l with
  | nil => rfl
  | cons p l ih =>
    rw [List.map_cons, Dict.get?_cons]
    conv_rhs => rw [Dict.get?_cons]
    by_cases h : p.1 = s
    · rw [if_pos h, if_pos h]; rfl
    · rw [if_neg h, if_neg h]; exact ih

theorem half_norm_sq : ‖((1 / Real.sqrt 2 : ℝ) : ℂ)‖ ^ 2 = 1 / 2 := by
  rw [Complex.norm_real, Real.norm_eq_abs, sq_abs, div_pow, Real.sq_sqrt (by norm_num)]
  norm_num

theorem meetAmp_spec {s : Name} (hs : s ∈ meetNames) :
    LonePair (meetAmp s) ∧ ‖meetAmp s 1‖ = ‖meetAmp s 2‖ ∧ ∑ x, ‖meetAmp s x‖ ^ 2 = 1 / 2 := by
  have h2 : ‖((1 / Real.sqrt 2 : ℝ) : ℂ)‖ ^ 2 = 1 / 2 := half_norm_sq
  simp only [meetNames, List.mem_cons, List.not_mem_nil, or_false] at hs
  have e0 : meetComps 0 = [("2000".toList, ((1 / Real.sqrt 2 : ℝ) : ℂ)), ("0020".toList, -((1 / Real.sqrt 2 : ℝ) : ℂ))] := rfl
  have e1 : meetComps 1 = [("1100".toList, 1 / 2), ("1001".toList, -1 / 2), ("0110".toList, 1 / 2), ("0011".toList, -1 / 2)] := rfl
  have e2 : meetComps 2 = [("1100".toList, 1 / 2), ("1001".toList, 1 / 2), ("0110".toList, -1 / 2), ("0011".toList, -1 / 2)] := rfl
  have e3 : meetComps 3 = [("0200".toList, ((1 / Real.sqrt 2 : ℝ) : ℂ)), ("0002".toList, -((1 / Real.sqrt 2 : ℝ) : ℂ))] := rfl
  rw [Fin.sum_univ_four]
  unfold LonePair meetAmp
  rw [e0, e1, e2, e3]
  generalize ((1 / Real.sqrt 2 : ℝ) : ℂ) = r at h2
  rcases hs with rfl | rfl | rfl | rfl | rfl | rfl | rfl | rfl <;> simp [Dict.get?_cons, h2] <;> norm_num

theorem meet_arises (K P : ℝ) (s : Name) : Arises (meetRun K P) s ↔ s ∈ meetNames := by
  have hk : ∀ x, (meetState K P x).q.comps.map Prod.fst = (meetComps x).map Prod.fst := by
    intro x
    simp only [meetState, List.map_map]
    rfl
  unfold Arises
  constructor
  · rintro ⟨st, hst, h⟩
    obtain ⟨x, -, rfl⟩ := List.mem_map.mp hst
    rw [hk] at h
    fin_cases x <;> simp [meetComps] at h <;> rcases h with h | h | h | h <;> simp [meetNames, *]
  · intro h
    have : ∃ x : Fin 4, s ∈ (meetComps x).map Prod.fst := by
      simp only [meetNames, List.mem_cons, List.not_mem_nil, or_false] at h
      rcases h with rfl | rfl | rfl | rfl | rfl | rfl | rfl | rfl
      · exact ⟨0, by simp [meetComps]⟩
      · exact ⟨0, by simp [meetComps]⟩
      · exact ⟨1, by simp [meetComps]⟩
      · exact ⟨1, by simp [meetComps]⟩
      · exact ⟨1, by simp [meetComps]⟩
      · exact ⟨1, by simp [meetComps]⟩
      · exact ⟨3, by simp [meetComps]⟩
      · exact ⟨3, by simp [meetComps]⟩
    obtain ⟨x, hx⟩ := this
    exact ⟨meetState K P x, List.mem_map.mpr ⟨x, List.mem_finRange x, rfl⟩, by rw [hk]; exact hx⟩

/-- C73 fails for optics that lets the two photons of a pair meet (two beam splitters between first and second photon): every
configuration is a normalised state, but each of the eight outcomes is listed with probability `P/4`, in total `2 P`. -/
theorem C73_total_probability_fails {K : ℝ} (hK : 0 < K) (P : ℝ) :
    PRSet 1 (fun _ => K) "start".toList P (meetRun K P) ∧ (∀ st ∈ meetRun K P, totalProb st.q.comps = 1) ∧
    ∃ histo, measurePRGroup (meetRun K P) = some histo ∧ (histo.map Prod.snd).sum = 2 * P := by
  refine ⟨meetRun_set K P, ?_, ?_⟩
  · intro st hst
    obtain ⟨x, -, rfl⟩ := List.mem_map.mp hst
    have h2 : ‖((1 / Real.sqrt 2 : ℝ) : ℂ)‖ ^ 2 = 1 / 2 := half_norm_sq
    unfold totalProb meetState
    simp only [List.map_map]
    have e0 : meetComps 0 = [("2000".toList, ((1 / Real.sqrt 2 : ℝ) : ℂ)), ("0020".toList, -((1 / Real.sqrt 2 : ℝ) : ℂ))] := rfl
    have e3 : meetComps 3 = [("0200".toList, ((1 / Real.sqrt 2 : ℝ) : ℂ)), ("0002".toList, -((1 / Real.sqrt 2 : ℝ) : ℂ))] := rfl
    generalize ((1 / Real.sqrt 2 : ℝ) : ℂ) = r at h2 e0 e3
    obtain rfl | rfl | rfl | rfl : x = 0 ∨ x = 1 ∨ x = 2 ∨ x = 3 := by omega
    · rw [e0]; simp [h2]; norm_num
    · simp [meetComps]; norm_num
    · simp [meetComps]; norm_num
    · rw [e3]; simp [h2]; norm_num
  · obtain ⟨histo, h1, h2, h3, h4⟩ := measurePRGroup_of one_pos (meetRun_set K P) (fun _ => P / 4) (by
      intro s hs e hn hl he
      obtain ⟨hlone, h12, hsum⟩ := meetAmp_spec ((meet_arises K P s).mp hs)
      obtain ⟨c, hc⟩ : ∃ c : ℂ, c = (Real.sqrt (1 / 2 : ℝ) : ℂ) := ⟨_, rfl⟩
      have hcn : ‖c‖ ^ 2 = 1 / 2 := by
        rw [hc, Complex.norm_real, Real.norm_eq_abs, sq_abs, Real.sq_sqrt (by norm_num)]
      have hc0 : c ≠ 0 := by
        rintro rfl
        norm_num at hcn
      obtain ⟨T, hT⟩ : ∃ T : (Fin 1 → Fin 4) → ℂ, ∀ x, T x = meetAmp s (x 0) * c := ⟨_, fun _ => rfl⟩
      obtain ⟨q, hq⟩ : ∃ q, meetAmp s q ≠ 0 := by
        by_contra hc
        push Not at hc
        simp [hc] at hsum
      have hTe : ∀ x : Fin 1 → Fin 4, (e.get? (List.ofFn x)).getD 0 = T x := by
        intro x
        have := he (meetState K P (x 0)) (List.mem_map.mpr ⟨x 0, List.mem_finRange _, rfl⟩)
        rw [meet_ampOf] at this
        have hx : configuration (meetState K P (x 0)) = List.ofFn x := by simp [meetState, configuration]
        rw [hx] at this
        rw [this, hT, hc]
        rfl
      have hne : ∃ x, T x ≠ 0 := ⟨fun _ => q, by rw [hT]; exact mul_ne_zero hq hc0⟩
      have hprob := prOutcomeProb_of (d := 0) hn hl (Ks := fun _ => K) (fun _ => hK) hTe hne (fun h => h.1 (dictFactorable_one hne)) P
      have hpv : pairVectors (d := 0) T 0 = fun q => meetAmp s q * c := by
        unfold pairVectors
        rw [if_neg (by omega)]
        funext q
        exact hT _
      have hal : alignment (stokes (photonAmps (fun q => meetAmp s q * c) 0)) (stokes (photonAmps (fun q => meetAmp s q * c) 1)) K = 1 := by
        refine alignment_lone ?_ ?_ ⟨q, mul_ne_zero hq hc0⟩ hK
        · rcases hlone with ⟨a1, a2⟩ | ⟨a1, a2⟩
          · exact Or.inl ⟨by simp [a1], by simp [a2]⟩
          · exact Or.inr ⟨by simp [a1], by simp [a2]⟩
        · rw [Complex.norm_mul, Complex.norm_mul, h12]
      have hS : ∑ x, ‖T x‖ ^ 2 = 1 / 4 := by
        rw [← Equiv.sum_comp (Equiv.funUnique (Fin 1) (Fin 4)).symm]
        simp only [hT, Complex.norm_mul, mul_pow, hcn]
        rw [← Finset.sum_mul]
        rw [show ∑ i, ‖meetAmp s ((Equiv.funUnique (Fin 1) (Fin 4)).symm i 0)‖ ^ 2 = ∑ i, ‖meetAmp s i‖ ^ 2 from rfl, hsum]
        norm_num
      refine hprob.trans ?_
      congr 1
      rw [show (∏ k : Fin (0 + 1), alignment (stokes (photonAmps (pairVectors (d := 0) T k) 0)) (stokes (photonAmps (pairVectors (d := 0) T k) 1)) K) = 1 from
        (Fin.prod_univ_one _).trans (by rw [hpv]; exact hal)]
      rw [show ∑ x : Fin (0 + 1) → Fin 4, ‖T x‖ ^ 2 = 1 / 4 from hS]
      ring)
    refine ⟨histo, h1, ?_⟩
    rw [dict_sum_list (F := fun _ => P / 4) h2 h4, Finset.sum_const]
    have : (histo.map Prod.fst).toFinset = meetNames.toFinset := by
      ext s
      rw [List.mem_toFinset, List.mem_toFinset, h3, meet_arises]
    rw [this, show meetNames.toFinset.card = 8 by decide]
    simp
    ring

/-! ### C77: entanglement between pairs -/

theorem not_factorable_of_entangled {d : ℕ} {T : (Fin (d + 1) → Fin 4) → ℂ} (hne : ∃ x, T x ≠ 0) (h : EntangledPairs T) : ¬ DictFactorable T := by
  intro hf
  obtain ⟨β, u, -, hsm⟩ := compare_small mem_rowMajor hne hf
  have := h (fun k q => if k = 0 then u * β * pairVectors T k q else pairVectors T k q)
  refine absurd hsm (not_lt.mpr (this.trans (le_of_eq ?_)))
  congr 1
  refine Finset.sum_congr rfl (fun x _ => ?_)
  congr 3
  unfold reproduced
  rw [Fin.prod_univ_succ, Fin.prod_univ_succ]
  simp only [if_true, Fin.succ_ne_zero, if_false]
  ring

theorem pairFactorable_of_product {v : Fin 4 → ℂ} {a b : Fin 2 → ℂ} (hv : ∀ q, v q = a (polA q) * b (polB q)) (hne : ∃ q, v q ≠ 0) : PairFactorable v := by
  have hv' : ∀ q, v q = 1 * (a (polA q) * b (polB q)) := fun q => by rw [one_mul]; exact hv q
  obtain ⟨l0, h0, e0⟩ := photonAmps_prod hv' hne 0
  obtain ⟨l1, h1, e1⟩ := photonAmps_prod hv' hne 1
  unfold PairFactorable
  rw [compareMatrices_smul (l := l0 * l1) List.mem_finRange (mul_ne_zero h0 h1) ?_ hne]
  · exact one_pos
  · intro q
    unfold pairFromPhotons
    rw [e0, e1, hv q]
    show l0 * a (polA q) * (l1 * b (polB q)) = _
    ring

theorem prOutcomeProb_none {d : ℕ} {e : Dict (List (Fin 4)) ℂ} (hl : ∀ p ∈ e, p.1.length = d + 1) {T : (Fin (d + 1) → Fin 4) → ℂ}
    (hT : ∀ x : Fin (d + 1) → Fin 4, (e.get? (List.ofFn x)).getD 0 = T x) (h1 : ¬ DictFactorable T) (h2 : AllPairsFactorable T) (quantum : List ℝ) (P : ℝ) :
    prOutcomeProb quantum P e = none := by
  have hTe : (fun x : Fin (d + 1) → Fin 4 => (e.get? (List.ofFn x)).getD 0) = T := funext hT
  cases e with
  | nil => rfl
  | cons p₀ e' =>
    have hlen : p₀.1.length = d + 1 := hl p₀ List.mem_cons_self
    have hmat : matrixFromDict (d + 1) (p₀ :: e') = some T := by
      unfold matrixFromDict
      rw [if_pos, hTe]
      rw [List.all_eq_true]
      intro p hp
      simp [hl p hp]
    unfold prOutcomeProb
    simp only [List.head?_cons, Option.bind_eq_bind, Option.bind_some, hlen, hmat]
    by_cases hz : ∀ x, T x = 0
    · rw [if_pos hz]; rfl
    · rw [if_neg hz, if_pos ⟨h1, h2⟩]; rfl

theorem mapM_none_of {α β : Type*} {f : α → Option β} {l : List α} {a : α} (ha : a ∈ l) (h : f a = none) : l.mapM f = none := by
  induction l with
  | nil => exact absurd ha (by simp)
  | cons b l ih =>
    rw [List.mapM_cons]
    rcases List.mem_cons.mp ha with rfl | ha
    · rw [h]; rfl
    · rw [ih ha]
      cases f b <;> rfl

/-- C77 (partial: the recovered states of the pairs must each be a product; otherwise the claim is false, see below): if the amplitudes
of a possible outcome are entangled between pairs, measuring raises. -/
theorem C77_detected_partial {d : ℕ} {Ks : Fin (d + 1) → ℝ} {init : List Char} {P : ℝ} {coll : List PRState} (h : PRSet (d + 1) Ks init P coll)
    {s : Name} (hs : Arises coll s) {T : (Fin (d + 1) → Fin 4) → ℂ} (hT : OutcomeAmps coll s T) (hne : ∃ x, T x ≠ 0) (hent : EntangledPairs T)
    (hpairs : ∀ k, ∃ a b : Fin 2 → ℂ, (∃ q, pairVectors T k q ≠ 0) ∧ ∀ q, pairVectors T k q = a (polA q) * b (polB q)) : measurePRGroup coll = none := by
  have hst : ∀ st ∈ coll, st.pr.isSome ∧ st.q.comps.keys.Nodup := fun st hs => by
    obtain ⟨i, hi, _⟩ := h.info st hs
    exact ⟨by rw [hi]; rfl, h.dict st hs⟩
  obtain ⟨G, hG, hGn, hGg⟩ := groupConfigs_spec hst h.once
  obtain ⟨st, hst1, hm⟩ := hs
  obtain ⟨k, hk⟩ := Dict.mem_keys_iff.mp hm
  have hen : entryOf coll s ≠ [] := by
    apply List.ne_nil_of_mem (a := ((st.pr.map PRInfo.config).getD [], k.amp * (Real.sqrt st.q.cum : ℂ)))
    unfold entryOf
    rw [List.mem_filterMap]
    exact ⟨st, hst1, by rw [hk]; rfl⟩
  have hmem : (s, entryOf coll s) ∈ G := by
    have hg : G.get? s = some (entryOf coll s) := by rw [hGg, if_neg hen]
    obtain ⟨p, hp, hps⟩ := List.mem_map.mp (Dict.mem_keys_iff.mpr ⟨_, hg⟩ : s ∈ G.map Prod.fst)
    have hp2 := Dict.get?_of_mem hGn (show (p.1, p.2) ∈ G from hp)
    rw [hps, hg] at hp2
    have e2 := Option.some.inj hp2
    rw [e2, ← hps]
    exact hp
  unfold measurePRGroup
  rw [hG]
  cases coll with
  | nil => rfl
  | cons ref rest =>
    obtain ⟨i, hi, -⟩ := h.info ref List.mem_cons_self
    simp only [List.head?_cons, Option.bind_eq_bind, Option.bind_some, hi]
    refine mapM_none_of hmem ?_
    rw [prOutcomeProb_none (T := T) ?_ ?_ (not_factorable_of_entangled hne hent) ?_]
    · rfl
    · intro p hp
      have := keys_entryOf _ (List.mem_map.mpr ⟨p, hp, rfl⟩ : p.1 ∈ (entryOf (ref :: rest) s).keys)
      rw [List.mem_map] at this
      obtain ⟨st, hs, hst⟩ := this
      rw [← hst]
      exact h.len st hs
    · intro x
      obtain ⟨st, hs, hx⟩ := h.all x
      rw [← hx]
      refine (get_entryOf h.once hs s).trans ?_
      exact (hT st hs x hx).symm
    · intro k
      obtain ⟨a, b, hq, hab⟩ := hpairs k
      exact pairFactorable_of_product hab hq

/-- C77 (partial): amplitudes that are products over the pairs are accepted, also if the two photons of a pair are entangled with each
other. -/
theorem C77_products_accepted {d : ℕ} {Ks : Fin (d + 1) → ℝ} (hK : ∀ k, 0 < Ks k) {init : List Char} {P : ℝ} {coll : List PRState}
    (h : PRSet (d + 1) Ks init P coll) (hprod : ∀ s, Arises coll s → ∃ f : Fin (d + 1) → Fin 4 → ℂ, (∀ k, ∃ q, f k q ≠ 0) ∧ OutcomeAmps coll s (fun x => ∏ k, f k (x k))) :
    ∃ histo, measurePRGroup coll = some histo := by
  choose! f hf1 hf2 using hprod
  obtain ⟨histo, h1, -⟩ := measurePRGroup_of (Nat.succ_pos d) h (fun s => P * ((∑ x : Fin (d + 1) → Fin 4, ‖∏ k, f s k (x k)‖ ^ 2) *
      ∏ k, alignment (stokes (photonAmps (pairVectors (fun x : Fin (d + 1) → Fin 4 => ∏ k, f s k (x k)) k) 0)) (stokes (photonAmps (pairVectors (fun x : Fin (d + 1) → Fin 4 => ∏ k, f s k (x k)) k) 1)) (Ks k))) (by
    intro s hs e hn hl he
    have hne : ∃ x : Fin (d + 1) → Fin 4, ∏ k, f s k (x k) ≠ 0 := by
      choose q hq using hf1 s hs
      exact ⟨q, Finset.prod_ne_zero_iff.mpr (fun k _ => hq k)⟩
    refine prOutcomeProb_of hn hl hK ?_ hne (fun hc => hc.1 (dictFactorable_prod (c := 1) (fun x => (one_mul _).symm) hne)) P
    intro x
    obtain ⟨st, hst, hx⟩ := h.all x
    rw [← hx, he st hst]
    exact (hf2 s hs st hst x hx).symm)
  exact ⟨histo, h1⟩

/-- C77 fails for a single pair in the sense that nothing is ever rejected, whatever the optics did to the two photons. -/
theorem C77_single_pair_never_rejected {Ks : Fin 1 → ℝ} (hK : ∀ k, 0 < Ks k) {init : List Char} {P : ℝ} {coll : List PRState} (h : PRSet 1 Ks init P coll)
    (hne : ∀ s, Arises coll s → ∃ st ∈ coll, ampOf st.q.comps s * (Real.sqrt st.q.cum : ℂ) ≠ 0) : ∃ histo, measurePRGroup coll = some histo := by
  refine C77_products_accepted (d := 0) hK h ?_
  intro s hs
  have hex : ∀ q : Fin 4, ∃ st ∈ coll, configuration st = [q] := by
    intro q
    obtain ⟨st, h1, h2⟩ := h.all (fun _ => q)
    exact ⟨st, h1, by rw [h2]; rfl⟩
  choose S hS1 hS2 using hex
  have huniq : ∀ st ∈ coll, ∀ q, configuration st = [q] → st = S q := by
    intro st hst q hq
    exact List.inj_on_of_nodup_map h.once hst (hS1 q) (hq.trans (hS2 q).symm)
  refine ⟨fun _ q => ampOf (S q).q.comps s * (Real.sqrt (S q).q.cum : ℂ), ?_, ?_⟩
  · intro _
    obtain ⟨st, hst, hnz⟩ := hne s hs
    obtain ⟨q, hq⟩ : ∃ q, configuration st = [q] := List.length_eq_one_iff.mp (h.len st hst)
    exact ⟨q, by simpa only [← huniq st hst q hq] using hnz⟩
  · intro st hst x hx
    have hq : configuration st = [x 0] := by rw [hx]; simp
    refine (Fin.prod_univ_one _).trans ?_
    simp only [← huniq st hst (x 0) hq]

example : ∃ histo, measurePRGroup (meetRun 3 1) = some histo := by
  refine C77_single_pair_never_rejected (fun _ => by norm_num) (meetRun_set 3 1) ?_
  intro s hs
  obtain ⟨-, -, hsum⟩ := meetAmp_spec ((meet_arises 3 1 s).mp hs)
  obtain ⟨q, hq⟩ : ∃ q, meetAmp s q ≠ 0 := by
    by_contra hc
    push Not at hc
    simp [hc] at hsum
  refine ⟨meetState 3 1 q, List.mem_map.mpr ⟨q, List.mem_finRange q, rfl⟩, mul_ne_zero (by rw [meet_ampOf]; exact hq) ?_⟩
  have : 0 < Real.sqrt (meetState 3 1 q).q.cum := Real.sqrt_pos.mpr (by norm_num [meetState])
  exact_mod_cast this.ne'

/-! Two pairs: configurations (HH, HH) and (VV, VV) are mixed with each other, all others are left alone. -/

/-- Name of the component in channels 0..7 with the given polarizations of the two pairs. -/
def twoName (x : Fin 2 → Fin 4) : Name := pairName (x 0) ++ pairName (x 1)

theorem twoName_inj : Function.Injective twoName := by
  intro x y h
  have hlen : ∀ q, (pairName q).length = 4 := by decide
  obtain ⟨h1, h2⟩ := List.append_inj h (by rw [hlen, hlen])
  funext k
  fin_cases k
  · exact pairName_inj h1
  · exact pairName_inj h2

/-- Amplitude of outcome `y` from configuration `x`: a unitary matrix that is the identity except on the states (HH, HH) and (b, b). -/
noncomputable def mixAmp (b : Fin 4) (y x : Fin 2 → Fin 4) : ℂ :=
  if x = ![0, 0] ∨ x = ![b, b] then
    if y = ![0, 0] then ((1 / Real.sqrt 2 : ℝ) : ℂ)
    else if y = ![b, b] then (if x = ![0, 0] then ((1 / Real.sqrt 2 : ℝ) : ℂ) else -((1 / Real.sqrt 2 : ℝ) : ℂ)) else 0
  else if y = x then 1 else 0

/-- The state of configuration `x`. -/
noncomputable def mixState (b : Fin 4) (P : ℝ) (x : Fin 2 → Fin 4) : PRState where
  q := { initial := "start".toList, cum := 1 / 4, comps := ((Finset.univ : Finset (Fin 2 → Fin 4)).toList.filter (fun y => mixAmp b y x ≠ 0)).map (fun y => (twoName y, ⟨mixAmp b y x, ‖mixAmp b y x‖ ^ 2⟩)), classical := [], results := [] }
  pr := some { ident := 7, config := List.ofFn x, quantum := [1, 1], initialOut := "start".toList, origCum := P }

/-- All sixteen states. -/
noncomputable def mixRun (b : Fin 4) (P : ℝ) : List PRState := (Finset.univ : Finset (Fin 2 → Fin 4)).toList.map (mixState b P)

theorem mixState_keys (b : Fin 4) (P : ℝ) (x : Fin 2 → Fin 4) : ((mixState b P x).q.comps.map Prod.fst).Nodup := by
  simp only [mixState, List.map_map]
  exact ((Finset.nodup_toList _).filter _).map twoName_inj

theorem mixRun_set (b : Fin 4) (P : ℝ) : PRSet 2 (fun _ => 1) "start".toList P (mixRun b P) where
  info := by
    intro st hst
    obtain ⟨x, -, rfl⟩ := List.mem_map.mp hst
    exact ⟨_, rfl, rfl, rfl, rfl⟩
  dict := by
    intro st hst
    obtain ⟨x, -, rfl⟩ := List.mem_map.mp hst
    exact mixState_keys b P x
  all := fun x => ⟨mixState b P x, List.mem_map.mpr ⟨x, Finset.mem_toList.mpr (Finset.mem_univ _), rfl⟩, rfl⟩
  len := by
    intro st hst
    obtain ⟨x, -, rfl⟩ := List.mem_map.mp hst
    exact List.length_ofFn
  once := by
    unfold mixRun
    rw [List.map_map]
    refine (Finset.nodup_toList _).map ?_
    intro x y h
    exact List.ofFn_injective h

theorem mix_ampOf (b : Fin 4) (P : ℝ) (x y : Fin 2 → Fin 4) : ampOf (mixState b P x).q.comps (twoName y) = mixAmp b y x := by
  by_cases h : mixAmp b y x = 0
  · rw [h]
    refine ampOf_of_not_mem ?_
    intro hm
    simp only [mixState, Dict.keys, List.map_map, List.mem_map, List.mem_filter] at hm
    obtain ⟨z, ⟨-, hz⟩, e⟩ := hm
    obtain rfl := twoName_inj e
    simp [h] at hz
  · exact ampOf_of_mem (p := (twoName y, ⟨mixAmp b y x, ‖mixAmp b y x‖ ^ 2⟩)) (mixState_keys b P x)
      (List.mem_map.mpr ⟨y, List.mem_filter.mpr ⟨Finset.mem_toList.mpr (Finset.mem_univ _), by simpa using h⟩, rfl⟩)

theorem mix_arises {b : Fin 4} {P : ℝ} {s : Name} (h : Arises (mixRun b P) s) : ∃ y, s = twoName y := by
  obtain ⟨st, hst, hm⟩ := h
  obtain ⟨x, -, rfl⟩ := List.mem_map.mp hst
  simp only [mixState, List.map_map, List.mem_map] at hm
  obtain ⟨y, -, rfl⟩ := hm
  exact ⟨y, rfl⟩

theorem root_half_ne : ((1 / Real.sqrt 2 : ℝ) : ℂ) ≠ 0 := by
  intro h
  have := half_norm_sq
  rw [h] at this
  norm_num at this

/-- The outcomes (HH, HH) and (b, b) have amplitudes of equal size from these two configurations. -/
theorem mix_diagonal {b : Fin 4} (hb : 0 ≠ b) {c : ℂ} (hc : c ≠ 0) {y : Fin 2 → Fin 4} (hy : y = ![0, 0] ∨ y = ![b, b]) : TwoDiagonal (fun x => mixAmp b y x * c) 0 b := by
  have hr := root_half_ne
  have h03 : (![0, 0] : Fin 2 → Fin 4) ≠ ![b, b] := by rw [Ne, vec_eq_iff]; exact fun e => hb e.1
  unfold mixAmp
  generalize ((1 / Real.sqrt 2 : ℝ) : ℂ) = r at hr ⊢
  refine ⟨hb, ?_, ?_, ?_⟩
  · rcases hy with rfl | rfl
    · simp [hr, hc]
    · simp [hr, hc]
  · rcases hy with rfl | rfl
    · simp
    · simp [Ne.symm hb]
  · intro x h1 h2
    rcases hy with rfl | rfl
    · simp [h1, h2, Ne.symm h1]
    · simp [h1, h2, Ne.symm h2]

theorem mix_pair_not_factorable {T : (Fin 2 → Fin 4) → ℂ} (h : TwoDiagonal T 0 3) : ¬ PairFactorable (pairVectors (d := 1) T 0) := by
  have hv := h.vector 0
  have hr : ((Real.sqrt (1 / 2) : ℝ) : ℂ) ≠ 0 := by exact_mod_cast (Real.sqrt_pos.mpr (by norm_num : (0 : ℝ) < 1 / 2)).ne'
  unfold PairFactorable
  refine compare_far (p := 0) (q := 3) (r := 1) (s := 2) List.mem_finRange ?_ ?_ ?_ ?_ ?_ ?_
  · rw [Fin.sum_univ_four]
    simp only [hv]
    simp
    ring
  · rw [hv, if_pos (Or.inl rfl)]; exact hr
  · rw [hv, hv]; simp
  · rw [hv]; simp
  · rw [hv]; simp
  · unfold pairFromPhotons
    simp
    ring

/-- C77 fails: for the outcome '10101010' the amplitudes come from (HH, HH) and (VV, VV) with equal weight, so they are entangled between
the two pairs, and still the measurement is carried out. The reason is that the recovered pair states are not products either. -/
theorem C77_entanglement_fails (P : ℝ) : PRSet 2 (fun _ => 1) "start".toList P (mixRun 3 P) ∧
    Arises (mixRun 3 P) (twoName ![0, 0]) ∧ OutcomeAmps (mixRun 3 P) (twoName ![0, 0]) (fun x => mixAmp 3 ![0, 0] x * (Real.sqrt (1 / 4) : ℂ)) ∧
    EntangledPairs (fun x : Fin 2 → Fin 4 => mixAmp 3 ![0, 0] x * (Real.sqrt (1 / 4) : ℂ)) ∧
    ∃ histo, measurePRGroup (mixRun 3 P) = some histo ∧ listedProb histo (twoName ![0, 0]) = P / 4 := by
  have hc4 : ∃ c : ℂ, c = (Real.sqrt (1 / 4) : ℂ) ∧ c ≠ 0 ∧ ‖c‖ ^ 2 = 1 / 4 := by
    refine ⟨_, rfl, ?_, ?_⟩
    · exact_mod_cast (Real.sqrt_pos.mpr (by norm_num : (0 : ℝ) < 1 / 4)).ne'
    · rw [Complex.norm_real, Real.norm_eq_abs, sq_abs, Real.sq_sqrt (by norm_num)]
  obtain ⟨c, hcdef, hc, hcn⟩ := hc4
  rw [← hcdef]
  have hd0 := mix_diagonal (b := 3) (by decide) hc (y := ![0, 0]) (Or.inl rfl)
  have hhalf : ‖mixAmp 3 ![0, 0] ![0, 0]‖ ^ 2 = 1 / 2 := by
    unfold mixAmp
    rw [if_pos (Or.inl rfl), if_pos rfl]
    exact half_norm_sq
  have harise : Arises (mixRun 3 P) (twoName ![0, 0]) := by
    refine ⟨mixState 3 P ![0, 0], List.mem_map.mpr ⟨_, Finset.mem_toList.mpr (Finset.mem_univ _), rfl⟩, ?_⟩
    simp only [mixState, List.map_map, List.mem_map, List.mem_filter]
    refine ⟨![0, 0], ⟨Finset.mem_toList.mpr (Finset.mem_univ _), ?_⟩, rfl⟩
    simp only [ne_eq, decide_eq_true_eq]
    intro h0
    rw [h0] at hhalf
    norm_num at hhalf
  refine ⟨mixRun_set 3 P, harise, ?_, ?_, ?_⟩
  · intro st hst x hx
    obtain ⟨x', -, rfl⟩ := List.mem_map.mp hst
    have : x' = x := List.ofFn_injective hx
    subst this
    rw [mix_ampOf, hcdef]
    rfl
  · intro f
    refine minors_far (p := ![0, 0]) (q := ![3, 3]) (r := ![0, 3]) (s := ![3, 0]) hd0.total hd0.first hd0.second (hd0.rest _ (by decide) (by decide))
      (hd0.rest _ (by decide) (by decide)) ?_
    simp only [Fin.prod_univ_two, Matrix.cons_val_zero, Matrix.cons_val_one]
    ring
  · obtain ⟨F, hF⟩ : ∃ F : Name → ℝ, ∀ y, F (twoName y) = P * ((∑ x, ‖mixAmp 3 y x * c‖ ^ 2) *
        ∏ k, alignment (stokes (photonAmps (pairVectors (d := 1) (fun x => mixAmp 3 y x * c) k) 0)) (stokes (photonAmps (pairVectors (d := 1) (fun x => mixAmp 3 y x * c) k) 1)) 1) := by
      refine ⟨Function.extend twoName (fun y => _) (fun _ => 0), fun y => twoName_inj.extend_apply _ _ y⟩
    have hnonzero : ∀ y : Fin 2 → Fin 4, ∃ x, mixAmp 3 y x * c ≠ 0 := by
      intro y
      by_cases hy : y = ![0, 0] ∨ y = ![3, 3]
      · exact ⟨_, (mix_diagonal (b := 3) (by decide) hc hy).first⟩
      · refine ⟨y, mul_ne_zero ?_ hc⟩
        unfold mixAmp
        rw [if_neg hy, if_pos rfl]
        exact one_ne_zero
    obtain ⟨histo, h1, h2, h3, h4⟩ := measurePRGroup_of two_pos (mixRun_set 3 P) F (by
      intro s hs e hn hl he
      obtain ⟨y, rfl⟩ := mix_arises hs
      rw [hF]
      refine prOutcomeProb_of (d := 1) hn hl (Ks := fun _ => 1) (fun _ => one_pos) ?_ (hnonzero y) ?_ P
      · intro x
        have := he (mixState 3 P x) (List.mem_map.mpr ⟨x, Finset.mem_toList.mpr (Finset.mem_univ _), rfl⟩)
        rw [mix_ampOf] at this
        refine Eq.trans this ?_
        rw [hcdef]
        rfl
      · rintro ⟨hnf, hall⟩
        by_cases hy : y = ![0, 0] ∨ y = ![3, 3]
        · exact mix_pair_not_factorable (mix_diagonal (b := 3) (by decide) hc hy) (hall 0)
        · apply hnf
          refine dictFactorable_prod (c := c) (f := fun k q => if q = y k then 1 else 0) ?_ (hnonzero y)
          intro x
          push Not at hy
          by_cases hx : x = y
          · subst hx
            unfold mixAmp
            rw [if_neg (by push Not; exact hy), if_pos rfl]
            simp
          · have h0 : mixAmp 3 y x = 0 := by
              unfold mixAmp
              rw [if_neg hy.1, if_neg hy.2, if_neg (Ne.symm hx), ite_self]
            obtain ⟨k, hk⟩ := Function.ne_iff.mp hx
            rw [h0, zero_mul, Finset.prod_eq_zero (Finset.mem_univ k) (if_neg hk), mul_zero])
    refine ⟨histo, h1, ?_⟩
    have hm : twoName ![0, 0] ∈ histo.map Prod.fst := (h3 _).mpr harise
    obtain ⟨sp, hsp, hsp1⟩ := List.mem_map.mp hm
    have hv := h4 sp hsp
    have hget := Dict.get?_of_mem h2 hsp
    unfold listedProb
    rw [← hsp1, hget, Option.getD_some, hv, hsp1, hF, hd0.total]
    rw [Complex.norm_mul, mul_pow, hhalf, hcn]
    have hal : ∀ k : Fin 2, alignment (stokes (photonAmps (pairVectors (d := 1) (fun x => mixAmp 3 ![0, 0] x * c) k) 0))
        (stokes (photonAmps (pairVectors (d := 1) (fun x => mixAmp 3 ![0, 0] x * c) k) 1)) 1 = 1 := by
      intro k
      refine alignment_lone (Or.inl ⟨?_, ?_⟩) ?_ ⟨0, ?_⟩ one_pos
      · rw [hd0.vector]; simp
      · rw [hd0.vector]; simp
      · rw [hd0.vector, hd0.vector]; simp
      · rw [hd0.vector, if_pos (Or.inl rfl)]
        exact_mod_cast (Real.sqrt_pos.mpr (by norm_num : (0 : ℝ) < 1 / 2)).ne'
    rw [Fin.prod_univ_two, hal, hal]
    ring

/-- Not vacuous: mixing (HH, HH) with (HV, HV) entangles the pairs, and the recovered pair states are H and H+V. Measuring raises. -/
example (P : ℝ) : measurePRGroup (mixRun 1 P) = none := by
  obtain ⟨c, hcdef⟩ : ∃ c : ℂ, c = (Real.sqrt (1 / 4) : ℂ) := ⟨_, rfl⟩
  have hc : c ≠ 0 := by
    rw [hcdef]
    exact_mod_cast (Real.sqrt_pos.mpr (by norm_num : (0 : ℝ) < 1 / 4)).ne'
  have hd := mix_diagonal (b := 1) (by decide) hc (y := ![0, 0]) (Or.inl rfl)
  have hhalf : mixAmp 1 ![0, 0] ![0, 0] ≠ 0 := left_ne_zero_of_mul hd.first
  refine C77_detected_partial (d := 1) (s := twoName ![0, 0]) (T := fun x => mixAmp 1 ![0, 0] x * c) (mixRun_set 1 P) ?_ ?_ ⟨_, hd.first⟩ ?_ ?_
  · refine ⟨mixState 1 P ![0, 0], List.mem_map.mpr ⟨_, Finset.mem_toList.mpr (Finset.mem_univ _), rfl⟩, ?_⟩
    simp only [mixState, List.map_map, List.mem_map, List.mem_filter]
    exact ⟨![0, 0], ⟨Finset.mem_toList.mpr (Finset.mem_univ _), by simpa using hhalf⟩, rfl⟩
  · intro st hst x hx
    obtain ⟨x', -, rfl⟩ := List.mem_map.mp hst
    have : x' = x := List.ofFn_injective hx
    subst this
    rw [mix_ampOf, hcdef]
    rfl
  · intro f
    refine minors_far (p := ![0, 0]) (q := ![1, 1]) (r := ![0, 1]) (s := ![1, 0]) hd.total hd.first hd.second (hd.rest _ (by decide) (by decide))
      (hd.rest _ (by decide) (by decide)) ?_
    show (∏ k, _) * (∏ k, _) = (∏ k, _) * (∏ k, _)
    rw [Fin.prod_univ_two, Fin.prod_univ_two, Fin.prod_univ_two, Fin.prod_univ_two]
    show f 0 0 * f 1 0 * (f 0 1 * f 1 1) = f 0 0 * f 1 1 * (f 0 1 * f 1 0)
    ring
  · intro k
    refine ⟨![1, 0], fun _ => (Real.sqrt (1 / 2) : ℂ), ⟨0, ?_⟩, ?_⟩
    · rw [hd.vector, if_pos (Or.inl rfl)]
      exact_mod_cast (Real.sqrt_pos.mpr (by norm_num : (0 : ℝ) < 1 / 2)).ne'
    · intro q
      rw [hd.vector]
      fin_cases q <;> simp [polA]

end Verif.Props
