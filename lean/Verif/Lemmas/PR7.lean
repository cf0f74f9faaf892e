/- Helper lemmas about Popescu-Rohrlich pairs: outcomes whose amplitudes are not products. -/
import Verif.Lemmas.PR4

namespace Verif
open Spec

/-- Measurement of a set, outcome by outcome. -/
theorem measurePRGroup_of {n : ℕ} (hn0 : 0 < n) {Ks : Fin n → ℝ} {init : List Char} {P : ℝ} {coll : List PRState} (h : PRSet n Ks init P coll)
    (F : Name → ℝ)
    (hp : ∀ s, Arises coll s → ∀ e : Dict (List (Fin 4)) ℂ, e.keys.Nodup → (∀ p ∈ e, p.1.length = n) →
      (∀ st ∈ coll, (e.get? (configuration st)).getD 0 = ampOf st.q.comps s * (Real.sqrt st.q.cum : ℂ)) → prOutcomeProb (List.ofFn Ks) P e = some (F s)) :
    ∃ histo, measurePRGroup coll = some histo ∧ (histo.map Prod.fst).Nodup ∧ (∀ s, s ∈ histo.map Prod.fst ↔ Arises coll s) ∧
      ∀ sp ∈ histo, sp.2 = F sp.1 := by
  have hst : ∀ st ∈ coll, st.pr.isSome ∧ st.q.comps.keys.Nodup := fun st hs => by
    obtain ⟨i, hi, _⟩ := h.info st hs
    exact ⟨by rw [hi]; rfl, h.dict st hs⟩
  obtain ⟨G, hG, hGn, hGg⟩ := groupConfigs_spec hst h.once
  obtain ⟨st₀, hst₀, -⟩ := h.all (fun _ => 0)
  obtain ⟨ref, rest, hcoll⟩ : ∃ ref rest, coll = ref :: rest := List.exists_cons_of_ne_nil (List.ne_nil_of_mem hst₀)
  obtain ⟨i, hi, hq, hin, hP⟩ := h.info ref (by rw [hcoll]; exact List.mem_cons_self)
  have hocc : ∀ s, s ∈ G.keys ↔ Arises coll s := by
    intro s
    rw [Dict.mem_keys_iff]
    constructor
    · rintro ⟨e, he⟩
      rw [hGg] at he
      have hne : entryOf coll s ≠ [] := by
        intro h0
        rw [if_pos h0] at he
        exact absurd he (by simp)
      obtain ⟨p, hp⟩ := List.exists_mem_of_ne_nil _ hne
      unfold entryOf at hp
      rw [List.mem_filterMap] at hp
      obtain ⟨st, hs, h1⟩ := hp
      rw [Option.map_eq_some_iff] at h1
      obtain ⟨k, hk, _⟩ := h1
      exact ⟨st, hs, Dict.mem_keys_iff.mpr ⟨k, hk⟩⟩
    · rintro ⟨st, hs, hm⟩
      obtain ⟨k, hk⟩ := Dict.mem_keys_iff.mp hm
      have hne : entryOf coll s ≠ [] := by
        apply List.ne_nil_of_mem (a := ((st.pr.map PRInfo.config).getD [], k.amp * (Real.sqrt st.q.cum : ℂ)))
        unfold entryOf
        rw [List.mem_filterMap]
        exact ⟨st, hs, by rw [hk]; rfl⟩
      exact ⟨_, by rw [hGg, if_neg hne]⟩
  have heach : ∀ oe ∈ G, (prOutcomeProb i.quantum i.origCum oe.2).map (fun p => (oe.1, p)) = some (oe.1, F oe.1) := by
    intro oe hoe
    have hoc : Arises coll oe.1 := (hocc oe.1).mp (List.mem_map.mpr ⟨oe, hoe, rfl⟩)
    have he : oe.2 = entryOf coll oe.1 := by
      have h1 := Dict.get?_of_mem hGn hoe
      rw [hGg] at h1
      by_cases h0 : entryOf coll oe.1 = []
      · rw [if_pos h0] at h1; exact absurd h1 (by simp)
      · rw [if_neg h0] at h1
        exact (Option.some.inj h1).symm
    rw [he, hq, hP, hp oe.1 hoc _ (nodup_entryOf h.once _) ?_ ?_]
    · rfl
    · intro p hp
      have := keys_entryOf _ (List.mem_map.mpr ⟨p, hp, rfl⟩ : p.1 ∈ (entryOf coll oe.1).keys)
      rw [List.mem_map] at this
      obtain ⟨st, hs, hst⟩ := this
      rw [← hst]
      exact h.len st hs
    · intro st hs
      exact get_entryOf h.once hs _
  refine ⟨G.map (fun oe => (oe.1, F oe.1)), ?_, ?_, ?_, ?_⟩
  · unfold measurePRGroup
    rw [hG, hcoll]
    simp only [List.head?_cons, Option.bind_eq_bind, Option.bind_some, hi]
    exact mapM_some_of heach
  · rw [List.map_map]
    exact hGn
  · intro s
    rw [List.map_map]
    exact hocc s
  · intro sp hsp
    rw [List.mem_map] at hsp
    obtain ⟨oe, _, rfl⟩ := hsp
    rfl

/-- Probability of one outcome that is accepted. -/
theorem prOutcomeProb_of {d : ℕ} {e : Dict (List (Fin 4)) ℂ} (hn : e.keys.Nodup) (hl : ∀ p ∈ e, p.1.length = d + 1)
    {Ks : Fin (d + 1) → ℝ} (hK : ∀ k, 0 < Ks k) {T : (Fin (d + 1) → Fin 4) → ℂ}
    (hT : ∀ x : Fin (d + 1) → Fin 4, (e.get? (List.ofFn x)).getD 0 = T x) (hne : ∃ x, T x ≠ 0) (hacc : ¬ (¬ DictFactorable T ∧ AllPairsFactorable T)) (P : ℝ) :
    prOutcomeProb (List.ofFn Ks) P e = some (P * ((∑ x, ‖T x‖ ^ 2) *
      ∏ k, alignment (stokes (photonAmps (pairVectors T k) 0)) (stokes (photonAmps (pairVectors T k) 1)) (Ks k))) := by
  have hTe : (fun x : Fin (d + 1) → Fin 4 => (e.get? (List.ofFn x)).getD 0) = T := funext hT
  have hen : e ≠ [] := by
    rintro rfl
    obtain ⟨x, hx⟩ := hne
    exact hx (hT x).symm
  obtain ⟨p₀, e', rfl⟩ : ∃ p e', e = p :: e' := List.exists_cons_of_ne_nil hen
  have hlen : p₀.1.length = d + 1 := hl p₀ List.mem_cons_self
  have hmat : matrixFromDict (d + 1) (p₀ :: e') = some T := by
    unfold matrixFromDict
    rw [if_pos, hTe]
    rw [List.all_eq_true]
    intro p hp
    simp [hl p hp]
  unfold prOutcomeProb
  simp only [List.head?_cons, Option.bind_eq_bind, Option.bind_some, hlen, hmat]
  rw [if_neg (by push Not; exact hne), if_neg hacc, ofFn_zipIdx]
  rw [foldlM_mul _ _ (fun Kn : ℝ × ℕ => if h : Kn.2 < d + 1 then alignment (stokes (photonAmps (pairVectors T ⟨Kn.2, h⟩) 0)) (stokes (photonAmps (pairVectors T ⟨Kn.2, h⟩) 1)) Kn.1 else 1)]
  · simp only [Option.bind_some]
    congr 1
    rw [List.map_ofFn, List.prod_ofFn, sum_dict hn hl]
    have : ∀ k : Fin (d + 1), ((fun Kn : ℝ × ℕ => if h : Kn.2 < d + 1 then alignment (stokes (photonAmps (pairVectors T ⟨Kn.2, h⟩) 0)) (stokes (photonAmps (pairVectors T ⟨Kn.2, h⟩) 1)) Kn.1 else 1) ∘
        fun i : Fin (d + 1) => (Ks i, i.val)) k = alignment (stokes (photonAmps (pairVectors T k) 0)) (stokes (photonAmps (pairVectors T k) 1)) (Ks k) := by
      intro k
      rw [Function.comp_apply, dif_pos k.isLt]
    simp only [this, hT]
    ring
  · intro p x hx
    rw [List.mem_ofFn] at hx
    obtain ⟨k, rfl⟩ := hx
    simp only [k.isLt, dite_true]
    rw [if_neg (not_le.mpr (hK k))]

/-- A single pair is always accepted. -/
theorem dictFactorable_one {T : (Fin 1 → Fin 4) → ℂ} (hne : ∃ x, T x ≠ 0) : DictFactorable (d := 0) T := by
  unfold DictFactorable
  have : reproduced (pairVectors (d := 0) T) = T := by
    funext x
    unfold reproduced pairVectors
    rw [if_neg (by omega)]
    refine (Fin.prod_univ_one (fun k : Fin 1 => T (fun _ => x k))).trans ?_
    congr 1
    funext i
    rw [show i = 0 from Fin.ext (by omega)]
  rw [this, compareMatrices_smul (l := 1) mem_rowMajor one_ne_zero (fun x => (one_mul _).symm) hne]
  exact one_pos

/-- Unravelling an array with at most one element different from zero on each line along the first axis. -/
theorem vectorFromMatrix_lone {d b : ℕ} [NeZero b] {M : (Fin (d + 1) → Fin b) → ℂ} (hlone : ∀ x, M x ≠ 0 → ∀ j, j ≠ x 0 → M (Function.update x 0 j) = 0)
    (hne : ∃ x, M x ≠ 0) (j : Fin b) :
    vectorFromMatrix M j = (Real.sqrt ((∑ x ∈ Finset.univ.filter (fun x : Fin (d + 1) → Fin b => x 0 = j), ‖M x‖ ^ 2) / ∑ x, ‖M x‖ ^ 2) : ℂ) := by
  obtain ⟨x₀, hx₀⟩ := hne
  unfold vectorFromMatrix
  set mx := argMaxIdx (rowMajor (d + 1) b) (fun x => ‖M x‖ ^ 2) with hmx
  have hM0 : M mx ≠ 0 := by
    have h : ‖M x₀‖ ^ 2 ≤ ‖M mx‖ ^ 2 := argMaxIdx_le (fun x => ‖M x‖ ^ 2) (mem_rowMajor x₀)
    intro h0
    have : 0 < ‖M x₀‖ ^ 2 := pow_pos (norm_pos_iff.mpr hx₀) 2
    rw [h0, norm_zero] at h
    linarith
  have hS : 0 < ∑ y, ‖M y‖ ^ 2 := Finset.sum_pos' (fun _ _ => sq_nonneg _) ⟨x₀, Finset.mem_univ _, pow_pos (norm_pos_iff.mpr hx₀) 2⟩
  have hsum : ∑ i, ∑ x ∈ Finset.univ.filter (fun x : Fin (d + 1) → Fin b => x 0 = i), ‖M x‖ ^ 2 = ∑ x, ‖M x‖ ^ 2 :=
    Finset.sum_fiberwise Finset.univ (fun x : Fin (d + 1) → Fin b => x 0) (fun x => ‖M x‖ ^ 2)
  simp only
  rw [hsum]
  set s : ℝ := Real.sqrt (∑ y, ‖M y‖ ^ 2) with hs
  have hs0 : 0 < s := Real.sqrt_pos.mpr hS
  have hang : (M (Function.update mx 0 j) / (M mx / (s : ℂ) / (‖M mx / (s : ℂ)‖ : ℂ))).arg = 0 := by
    by_cases hj : j = mx 0
    · subst hj
      rw [Function.update_eq_self]
      have hsC : (s : ℂ) ≠ 0 := by exact_mod_cast hs0.ne'
      have : M mx / (M mx / (s : ℂ) / (‖M mx / (s : ℂ)‖ : ℂ)) = ((s * ‖M mx / (s : ℂ)‖ : ℝ) : ℂ) := by
        have hnC : (‖M mx / (s : ℂ)‖ : ℂ) ≠ 0 := by exact_mod_cast (norm_ne_zero_iff.mpr (div_ne_zero hM0 hsC))
        push_cast
        field_simp
      rw [this]
      exact Complex.arg_ofReal_of_nonneg (by positivity)
    · rw [hlone mx hM0 j hj, zero_div, Complex.arg_zero]
  rw [hang]
  simp

end Verif
