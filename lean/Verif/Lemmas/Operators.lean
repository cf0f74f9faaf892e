/- Helper lemmas about ladder operators. -/
import Verif.Model.Operators
import Verif.Spec.Operators
import Verif.Lemmas.Names
import Mathlib.Tactic.Ring

namespace Verif
open Spec

theorem create_single (c : ℕ) (v : List ℕ) (a : ℂ) :
    create c (Finsupp.single v a) = (a * (Real.sqrt (v.getD c 0 + 1) : ℂ)) • Finsupp.single (v.set c (v.getD c 0 + 1)) 1 := by
  unfold create
  rw [Finsupp.linearCombination_single, Finsupp.smul_single, Finsupp.smul_single, smul_eq_mul, smul_eq_mul, mul_one]

theorem annihilate_single (c : ℕ) (v : List ℕ) (a : ℂ) :
    annihilate c (Finsupp.single v a) = (a * (Real.sqrt (v.getD c 0) : ℂ)) • Finsupp.single (v.set c (v.getD c 0 - 1)) 1 := by
  unfold annihilate
  rw [Finsupp.linearCombination_single, Finsupp.smul_single, Finsupp.smul_single, smul_eq_mul, smul_eq_mul, mul_one]

theorem commands_nil : commands [] = LinearMap.id := rfl
theorem commands_cons (x : ℕ × Char) (w : List (ℕ × Char)) : commands (x :: w) = (commands w).comp (command x.1 x.2) := rfl

theorem commands_append (w₁ w₂ : List (ℕ × Char)) : commands (w₁ ++ w₂) = (commands w₂).comp (commands w₁) := by
  induction w₁ with
  | nil => rw [commands_nil, List.nil_append, LinearMap.comp_id]
  | cons x w ih => rw [List.cons_append, commands_cons, ih, commands_cons, LinearMap.comp_assoc]

/-- every command string maps a basis state to a multiple of a basis state of the same length -/
theorem commands_single (w : List (ℕ × Char)) (v : List ℕ) :
    ∃ (a : ℂ) (u : List ℕ), u.length = v.length ∧ commands w (Finsupp.single v 1) = a • Finsupp.single u (1 : ℂ) := by
  induction w generalizing v with
  | nil => exact ⟨1, v, rfl, by rw [commands_nil, one_smul]; rfl⟩
  | cons x w ih =>
    have : ∃ (a : ℂ) (u : List ℕ), u.length = v.length ∧ command x.1 x.2 (Finsupp.single v 1) = a • Finsupp.single u (1 : ℂ) := by
      unfold command
      split_ifs
      · exact ⟨_, _, List.length_set, create_single _ _ _⟩
      · exact ⟨_, _, List.length_set, annihilate_single _ _ _⟩
      · exact ⟨1, v, rfl, by rw [one_smul]; rfl⟩
    obtain ⟨a, u, hu, h⟩ := this
    obtain ⟨b, u', hu', h'⟩ := ih u
    exact ⟨a * b, u', hu'.trans hu, by rw [commands_cons, LinearMap.comp_apply, h, map_smul, h', smul_smul]⟩

/-- the loop of the code computes the operator of the command string -/
theorem ladder_spec (w : List (ℕ × Char)) (v : List ℕ) (c : ℂ) :
    (ladder w v c = some none → commands w (Finsupp.single v 1) = 0) ∧
    (∀ v' c', ladder w v c = some (some (v', c')) → v'.length = v.length ∧
      c • commands w (Finsupp.single v 1) = c' • Finsupp.single v' (1 : ℂ)) := by
  induction w generalizing v c with
  | nil =>
    refine ⟨fun h => by simp [ladder] at h, fun v' c' h => ?_⟩
    simp only [ladder, Option.some.injEq, Prod.mk.injEq] at h
    obtain ⟨rfl, rfl⟩ := h
    exact ⟨rfl, by rw [commands_nil]; rfl⟩
  | cons x w ih =>
    obtain ⟨ch, cmd⟩ := x
    rw [commands_cons, LinearMap.comp_apply]
    simp only [ladder]
    by_cases hp : cmd = '+'
    · rw [if_pos hp]
      simp only [command, if_pos hp, create_single, one_mul]
      cases hv : v[ch]? with
      | none => exact ⟨fun h => by simp at h, fun _ _ h => by simp at h⟩
      | some n =>
        have hn : v.getD ch 0 = n := by rw [List.getD_eq_getElem?_getD, hv]; rfl
        obtain ⟨h1, h2⟩ := ih (v.set ch (n + 1)) (c * (Real.sqrt ((n + 1 : ℕ) : ℝ) : ℂ))
        simp only [hn, map_smul]
        push_cast at h1 h2 ⊢
        refine ⟨fun h => by rw [h1 h, smul_zero], fun v' c' h => ?_⟩
        obtain ⟨h3, h4⟩ := h2 v' c' h
        exact ⟨by rw [h3, List.length_set], by rw [smul_smul, h4]⟩
    · rw [if_neg hp]
      by_cases hm : cmd = '-'
      · rw [if_pos hm]
        simp only [command, if_neg hp, if_pos hm, annihilate_single, one_mul]
        cases hv : v[ch]? with
        | none => exact ⟨fun h => by simp at h, fun _ _ h => by simp at h⟩
        | some n =>
          have hn : v.getD ch 0 = n := by rw [List.getD_eq_getElem?_getD, hv]; rfl
          simp only [hn, map_smul]
          by_cases h0 : n = 0
          · subst h0
            simp only [if_true]
            exact ⟨fun _ => by simp, fun _ _ h => by simp at h⟩
          · simp only [if_neg h0]
            obtain ⟨h1, h2⟩ := ih (v.set ch (n - 1)) (c * (Real.sqrt (n : ℝ) : ℂ))
            refine ⟨fun h => by rw [h1 h, smul_zero], fun v' c' h => ?_⟩
            obtain ⟨h3, h4⟩ := h2 v' c' h
            exact ⟨by rw [h3, List.length_set], by rw [smul_smul, h4]⟩
      · rw [if_neg hm]
        simp only [command, if_neg hp, if_neg hm]
        exact ih v c

/-- the loop raises only for channels out of range -/
theorem ladder_defined (w : List (ℕ × Char)) (v : List ℕ) (c : ℂ) (h : ∀ x ∈ w, x.1 < v.length) : ∃ r, ladder w v c = some r := by
  induction w generalizing v c with
  | nil => exact ⟨_, rfl⟩
  | cons x w ih =>
    obtain ⟨ch, cmd⟩ := x
    have hc : ch < v.length := h (ch, cmd) List.mem_cons_self
    have hw : ∀ n, ∀ x ∈ w, x.1 < (v.set ch n).length := fun n x hx => by
      rw [List.length_set]; exact h x (List.mem_cons_of_mem _ hx)
    simp only [ladder]
    rw [List.getElem?_eq_getElem hc]
    by_cases hp : cmd = '+'
    · rw [if_pos hp]; exact ih _ _ (hw _)
    · rw [if_neg hp]
      by_cases hm : cmd = '-'
      · rw [if_pos hm]
        by_cases h0 : v[ch] = 0
        · exact ⟨none, by simp only [h0, if_true]⟩
        · simp only [if_neg h0]; exact ih _ _ (hw _)
      · rw [if_neg hm]; exact ih _ _ (fun x hx => h x (List.mem_cons_of_mem _ hx))

/-! ### the limited basis -/

theorem limValues_eq {L k n : ℕ} (hL : 1 ≤ L) (hn : n < L ^ k) (b : Bool) : limValues L k n = (⟨L, k, b⟩ : Cfg).valuesFromIndex n := by
  -- both are the digits of `n`
  have hlen : (Nat.digits L n).length ≤ k := by
    rcases Nat.lt_or_ge 1 L with h | h
    · exact (Nat.digits_length_le_iff h n).2 hn
    · have : L = 1 := by omega
      subst this
      rw [one_pow] at hn
      have : n = 0 := by omega
      subst this
      simp
  have hll : (limValues L k n).length = k := by unfold limValues; simp; omega
  have hlt : ∀ x ∈ limValues L k n, x < L := by
    intro x hx
    unfold limValues at hx
    rcases List.mem_append.1 hx with hx | hx
    · rcases Nat.lt_or_ge 1 L with h | h
      · exact Nat.digits_lt_base h hx
      · have : L = 1 := by omega
        subst this
        rw [one_pow] at hn
        have : n = 0 := by omega
        subst this
        simp at hx
    · rw [List.mem_replicate] at hx; omega
  have hv : Valid (⟨L, k, b⟩ : Cfg) (limValues L k n) := ⟨hll, hlt⟩
  have hidx : (⟨L, k, b⟩ : Cfg).indexOf (limValues L k n) = n := by
    rw [Cfg.indexOf_eq_ofDigits]
    unfold limValues
    rw [Nat.ofDigits_append_replicate_zero, Nat.ofDigits_digits]
  have := Cfg.valuesFromIndex_indexOf (⟨L, k, b⟩ : Cfg) hv
  rw [hidx] at this
  exact this.symm

/-- configuration of the limited basis -/
def limCfg (L k : ℕ) : Cfg := ⟨L, k, true⟩

theorem limValues_valid {L k n : ℕ} (hL : 1 ≤ L) (hn : n < L ^ k) : Valid (limCfg L k) (limValues L k n) := by
  rw [limValues_eq hL hn true]; exact Cfg.valid_valuesFromIndex _ hL n

theorem limIndex_eq {L k : ℕ} (hL : 1 ≤ L) {v : List ℕ} (hv : Valid (limCfg L k) v) :
    limIndex L k v = some ((limCfg L k).indexOf v) ∧ (limCfg L k).indexOf v < L ^ k ∧ limValues L k ((limCfg L k).indexOf v) = v := by
  have hlt : (limCfg L k).indexOf v < L ^ k := Cfg.indexOf_lt _ hv
  have hval : limValues L k ((limCfg L k).indexOf v) = v := by
    rw [limValues_eq hL hlt true]; exact Cfg.valuesFromIndex_indexOf _ hv
  refine ⟨?_, hlt, hval⟩
  unfold limIndex
  rw [List.find?_eq_some_iff_getElem]
  refine ⟨by simpa using hval, (limCfg L k).indexOf v, by simpa using hlt, by simp, ?_⟩
  intro j hj
  simp only [List.getElem_range, Bool.not_eq_eq_eq_not, Bool.not_true, decide_eq_false_iff_not]
  intro h
  have hj' : j < L ^ k := lt_trans hj hlt
  rw [limValues_eq hL hj' true] at h
  have := Cfg.indexOf_valuesFromIndex (⟨L, k, true⟩ : Cfg) (n := j) hj'
  rw [h] at this
  unfold limCfg at hj
  omega

theorem limValues_inj {L k i j : ℕ} (hL : 1 ≤ L) (hi : i < L ^ k) (hj : j < L ^ k) (h : limValues L k i = limValues L k j) : i = j := by
  rw [limValues_eq hL hi true, limValues_eq hL hj true] at h
  have h1 := Cfg.indexOf_valuesFromIndex (⟨L, k, true⟩ : Cfg) (n := i) hi
  have h2 := Cfg.indexOf_valuesFromIndex (⟨L, k, true⟩ : Cfg) (n := j) hj
  rw [← h1, ← h2, h]

theorem limIndex_some {L k i : ℕ} {v : List ℕ} (h : limIndex L k v = some i) : i < L ^ k ∧ limValues L k i = v := by
  unfold limIndex at h
  have h1 := List.mem_of_find?_eq_some h
  have h2 := List.find?_some h
  exact ⟨List.mem_range.1 h1, by simpa using h2⟩

end Verif
