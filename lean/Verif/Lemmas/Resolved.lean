/- Helper lemmas about photon-resolved measurement: assignments and permanents. -/
import Verif.Spec.Resolved
import Verif.Lemmas.Columns4
import Mathlib.GroupTheory.Perm.DomMulAct
import Mathlib.Algebra.BigOperators.Fin

namespace Verif
open Spec Finset Equiv

/-- The combinations before the length filter. -/
def combos (proj chs : List ℕ) : List (List ℕ) :=
  proj.foldl (fun combos p => combos.flatMap (fun vc => ((matchIndices chs p).filter (fun o => !vc.contains o)).map (fun o => vc ++ [o]))) [[]]

theorem combos_append (proj chs : List ℕ) (p : ℕ) : combos (proj ++ [p]) chs =
    (combos proj chs).flatMap (fun vc => ((matchIndices chs p).filter (fun o => !vc.contains o)).map (fun o => vc ++ [o])) := by
  unfold combos
  rw [List.foldl_append]
  rfl

theorem mem_matchIndices {chs : List ℕ} {p i : ℕ} : i ∈ matchIndices chs p ↔ ∃ h : i < chs.length, chs[i] = p := by
  unfold matchIndices
  rw [List.mem_filter, List.mem_range]
  constructor
  · rintro ⟨h, e⟩
    rw [List.getD_eq_getElem _ _ h] at e
    exact ⟨h, by simpa using e⟩
  · rintro ⟨h, e⟩
    refine ⟨h, ?_⟩
    rw [List.getD_eq_getElem _ _ h]
    simpa using e

theorem mem_combos {proj chs x : List ℕ} : x ∈ combos proj chs ↔ Assignment proj chs x := by
  induction proj using List.reverseRecOn generalizing x with
  | nil =>
    unfold combos Assignment
    simp only [List.foldl_nil, List.mem_singleton, List.length_nil, Nat.not_lt_zero, false_implies, implies_true, and_true, List.length_eq_zero_iff]
    constructor
    · rintro rfl; exact ⟨rfl, List.nodup_nil⟩
    · rintro ⟨rfl, _⟩; rfl
  | append_singleton proj p ih =>
    rw [combos_append, List.mem_flatMap]
    constructor
    · rintro ⟨vc, hvc, hx⟩
      obtain ⟨o, ho, rfl⟩ := List.mem_map.1 hx
      rw [List.mem_filter] at ho
      obtain ⟨h1, h2, h3⟩ := ih.1 hvc
      obtain ⟨ho1, ho2⟩ := ho
      obtain ⟨hlt, he⟩ := mem_matchIndices.1 ho1
      have hnm : o ∉ vc := by simpa using ho2
      refine ⟨by simp [h1], ?_, ?_⟩
      · rw [List.nodup_append]
        refine ⟨h2, by simp, ?_⟩
        intro a ha b hb hab
        obtain rfl := List.mem_singleton.1 hb
        exact hnm (hab ▸ ha)
      · intro i hi
        rw [List.length_append, List.length_singleton] at hi
        by_cases hip : i < proj.length
        · have e1 : (vc ++ [o]).getD i 0 = vc.getD i 0 := List.getD_append _ _ _ _ (by omega)
          have e2 : (proj ++ [p]).getD i 0 = proj.getD i 0 := List.getD_append _ _ _ _ hip
          rw [e2]
          obtain ⟨h, he⟩ := h3 i hip
          exact ⟨by rw [e1]; exact h, by simp only [e1]; exact he⟩
        · have e1 : (vc ++ [o]).getD i 0 = o := by
            rw [List.getD_append_right _ _ _ _ (by omega), show i - vc.length = 0 by omega]; rfl
          have e2 : (proj ++ [p]).getD i 0 = p := by
            rw [List.getD_append_right _ _ _ _ (by omega), show i - proj.length = 0 by omega]; rfl
          rw [e2]
          exact ⟨by rw [e1]; exact hlt, by simp only [e1]; exact he⟩
    · rintro ⟨h1, h2, h3⟩
      rw [List.length_append, List.length_singleton] at h1
      obtain ⟨vc, o, rfl⟩ : ∃ vc o, x = vc ++ [o] := by
        rcases List.eq_nil_or_concat x with rfl | ⟨vc, o, rfl⟩
        · simp at h1
        · exact ⟨vc, o, by simp⟩
      have hl : vc.length = proj.length := by simpa using h1
      rw [List.nodup_append] at h2
      refine ⟨vc, ih.2 ⟨hl, h2.1, ?_⟩, List.mem_map.2 ⟨o, List.mem_filter.2 ⟨mem_matchIndices.2 ?_, ?_⟩, rfl⟩⟩
      · intro i hi
        have e1 : (vc ++ [o]).getD i 0 = vc.getD i 0 := List.getD_append _ _ _ _ (by omega)
        have e2 : (proj ++ [p]).getD i 0 = proj.getD i 0 := List.getD_append _ _ _ _ hi
        obtain ⟨h, he⟩ := h3 i (by simp; omega)
        rw [e2] at he
        exact ⟨by rw [← e1]; exact h, by simp only [← e1]; exact he⟩
      · obtain ⟨h, he⟩ := h3 proj.length (by simp)
        have e1 : (vc ++ [o]).getD proj.length 0 = o := by
          rw [List.getD_append_right _ _ _ _ (by omega), show proj.length - vc.length = 0 by omega]; rfl
        have e2 : (proj ++ [p]).getD proj.length 0 = p := by
          rw [List.getD_append_right _ _ _ _ (le_refl _), Nat.sub_self]; rfl
        rw [e2] at he
        have h' : o < chs.length := by rw [e1] at h; exact h
        simp only [e1] at he
        exact ⟨h', he⟩
      · have : o ∉ vc := fun hm => h2.2.2 o hm o (by simp) rfl
        simpa using this

theorem nodup_matchIndices (chs : List ℕ) (p : ℕ) : (matchIndices chs p).Nodup := List.Nodup.filter _ List.nodup_range

theorem nodup_combos (proj chs : List ℕ) : (combos proj chs).Nodup := by
  induction proj using List.reverseRecOn with
  | nil => unfold combos; simp
  | append_singleton proj p ih =>
    rw [combos_append, List.nodup_flatMap]
    refine ⟨?_, ?_⟩
    · intro vc _
      refine List.Nodup.map ?_ (List.Nodup.filter _ (nodup_matchIndices chs p))
      intro a b hab
      simpa using hab
    · refine ih.imp ?_
      intro a b hab
      simp only [Function.onFun]
      intro x hx hx'
      obtain ⟨o, _, rfl⟩ := List.mem_map.1 hx
      obtain ⟨o', _, he⟩ := List.mem_map.1 hx'
      have := (List.append_inj' he rfl).1
      exact hab this.symm

theorem validCombinations_eq (proj chs : List ℕ) : validCombinations proj chs = combos proj chs := by
  unfold validCombinations
  refine List.filter_eq_self.2 ?_
  intro x hx
  have : x ∈ combos proj chs := hx
  rw [mem_combos] at this
  simpa using this.1

/-- The permutations that assign photons in the right channels. -/
def goodPerms {n : ℕ} (p c : Fin n → ℕ) : Finset (Perm (Fin n)) := univ.filter (fun σ => ∀ i, c (σ i) = p i)

theorem sum_validCombinations {n : ℕ} (p c : Fin n → ℕ) {M : Type*} [AddCommMonoid M] (G : List ℕ → M) :
    ((validCombinations (List.ofFn p) (List.ofFn c)).map G).sum = ∑ σ ∈ goodPerms p c, G (List.ofFn (fun i => (σ i : ℕ))) := by
  rw [validCombinations_eq, ← List.sum_toFinset G (nodup_combos _ _)]
  symm
  refine Finset.sum_bij (fun σ _ => List.ofFn (fun i => (σ i : ℕ))) ?_ ?_ ?_ ?_
  · intro σ hσ
    rw [List.mem_toFinset, mem_combos]
    unfold goodPerms at hσ
    rw [Finset.mem_filter] at hσ
    refine ⟨by simp, ?_, ?_⟩
    · rw [List.nodup_ofFn]
      intro a b hab
      exact σ.injective (Fin.ext hab)
    · intro i hi
      rw [List.length_ofFn] at hi
      have e : (List.ofFn (fun i => (σ i : ℕ))).getD i 0 = σ ⟨i, hi⟩ := by
        rw [List.getD_eq_getElem _ _ (by simpa using hi), List.getElem_ofFn]
      have e' : (List.ofFn p).getD i 0 = p ⟨i, hi⟩ := by
        rw [List.getD_eq_getElem _ _ (by simpa using hi), List.getElem_ofFn]
      refine ⟨by rw [e]; simp, ?_⟩
      simp only [e]
      rw [List.getElem_ofFn, e']
      exact hσ.2 ⟨i, hi⟩
  · intro σ _ τ _ h
    have := List.ofFn_injective h
    ext i
    exact congrFun this i
  · intro x hx
    rw [List.mem_toFinset, mem_combos] at hx
    obtain ⟨h1, h2, h3⟩ := hx
    rw [List.length_ofFn] at h1
    have hlt : ∀ i : Fin n, x.getD i 0 < n := by
      intro i
      obtain ⟨h, _⟩ := h3 i (by simp)
      simpa using h
    let f : Fin n → Fin n := fun i => ⟨x.getD i 0, hlt i⟩
    have hinj : Function.Injective f := by
      intro i j hij
      have : x.getD i 0 = x.getD j 0 := congrArg Fin.val hij
      rw [List.getD_eq_getElem _ _ (by omega), List.getD_eq_getElem _ _ (by omega)] at this
      exact Fin.ext ((List.Nodup.getElem_inj_iff h2).1 this)
    refine ⟨Equiv.ofBijective f (Finite.injective_iff_bijective.1 hinj), ?_, ?_⟩
    · unfold goodPerms
      rw [Finset.mem_filter]
      refine ⟨mem_univ _, ?_⟩
      intro i
      obtain ⟨h, he⟩ := h3 i (by simp)
      have e' : (List.ofFn p).getD i 0 = p i := by
        rw [List.getD_eq_getElem _ _ (by simp), List.getElem_ofFn]
      rw [List.getElem_ofFn, e'] at he
      exact he
    · refine List.ext_getElem (by simp [h1]) ?_
      intro i hi1 hi2
      rw [List.getElem_ofFn]
      show x.getD i 0 = _
      rw [List.getD_eq_getElem _ _ hi2]
  · intro σ _; rfl

theorem card_goodPerms_aux {n : ℕ} (p c : Fin n → ℕ) (σ₀ : Perm (Fin n)) (h0 : ∀ i, c (σ₀ i) = p i) :
    (goodPerms p c).card = Fintype.card {σ : Perm (Fin n) // p ∘ σ = p} := by
  rw [Fintype.card_subtype]
  refine Finset.card_bij (fun σ _ => σ₀⁻¹ * σ) ?_ ?_ ?_
  · intro σ hσ
    unfold goodPerms at hσ
    rw [Finset.mem_filter] at hσ ⊢
    refine ⟨mem_univ _, ?_⟩
    funext i
    simp only [Function.comp, Perm.mul_apply]
    rw [← h0, Equiv.Perm.inv_def, Equiv.apply_symm_apply, hσ.2]
  · intro a _ b _ h
    exact mul_left_cancel h
  · intro τ hτ
    rw [Finset.mem_filter] at hτ
    refine ⟨σ₀ * τ, ?_, by simp⟩
    unfold goodPerms
    rw [Finset.mem_filter]
    refine ⟨mem_univ _, ?_⟩
    intro i
    rw [Perm.mul_apply, h0]
    exact congrFun hτ.2 i

/-- The double sum over the assignments of both sides is the number of assignments times the permanent. -/
theorem double_sum {n : ℕ} (p cb ck : Fin n → ℕ) (F : Fin n → Fin n → ℝ) :
    ∑ σ ∈ goodPerms p cb, ∑ τ ∈ goodPerms p ck, ∏ i, F (σ i) (τ i) =
      (goodPerms p cb).card * Matrix.permanent (Matrix.of (fun i j => if cb j = ck i then F j i else 0)) := by
  have key : ∀ σ ∈ goodPerms p cb, ∑ τ ∈ goodPerms p ck, ∏ i, F (σ i) (τ i) = Matrix.permanent (Matrix.of (fun i j => if cb j = ck i then F j i else 0)) := by
    intro σ hσ
    unfold goodPerms at hσ
    rw [Finset.mem_filter] at hσ
    unfold Matrix.permanent
    have h1 : ∀ ρ : Perm (Fin n), ∏ i, (Matrix.of (fun i j => if cb j = ck i then F j i else 0)) (ρ i) i =
        if ∀ i, ck (ρ i) = cb i then ∏ i, F i (ρ i) else 0 := by
      intro ρ
      by_cases h : ∀ i, ck (ρ i) = cb i
      · rw [if_pos h]
        refine Finset.prod_congr rfl ?_
        intro i _
        simp [Matrix.of_apply, (h i).symm]
      · rw [if_neg h]
        push Not at h
        obtain ⟨i, hi⟩ := h
        refine Finset.prod_eq_zero (Finset.mem_univ i) ?_
        simp [Matrix.of_apply, Ne.symm hi]
    rw [Finset.sum_congr rfl (fun ρ _ => h1 ρ), ← Finset.sum_filter]
    refine Finset.sum_bij (fun τ _ => τ * σ⁻¹) ?_ ?_ ?_ ?_
    · intro τ hτ
      unfold goodPerms at hτ
      rw [Finset.mem_filter] at hτ ⊢
      refine ⟨mem_univ _, ?_⟩
      intro i
      rw [Perm.mul_apply, hτ.2, ← hσ.2, Equiv.Perm.inv_def, Equiv.apply_symm_apply]
    · intro a _ b _ h
      exact mul_right_cancel h
    · intro ρ hρ
      rw [Finset.mem_filter] at hρ
      refine ⟨ρ * σ, ?_, by simp⟩
      unfold goodPerms
      rw [Finset.mem_filter]
      refine ⟨mem_univ _, ?_⟩
      intro i
      rw [Perm.mul_apply, hρ.2, hσ.2]
    · intro τ _
      rw [← Equiv.prod_comp σ (fun j => F j ((τ * σ⁻¹) j))]
      refine Finset.prod_congr rfl ?_
      intro i _
      rw [Perm.mul_apply, Equiv.Perm.inv_def, Equiv.symm_apply_apply]
  rw [Finset.sum_congr rfl key, Finset.sum_const, nsmul_eq_mul]

end Verif
