/- Helper lemmas about collections. -/
import Verif.Model.Collection
import Verif.Lemmas.Measurement
import Mathlib.Data.Complex.BigOperators
import Mathlib.Analysis.Complex.Basic

namespace Verif
open Spec

theorem extendId_not_mem (keys : List (List Char)) (r : ℕ → ℕ) (fuel n : ℕ) (s : List Char)
    (h : (keys.filter (fun t => s.length ≤ t.length)).length ≤ fuel) : extendId keys r fuel n s ∉ keys := by
  induction fuel generalizing n s with
  | zero =>
    rw [extendId]
    intro hs
    have : s ∈ keys.filter (fun t => s.length ≤ t.length) := List.mem_filter.2 ⟨hs, by simp⟩
    have h0 := List.length_pos_of_mem this
    omega
  | succ fuel ih =>
    rw [extendId]
    split
    · rename_i hs
      apply ih
      have hlt : (keys.filter (fun t => (s ++ [letter (r n)]).length ≤ t.length)).length
          < (keys.filter (fun t => s.length ≤ t.length)).length := by
        clear ih h
        induction keys with
        | nil => simp at hs
        | cons a keys ih2 =>
          have hmono : (keys.filter (fun t => (s ++ [letter (r n)]).length ≤ t.length)).length
              ≤ (keys.filter (fun t => s.length ≤ t.length)).length := by
            rw [← List.countP_eq_length_filter, ← List.countP_eq_length_filter]
            apply List.countP_mono_left
            intro x _ hx
            simp at hx ⊢
            omega
          rw [List.filter_cons, List.filter_cons]
          rcases List.mem_cons.1 hs with rfl | hs'
          · simp only [List.length_append, List.length_singleton] at hmono ⊢
            have e1 : decide (s.length + 1 ≤ s.length) = false := by simp
            rw [e1]
            simp only [Bool.false_eq_true, if_false, le_refl, decide_true, if_true, List.length_cons]
            omega
          · have := ih2 hs'
            simp only [List.length_append, List.length_singleton] at this ⊢
            by_cases h1 : s.length + 1 ≤ a.length
            · have h2 : s.length ≤ a.length := by omega
              simp only [h1, h2, decide_true, if_true, List.length_cons]; omega
            · simp only [h1, decide_false, Bool.false_eq_true, if_false]
              split
              · simp only [List.length_cons]; omega
              · exact this
      omega
    · assumption

theorem freshId_not_mem (keys : List (List Char)) (r : ℕ → ℕ) : freshId keys r ∉ keys := by
  apply extendId_not_mem
  exact List.length_filter_le _ _

/-- the loop over the states of a filter -/
theorem selectStates_eq {thr : ℝ} {m : ℕ} {cond : List Char × QState → Option Bool} {f : List Char × QState → Bool} {coll : Coll}
    (hn : (Dict.keys coll).Nodup) (hc : ∀ p ∈ coll, cond p = some (f p)) {out : Coll} :
    selectStates thr m cond coll = some out ↔ (∀ p ∈ coll, f p = true → CheckValid thr m p.2) ∧ out = coll.filter f := by
  have gen : ∀ (coll acc : Coll), (Dict.keys (acc ++ coll)).Nodup → (∀ p ∈ coll, cond p = some (f p)) → ∀ out,
      (coll.foldlM (fun (new : Coll) p => do
        if (← cond p) then
          let q ← copyState thr m p.2
          some (new.set p.1 q)
        else some new) acc = some out ↔ (∀ p ∈ coll, f p = true → CheckValid thr m p.2) ∧ out = acc ++ coll.filter f) := by
    intro coll
    induction coll with
    | nil =>
      intro acc _ _ out
      simp only [List.foldlM_nil, List.filter_nil, List.append_nil, List.not_mem_nil, false_implies, implies_true, true_and]
      exact ⟨fun h => (Option.some.inj h).symm, fun h => congrArg some h.symm⟩
    | cons p coll ih =>
      intro acc hn hc out
      rw [List.foldlM_cons, hc p (by simp)]
      have hn' : p.1 ∉ Dict.keys acc ∧ (Dict.keys (acc ++ [p] ++ coll)).Nodup ∧ (Dict.keys (acc ++ coll)).Nodup := by
        have e : (Dict.keys (acc ++ [p] ++ coll)) = Dict.keys (acc ++ p :: coll) := by simp
        refine ⟨?_, by rw [e]; exact hn, ?_⟩
        · simp only [Dict.keys, List.map_append, List.map_cons] at hn ⊢
          rw [List.nodup_append] at hn
          intro hm
          exact hn.2.2 _ hm _ List.mem_cons_self rfl
        · refine hn.sublist ?_
          simp only [Dict.keys]
          exact List.Sublist.map _ (List.Sublist.append (List.Sublist.refl _) (List.sublist_cons_self _ _))
      by_cases hf : f p = true
      · simp only [hf, if_true, Option.bind_eq_bind, Option.bind_some]
        by_cases hv : CheckValid thr m p.2
        · rw [copyState, if_pos hv]
          simp only [Option.bind_some]
          have ih' := ih (acc ++ [p]) hn'.2.1 (fun q hq => hc q (by simp [hq])) out
          simp only [Option.bind_eq_bind] at ih'
          rw [Dict.set_of_not_mem _ hn'.1, ih']
          constructor
          · rintro ⟨h1, rfl⟩
            refine ⟨?_, by simp [hf]⟩
            intro q hq hfq
            rcases List.mem_cons.1 hq with rfl | hq
            · exact hv
            · exact h1 q hq hfq
          · rintro ⟨h1, rfl⟩
            exact ⟨fun q hq => h1 q (by simp [hq]), by simp [hf]⟩
        · rw [copyState, if_neg hv]
          simp only [Option.bind_none]
          constructor
          · intro h; cases h
          · rintro ⟨h1, -⟩
            exact absurd (h1 p (by simp) hf) hv
      · have hf' : f p = false := by simpa using hf
        simp only [hf', Bool.false_eq_true, if_false, Option.bind_eq_bind, Option.bind_some]
        have ih' := ih acc hn'.2.2 (fun q hq => hc q (by simp [hq])) out
        simp only [Option.bind_eq_bind] at ih'
        rw [ih']
        constructor
        · rintro ⟨h1, rfl⟩
          refine ⟨?_, by simp [hf']⟩
          intro q hq hfq
          rcases List.mem_cons.1 hq with rfl | hq
          · rw [hf'] at hfq; cases hfq
          · exact h1 q hq hfq
        · rintro ⟨h1, rfl⟩
          exact ⟨fun q hq => h1 q (by simp [hq]), by simp [hf']⟩
  have := gen coll [] (by simpa using hn) hc out
  simpa [selectStates] using this

theorem erase_eq_filter {coll : Coll} (hn : (Dict.keys coll).Nodup) (i : List Char) :
    coll.erase i = coll.filter (fun p => p.1 ≠ i) := by
  induction coll with
  | nil => rfl
  | cons p coll ih =>
    obtain ⟨k, q⟩ := p
    rw [Dict.keys, List.map_cons, List.nodup_cons] at hn
    rw [Dict.erase]
    split
    · rename_i h
      subst h
      rw [List.filter_cons]
      simp only [ne_eq, not_true_eq_false, decide_false, Bool.false_eq_true, if_false]
      symm
      rw [List.filter_eq_self]
      intro p hp
      simp only [decide_not, Bool.not_eq_true', decide_eq_false_iff_not]
      intro e
      exact hn.1 (e ▸ List.mem_map.2 ⟨p, hp, rfl⟩)
    · rename_i h
      rw [List.filter_cons]
      simp only [ne_eq, h, not_false_eq_true, decide_true, if_true]
      rw [ih hn.2]

/-- Cauchy-Schwarz for lists -/
theorem list_cauchy {α : Type*} (l : List α) (a b : α → ℝ) :
    (l.map (fun p => a p * b p)).sum ^ 2 ≤ (l.map (fun p => a p ^ 2)).sum * (l.map (fun p => b p ^ 2)).sum := by
  have nn : ∀ (l : List α) (c : α → ℝ), 0 ≤ (l.map (fun p => c p ^ 2)).sum := by
    intro l c
    apply List.sum_nonneg
    intro x hx
    obtain ⟨p, _, rfl⟩ := List.mem_map.1 hx
    positivity
  induction l with
  | nil => simp
  | cons p l ih =>
    simp only [List.map_cons, List.sum_cons]
    set S := (l.map (fun p => a p * b p)).sum
    set A := (l.map (fun p => a p ^ 2)).sum with hA
    set B := (l.map (fun p => b p ^ 2)).sum with hB
    have hA0 : 0 ≤ A := nn l a
    have hB0 : 0 ≤ B := nn l b
    have key : 2 * (a p * b p) * S ≤ A * b p ^ 2 + B * a p ^ 2 := by
      have h1 : 2 * (a p * b p) * S ≤ 2 * (|a p| * |b p|) * |S| := by
        have := le_abs_self ((a p * b p) * S)
        rw [abs_mul, abs_mul] at this
        linarith
      have h2 : |S| ≤ Real.sqrt A * Real.sqrt B := by
        rw [← Real.sqrt_mul hA0]
        exact Real.abs_le_sqrt ih
      have h3 := Real.sq_sqrt hA0
      have h4 := Real.sq_sqrt hB0
      have h5 : 0 ≤ |a p| * |b p| := by positivity
      have h6 : 2 * (|a p| * |b p|) * |S| ≤ 2 * (|a p| * |b p|) * (Real.sqrt A * Real.sqrt B) :=
        mul_le_mul_of_nonneg_left h2 (by linarith)
      have h7 := sq_nonneg (Real.sqrt A * |b p| - Real.sqrt B * |a p|)
      have h8 : (Real.sqrt A * |b p| - Real.sqrt B * |a p|) ^ 2
          = A * b p ^ 2 + B * a p ^ 2 - 2 * (|a p| * |b p|) * (Real.sqrt A * Real.sqrt B) := by
        rw [sub_sq, mul_pow, mul_pow, h3, h4, sq_abs, sq_abs]; ring
      linarith
    nlinarith

/-- the density matrix as a sum over states -/
theorem densityMatrix_eq {g : Cfg} (hL : 1 ≤ g.L) {coll : Coll} (hw : ∀ p ∈ coll, WellFormed g p.2.comps) (label : List Char) :
    ∃ dm, densityMatrix g coll label = some dm ∧ ∀ i < g.size, ∀ j < g.size,
      dm i j = ((coll.filter (fun p => p.2.initial = label)).map
        (fun p => (p.2.cum : ℂ) * (star (vec g p.2.comps i) * vec g p.2.comps j))).sum := by
  have gen : ∀ (coll : Coll) (dm₀ : ℕ → ℕ → ℂ), (∀ p ∈ coll, WellFormed g p.2.comps) → ∃ dm, coll.foldlM (fun dm p =>
      if p.2.initial = label then
        (toVector g p.2.comps).map (fun x => fun i j => dm i j + (p.2.cum : ℂ) * (star (x i) * x j))
      else some dm) dm₀ = some dm ∧ ∀ i < g.size, ∀ j < g.size, dm i j = dm₀ i j +
      ((coll.filter (fun p => p.2.initial = label)).map
        (fun p => (p.2.cum : ℂ) * (star (vec g p.2.comps i) * vec g p.2.comps j))).sum := by
    intro coll
    induction coll with
    | nil => intro dm₀ _; exact ⟨dm₀, rfl, by simp⟩
    | cons p coll ih =>
      intro dm₀ hw
      rw [List.foldlM_cons]
      by_cases hp : p.2.initial = label
      · obtain ⟨x, hx, hxv⟩ := toVector_spec hL (hw p (by simp))
        rw [if_pos hp, hx]
        obtain ⟨dm, h1, h2⟩ := ih (fun i j => dm₀ i j + (p.2.cum : ℂ) * (star (x i) * x j)) (fun q hq => hw q (by simp [hq]))
        refine ⟨dm, h1, ?_⟩
        intro i hi j hj
        rw [h2 i hi j hj, hxv i hi, hxv j hj, List.filter_cons, if_pos (by simpa using hp), List.map_cons, List.sum_cons, add_assoc]
      · rw [if_neg hp]
        obtain ⟨dm, h1, h2⟩ := ih dm₀ (fun q hq => hw q (by simp [hq]))
        refine ⟨dm, h1, ?_⟩
        intro i hi j hj
        rw [h2 i hi j hj, List.filter_cons, if_neg (by simpa using hp)]
  obtain ⟨dm, h1, h2⟩ := gen coll (fun _ _ => 0) hw
  exact ⟨dm, h1, fun i hi j hj => by rw [h2 i hi j hj, zero_add]⟩

end Verif
