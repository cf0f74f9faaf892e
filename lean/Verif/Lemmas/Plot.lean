/- Helper lemmas about histograms. -/
import Verif.Model.Plot
import Verif.Spec.Plot
import Verif.Lemmas.Names
import Verif.Lemmas.Dict
import Mathlib.Tactic.Ring
import Mathlib.Tactic.Linarith
import Mathlib.Data.List.Induction

namespace Verif
open Spec

/-- height of the bars with a label -/
noncomputable def height (l : List (Name × ℝ)) (o : Name) : ℝ := ((l.filter (fun b => decide (b.1 = o))).map Prod.snd).sum

theorem height_nil (o : Name) : height [] o = 0 := rfl

theorem height_cons (b : Name × ℝ) (l : List (Name × ℝ)) (o : Name) :
    height (b :: l) o = (if b.1 = o then b.2 else 0) + height l o := by
  unfold height
  by_cases h : b.1 = o <;> simp [List.filter_cons, h]

theorem height_addBar (o : Name) (p : ℝ) (l : List (Name × ℝ)) (o' : Name) :
    height (addBar o p l) o' = height l o' + if o = o' then p else 0 := by
  induction l with
  | nil => simp [addBar, height_cons, height_nil]
  | cons b l ih =>
    obtain ⟨n, q⟩ := b
    unfold addBar
    by_cases h : o = n
    · subst h
      rw [if_pos rfl, height_cons, height_cons]
      by_cases h2 : o = o' <;> simp [h2]; ring
    · rw [if_neg h, height_cons, height_cons, ih]; ring

theorem sum_addBar (o : Name) (p : ℝ) (l : List (Name × ℝ)) :
    ((addBar o p l).map Prod.snd).sum = (l.map Prod.snd).sum + p := by
  induction l with
  | nil => simp [addBar]
  | cons b l ih =>
    obtain ⟨n, q⟩ := b
    unfold addBar
    by_cases h : o = n
    · rw [if_pos h]; simp; ring
    · rw [if_neg h]; simp [ih]; ring

theorem names_addBar (o : Name) (p : ℝ) (l : List (Name × ℝ)) :
    (addBar o p l).map Prod.fst = if o ∈ l.map Prod.fst then l.map Prod.fst else l.map Prod.fst ++ [o] := by
  induction l with
  | nil => simp [addBar]
  | cons b l ih =>
    obtain ⟨n, q⟩ := b
    unfold addBar
    by_cases h : o = n
    · rw [if_pos h]; simp [h]
    · rw [if_neg h]
      simp only [List.map_cons, ih, List.mem_cons, h, false_or]
      by_cases h2 : o ∈ l.map Prod.fst
      · rw [if_pos h2, if_pos h2]
      · rw [if_neg h2, if_neg h2]; rfl

theorem height_of_mem {l : List (Name × ℝ)} (hn : (l.map Prod.fst).Nodup) {o : Name} {h : ℝ} (hm : (o, h) ∈ l) :
    height l o = h := by
  induction l with
  | nil => cases hm
  | cons b l ih =>
    rw [List.map_cons, List.nodup_cons] at hn
    rw [height_cons]
    have hz : ∀ {l : List (Name × ℝ)}, o ∉ l.map Prod.fst → height l o = 0 := by
      intro l hl
      unfold height
      rw [List.filter_eq_nil_iff.2]
      · rfl
      · intro b hb hd
        exact hl (List.mem_map.2 ⟨b, hb, of_decide_eq_true hd⟩)
    rcases List.mem_cons.1 hm with rfl | hm
    · rw [if_pos rfl, hz hn.1]; simp
    · have : b.1 ≠ o := fun h0 => hn.1 (h0 ▸ List.mem_map.2 ⟨_, hm, rfl⟩)
      rw [if_neg this, ih hn.2 hm]; simp

/-- the bars of one initial state -/
noncomputable def barsOf (items : List (List Char × Name × ℝ)) (k : List Char) : List (Name × ℝ) :=
  (items.filter (fun it => decide (it.1 = k))).foldl (fun l it => addBar it.2.1 it.2.2 l) []

theorem barsOf_append (items : List (List Char × Name × ℝ)) (it : List Char × Name × ℝ) (k : List Char) :
    barsOf (items ++ [it]) k = if it.1 = k then addBar it.2.1 it.2.2 (barsOf items k) else barsOf items k := by
  unfold barsOf
  by_cases h : it.1 = k <;> simp [List.filter_append, List.filter_cons, h]

theorem barsOf_spec (items : List (List Char × Name × ℝ)) (k : List Char) :
    ((barsOf items k).map Prod.fst).Nodup ∧
    (∀ o, o ∈ (barsOf items k).map Prod.fst ↔ ∃ p, (k, o, p) ∈ items) ∧
    (∀ o, height (barsOf items k) o = ((items.filter (fun it => decide (it.1 = k ∧ it.2.1 = o))).map (fun it => it.2.2)).sum) ∧
    ((barsOf items k).map Prod.snd).sum = ((items.filter (fun it => decide (it.1 = k))).map (fun it => it.2.2)).sum := by
  induction items using List.reverseRecOn with
  | nil => refine ⟨by simp [barsOf], by simp [barsOf], by simp [barsOf, height_nil], by simp [barsOf]⟩
  | append_singleton items it ih =>
    obtain ⟨h1, h2, h3, h4⟩ := ih
    obtain ⟨k', o', p'⟩ := it
    rw [barsOf_append]
    by_cases h : k' = k
    · subst h
      simp only [if_pos]
      refine ⟨?_, ?_, ?_, ?_⟩
      · rw [names_addBar]
        split
        · exact h1
        · rename_i hm
          exact List.nodup_append.2 ⟨h1, by simp, by
            intro a ha b hb hab
            rw [List.mem_singleton] at hb
            exact hm (hb ▸ hab ▸ ha)⟩
      · intro o
        rw [names_addBar]
        have hr : (∃ p, (k', o, p) ∈ items ++ [(k', o', p')]) ↔ (∃ p, (k', o, p) ∈ items) ∨ o = o' := by
          simp only [List.mem_append, List.mem_singleton, Prod.mk.injEq, true_and]
          constructor
          · rintro ⟨p, h | ⟨h, _⟩⟩
            · exact Or.inl ⟨p, h⟩
            · exact Or.inr h
          · rintro (⟨p, h⟩ | h)
            · exact ⟨p, Or.inl h⟩
            · exact ⟨p', Or.inr ⟨h, rfl⟩⟩
        rw [hr, ← h2 o]
        by_cases hm : o' ∈ (barsOf items k').map Prod.fst
        · rw [if_pos hm]
          constructor
          · exact Or.inl
          · rintro (h | rfl)
            · exact h
            · exact hm
        · rw [if_neg hm]; simp only [List.mem_append, List.mem_singleton]
      · intro o
        rw [height_addBar, h3, List.filter_append]
        by_cases ho : o' = o <;> simp [List.filter_cons, ho]
      · rw [sum_addBar, h4, List.filter_append]
        simp [List.filter_cons]
    · simp only [if_neg h]
      refine ⟨h1, ?_, ?_, ?_⟩
      · intro o
        rw [h2]
        simp [Ne.symm h]
      · intro o; rw [h3, List.filter_append]; simp [List.filter_cons, h]
      · rw [h4, List.filter_append]; simp [List.filter_cons, h]

theorem collectBars_append (items : List (List Char × Name × ℝ)) (it : List Char × Name × ℝ) :
    collectBars (items ++ [it]) = (collectBars items).set it.1 (addBar it.2.1 it.2.2 (((collectBars items).get? it.1).getD [])) := by
  unfold collectBars; rw [List.foldl_append]; rfl

theorem collectBars_spec (items : List (List Char × Name × ℝ)) :
    (collectBars items).keys.Nodup ∧
    ∀ k, (collectBars items).get? k = if k ∈ items.map Prod.fst then some (barsOf items k) else none := by
  induction items using List.reverseRecOn with
  | nil => exact ⟨by simp [collectBars, Dict.keys], by simp [collectBars, Dict.get?_nil]⟩
  | append_singleton items it ih =>
    obtain ⟨h1, h2⟩ := ih
    rw [collectBars_append]
    refine ⟨Dict.nodup_keys_set h1 _ _, fun k => ?_⟩
    rw [Dict.get?_set, barsOf_append, h2]
    have hb : ∀ k, k ∉ items.map Prod.fst → barsOf items k = [] := by
      intro k hk
      unfold barsOf
      rw [List.filter_eq_nil_iff.2]
      · rfl
      · intro b hb hd
        exact hk (List.mem_map.2 ⟨b, hb, of_decide_eq_true hd⟩)
    by_cases hk : it.1 = k
    · subst hk
      by_cases hm : it.1 ∈ items.map Prod.fst
      · simp [hm]
      · simp [hm, hb _ hm]
    · have hk' : ¬ k = it.1 := fun h => hk h.symm
      rw [h2]
      have hmm : (k ∈ (items ++ [it]).map Prod.fst) = (k ∈ items.map Prod.fst) := by
        rw [List.map_append, List.mem_append]; simp [hk']
      simp only [hk, hk', if_false, hmm]

theorem mem_allOutcomes_aux (bars : List (Name × ℝ)) (os : List Name) (o : Name) :
    (o ∈ bars.foldl (fun (os : List Name) b => if b.1 ∈ os then os else os ++ [b.1]) os ↔ o ∈ os ∨ o ∈ bars.map Prod.fst) ∧
    (os.Nodup → (bars.foldl (fun (os : List Name) b => if b.1 ∈ os then os else os ++ [b.1]) os).Nodup) := by
  induction bars generalizing os with
  | nil => simp
  | cons b bars ih =>
    rw [List.foldl_cons]
    by_cases h : b.1 ∈ os
    · rw [if_pos h]
      refine ⟨(ih os).1.trans ?_, (ih os).2⟩
      simp only [List.map_cons, List.mem_cons]
      constructor
      · rintro (h | h)
        · exact Or.inl h
        · exact Or.inr (Or.inr h)
      · rintro (h' | h' | h')
        · exact Or.inl h'
        · exact Or.inl (h' ▸ h)
        · exact Or.inr h'
    · rw [if_neg h]
      refine ⟨(ih _).1.trans ?_, fun hn => (ih _).2 ?_⟩
      · simp only [List.map_cons, List.mem_cons, List.mem_append, List.mem_singleton, List.not_mem_nil, or_false]; tauto
      · exact List.nodup_append.2 ⟨hn, by simp, by
            intro a ha b' hb hab
            rw [List.mem_singleton] at hb
            exact h (hb ▸ hab ▸ ha)⟩

theorem mem_allOutcomes_aux2 (d : Dict (List Char) (List (Name × ℝ))) (os : List Name) (o : Name) :
    (o ∈ d.foldl (fun os kb => kb.2.foldl (fun (os : List Name) b => if b.1 ∈ os then os else os ++ [b.1]) os) os ↔
      o ∈ os ∨ ∃ kb ∈ d, o ∈ kb.2.map Prod.fst) ∧
    (os.Nodup → (d.foldl (fun os kb => kb.2.foldl (fun (os : List Name) b => if b.1 ∈ os then os else os ++ [b.1]) os) os).Nodup) := by
  induction d generalizing os with
  | nil => simp
  | cons kb d ih =>
    rw [List.foldl_cons]
    have ha := mem_allOutcomes_aux kb.2 os o
    refine ⟨(ih _).1.trans ?_, fun hn => (ih _).2 (ha.2 hn)⟩
    rw [ha.1]
    simp only [List.mem_cons, exists_eq_or_imp]
    tauto

theorem mem_allOutcomes (d : Dict (List Char) (List (Name × ℝ))) (o : Name) :
    o ∈ allOutcomes d ↔ ∃ kb ∈ d, o ∈ kb.2.map Prod.fst := by
  have := (mem_allOutcomes_aux2 d [] o).1
  simpa [allOutcomes] using this

theorem nodup_allOutcomes (d : Dict (List Char) (List (Name × ℝ))) : (allOutcomes d).Nodup :=
  (mem_allOutcomes_aux2 d [] []).2 List.nodup_nil

/-- padded bars -/
def padBars (outs : List Name) (bars : List (Name × ℝ)) : List (Name × ℝ) :=
  bars ++ (outs.filter (fun o => !decide (o ∈ bars.map Prod.fst))).map (fun o => (o, 0))

theorem padBars_names (outs : List Name) (bars : List (Name × ℝ)) :
    (padBars outs bars).map Prod.fst = bars.map Prod.fst ++ outs.filter (fun o => !decide (o ∈ bars.map Prod.fst)) := by
  unfold padBars
  rw [List.map_append, List.map_map]
  congr 1
  exact List.map_id _

theorem padBars_nodup {outs : List Name} {bars : List (Name × ℝ)} (h1 : outs.Nodup) (h2 : (bars.map Prod.fst).Nodup) :
    ((padBars outs bars).map Prod.fst).Nodup := by
  rw [padBars_names]
  refine List.nodup_append.2 ⟨h2, h1.filter _, ?_⟩
  intro a ha b hb hab
  rw [List.mem_filter] at hb
  simp [hab ▸ ha] at hb

theorem padBars_height (outs : List Name) (bars : List (Name × ℝ)) (o : Name) : height (padBars outs bars) o = height bars o := by
  unfold padBars height
  rw [List.filter_append, List.map_append, List.sum_append]
  have : ∀ l : List Name, (((l.map (fun o => ((o, 0) : Name × ℝ))).filter (fun b => decide (b.1 = o))).map Prod.snd).sum = 0 := by
    intro l
    induction l with
    | nil => rfl
    | cons a l ih =>
      rw [List.map_cons, List.filter_cons]
      split <;> simp [ih]
  rw [this]; simp

theorem padBars_sum (outs : List Name) (bars : List (Name × ℝ)) :
    ((padBars outs bars).map Prod.snd).sum = (bars.map Prod.snd).sum := by
  unfold padBars
  rw [List.map_append, List.sum_append, List.map_map]
  have : ∀ l : List Name, (l.map (Prod.snd ∘ (fun o => ((o, 0) : Name × ℝ)))).sum = 0 := by
    intro l; induction l <;> simp_all
  rw [this]; simp

end Verif
