/-
Properties C04 and C05: the lookup caches.
-/
import Verif.Lemmas.Tables
import Mathlib.Tactic.FinCases

namespace Verif.Props
open Verif Spec Tables

/-- **C04** name -> photon numbers: after any history whatsoever the answer (including "raises") is that of a fresh
circuit, and so are the answers of the membership test and of `index_of`. -/
theorem C04_name_lookup_history_independent (g : Cfg) (hist : List Op) (s : Name) :
    (getName g (run g hist) s).2 = g.parse s ∧
    (containsName g (run g hist) s).2 = g.containsName s ∧
    (indexOfName g (run g hist) s).2 = g.indexOfName s := by
  have h := run_names_sound g hist
  have key : (getName g (run g hist) s).2 = g.parse s := by
    unfold getName
    split
    · rename_i v hv
      exact (h.hN _ (N_mem h.bN1) _ (Dict.get?_mem hv)).symm
    · split <;> simp_all
  refine ⟨key, ?_, ?_⟩
  · simp [containsName, key, Cfg.containsName]
  · simp [indexOfName, key, Cfg.indexOfName]

/-- **C04 (partial)** photon numbers -> name: after any history in which only full-width strings were looked up, the
name of a valid photon-number list is its standard name. Missing: histories with short strings, for which it is false
(`C04_values_lookup_fails`). -/
theorem C04_values_lookup_history_independent_partial (g : Cfg) (hist : List Op)
    (hh : ∀ o ∈ hist, FullWidthOp g o) (v : Vals) (hv : Valid g v) :
    ∃ s, (getVals g (run g hist) v).2 = some s ∧ IsName g v s := by
  have h := run_vals_sound g hist hh
  refine ⟨g.stdName v, ?_, isName_stdName g hv.2⟩
  unfold getVals
  split
  · rename_i s hs
    have := h.hV _ (V_mem h.bV2) _ (Dict.get?_mem hs)
    simp only at this
    rw [this]
  · rw [g.render_of_valid hv]

/-- For at most ten photon numbers per channel every string is full width, so the restriction disappears. -/
theorem C04_values_lookup_single_digit (g : Cfg) (hL : g.L ≤ 10) (hist : List Op) (v : Vals) (hv : Valid g v) :
    ∃ s, (getVals g (run g hist) v).2 = some s ∧ IsName g v s := by
  apply C04_values_lookup_history_independent_partial g hist _ v hv
  have hdig : g.digits = 1 := by
    unfold Cfg.digits pyStr
    rw [Nat.toDigits_of_lt_base (by omega)]; rfl
  intro o _
  cases o <;> simp [FullWidthOp, hdig]

example : ∀ o ∈ [Op.getName "1010".toList, .iterNames, .getVals [1, 2], .containsName "99".toList, .itemsVals],
    FullWidthOp ⟨11, 2, false⟩ o := by
  have h : Cfg.digits ⟨11, 2, false⟩ = 2 := rfl
  intro o ho
  fin_cases ho <;> simp only [FullWidthOp, h]
  · exact ⟨2, rfl⟩
  · exact ⟨1, rfl⟩

/-- **C04 fails** for photon numbers -> name: looking up the short string '011' makes the circuit answer '011' instead
of '0101' for (1,1). -/
theorem C04_values_lookup_fails :
    ∃ (g : Cfg) (hist : List Op) (v : Vals) (s : Name), g.Ok ∧ Valid g v ∧
      (getVals g (run g hist) v).2 = some s ∧ (getVals g (run g []) v).2 ≠ some s ∧ ¬ IsName g v s := by
  refine ⟨⟨11, 2, true⟩, [.containsName "011".toList], [1, 1], "011".toList, by decide, by decide, by rfl, ?_, ?_⟩
  · decide
  · intro hn
    exact absurd (isName_unique _ (by decide) hn) (by decide)

/-- **C05 (partial)** If the photon-number lists are enumerated at least once before every basis state has been looked
up (some valid `w` other than the vacuum was never looked up), then this enumeration and all later ones, of photon
numbers and of names, are in standard order, whatever standard names are looked up before and after.
Missing: histories that look up all basis states first (`C05_enumeration_order_fails`). -/
theorem C05_enumeration_order_partial (g : Cfg) (hg : g.Ok) (pre post : List Op) (w : Vals) (hw : Valid g w)
    (hz : w ≠ List.replicate g.C 0) (hpre : ∀ o ∈ pre, StandardOp g o) (hnot : ∀ o ∈ pre, ¬ LooksUp g w o)
    (hpost : ∀ o ∈ post, StandardOp g o) :
    let t := run g (pre ++ [.itemsVals, .itemsNames] ++ post)
    StandardOrder g (iterVals g t).2 ∧
    StandardOrder g ((itemsVals g t).2.map Prod.fst) ∧ (∀ p ∈ (itemsVals g t).2, IsName g p.1 p.2) ∧
    StandardOrder g ((itemsNames g t).2.map Prod.snd) ∧ (∀ p ∈ (itemsNames g t).2, IsName g p.2 p.1) := by
  intro t
  have h0 := PreInv.run hg hw hz pre hpre hnot
  have h1 := h0.iterVals hw
  have h2 := h1.1.iterNames hw
  have h3 : Full g (iterNames g (iterVals g (run g pre)).1).1 := by
    refine ⟨h2.2, ?_⟩
    have : (iterNames g (iterVals g (run g pre)).1).1.V (iterNames g (iterVals g (run g pre)).1).1.ovV
        = (iterVals g (run g pre)).1.V (iterVals g (run g pre)).1.ovV := by
      generalize (iterVals g (run g pre)).1 = t'
      unfold iterNames
      split <;> rfl
    rw [this, h1.2]
  have h4 : Full g t := by
    have : t = post.foldl (step g) (iterNames g (iterVals g (run g pre)).1).1 := by
      simp only [t, run, List.foldl_append]; rfl
    rw [this, h3.foldl post hpost]; exact h3
  have hiv : iterVals g t = (t, (t.V t.ovV).keys) := by
    rw [iterVals, if_pos (by rw [h4.2, length_stdV])]
  have hin : iterNames g t = (t, (t.V t.cnV).keys.map Sum.inr) := by
    rw [iterNames, if_pos (by rw [h4.1, length_rebuilt])]
  have hso : StandardOrder g (listOfFockStates g) := by
    refine ⟨fun v hv => mem_listOfFockStates.1 hv, ?_⟩
    rw [listOfFockStates, List.map_map]
    conv_rhs => rw [← List.map_id (List.range (g.L ^ g.C))]
    apply List.map_congr_left
    intro n hn
    exact g.indexOf_valuesFromIndex (List.mem_range.1 hn)
  have e1 : (itemsVals g t).2 = stdV g := by simp only [itemsVals, hiv]; exact h4.2
  have e2 : (itemsNames g t).2 = rebuilt g := by simp only [itemsNames, hin]; exact h4.1
  refine ⟨?_, ?_, ?_, ?_, ?_⟩
  · rw [hiv]; simp only [h4.2, keys_stdV]; exact hso
  · rw [e1]; have := keys_stdV g; rw [Dict.keys] at this; rw [this]; exact hso
  · rw [e1]
    intro p hp
    obtain ⟨v, hv, rfl⟩ := List.mem_map.1 hp
    exact isName_stdName g (mem_listOfFockStates.1 hv).2
  · rw [e2, rebuilt_eq, List.map_map]
    have : (Prod.snd ∘ fun v => (g.stdName v, v)) = id := rfl
    rw [this, List.map_id]; exact hso
  · rw [e2, rebuilt_eq]
    intro p hp
    obtain ⟨v, hv, rfl⟩ := List.mem_map.1 hp
    exact isName_stdName g (mem_listOfFockStates.1 hv).2

example : Cfg.Ok ⟨2, 2, true⟩ ∧ Valid ⟨2, 2, true⟩ [1, 1] ∧ ([1, 1] : Vals) ≠ List.replicate 2 0 ∧
    (∀ o ∈ [Op.getVals [0, 1], .iterVals], StandardOp ⟨2, 2, true⟩ o) ∧
    (∀ o ∈ [Op.getVals [0, 1], .iterVals], ¬ LooksUp ⟨2, 2, true⟩ [1, 1] o) := by
  refine ⟨by decide, by decide, by decide, ?_, ?_⟩
  · intro o ho
    fin_cases ho
    · show Valid _ _; decide
    · trivial
  · intro o ho
    fin_cases ho
    · show ¬ (_ = _); decide
    · exact id

/-- **C05 fails** in general: if the four basis states of a 2-channel circuit are looked up in the order
'00','01','10','11' before the first enumeration, the enumeration is not in standard order
(index 1 and index 2 are exchanged). -/
theorem C05_enumeration_order_fails :
    ∃ (g : Cfg) (hist : List Op), g.Ok ∧ (∀ o ∈ hist, StandardOp g o) ∧
      ¬ StandardOrder g ((itemsVals g (run g hist)).2.map Prod.fst) := by
  refine ⟨⟨2, 2, true⟩, [.getVals [0, 1], .getVals [1, 0], .getVals [1, 1]], by decide, ?_, ?_⟩
  · intro o ho
    fin_cases ho <;> (show Valid _ _; decide)
  · rintro ⟨-, h⟩
    exact absurd h (by decide)

/-- **C05 fails** for direct iteration over the names: the second `for name in names` does not yield the names. -/
theorem C05_second_iteration_fails :
    ∃ g : Cfg, g.Ok ∧ (iterNames g (run g [])).2 = (["00", "10", "01", "11"].map (fun s => Sum.inl s.toList)) ∧
      (iterNames g (run g [.iterNames])).2 = [Sum.inr [0, 0]] :=
  ⟨⟨2, 2, true⟩, by decide, by decide, by decide⟩

end Verif.Props
