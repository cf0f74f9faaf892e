/-
Geometry of the bar charts.
-/
import Verif.Spec.Drawing
import Verif.Lemmas.Plot

namespace Verif
open Spec

theorem barAt_width {n x i : ℕ} {h : ℝ} {c : Option ℕ} (hn : 1 ≤ n) : (barAt n x i h c).width = 0.8 / n := by
  unfold barAt; simp only; rw [max_eq_left hn]

theorem barAt_near {n x i : ℕ} {h : ℝ} {c : Option ℕ} (hi : i < n) : |(barAt n x i h c).centre - x| ≤ 0.4 := by
  have hn : (0 : ℝ) < n := by exact_mod_cast (by omega : 0 < n)
  unfold barAt; simp only
  rw [max_eq_left (by omega : 1 ≤ n), add_sub_cancel_left, abs_mul, abs_of_pos (by positivity : (0 : ℝ) < 0.8 / n)]
  have h1 : |(i : ℝ) - ((n / 2 : ℕ) : ℝ)| ≤ n / 2 := by
    have a : ((n / 2 : ℕ) : ℝ) ≤ n / 2 := by have := Nat.div_mul_le_self n 2; have : (((n / 2 : ℕ) : ℝ)) * 2 ≤ n := by exact_mod_cast this
                                             linarith
    have b : (i : ℝ) ≤ (n / 2 : ℕ) + n / 2 := by
      have : 2 * i ≤ 2 * (n / 2) + n := by omega
      have : (2 : ℝ) * i ≤ 2 * ((n / 2 : ℕ) : ℝ) + n := by exact_mod_cast this
      linarith
    rw [abs_le]; constructor
    · have : (0 : ℝ) ≤ i := Nat.cast_nonneg i
      linarith
    · linarith
  calc _ ≤ (n / 2 : ℝ) * (0.8 / n) := mul_le_mul_of_nonneg_right h1 (by positivity)
    _ = 0.4 := by field_simp; norm_num

theorem barAt_apart {n x y i j : ℕ} {h k : ℝ} {c e : Option ℕ} (hi : i < n) (hj : j < n) (hne : x = y → i ≠ j) :
    KeepDistance (if x = y then 0 else 0.2) (barAt n x i h c) (barAt n y j k e) := by
  have hn : (0 : ℝ) < n := by exact_mod_cast (by omega : 0 < n)
  unfold KeepDistance
  rw [barAt_width (by omega), barAt_width (by omega)]
  unfold barAt; simp only
  rw [max_eq_left (by omega : 1 ≤ n)]
  have hw : (0 : ℝ) < 0.8 / n := by positivity
  have e1 : (x : ℝ) + ((i : ℝ) - ((n / 2 : ℕ) : ℝ)) * (0.8 / n) - (y + ((j : ℝ) - ((n / 2 : ℕ) : ℝ)) * (0.8 / n)) = ((x : ℝ) - y) + ((i : ℝ) - j) * (0.8 / n) := by ring
  rw [e1]
  by_cases hxy : x = y
  · rw [if_pos hxy, hxy, sub_self, zero_add, abs_mul, abs_of_pos hw]
    have : (1 : ℝ) ≤ |(i : ℝ) - j| := by
      have h1 : (1 : ℤ) ≤ |(i : ℤ) - j| := Int.one_le_abs (by have := hne hxy; omega)
      exact_mod_cast h1
    nlinarith
  · rw [if_neg hxy]
    have h1 : (1 : ℝ) ≤ |(x : ℝ) - y| := by
      have h1 : (1 : ℤ) ≤ |(x : ℤ) - y| := Int.one_le_abs (by omega)
      exact_mod_cast h1
    have h2 : |((i : ℝ) - j) * (0.8 / n)| ≤ 0.8 - 0.8 / n := by
      rw [abs_mul, abs_of_pos hw]
      have h3 : |(i : ℝ) - j| ≤ n - 1 := by
        have a : (i : ℝ) + 1 ≤ n := by exact_mod_cast hi
        have b : (j : ℝ) + 1 ≤ n := by exact_mod_cast hj
        have a' : (0 : ℝ) ≤ i := Nat.cast_nonneg i
        have b' : (0 : ℝ) ≤ j := Nat.cast_nonneg j
        rw [abs_le]; constructor <;> linarith
      calc _ ≤ ((n : ℝ) - 1) * (0.8 / n) := mul_le_mul_of_nonneg_right h3 hw.le
        _ = _ := by field_simp
    have h4 := abs_sub_abs_le_abs_sub ((x : ℝ) - y) (-(((i : ℝ) - j) * (0.8 / n)))
    rw [abs_neg, sub_neg_eq_add] at h4
    linarith

theorem zipIdx_idxOf {κ γ : Type} [DecidableEq κ] {R : List (κ × γ)} (hk : (R.map Prod.fst).Nodup) {r : (κ × γ) × ℕ} (hr : r ∈ R.zipIdx) : (R.map Prod.fst).idxOf r.1.1 = r.2 := by
  obtain ⟨a, n⟩ := r
  have h := List.mem_zipIdx_iff_getElem?.1 hr
  obtain ⟨hn, h2⟩ := List.getElem?_eq_some_iff.1 h
  have : (R.map Prod.fst)[n]'(by rw [List.length_map]; exact hn) = a.1 := by rw [List.getElem_map, h2]
  simp only
  rw [← this]
  exact hk.idxOf_getElem n _

/-- `drawFigure` for rows of indices, labels and heights -/
theorem drawFigure_shows {κ β : Type} [DecidableEq κ] (K : ℕ) (below : Bool) (labels : List β) (R : List (κ × List (ℕ × β × ℝ))) (hk : (R.map Prod.fst).Nodup)
    (hl : ∀ r ∈ R, ∀ t ∈ r.2, labels[t.1]? = some t.2.1) (hi : ∀ r ∈ R, (r.2.map Prod.fst).Nodup) :
    ShowsChart (R.map (fun r => (r.1, r.2.map (fun t => t.2)))) (drawFigure K below labels (R.map (fun r => (r.1, r.2.map (fun t => (t.1, t.2.2)))))) := by
  have hkeys : Dict.keys (R.map (fun r => (r.1, r.2.map (fun t => (t.1, t.2.2))))) = R.map Prod.fst := by
    unfold Dict.keys; rw [List.map_map]; rfl
  refine ⟨?_, ?_⟩
  · simp only [drawFigure, hkeys, List.map_map]; rfl
  · set T : List (ℕ × ℕ × β × ℝ) := R.zipIdx.flatMap (fun r => r.1.2.map (fun t => (r.2, t))) with hT
    have hmem : ∀ t ∈ T, labels[t.2.1]? = some t.2.2.1 := by
      intro t ht
      obtain ⟨r, hr, ht⟩ := List.mem_flatMap.1 ht
      obtain ⟨u, hu, rfl⟩ := List.mem_map.1 ht
      exact hl r.1 (List.fst_mem_of_mem_zipIdx hr) u hu
    have hlt : ∀ t ∈ T, t.2.1 < labels.length := fun t ht => (List.getElem?_eq_some_iff.1 (hmem t ht)).1
    have hpair : T.Pairwise (fun a b => a.1 = b.1 → a.2.1 ≠ b.2.1) := by
      rw [hT, List.pairwise_flatMap]
      refine ⟨fun r hr => ?_, ?_⟩
      · rw [List.pairwise_map]
        have := hi r.1 (List.fst_mem_of_mem_zipIdx hr)
        rw [List.Nodup, List.pairwise_map] at this
        exact this.imp (S := fun a b : ℕ × β × ℝ => (r.2, a).1 = (r.2, b).1 → (r.2, a).2.1 ≠ (r.2, b).2.1) (fun h _ => h)
      · have : (R.zipIdx.map Prod.snd).Nodup := by rw [List.zipIdx_map_snd]; exact List.nodup_range'
        rw [List.Nodup, List.pairwise_map] at this
        refine this.imp (fun {a b} h x hx y hy e => ?_)
        obtain ⟨_, _, rfl⟩ := List.mem_map.1 hx
        obtain ⟨_, _, rfl⟩ := List.mem_map.1 hy
        exact absurd e h
    have hsplit : ∃ grey : List PlotBar, (drawFigure K below labels (R.map (fun r => (r.1, r.2.map (fun t => (t.1, t.2.2)))))).bars =
        grey ++ (T.map (fun t => (t.1, t.2.2.1, barAt labels.length t.1 t.2.1 t.2.2.2 (some (t.2.1 % K))))).map (fun s => s.2.2) ∧ ∀ b ∈ grey, b.color = none := by
      refine ⟨_, congrArg₂ (· ++ ·) rfl ?_, ?_⟩
      · rw [List.map_map, hT, List.map_flatMap, hkeys, List.flatMap_map]
        have e : ∀ F : (κ × List (ℕ × β × ℝ)) → List PlotBar, R.flatMap F = R.zipIdx.flatMap (fun r => F r.1) := by
          intro F
          conv_lhs => rw [← List.zipIdx_map_fst 0 R, List.flatMap_map]
        rw [e, List.flatMap_def, List.flatMap_def]
        congr 1
        refine List.map_congr_left (fun r hr => ?_)
        rw [List.map_map, List.map_map]
        simp only
        rw [zipIdx_idxOf hk hr]
        rfl
      · intro b hb
        simp only [List.mem_flatMap, List.mem_append, List.mem_singleton] at hb
        obtain ⟨_, _, _, _, h | h⟩ := hb
        · rw [h]; rfl
        · split at h
          · rw [List.mem_singleton.1 h]; rfl
          · cases h
    obtain ⟨grey, hg1, hg2⟩ := hsplit
    refine ⟨grey, T.map (fun t => (t.1, t.2.2.1, barAt labels.length t.1 t.2.1 t.2.2.2 (some (t.2.1 % K)))), hg1, hg2, ?_, ?_, ?_⟩
    · rw [List.map_map, hT, List.map_flatMap]
      unfold chartEntries
      rw [List.zipIdx_map, List.flatMap_map]
      rw [List.flatMap_def, List.flatMap_def]
      congr 1
      refine List.map_congr_left (fun r hr => ?_)
      simp only [List.map_map, Prod.map]
      rfl
    · intro s hs
      obtain ⟨t, ht, rfl⟩ := List.mem_map.1 hs
      have hlt := hlt t ht
      have h1 := hmem t ht
      refine ⟨?_, barAt_near hlt, _, rfl, ?_⟩
      · simp only
        rw [barAt_width (by omega)]
        have : (0 : ℝ) < labels.length := by exact_mod_cast (by omega : 0 < labels.length)
        positivity
      · simp only [drawFigure, List.mem_map]
        exact ⟨(t.2.2.1, t.2.1), List.mem_zipIdx_iff_getElem?.2 h1, rfl⟩
    · rw [List.pairwise_map]
      exact hpair.imp_of_mem (fun {a b} ha hb h => barAt_apart (hlt a ha) (hlt b hb) h)

theorem drawFigure_legend {κ β : Type} [DecidableEq κ] (K : ℕ) (below : Bool) (labels : List β) (rows : Dict κ (List (ℕ × ℝ))) :
    (drawFigure K below labels rows).legend.map Prod.snd = labels ∧ (labels.length ≤ K → ClearLegend (drawFigure K below labels rows)) := by
  constructor
  · simp only [drawFigure, List.map_map]
    conv_rhs => rw [← List.zipIdx_map_fst 0 labels]
    rfl
  · intro h c o o' h1 h2
    simp only [drawFigure, List.mem_map] at h1 h2
    obtain ⟨⟨a, i⟩, ha, e⟩ := h1
    obtain ⟨⟨b, j⟩, hb, e'⟩ := h2
    have ha := List.mem_zipIdx_iff_getElem?.1 ha
    have hb := List.mem_zipIdx_iff_getElem?.1 hb
    simp only at ha hb
    have hi := (List.getElem?_eq_some_iff.1 ha).1
    have hj := (List.getElem?_eq_some_iff.1 hb).1
    simp only [Prod.mk.injEq] at e e'
    rw [Nat.mod_eq_of_lt (by omega)] at e e'
    have : i = j := e.1.trans e'.1.symm
    subst this
    rw [← e.2, ← e'.2]
    exact Option.some.inj (ha.symm.trans hb)

/-- with more labels than colours, the first label and the one after the last colour have the same colour -/
theorem drawFigure_ambiguous {κ β : Type} [DecidableEq κ] {K : ℕ} {below : Bool} {labels : List β} {rows : Dict κ (List (ℕ × ℝ))} (hn : labels.Nodup) (h0 : 0 < K) (hK : K < labels.length) :
    ¬ ClearLegend (drawFigure K below labels rows) := by
  intro h
  have a : labels[0]? = some (labels[0]'(by omega)) := List.getElem?_eq_getElem _
  have b : labels[K]? = some (labels[K]'hK) := List.getElem?_eq_getElem _
  have := h 0 (labels[0]'(by omega)) (labels[K]'hK)
    (by simp only [drawFigure, List.mem_map]; exact ⟨(_, 0), List.mem_zipIdx_iff_getElem?.2 a, by simp⟩)
    (by simp only [drawFigure, List.mem_map]; exact ⟨(_, K), List.mem_zipIdx_iff_getElem?.2 b, by simp⟩)
  have := (List.Nodup.getElem_inj_iff hn).1 this
  omega

end Verif
