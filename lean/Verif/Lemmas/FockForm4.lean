/-
Optical elements, delays and pulse widths keep the squared norm; the sum over the outcomes of a measurement. Lemmas for C104.
-/
import Verif.Lemmas.FockForm3
import Verif.Spec.Pipeline
import Verif.Lemmas.State
import Verif.Props.Creation

namespace Verif.Fockform
open MvPolynomial Spec

/-- Lossless optical elements keep the squared norm. -/
theorem sq_gate (κ : ℝ) {M : Opt} (hM : M ∈ Matrix.unitaryGroup (Fin 2) ℂ) {h c : ℕ} (hne : h ≠ c) (P : MvPolynomial Mode ℂ) : sq (ker κ) (gateSubst M h c P) = sq (ker κ) P := by
  have hU : ∀ i j, ∑ k, M i k * starRingEnd ℂ (M j k) = if i = j then 1 else 0 := by
    intro i j
    have := congrFun (congrFun (Matrix.mem_unitaryGroup_iff.1 hM) i) j
    rw [Matrix.mul_apply, Matrix.one_apply] at this
    rw [← this]
    rfl
  have h00 := hU 0 0
  have h01 := hU 0 1
  have h10 := hU 1 0
  have h11 := hU 1 1
  simp only [Fin.sum_univ_two, if_true, Fin.isValue, zero_ne_one, one_ne_zero, if_false] at h00 h01 h10 h11
  refine sq_linear (ι := Fin 2) (gateSubst M h c) (fun m i => if m.1 = h then M 0 i else if m.1 = c then M 1 i else if i = 0 then 1 else 0)
    (fun m i => if m.1 = h ∨ m.1 = c then (if i = 0 then (h, m.2) else (c, m.2)) else m) (fun m => ?_) (fun m m' => ?_) P
  · unfold gateSubst
    rw [aeval_X, Fin.sum_univ_two]
    by_cases e1 : m.1 = h
    · simp [e1]
    · by_cases e2 : m.1 = c
      · simp [e2, hne.symm]
      · simp [e1, e2]
  · obtain ⟨n, i⟩ := m
    obtain ⟨n', i'⟩ := m'
    have e1 : ∀ a b : ℕ, a ≠ b → ker κ (a, i) (b, i') = 0 := fun a b hab => ker_ne κ hab
    have e2 : ∀ a b : ℕ, ker κ (a, i) (a, i') = ker κ (b, i) (b, i') := by
      intro a b
      unfold ker gauss
      rw [if_pos rfl, if_pos rfl]
    simp only [Fin.sum_univ_two]
    by_cases a1 : n = h
    · by_cases b1 : n' = h
      · simp only [a1, b1, true_or, if_true, Fin.isValue, one_ne_zero, if_false, e1 h c hne, e1 c h hne.symm, e2 c h]
        linear_combination ker κ (h, i) (h, i') * h00
      · by_cases b2 : n' = c
        · simp only [a1, b2, hne.symm, true_or, or_true, if_true, Fin.isValue, one_ne_zero, if_false, e1 h c hne, e1 c h hne.symm, e2 c h]
          linear_combination ker κ (h, i) (h, i') * h10
        · simp only [a1, b1, b2, true_or, or_self, if_true, Fin.isValue, one_ne_zero, if_false, e1 h n' (Ne.symm b1), e1 c n' (Ne.symm b2)]
          ring
    · by_cases a2 : n = c
      · by_cases b1 : n' = h
        · simp only [a2, b1, hne.symm, true_or, or_true, if_true, Fin.isValue, one_ne_zero, if_false, e1 h c hne, e1 c h hne.symm, e2 c h]
          linear_combination ker κ (h, i) (h, i') * h01
        · by_cases b2 : n' = c
          · simp only [a2, b2, hne.symm, or_true, if_true, Fin.isValue, one_ne_zero, if_false, e1 h c hne, e1 c h hne.symm, e2 c h]
            linear_combination ker κ (h, i) (h, i') * h11
          · simp only [a2, b1, b2, hne.symm, or_true, or_self, if_true, Fin.isValue, one_ne_zero, if_false, e1 h n' (Ne.symm b1), e1 c n' (Ne.symm b2)]
            ring
      · by_cases b1 : n' = h
        · simp only [a1, a2, b1, true_or, or_self, if_true, Fin.isValue, one_ne_zero, if_false, e1 n h a1, e1 n c a2]
          simp
        · by_cases b2 : n' = c
          · simp only [a1, a2, b2, hne.symm, or_true, or_self, if_true, Fin.isValue, one_ne_zero, if_false, e1 n h a1, e1 n c a2]
            simp
          · simp [a1, a2, b1, b2]

theorem sq_optics (κ : ℝ) {gates : List Gate} (h : ∀ e ∈ gates, e.M ∈ Matrix.unitaryGroup (Fin 2) ℂ ∧ e.h ≠ e.c) (P : MvPolynomial Mode ℂ) : sq (ker κ) (opticsSubst gates P) = sq (ker κ) P := by
  unfold opticsSubst
  induction gates generalizing P with
  | nil => rfl
  | cons e gates ih =>
    rw [List.foldl_cons, ih (fun x hx => h x (List.mem_cons_of_mem _ hx)), sq_gate κ (h e List.mem_cons_self).1 (h e List.mem_cons_self).2]

theorem sq_rename {σ τ : Type} {K : σ → σ → ℂ} {K' : τ → τ → ℂ} (f : σ → τ) (h : ∀ m m', K' (f m) (f m') = K m m') (P : MvPolynomial σ ℂ) : sq K' (rename f P) = sq K P := by
  have : conj (rename f P) = rename f (conj P) := by
    unfold conj
    rw [map_rename]
  unfold sq
  rw [this, form_rename f h]

/-- Delays keep the squared norm. -/
theorem sq_delay (κ : ℝ) (chs : List ℕ) (t w : ℝ) (P : MvPolynomial Mode ℂ) : sq (ker κ) (rename (delayMode chs t w) P) = sq (ker κ) P := by
  refine sq_rename _ (fun m m' => ?_) P
  unfold ker gauss delayMode
  simp only [delayOf, Option.map_some, Option.getD_some]
  by_cases h : m.1 = m'.1
  · simp only [h, if_true, sub_sub_sub_cancel_right]
  · rw [if_neg h, if_neg h]

theorem sq_width (κ : ℝ) (chs : List ℕ) (w : ℝ) (P : MvPolynomial Mode ℂ) : sq (ker κ) (rename (widthMode chs w) P) = sq (ker κ) P := by
  refine sq_rename _ (fun m m' => ?_) P
  unfold ker gauss widthMode
  simp only [delayOf, Option.map_some, Option.getD_some]

/-- The elements of a circuit: optics lossless. -/
def LosslessElement : Element → Prop
  | .optics gates => ∀ e ∈ gates, e.M ∈ Matrix.unitaryGroup (Fin 2) ℂ ∧ e.h ≠ e.c
  | _ => True

theorem sq_circuit (κ : ℝ) (cl : List ℝ) {es : List Element} (h : ∀ e ∈ es, LosslessElement e) (P : MvPolynomial Mode ℂ) : sq (ker κ) (circuitSubst cl es P) = sq (ker κ) P := by
  unfold circuitSubst
  induction es generalizing P with
  | nil => rfl
  | cons e es ih =>
    rw [List.foldl_cons, ih (fun x hx => h x (List.mem_cons_of_mem _ hx))]
    have he := h e List.mem_cons_self
    cases e with
    | optics gates => exact sq_optics κ he P
    | delay chs d w => exact sq_delay κ _ _ _ P
    | width chs w => exact sq_width κ _ _ P

end Verif.Fockform
