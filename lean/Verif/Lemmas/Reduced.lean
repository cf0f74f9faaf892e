/- Photon-number-reduced matrices. -/
import Verif.Lemmas.FockFull
import Verif.Lemmas.TensorList
import Mathlib.Analysis.Complex.Norm
import Mathlib.Data.Complex.BigOperators

namespace Verif
open Spec

/-- `A` is `B` restricted to the rows and columns `keep` -/
def Restricts (keep : List ℕ) (A B : SqArr) : Prop :=
  A.size = keep.length ∧ ∀ a b (ha : a < keep.length) (hb : b < keep.length), A.at_ a b = B.at_ keep[a] keep[b]

/-- `B` does not lead out of `keep` -/
def Stays (keep : List ℕ) (B : SqArr) : Prop := ∀ i < B.size, i ∉ keep → ∀ k ∈ keep, B.at_ i k = 0

theorem sum_keep {s : ℕ} {keep : List ℕ} (hn : keep.Nodup) (hk : ∀ k ∈ keep, k < s) (f : ℕ → ℂ)
    (hf : ∀ i < s, i ∉ keep → f i = 0) :
    ∑ i ∈ Finset.range s, f i = ∑ a ∈ Finset.range keep.length, f (keep.getD a 0) := by
  have h1 : ∑ a ∈ Finset.range keep.length, f (keep.getD a 0) = (keep.map f).sum := by
    clear hn hk hf
    induction keep with
    | nil => simp
    | cons x keep ih =>
      rw [List.length_cons, Finset.sum_range_succ', List.map_cons, List.sum_cons, ← ih, add_comm]
      simp
  rw [h1, ← List.sum_toFinset f hn]
  symm
  apply Finset.sum_subset
  · intro k h; exact Finset.mem_range.2 (hk k (List.mem_toFinset.1 h))
  · intro i hi hni
    exact hf i (Finset.mem_range.1 hi) (fun h => hni (List.mem_toFinset.2 h))

theorem restricts_mul {keep : List ℕ} {A₁ A₂ B₁ B₂ : SqArr} (hn : keep.Nodup) (hk : ∀ k ∈ keep, k < B₂.size)
    (h1 : Restricts keep A₁ B₁) (h2 : Restricts keep A₂ B₂) (hs : B₁.size = B₂.size) (hst : Stays keep B₁) :
    Restricts keep (A₂.mul A₁) (B₂.mul B₁) := by
  refine ⟨h2.1, ?_⟩
  intro a b ha hb
  simp only [SqArr.mul]
  rw [sum_keep hn hk _ (fun i hi hni => by rw [hst i (hs ▸ hi) hni _ (List.getElem_mem hb), mul_zero]), h2.1]
  refine Finset.sum_congr rfl fun c hc => ?_
  have hc' := Finset.mem_range.1 hc
  rw [List.getD_eq_getElem _ _ hc', h2.2 a c ha hc', h1.2 c b hc' hb]

theorem stays_mul {keep : List ℕ} {B₁ B₂ : SqArr} (hs : B₁.size = B₂.size) (h1 : Stays keep B₁) (h2 : Stays keep B₂) :
    Stays keep (B₂.mul B₁) := by
  intro i hi hni k hk
  simp only [SqArr.mul]
  refine Finset.sum_eq_zero fun j hj => ?_
  by_cases hjk : j ∈ keep
  · rw [h2 i hi hni j hjk, zero_mul]
  · rw [h1 j (hs ▸ Finset.mem_range.1 hj) hjk k hk, mul_zero]

theorem foldl_update_zipIdx (keep : List ℕ) (hn : keep.Nodup) (out : ℕ → ℂ) (n : ℕ) (acc : ℕ → ℂ) (i : ℕ) :
    (i ∉ keep → (keep.zipIdx n).foldl (fun acc p => Function.update acc p.1 (out p.2)) acc i = acc i) ∧
    ∀ a (ha : a < keep.length), keep[a] = i →
      (keep.zipIdx n).foldl (fun acc p => Function.update acc p.1 (out p.2)) acc i = out (n + a) := by
  induction keep generalizing n acc with
  | nil => exact ⟨fun _ => rfl, by intro a ha; simp at ha⟩
  | cons x keep ih =>
    rw [List.nodup_cons] at hn
    have ih' := ih hn.2 (n + 1) (Function.update acc x (out n))
    rw [List.zipIdx_cons, List.foldl_cons]
    constructor
    · intro h
      simp only [List.mem_cons, not_or] at h
      rw [ih'.1 h.2, Function.update_of_ne h.1]
    · intro a ha hx
      rcases a with _ | a
      · simp only [List.getElem_cons_zero] at hx
        subst hx
        rw [ih'.1 hn.1, Function.update_self, Nat.add_zero]
      · simp only [List.getElem_cons_succ] at hx
        rw [ih'.2 a (by simpa using ha) hx]
        congr 1; omega

theorem applyReduced_of_not_mem {F : SqArr × List ℕ} (hn : F.2.Nodup) (x : ℕ → ℂ) {i : ℕ} (h : i ∉ F.2) :
    applyReduced F x i = 0 :=
  (foldl_update_zipIdx F.2 hn _ 0 _ i).1 h

theorem applyReduced_of_mem {F : SqArr × List ℕ} (hn : F.2.Nodup) (x : ℕ → ℂ) {a : ℕ} (ha : a < F.2.length) :
    applyReduced F x F.2[a] = ∑ b ∈ Finset.range F.1.size, F.1.at_ a b * x (F.2.getD b 0) := by
  have := (foldl_update_zipIdx F.2 hn (F.1.mulVec (fun a => x (F.2.getD a 0))) 0 (fun _ => 0) F.2[a]).2 a ha rfl
  rw [Nat.zero_add] at this
  exact this

theorem applyReduced_eq {keep : List ℕ} {A B : SqArr} (hn : keep.Nodup) (hk : ∀ k ∈ keep, k < B.size)
    (h : Restricts keep A B) (hst : Stays keep B) (x : ℕ → ℂ) (hx : ∀ i < B.size, i ∉ keep → x i = 0) {i : ℕ}
    (hi : i < B.size) : applyReduced (A, keep) x i = B.mulVec x i := by
  simp only [SqArr.mulVec]
  by_cases hik : i ∈ keep
  · obtain ⟨a, ha, rfl⟩ := List.getElem_of_mem hik
    rw [applyReduced_of_mem (F := (A, keep)) hn x ha,
      sum_keep hn hk _ (fun j hj hnj => by rw [hx j hj hnj, mul_zero])]
    simp only [h.1]
    refine Finset.sum_congr rfl fun b hb => ?_
    have hb' := Finset.mem_range.1 hb
    rw [h.2 a b ha hb', List.getD_eq_getElem _ _ hb']
  · rw [applyReduced_of_not_mem (F := (A, keep)) hn x hik]
    symm
    refine Finset.sum_eq_zero fun j hj => ?_
    by_cases hjk : j ∈ keep
    · rw [hst i hi hik j hjk, zero_mul]
    · rw [hx j (Finset.mem_range.1 hj) hjk, mul_zero]

/-! ### the selections -/

theorem filter_standardKeys_index {g : Cfg} (P : Vals → Bool) :
    ((standardKeys g).filter P).map g.indexOf = (List.range g.size).filter (fun i => P (g.valuesFromIndex i)) := by
  unfold standardKeys
  rw [List.filter_map, List.map_map]
  have : ∀ l : List ℕ, (∀ i ∈ l, i < g.size) →
      (l.filter (P ∘ g.valuesFromIndex)).map (g.indexOf ∘ g.valuesFromIndex) = l.filter (fun i => P (g.valuesFromIndex i)) := by
    intro l hl
    have h : ∀ i ∈ l.filter (P ∘ g.valuesFromIndex), (g.indexOf ∘ g.valuesFromIndex) i = id i := by
      intro i hi
      exact g.indexOf_valuesFromIndex (hl i (List.mem_filter.1 hi).1)
    rw [List.map_congr_left h, List.map_id]; rfl
  exact this _ (fun i hi => List.mem_range.1 hi)

/-- photon numbers allowed by a selection -/
def Sel.ok : Sel → ℕ → Prop
  | .all, _ => True
  | .eq n, k => k = n
  | .le n, k => k ≤ n

theorem mem_indicesToKeep {g : Cfg} {sel : Sel} {i : ℕ} :
    i ∈ indicesToKeep g (standardKeys g) sel ↔ i < g.size ∧ sel.ok (g.valuesFromIndex i).sum := by
  cases sel <;> simp [indicesToKeep, Sel.ok, filter_standardKeys_index]

theorem nodup_indicesToKeep (g : Cfg) (sel : Sel) : (indicesToKeep g (standardKeys g) sel).Nodup := by
  cases sel with
  | all => exact List.nodup_range
  | eq n => 
    simp only [indicesToKeep]
    rw [filter_standardKeys_index]; exact List.nodup_range.filter _
  | le n =>
    simp only [indicesToKeep]
    rw [filter_standardKeys_index]; exact List.nodup_range.filter _

theorem fockNode_restricts (g : Cfg) (M : Opt) (tl : List ℕ) (sel : Sel) :
    Restricts (indicesToKeep g (standardKeys g) sel) (fockNode g (standardKeys g) M tl sel).1
      (fockNode g (standardKeys g) M tl .all).1 := by
  refine ⟨rfl, ?_⟩
  intro a b ha hb
  have hlt : ∀ a (ha : a < (indicesToKeep g (standardKeys g) sel).length),
      (indicesToKeep g (standardKeys g) sel)[a] < g.size := fun a ha => (mem_indicesToKeep.1 (List.getElem_mem ha)).1
  have key : ∀ a (ha : a < (indicesToKeep g (standardKeys g) sel).length),
      ((indicesToKeep g (standardKeys g) sel).map (fun i => (newOrder g (standardKeys g) tl).getD i 0)).getD a 0
        = sig g tl (indicesToKeep g (standardKeys g) sel)[a] := by
    intro a ha
    rw [List.getD_eq_getElem _ _ (by simpa using ha), List.getElem_map]
    exact newOrder_getD (hlt a ha)
  rw [fockNode_all_at (hlt a ha) (hlt b hb)]
  show (scaleUp g (fock2 g.L M)).at_ _ _ = _
  rw [key a ha, key b hb]

theorem gateAmp_conserves {L : ℕ} {M : Opt} {n m u v : ℕ} (h : gateAmp L M n m u v ≠ 0) : n + m = u + v := by
  unfold gateAmp bosonAmp at h
  split at h
  · by_contra hc
    rw [if_neg hc] at h
    exact h rfl
  · by_contra hc
    rw [if_neg (by omega)] at h
    exact h rfl

theorem sum_eq_range_getD (l : List ℕ) : l.sum = ∑ i ∈ Finset.range l.length, l.getD i 0 := by
  induction l with
  | nil => simp
  | cons a l ih =>
    rw [List.sum_cons, List.length_cons, Finset.sum_range_succ', ih]
    simp [add_comm]

theorem sum_eq_of_agree {C : ℕ} {v w : Vals} {h c : ℕ} (lv : v.length = C) (lw : w.length = C) (hh : h < C) (hc : c < C)
    (hne : h ≠ c) (ha : ∀ i < C, i ≠ h → i ≠ c → v.getD i 0 = w.getD i 0)
    (hs : v.getD h 0 + v.getD c 0 = w.getD h 0 + w.getD c 0) : v.sum = w.sum := by
  have key : ∀ (l : List ℕ), l.length = C → l.sum = ∑ i ∈ Finset.range C, l.getD i 0 := by
    intro l hl
    rw [← hl]; exact sum_eq_range_getD l
  rw [key v lv, key w lw]
  have split : ∀ f : ℕ → ℕ, ∑ i ∈ Finset.range C, f i = f h + (f c + ∑ i ∈ ((Finset.range C).erase h).erase c, f i) := by
    intro f
    rw [← Finset.add_sum_erase _ f (Finset.mem_range.2 hh)]
    congr 1
    rw [Finset.add_sum_erase _ f (Finset.mem_erase.2 ⟨hne.symm, Finset.mem_range.2 hc⟩)]
  rw [split, split]
  have : ∑ i ∈ ((Finset.range C).erase h).erase c, v.getD i 0 = ∑ i ∈ ((Finset.range C).erase h).erase c, w.getD i 0 := by
    refine Finset.sum_congr rfl fun i hi => ?_
    simp only [Finset.mem_erase, Finset.mem_range] at hi
    exact ha i hi.2.2 hi.2.1 hi.1
  omega

theorem ne_zero_of_ite {p : Prop} [Decidable p] {x : ℂ} (h : ¬ (if p then x else 0) = 0) : p ∧ x ≠ 0 := by
  by_cases hp : p
  · rw [if_pos hp] at h; exact ⟨hp, h⟩
  · rw [if_neg hp] at h; exact absurd rfl h

theorem perm_head {C : ℕ} (hC : 2 ≤ C) {tl : List ℕ} (hp : tl.Perm (List.range C)) :
    ∃ h c r, tl = h :: c :: r ∧ h < C ∧ c < C ∧ h ≠ c := by
  match tl, hp with
  | [], hp => have := hp.length_eq; simp at this; omega
  | [x], hp => have := hp.length_eq; simp at this; omega
  | h :: c :: r, hp =>
    have hm : ∀ i ∈ h :: c :: r, i < C := fun i hi => List.mem_range.1 (hp.mem_iff.1 hi)
    have hn : (h :: c :: r).Nodup := hp.nodup_iff.2 List.nodup_range
    refine ⟨h, c, r, rfl, hm h (by simp), hm c (by simp), ?_⟩
    rintro rfl
    simp at hn

/-- photon number conservation of the full matrix -/
theorem fockNode_conserves {g : Cfg} (hg : g.Ok) (M : Opt) {tl : List ℕ} (hp : tl.Perm (List.range g.C)) {v w : Vals}
    (hv : Valid g v) (hw : Valid g w) (hs : v.sum ≠ w.sum) :
    (fockNode g (standardKeys g) M tl .all).1.at_ (g.indexOf v) (g.indexOf w) = 0 := by
  obtain ⟨h, c, r, hr, hh, hc, hne⟩ := perm_head hg.2 hp
  rw [fockNode_entry hg M hp hr hv hw]
  by_contra hcon
  obtain ⟨ha, hne'⟩ := ne_zero_of_ite hcon
  exact hs (sum_eq_of_agree hv.1 hw.1 hh hc hne ha (gateAmp_conserves hne'))

theorem fockNode_stays {g : Cfg} (hg : g.Ok) (M : Opt) {tl : List ℕ} (hp : tl.Perm (List.range g.C)) (sel : Sel) :
    Stays (indicesToKeep g (standardKeys g) sel) (fockNode g (standardKeys g) M tl .all).1 := by
  intro i hi hni k hk
  rw [fockNode_all_size] at hi
  rw [mem_indicesToKeep] at hni hk
  have := fockNode_conserves hg M hp (g.valid_valuesFromIndex hg.1 i) (g.valid_valuesFromIndex hg.1 k) (by
    intro e
    exact hni ⟨hi, by rw [e]; exact hk.2⟩)
  rwa [g.indexOf_valuesFromIndex hi, g.indexOf_valuesFromIndex hk.1] at this

/-! ### lists of nodes -/

theorem fockNodes_nil (g : Cfg) (keys : List Vals) (sel : Sel) (n : Opt × List ℕ) :
    fockNodes g keys sel n [] = fockNode g keys n.1 n.2 sel := rfl

theorem fockNodes_concat (g : Cfg) (keys : List Vals) (sel : Sel) (n : Opt × List ℕ) (l : List (Opt × List ℕ))
    (m : Opt × List ℕ) : fockNodes g keys sel n (l ++ [m]) =
      ((fockNode g keys m.1 m.2 sel).1.mul (fockNodes g keys sel n l).1, (fockNode g keys m.1 m.2 sel).2) := by
  simp [fockNodes, List.foldl_append]

theorem fockNodes_spec {g : Cfg} (hg : g.Ok) (sel : Sel) (n : Opt × List ℕ) (l : List (Opt × List ℕ))
    (hn : n.2.Perm (List.range g.C)) (hl : ∀ m ∈ l, m.2.Perm (List.range g.C)) :
    (fockNodes g (standardKeys g) sel n l).2 = indicesToKeep g (standardKeys g) sel ∧
    (fockNodes g (standardKeys g) .all n l).1.size = g.size ∧
    Restricts (indicesToKeep g (standardKeys g) sel) (fockNodes g (standardKeys g) sel n l).1
      (fockNodes g (standardKeys g) .all n l).1 ∧
    Stays (indicesToKeep g (standardKeys g) sel) (fockNodes g (standardKeys g) .all n l).1 := by
  induction l using List.reverseRecOn with
  | nil =>
    exact ⟨rfl, fockNode_all_size _ _ _ _, fockNode_restricts _ _ _ _, fockNode_stays hg _ hn _⟩
  | append_singleton l m ih =>
    have hm := hl m (by simp)
    obtain ⟨i1, i2, i3, i4⟩ := ih (fun m hm => hl m (by simp [hm]))
    rw [fockNodes_concat, fockNodes_concat]
    have hsz : (fockNode g (standardKeys g) m.1 m.2 .all).1.size = g.size := fockNode_all_size _ _ _ _
    refine ⟨rfl, hsz, ?_, ?_⟩
    · refine restricts_mul (nodup_indicesToKeep _ _) ?_ i3 (fockNode_restricts _ _ _ _) (by rw [i2, hsz]) i4
      intro k hk
      rw [hsz]; exact (mem_indicesToKeep.1 hk).1
    · exact stays_mul (by rw [i2, hsz]) i4 (fockNode_stays hg _ hm _)

/-- reduced application = full matrix application, on vectors supported on the selection -/
theorem applyReduced_fockNodes {g : Cfg} (hg : g.Ok) (sel : Sel) (n : Opt × List ℕ) (l : List (Opt × List ℕ))
    (hn : n.2.Perm (List.range g.C)) (hl : ∀ m ∈ l, m.2.Perm (List.range g.C)) (x : ℕ → ℂ)
    (hx : ∀ i < g.size, ¬ sel.ok (g.valuesFromIndex i).sum → x i = 0) {i : ℕ} (hi : i < g.size) :
    applyReduced (fockNodes g (standardKeys g) sel n l) x i
      = (fockNodes g (standardKeys g) .all n l).1.mulVec x i := by
  obtain ⟨i1, i2, i3, i4⟩ := fockNodes_spec hg sel n l hn hl
  have e : fockNodes g (standardKeys g) sel n l
      = ((fockNodes g (standardKeys g) sel n l).1, indicesToKeep g (standardKeys g) sel) := by rw [← i1]
  rw [e]
  apply applyReduced_eq (nodup_indicesToKeep _ _) _ i3 i4 _ _ (by rw [i2]; exact hi)
  · intro k hk; rw [i2]; exact (mem_indicesToKeep.1 hk).1
  · intro j hj hnj
    rw [i2] at hj
    exact hx j hj (fun ho => hnj (mem_indicesToKeep.2 ⟨hj, ho⟩))

theorem mulVec_congr {A : SqArr} {x y : ℕ → ℂ} (h : ∀ i < A.size, x i = y i) (i : ℕ) : A.mulVec x i = A.mulVec y i := by
  simp only [SqArr.mulVec]
  exact Finset.sum_congr rfl fun k hk => by rw [h k (Finset.mem_range.1 hk)]

theorem mul_mulVec {A B : SqArr} (h : A.size = B.size) (x : ℕ → ℂ) (i : ℕ) :
    (A.mul B).mulVec x i = A.mulVec (B.mulVec x) i := by
  simp only [SqArr.mulVec, SqArr.mul, h]
  simp only [Finset.sum_mul, Finset.mul_sum]
  rw [Finset.sum_comm]
  simp only [mul_assoc]

/-- grouped application = sequential application -/
theorem fockNodes_sequential {g : Cfg} (keys : List Vals) (n : Opt × List ℕ) (l : List (Opt × List ℕ)) (x : ℕ → ℂ)
    (i : ℕ) : (fockNodes g keys .all n l).1.mulVec x i
      = (n :: l).foldl (fun y m => (fockNode g keys m.1 m.2 .all).1.mulVec y) x i := by
  induction l using List.reverseRecOn generalizing i with
  | nil => rfl
  | append_singleton l m ih =>
    rw [fockNodes_concat, ← List.cons_append, List.foldl_append, List.foldl_cons, List.foldl_nil]
    have hs : (fockNode g keys m.1 m.2 .all).1.size = (fockNodes g keys .all n l).1.size := by
      rw [fockNode_all_size]
      cases l using List.reverseRecOn with
      | nil => exact (fockNode_all_size _ _ _ _).symm
      | append_singleton l m' => rw [fockNodes_concat]; exact (fockNode_all_size g keys m'.1 m'.2).symm
    rw [mul_mulVec hs]
    exact mulVec_congr (fun j _ => ih j) i

/-- a unitary matrix preserves the sum of squared moduli -/
theorem unitary_mulVec_norm {A : SqArr} (h : IsUnitary A) (x : ℕ → ℂ) :
    ∑ i ∈ Finset.range A.size, ‖A.mulVec x i‖ ^ 2 = ∑ i ∈ Finset.range A.size, ‖x i‖ ^ 2 := by
  have h' := (Matrix.mem_unitaryGroup_iff').1 h
  have e : ∀ y : ℕ → ℂ, ((∑ i ∈ Finset.range A.size, ‖y i‖ ^ 2 : ℝ) : ℂ) =
      star (fun i : Fin A.size => y i) ⬝ᵥ (fun i : Fin A.size => y i) := by
    intro y
    rw [dotProduct, ← Fin.sum_univ_eq_sum_range (fun i => ‖y i‖ ^ 2), Complex.ofReal_sum]
    refine Finset.sum_congr rfl fun i _ => ?_
    rw [Pi.star_apply, ← Complex.normSq_eq_norm_sq, Complex.normSq_eq_conj_mul_self]
    rfl
  have e2 : (fun i : Fin A.size => A.mulVec x i) = (toMatrix A).mulVec (fun i : Fin A.size => x i) := by
    funext i
    simp only [SqArr.mulVec, Matrix.mulVec, dotProduct]
    rw [← Fin.sum_univ_eq_sum_range (fun k => A.at_ i k * x k)]
    rfl
  apply Complex.ofReal_injective
  rw [e, e, e2, Matrix.star_mulVec, Matrix.dotProduct_mulVec, Matrix.vecMul_vecMul, ← Matrix.star_eq_conjTranspose, h',
    Matrix.vecMul_one]

end Verif
