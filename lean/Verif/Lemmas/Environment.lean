/-
Lemmas for C141: coupling channels to an empty environment.
-/
import Verif.Lemmas.Remote
import Verif.Props.Shift
import Verif.Spec.Environment

namespace Verif
open Spec Props

/-- the coupling matrices applied one after the other, the last pair first -/
noncomputable def coupled (g : Cfg) (σ : ℝ) (ps : List (ℕ × ℕ)) (x : ℕ → ℂ) : ℕ → ℂ :=
  ps.foldr (fun q y => (couplingOne g (standardKeys g) σ q.1 q.2).mulVec y) x

theorem mul_mulVec' {A B : SqArr} (h : A.size = B.size) (x : ℕ → ℂ) (i : ℕ) : (A.mul B).mulVec x i = A.mulVec (B.mulVec x) i := by
  simp only [SqArr.mulVec, SqArr.mul, ← h]
  simp only [Finset.mul_sum, Finset.sum_mul]
  rw [Finset.sum_comm]
  refine Finset.sum_congr rfl fun j _ => Finset.sum_congr rfl fun k _ => by ring

theorem mulVec_ext {A : SqArr} {x y : ℕ → ℂ} (h : ∀ k < A.size, x k = y k) (i : ℕ) : A.mulVec x i = A.mulVec y i := by
  simp only [SqArr.mulVec]
  exact Finset.sum_congr rfl fun k hk => by rw [h k (Finset.mem_range.1 hk)]

theorem coupling_mulVec {g : Cfg} (σ : ℝ) : ∀ (ps : List (ℕ × ℕ)) (M : SqArr) (x : ℕ → ℂ), M.size = g.size → ∀ i,
    (ps.foldl (fun M q => M.mul (couplingOne g (standardKeys g) σ q.1 q.2)) M).mulVec x i = M.mulVec (coupled g σ ps x) i := by
  intro ps
  induction ps with
  | nil => intro M x _ i; rfl
  | cons q ps ih =>
    intro M x hM i
    have hs : (couplingOne g (standardKeys g) σ q.1 q.2).size = g.size := keysLen g
    rw [List.foldl_cons, ih (M.mul _) x hM i, mul_mulVec' (hM.trans hs.symm)]
    rfl

theorem couplingMatrix_mulVec {g : Cfg} {σ : ℝ} {controls targets : List ℕ} {M : SqArr} (h : couplingMatrix g (standardKeys g) σ controls targets = some M) (x : ℕ → ℂ)
    {i : ℕ} (hi : i < g.size) : M.size = g.size ∧ M.mulVec x i = coupled g σ (controls.zip targets) x i := by
  unfold couplingMatrix at h
  split at h
  · obtain rfl := Option.some.inj h
    refine ⟨?_, ?_⟩
    · have : ∀ (ps : List (ℕ × ℕ)) (A : SqArr), (ps.foldl (fun M q => M.mul (couplingOne g (standardKeys g) σ q.1 q.2)) A).size = A.size := by
        intro ps
        induction ps with
        | nil => intro A; rfl
        | cons q ps ih => intro A; rw [List.foldl_cons, ih]; rfl
      rw [this]
      exact keysLen g
    · rw [coupling_mulVec σ _ _ _ (keysLen g)]
      simp only [SqArr.mulVec]
      rw [Finset.sum_eq_single i]
      · simp
      · intro k _ hk; rw [if_neg (fun e => hk e.symm), zero_mul]
      · intro hn; exact absurd (Finset.mem_range.2 (by rw [keysLen]; exact hi)) hn
  · cases h

/-- the vector has no part with photons in channel `t` -/
def NoneIn (g : Cfg) (t : ℕ) (x : ℕ → ℂ) : Prop := ∀ w, Valid g w → x (g.indexOf w) ≠ 0 → w.getD t 0 = 0

theorem set0_valid {g : Cfg} (hL : 1 ≤ g.L) {w : Vals} (hw : Valid g w) (t : ℕ) : Valid g (w.set t 0) := valid_set hw hL

theorem set_self {g : Cfg} {w : Vals} (hw : Valid g w) {t : ℕ} (ht : t < g.C) {x : ℕ} (h : w.getD t 0 = x) : w.set t x = w := by
  refine ext_getD (C := g.C) (by simp [hw.1]) hw.1 fun c _ => ?_
  rw [getD_set w (by rw [hw.1]; exact ht)]
  split
  · rename_i e; rw [e, h]
  · rfl

/-- one pair -/
theorem one_mulVec {g : Cfg} (hg : g.Ok) (σ : ℝ) {a t : ℕ} (ht : t < g.C) (hne : a ≠ t) {y : ℕ → ℂ} (hy : NoneIn g t y) {w : Vals} (hw : Valid g w) :
    (couplingOne g (standardKeys g) σ a t).mulVec y (g.indexOf w) = (spread σ (w.getD a 0) (w.getD t 0) : ℂ) * y (g.indexOf (w.set t 0)) := by
  have hw0 := set0_valid hg.1 hw t
  have hlen : t < w.length := by rw [hw.1]; exact ht
  have hiw := g.indexOf_lt hw
  have hi0 := g.indexOf_lt hw0
  have hsz : (couplingOne g (standardKeys g) σ a t).size = g.size := keysLen g
  have hga : (w.set t 0).getD a 0 = w.getD a 0 := by rw [getD_set w hlen, if_neg hne]
  have hgt : (w.set t 0).getD t 0 = 0 := by rw [getD_set w hlen, if_pos rfl]
  have hstep : cStep g.L (a, t) (w.set t 0) = w.set t (w.getD a 0) := by
    unfold cStep
    simp only
    rw [hga, hgt, Nat.add_zero, Nat.mod_eq_of_lt (valid_getD_below hw hg.1 a), List.set_set]
  unfold SqArr.mulVec
  rw [hsz, Finset.sum_eq_single (g.indexOf (w.set t 0))]
  · congr 1
    rw [show (couplingOne g (standardKeys g) σ a t).at_ (g.indexOf w) (g.indexOf (w.set t 0)) = _ from couplingOne_entry hg.1 σ (a, t) ht hiw hi0,
      g.valuesFromIndex_indexOf hw, g.valuesFromIndex_indexOf hw0, hstep]
    have e1 : w = w.set t (w.getD a 0) ↔ w.getD t 0 = w.getD a 0 := by
      constructor
      · intro e
        conv_lhs => rw [e]
        rw [getD_set w hlen, if_pos rfl]
      · intro e; exact (set_self hw ht e).symm
    have e2 : g.indexOf (w.set t 0) = g.indexOf w ↔ w.getD t 0 = 0 := by
      constructor
      · intro e
        have : w.set t 0 = w := by rw [← g.valuesFromIndex_indexOf hw0, e, g.valuesFromIndex_indexOf hw]
        rw [← this]; exact hgt
      · intro e; rw [set_self hw ht e]
    unfold spread
    simp only [e1, e2]
    by_cases h1 : w.getD t 0 = w.getD a 0
    · rw [if_pos h1, if_pos h1, h1]
      split <;> simp
    · rw [if_neg h1, if_neg h1]
      split <;> simp
  · intro i hi hne'
    have hi := Finset.mem_range.1 hi
    have hiv := g.valid_valuesFromIndex hg.1 i
    by_cases hz : y i = 0
    · rw [hz, mul_zero]
    · have h0 : (g.valuesFromIndex i).getD t 0 = 0 := hy _ hiv (by rwa [g.indexOf_valuesFromIndex hi])
      rw [show (couplingOne g (standardKeys g) σ a t).at_ (g.indexOf w) i = _ from couplingOne_entry hg.1 σ (a, t) ht hiw hi, g.valuesFromIndex_indexOf hw]
      have hno : ∀ x, w ≠ (g.valuesFromIndex i).set t x := by
        intro x e
        apply hne'
        rw [e, List.set_set, set_self hiv ht h0, g.indexOf_valuesFromIndex hi]
      rw [if_neg (show ¬ w = cStep g.L (a, t) (g.valuesFromIndex i) from hno _), if_neg, zero_mul]
      rintro rfl
      exact hno 0 (by rw [g.valuesFromIndex_indexOf hw]; rw [g.valuesFromIndex_indexOf hw] at h0; exact (set_self hw ht h0).symm)
  · intro hn
    exact absurd (Finset.mem_range.2 hi0) hn

/-- pairs of different channels, every second channel occurs once and is no first channel -/
structure PairsOk (g : Cfg) (ps : List (ℕ × ℕ)) : Prop where
  below : ∀ q ∈ ps, q.1 < g.C ∧ q.2 < g.C
  apart : ∀ q ∈ ps, ∀ r ∈ ps, q.1 ≠ r.2
  once : (ps.map Prod.snd).Nodup

theorem PairsOk.tail {g : Cfg} {q : ℕ × ℕ} {ps : List (ℕ × ℕ)} (h : PairsOk g (q :: ps)) : PairsOk g ps :=
  ⟨fun r hr => h.below r (by simp [hr]), fun r hr s hs => h.apart r (by simp [hr]) s (by simp [hs]), (List.nodup_cons.1 h.once).2⟩

theorem coupled_noneIn {g : Cfg} (hg : g.Ok) (σ : ℝ) : ∀ {ps : List (ℕ × ℕ)}, PairsOk g ps → ∀ {x : ℕ → ℂ}, (∀ q ∈ ps, NoneIn g q.2 x) → ∀ {t : ℕ}, t ∉ ps.map Prod.snd →
    NoneIn g t x → NoneIn g t (coupled g σ ps x) := by
  intro ps
  induction ps with
  | nil => intro _ x _ t _ h; exact h
  | cons q ps ih =>
    intro hp x hx t ht h w hw hne
    have hq := hp.below q (by simp)
    have hy := ih hp.tail (fun r hr => hx r (by simp [hr])) (List.nodup_cons.1 hp.once).1 (hx q (by simp))
    have hyt := ih hp.tail (fun r hr => hx r (by simp [hr])) (fun e => ht (by simp only [List.map_cons, List.mem_cons]; exact Or.inr e)) h
    have e : coupled g σ (q :: ps) x (g.indexOf w) = _ := one_mulVec hg σ hq.2 (hp.apart q (by simp) q (by simp)) hy hw
    rw [e] at hne
    have := hyt _ (set0_valid hg.1 hw q.2) (right_ne_zero_of_mul hne)
    rw [getD_set w (by rw [hw.1]; exact hq.2), if_neg] at this
    · exact this
    · rintro rfl; exact ht (by simp)

theorem coupled_cons {g : Cfg} (hg : g.Ok) (σ : ℝ) {q : ℕ × ℕ} {ps : List (ℕ × ℕ)} (hp : PairsOk g (q :: ps)) {x : ℕ → ℂ} (hx : ∀ r ∈ q :: ps, NoneIn g r.2 x) :
    NoneIn g q.2 (coupled g σ ps x) ∧ ∀ w, Valid g w →
      coupled g σ (q :: ps) x (g.indexOf w) = (spread σ (w.getD q.1 0) (w.getD q.2 0) : ℂ) * coupled g σ ps x (g.indexOf (w.set q.2 0)) := by
  have hy := coupled_noneIn hg σ hp.tail (fun r hr => hx r (by simp [hr])) (List.nodup_cons.1 hp.once).1 (hx q (by simp))
  exact ⟨hy, fun w hw => one_mulVec hg σ (hp.below q (by simp)).2 (hp.apart q (by simp) q (by simp)) hy hw⟩

/-- all amplitudes -/
theorem coupled_amp {g : Cfg} (hg : g.Ok) (σ : ℝ) : ∀ {ps : List (ℕ × ℕ)}, PairsOk g ps → ∀ {x : ℕ → ℂ}, (∀ q ∈ ps, NoneIn g q.2 x) → ∀ v w, Valid g v → Valid g w →
    Emptied g (ps.map Prod.snd) v w →
    coupled g σ ps x (g.indexOf v) = (((ps.map (fun q => spread σ (v.getD q.1 0) (v.getD q.2 0))).prod : ℝ) : ℂ) * x (g.indexOf w) := by
  intro ps
  induction ps with
  | nil =>
    intro _ x _ v w hv hw h
    have : v = w := ext_getD hv.1 hw.1 fun c hc => by rw [h c hc]; simp
    subst this
    simp [coupled]
  | cons q ps ih =>
    intro hp x hx v w hv hw h
    have hq := hp.below q (by simp)
    have hlen : q.2 < v.length := by rw [hv.1]; exact hq.2
    rw [(coupled_cons hg σ hp hx).2 v hv, ih hp.tail (fun r hr => hx r (by simp [hr])) (v.set q.2 0) w (set0_valid hg.1 hv q.2) hw ?_]
    · rw [List.map_cons, List.prod_cons, Complex.ofReal_mul, mul_assoc]
      congr 4
      refine List.map_congr_left fun r hr => ?_
      rw [getD_set v hlen, getD_set v hlen, if_neg (hp.apart r (by simp [hr]) q (by simp)), if_neg]
      intro e
      exact (List.nodup_cons.1 hp.once).1 (e ▸ List.mem_map_of_mem hr)
    · intro c hc
      rw [h c hc, getD_set v hlen]
      by_cases h1 : c = q.2
      · subst h1; simp
      · rw [if_neg h1]
        simp only [List.map_cons, List.mem_cons, h1, false_or]

/-! ### sums over one channel -/

open Classical in
/-- the basis states with the photon numbers of `u` in the channels `keep` -/
noncomputable def withNumbers (g : Cfg) (keep : List ℕ) (u : Vals) : Finset ℕ := (Finset.range g.size).filter (fun i => select keep (g.valuesFromIndex i) = select keep u)

/-- a sum of functions that depend on channel `t` by a factor only -/
theorem sum_channel {g : Cfg} (hg : g.Ok) {keep : List ℕ} (u : Vals) {t : ℕ} (ht : t < g.C) (hk : t ∉ keep) (f : ℕ → ℂ) (h : ℕ → ℂ)
    (hh : ∀ w, Valid g w → h (g.indexOf w) ≠ 0 → w.getD t 0 = 0) :
    ∑ i ∈ withNumbers g keep u, f ((g.valuesFromIndex i).getD t 0) * h (g.indexOf ((g.valuesFromIndex i).set t 0))
      = (∑ e ∈ Finset.range g.L, f e) * ∑ i ∈ withNumbers g keep u, h i := by
  classical
  have hmem : ∀ w x, Valid g w → x < g.L → g.indexOf w ∈ withNumbers g keep u → g.indexOf (w.set t x) ∈ withNumbers g keep u := by
    intro w x hw hx hm
    obtain ⟨h1, h2⟩ := Finset.mem_filter.1 hm
    have hv := valid_set (t := t) hw hx
    refine Finset.mem_filter.2 ⟨Finset.mem_range.2 (g.indexOf_lt hv), ?_⟩
    rw [g.valuesFromIndex_indexOf hv, ← h2, g.valuesFromIndex_indexOf hw]
    refine select_eq_iff.2 fun c hc => ?_
    rw [getD_set w (by rw [hw.1]; exact ht), if_neg]
    rintro rfl; exact hk hc
  have hR : ∑ i ∈ withNumbers g keep u, h i = ∑ i ∈ (withNumbers g keep u).filter (fun i => (g.valuesFromIndex i).getD t 0 = 0), h i := by
    rw [Finset.sum_filter]
    refine Finset.sum_congr rfl fun i hi => ?_
    have hi := Finset.mem_range.1 (Finset.mem_filter.1 hi).1
    split
    · rfl
    · rename_i hne
      by_contra hz
      exact hne (hh _ (g.valid_valuesFromIndex hg.1 i) (by rwa [g.indexOf_valuesFromIndex hi]))
  rw [hR, Finset.sum_mul_sum, ← Finset.sum_product']
  refine Finset.sum_bij' (fun i _ => ((g.valuesFromIndex i).getD t 0, g.indexOf ((g.valuesFromIndex i).set t 0)))
    (fun p _ => g.indexOf ((g.valuesFromIndex p.2).set t p.1)) ?_ ?_ ?_ ?_ ?_
  · intro i hi
    have hi' := Finset.mem_range.1 (Finset.mem_filter.1 hi).1
    have hiv := g.valid_valuesFromIndex hg.1 i
    have hv0 := set0_valid hg.1 hiv t
    refine Finset.mem_product.2 ⟨Finset.mem_range.2 (valid_getD_below hiv hg.1 t), Finset.mem_filter.2 ⟨hmem _ 0 hiv hg.1 (by rwa [g.indexOf_valuesFromIndex hi']), ?_⟩⟩
    rw [g.valuesFromIndex_indexOf hv0, getD_set _ (by rw [hiv.1]; exact ht), if_pos rfl]
  · intro p hp
    obtain ⟨h1, h2⟩ := Finset.mem_product.1 hp
    obtain ⟨h3, h4⟩ := Finset.mem_filter.1 h2
    have hpv := g.valid_valuesFromIndex hg.1 p.2
    refine hmem _ _ hpv (Finset.mem_range.1 h1) ?_
    rwa [g.indexOf_valuesFromIndex (Finset.mem_range.1 (Finset.mem_filter.1 h3).1)]
  · intro i hi
    have hi' := Finset.mem_range.1 (Finset.mem_filter.1 hi).1
    have hiv := g.valid_valuesFromIndex hg.1 i
    simp only
    rw [g.valuesFromIndex_indexOf (set0_valid hg.1 hiv t), List.set_set, set_self hiv ht rfl, g.indexOf_valuesFromIndex hi']
  · rintro ⟨e, j⟩ hp
    obtain ⟨h1, h2⟩ := Finset.mem_product.1 hp
    obtain ⟨h3, h4⟩ := Finset.mem_filter.1 h2
    have hjv := g.valid_valuesFromIndex hg.1 j
    have hj := Finset.mem_range.1 (Finset.mem_filter.1 h3).1
    have hv := valid_set (t := t) hjv (Finset.mem_range.1 h1)
    simp only
    rw [g.valuesFromIndex_indexOf hv, List.set_set, getD_set _ (by rw [hjv.1]; exact ht), if_pos rfl, set_self hjv ht h4, g.indexOf_valuesFromIndex hj]
  · intro i _; rfl

theorem spread_sum {σ : ℝ} (h0 : 0 ≤ σ) (h1 : σ ≤ 1) {L m n : ℕ} (hm : m < L) (hn : n < L) : ∑ e ∈ Finset.range L, spread σ m e * spread σ n e = coherence σ m n := by
  have s1 := Real.mul_self_sqrt h0
  have s2 := Real.mul_self_sqrt (sub_nonneg.2 h1)
  have hsub : ∑ e ∈ Finset.range L, spread σ m e * spread σ n e = ∑ e ∈ {0, m}, spread σ m e * spread σ n e := by
    refine (Finset.sum_subset ?_ ?_).symm
    · intro e he
      rcases Finset.mem_insert.1 he with rfl | he
      · exact Finset.mem_range.2 (by omega)
      · rw [Finset.mem_singleton.1 he]; exact Finset.mem_range.2 hm
    · intro e _ he
      simp only [Finset.mem_insert, Finset.mem_singleton, not_or] at he
      rw [show spread σ m e = 0 by unfold spread; rw [if_neg he.2, if_neg he.1], zero_mul]
  rw [hsub]
  by_cases hm0 : m = 0
  · subst hm0
    rw [Finset.pair_eq_singleton, Finset.sum_singleton]
    unfold spread coherence
    by_cases hn0 : n = 0
    · subst hn0; simp
    · simp [hn0, Ne.symm hn0]
  · rw [Finset.sum_pair (Ne.symm hm0)]
    unfold spread coherence
    by_cases hmn : m = n
    · subst hmn
      simp [hm0, Ne.symm hm0, s1, s2]
    · by_cases hn0 : n = 0
      · subst hn0; simp [hm0, Ne.symm hm0]
      · simp [hm0, Ne.symm hm0, hn0, Ne.symm hn0, hmn, s2]

theorem reducedVec_withNumbers {g : Cfg} (hg : g.Ok) {keep : List ℕ} (hr : ∀ n ∈ keep, n < g.C) {u v : Vals} (hv : Valid g v) (x : ℕ → ℂ) :
    reducedVec g keep x (select keep u) (select keep v) = ∑ i ∈ withNumbers g keep u, star (x i) * x (g.indexOf (put g keep v (g.valuesFromIndex i))) := by
  classical
  rw [reducedVec_inner hg hr hv, withNumbers, Finset.sum_filter]
  refine Finset.sum_congr rfl fun i _ => ?_
  unfold part moved
  by_cases ho : select keep (g.valuesFromIndex i) = select keep u
  · rw [if_pos ho, if_pos ho, if_pos (show outcomeOf keep (g.valuesFromIndex i) = select keep u from ho)]
  · rw [if_neg ho, if_neg ho, mul_zero]

theorem put_set {g : Cfg} {keep : List ℕ} (v : Vals) {w : Vals} (hw : Valid g w) {t : ℕ} (ht : t < g.C) (hk : t ∉ keep) (x : ℕ) :
    (put g keep v w).set t x = put g keep v (w.set t x) := by
  have hl : (put g keep v w).length = g.C := by simp [put]
  refine ext_getD (C := g.C) (by simp [hl]) (by simp [put]) fun c hc => ?_
  rw [getD_set _ (by rw [hl]; exact ht), put_getD _ _ _ hc, put_getD _ _ _ hc, getD_set _ (by rw [hw.1]; exact ht)]
  by_cases h : c = t
  · subst h; rw [if_pos rfl, if_neg hk, if_pos rfl]
  · rw [if_neg h, if_neg h]

/-- reduced density matrix after all pairs -/
theorem coupled_reduced {g : Cfg} (hg : g.Ok) {σ : ℝ} (h0 : 0 ≤ σ) (h1 : σ ≤ 1) {keep : List ℕ} (hr : ∀ n ∈ keep, n < g.C) {u v : Vals} (hu : Valid g u) (hv : Valid g v) :
    ∀ {ps : List (ℕ × ℕ)}, PairsOk g ps → (∀ q ∈ ps, q.1 ∈ keep ∧ q.2 ∉ keep) → ∀ {x : ℕ → ℂ}, (∀ q ∈ ps, NoneIn g q.2 x) →
    reducedVec g keep (coupled g σ ps x) (select keep u) (select keep v)
      = (((ps.map (fun q => coherence σ (u.getD q.1 0) (v.getD q.1 0))).prod : ℝ) : ℂ) * reducedVec g keep x (select keep u) (select keep v) := by
  intro ps
  induction ps with
  | nil => intro _ _ x _; simp [coupled]
  | cons q ps ih =>
    intro hp hpk x hx
    obtain ⟨hyn, hy⟩ := coupled_cons hg σ hp hx
    obtain ⟨hqa, hqt⟩ := hpk q (by simp)
    have hq := hp.below q (by simp)
    rw [List.map_cons, List.prod_cons, Complex.ofReal_mul, mul_assoc, ← ih hp.tail (fun r hr => hpk r (by simp [hr])) (fun r hr => hx r (by simp [hr])),
      reducedVec_withNumbers hg hr hv, reducedVec_withNumbers hg hr hv]
    generalize coupled g σ ps x = y at hyn hy ⊢
    generalize coupled g σ (q :: ps) x = z at hy ⊢
    rw [← spread_sum h0 h1 (valid_getD_below hu hg.1 q.1) (valid_getD_below hv hg.1 q.1), Complex.ofReal_sum]
    rw [← sum_channel hg u hq.2 hqt (fun e => ((spread σ (u.getD q.1 0) e * spread σ (v.getD q.1 0) e : ℝ) : ℂ))
      (fun i => star (y i) * y (g.indexOf (put g keep v (g.valuesFromIndex i)))) ?_]
    · refine Finset.sum_congr rfl fun i hi => ?_
      obtain ⟨hi1, hi2⟩ := Finset.mem_filter.1 hi
      have hi1 := Finset.mem_range.1 hi1
      have hiv := g.valid_valuesFromIndex hg.1 i
      have hpv := put_valid hg.1 keep hv hiv
      have hv0 := set0_valid hg.1 hiv q.2
      have e1 := hy _ hiv
      rw [g.indexOf_valuesFromIndex hi1] at e1
      rw [e1, hy _ hpv, put_set v hiv hq.2 hqt, put_getD _ _ _ hq.1, if_pos hqa, put_getD _ _ _ hq.2, if_neg hqt, g.valuesFromIndex_indexOf hv0,
        select_eq_iff.1 hi2 q.1 hqa]
      simp only [star_mul', RCLike.star_def, Complex.conj_ofReal, Complex.ofReal_mul]
      ring
    · intro w hw hne
      exact hyn w hw (by
        intro e
        apply hne
        show star (y (g.indexOf w)) * _ = 0
        rw [e, star_zero, zero_mul])

/-- total probability after all pairs -/
theorem coupled_norm {g : Cfg} (hg : g.Ok) {σ : ℝ} (h0 : 0 ≤ σ) (h1 : σ ≤ 1) {ps : List (ℕ × ℕ)} (hp : PairsOk g ps) {x : ℕ → ℂ} (hx : ∀ q ∈ ps, NoneIn g q.2 x) :
    ∑ i ∈ Finset.range g.size, ‖coupled g σ ps x i‖ ^ 2 = ∑ i ∈ Finset.range g.size, ‖x i‖ ^ 2 := by
  induction ps with
  | nil => rfl
  | cons q ps ih =>
    rw [← ih hp.tail (fun r hr => hx r (by simp [hr]))]
    obtain ⟨hyn, hy⟩ := coupled_cons hg σ hp hx
    have hq := hp.below q (by simp)
    generalize coupled g σ ps x = y at hyn hy ⊢
    generalize coupled g σ (q :: ps) x = z at hy ⊢
    have split : ∀ F : ℕ → ℝ, ∑ i ∈ Finset.range g.size, F i = ∑ n ∈ Finset.range g.L, ∑ i ∈ withNumbers g [q.1] ((List.replicate g.C 0).set q.1 n), F i := by
      intro F
      rw [← Finset.sum_fiberwise_of_maps_to (g := fun i => (g.valuesFromIndex i).getD q.1 0) (t := Finset.range g.L)
        (fun i _ => Finset.mem_range.2 (valid_getD_below (g.valid_valuesFromIndex hg.1 i) hg.1 q.1))]
      refine Finset.sum_congr rfl fun n _ => Finset.sum_congr ?_ fun _ _ => rfl
      unfold withNumbers
      refine Finset.filter_congr fun i _ => ?_
      rw [select_eq_iff]
      simp only [List.mem_singleton, forall_eq]
      rw [getD_set _ (by simpa using hq.1), if_pos rfl]
    rw [split, split]
    refine Finset.sum_congr rfl fun n hn => ?_
    have hn := Finset.mem_range.1 hn
    have hne := hp.apart q (by simp) q (by simp)
    have key := sum_channel hg ((List.replicate g.C 0).set q.1 n) hq.2 (keep := [q.1]) (by simpa using fun e => hne e.symm)
      (fun e => ((spread σ n e * spread σ n e : ℝ) : ℂ)) (fun i => ((‖y i‖ ^ 2 : ℝ) : ℂ)) (by
        intro w hw h
        exact hyn w hw (by intro e; apply h; simp [e]))
    rw [← Complex.ofReal_sum, spread_sum h0 h1 hn hn, show coherence σ n n = 1 by simp [coherence], Complex.ofReal_one, one_mul] at key
    have key' : ∑ i ∈ withNumbers g [q.1] ((List.replicate g.C 0).set q.1 n), (spread σ n ((g.valuesFromIndex i).getD q.2 0) * spread σ n ((g.valuesFromIndex i).getD q.2 0)) *
        ‖y (g.indexOf ((g.valuesFromIndex i).set q.2 0))‖ ^ 2 = ∑ i ∈ withNumbers g [q.1] ((List.replicate g.C 0).set q.1 n), ‖y i‖ ^ 2 := by
      exact_mod_cast key
    rw [← key']
    refine Finset.sum_congr rfl fun i hi => ?_
    obtain ⟨hi1, hi2⟩ := Finset.mem_filter.1 hi
    have hi1 := Finset.mem_range.1 hi1
    have hiv := g.valid_valuesFromIndex hg.1 i
    have e1 := hy _ hiv
    rw [g.indexOf_valuesFromIndex hi1] at e1
    have e2 := select_eq_iff.1 hi2 q.1 (by simp)
    rw [getD_set _ (by simpa using hq.1), if_pos rfl] at e2
    rw [e1, e2, norm_mul, mul_pow, Complex.norm_real, Real.norm_eq_abs, sq_abs, pow_two (spread σ n _)]

end Verif
