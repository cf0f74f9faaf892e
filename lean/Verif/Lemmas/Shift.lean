/- Helper lemmas about shift nodes. -/
import Verif.Model.Shift
import Verif.Spec.Shift
import Verif.Lemmas.Decode
import Verif.Lemmas.Measurement

namespace Verif
open Spec

/-- the matrix that moves basis state `v` to basis state `F v` -/
def MovesBy (g : Cfg) (F : Vals → Vals) (M : SqArr) : Prop :=
  M.size = g.size ∧ ∀ o < g.size, ∀ i < g.size, M.at_ o i = if g.valuesFromIndex o = F (g.valuesFromIndex i) then 1 else 0

theorem movesBy_mul {g : Cfg} (hL : 1 ≤ g.L) {F G : Vals → Vals} (hG : ∀ v, Valid g v → Valid g (G v)) {M N : SqArr} (hM : MovesBy g F M)
    (hN : MovesBy g G N) : MovesBy g (fun v => F (G v)) (M.mul N) := by
  refine ⟨hM.1, ?_⟩
  intro o ho i hi
  simp only [SqArr.mul]
  rw [hM.1]
  have hv := g.valid_valuesFromIndex hL i
  rw [Finset.sum_eq_single (g.indexOf (G (g.valuesFromIndex i)))]
  · rw [hM.2 o ho _ (g.indexOf_lt (hG _ hv)), hN.2 _ (g.indexOf_lt (hG _ hv)) i hi, g.valuesFromIndex_indexOf (hG _ hv), if_pos rfl, mul_one]
  · intro k hk hne
    have hk := Finset.mem_range.1 hk
    rw [hN.2 k hk i hi, if_neg, mul_zero]
    intro e
    apply hne
    rw [← e, g.indexOf_valuesFromIndex hk]
  · intro h
    exact absurd (Finset.mem_range.2 (g.indexOf_lt (hG _ hv))) h

theorem movesBy_foldl {g : Cfg} (hL : 1 ≤ g.L) {α : Type*} (one : α → SqArr) (step : α → Vals → Vals) (l : List α)
    (hs : ∀ q ∈ l, ∀ v, Valid g v → Valid g (step q v)) (ho : ∀ q ∈ l, MovesBy g (step q) (one q)) {F : Vals → Vals} {M : SqArr}
    (hM : MovesBy g F M) : MovesBy g (fun v => F (l.foldr step v)) (l.foldl (fun M q => M.mul (one q)) M) := by
  induction l generalizing F M with
  | nil => exact hM
  | cons q l ih =>
    have := ih (fun q hq => hs q (by simp [hq])) (fun q hq => ho q (by simp [hq])) (movesBy_mul hL (hs q (by simp)) hM (ho q (by simp)))
    exact this

theorem keys_getD {g : Cfg} {i : ℕ} (hi : i < g.size) : (standardKeys g).getD i [] = g.valuesFromIndex i := by
  rw [standardKeys, List.getD_eq_getElem?_getD, List.getElem?_map, List.getElem?_range hi]; rfl

theorem vals_ext {g : Cfg} {v w : Vals} (hv : v.length = g.C) (hw : w.length = g.C) (h : ∀ c < g.C, v.getD c 0 = w.getD c 0) : v = w := by
  apply List.ext_getElem (by rw [hv, hw])
  intro c h1 h2
  have := h c (by omega)
  rwa [List.getD_eq_getElem _ _ h1, List.getD_eq_getElem _ _ h2] at this

theorem getD_set (v : Vals) {t : ℕ} (ht : t < v.length) (x c : ℕ) : (v.set t x).getD c 0 = if c = t then x else v.getD c 0 := by
  rw [List.getD_eq_getElem?_getD, List.getElem?_set]
  by_cases h : t = c
  · subst h; simp [ht]
  · rw [if_neg h, if_neg (fun e => h e.symm), List.getD_eq_getElem?_getD]

theorem eq_set_iff {g : Cfg} {v w : Vals} (hv : Valid g v) (hw : Valid g w) {t x : ℕ} (ht : t < g.C) :
    ((∀ c < g.C, c ≠ t → v.getD c 0 = w.getD c 0) ∧ w.getD t 0 = x) ↔ w = v.set t x := by
  constructor
  · rintro ⟨h1, h2⟩
    apply vals_ext (g := g) hw.1 (by simp [hv.1])
    intro c hc
    rw [getD_set v (by rw [hv.1]; exact ht)]
    by_cases h : c = t
    · subst h; rw [if_pos rfl]; exact h2
    · rw [if_neg h]; exact (h1 c hc h).symm
  · rintro rfl
    refine ⟨?_, ?_⟩
    · intro c _ hne
      rw [getD_set v (by rw [hv.1]; exact ht), if_neg hne]
    · rw [getD_set v (by rw [hv.1]; exact ht), if_pos rfl]

theorem valid_set {g : Cfg} {v : Vals} (hv : Valid g v) {t x : ℕ} (hx : x < g.L) : Valid g (v.set t x) := by
  refine ⟨by simp [hv.1], ?_⟩
  intro y hy
  rcases List.mem_or_eq_of_mem_set hy with h | rfl
  · exact hv.2 y h
  · exact hx

theorem valid_getD {g : Cfg} {v : Vals} (hv : Valid g v) {c : ℕ} (hc : c < g.C) : v.getD c 0 < g.L := by
  rw [List.getD_eq_getElem _ _ (by rw [hv.1]; exact hc)]
  exact hv.2 _ (List.getElem_mem _)

/-! ### modular addition -/

theorem addMod_lt {L : ℕ} (hL : 1 ≤ L) (s : ℤ) (x : ℕ) : addMod L s x < L := by
  have h1 := Int.emod_nonneg (s + x) (b := (L : ℤ)) (by omega)
  have h2 := Int.emod_lt_of_pos (s + x) (b := (L : ℤ)) (by omega)
  unfold addMod; omega

theorem addMod_cast {L : ℕ} (hL : 1 ≤ L) (s : ℤ) (x : ℕ) : (addMod L s x : ℤ) = ((x : ℤ) + s) % (L : ℤ) := by
  have h1 := Int.emod_nonneg (s + x) (b := (L : ℤ)) (by omega)
  unfold addMod
  rw [Int.toNat_of_nonneg h1, add_comm]

theorem addMod_inj {L : ℕ} (hL : 1 ≤ L) {s : ℤ} {x y : ℕ} (hx : x < L) (hy : y < L) (h : addMod L s x = addMod L s y) : x = y := by
  have h1 : ((x : ℤ) + s) % (L : ℤ) = ((y : ℤ) + s) % (L : ℤ) := by rw [← addMod_cast hL, ← addMod_cast hL, h]
  have h2 : ((x : ℤ)) % (L : ℤ) = (y : ℤ) % (L : ℤ) := by
    have := Int.emod_emod_of_dvd
    have e := Int.ModEq.add_right_cancel' s h1
    exact e
  rw [Int.emod_eq_of_lt (by omega) (by omega), Int.emod_eq_of_lt (by omega) (by omega)] at h2
  omega

/-! ### shift -/

/-- one step of a shift -/
def sStep (L : ℕ) (q : ℤ × ℕ) (v : Vals) : Vals := v.set q.2 (addMod L q.1 (v.getD q.2 0))

/-- one step of a controlled shift -/
def cStep (L : ℕ) (q : ℕ × ℕ) (v : Vals) : Vals := v.set q.2 ((v.getD q.1 0 + v.getD q.2 0) % L)

theorem sStep_valid {g : Cfg} (hL : 1 ≤ g.L) (q : ℤ × ℕ) {v : Vals} (hv : Valid g v) : Valid g (sStep g.L q v) :=
  valid_set hv (addMod_lt hL _ _)

theorem cStep_valid {g : Cfg} (hL : 1 ≤ g.L) (q : ℕ × ℕ) {v : Vals} (hv : Valid g v) : Valid g (cStep g.L q v) :=
  valid_set hv (Nat.mod_lt _ hL)

theorem shiftMatrixOne_moves {g : Cfg} (hL : 1 ≤ g.L) (q : ℤ × ℕ) (ht : q.2 < g.C) :
    MovesBy g (sStep g.L q) (shiftMatrixOne g (standardKeys g) q.1 q.2) := by
  refine ⟨by simp [shiftMatrixOne, standardKeys], ?_⟩
  intro o ho i hi
  simp only [shiftMatrixOne]
  rw [keys_getD ho, keys_getD hi]
  simp only [eq_set_iff (g.valid_valuesFromIndex hL i) (g.valid_valuesFromIndex hL o) ht]
  rfl

theorem cShiftMatrixOne_moves {g : Cfg} (hL : 1 ≤ g.L) (q : ℕ × ℕ) (ht : q.2 < g.C) :
    MovesBy g (cStep g.L q) (cShiftMatrixOne g (standardKeys g) q.1 q.2) := by
  refine ⟨by simp [cShiftMatrixOne, standardKeys], ?_⟩
  intro o ho i hi
  simp only [cShiftMatrixOne]
  rw [keys_getD ho, keys_getD hi]
  simp only [eq_set_iff (g.valid_valuesFromIndex hL i) (g.valid_valuesFromIndex hL o) ht]
  rfl

theorem foldl_valid {g : Cfg} {α : Type*} (step : α → Vals → Vals) (hs : ∀ q v, Valid g v → Valid g (step q v)) (l : List α) {v : Vals}
    (hv : Valid g v) : Valid g (l.foldl (fun v q => step q v) v) := by
  induction l generalizing v with
  | nil => exact hv
  | cons q l ih => exact ih (hs q v hv)

theorem foldl_inj {g : Cfg} {α : Type*} (step : α → Vals → Vals) (hs : ∀ q v, Valid g v → Valid g (step q v)) (l : List α)
    (hi : ∀ q ∈ l, ∀ v w, Valid g v → Valid g w → step q v = step q w → v = w) {v w : Vals} (hv : Valid g v) (hw : Valid g w)
    (h : l.foldl (fun v q => step q v) v = l.foldl (fun v q => step q v) w) : v = w := by
  induction l generalizing v w with
  | nil => exact h
  | cons q l ih =>
    exact hi q (by simp) v w hv hw (ih (fun q hq => hi q (by simp [hq])) (hs q v hv) (hs q w hw) h)

theorem set_inj {g : Cfg} {v w : Vals} (hv : Valid g v) (hw : Valid g w) {t x y : ℕ} (ht : t < g.C) (h : v.set t x = w.set t y) :
    x = y ∧ ∀ c < g.C, c ≠ t → v.getD c 0 = w.getD c 0 := by
  have h1 : ∀ c, (v.set t x).getD c 0 = (w.set t y).getD c 0 := fun c => by rw [h]
  refine ⟨?_, ?_⟩
  · have := h1 t
    rwa [getD_set v (by rw [hv.1]; exact ht), getD_set w (by rw [hw.1]; exact ht), if_pos rfl, if_pos rfl] at this
  · intro c _ hne
    have := h1 c
    rwa [getD_set v (by rw [hv.1]; exact ht), getD_set w (by rw [hw.1]; exact ht), if_neg hne, if_neg hne] at this

theorem sStep_inj {g : Cfg} (hL : 1 ≤ g.L) {q : ℤ × ℕ} (ht : q.2 < g.C) {v w : Vals} (hv : Valid g v) (hw : Valid g w)
    (h : sStep g.L q v = sStep g.L q w) : v = w := by
  obtain ⟨h1, h2⟩ := set_inj hv hw ht h
  have h3 := addMod_inj hL (valid_getD hv ht) (valid_getD hw ht) h1
  apply vals_ext hv.1 hw.1
  intro c hc
  by_cases e : c = q.2
  · rw [e]; exact h3
  · exact h2 c hc e

theorem mod_add_inj {L a x y : ℕ} (hx : x < L) (hy : y < L) (h : (a + x) % L = (a + y) % L) : x = y := by
  have h2 : x % L = y % L := Nat.ModEq.add_left_cancel' a h
  rwa [Nat.mod_eq_of_lt hx, Nat.mod_eq_of_lt hy] at h2

theorem cStep_inj {g : Cfg} {q : ℕ × ℕ} (hc : q.1 < g.C) (ht : q.2 < g.C) (hne : q.1 ≠ q.2) {v w : Vals} (hv : Valid g v) (hw : Valid g w)
    (h : cStep g.L q v = cStep g.L q w) : v = w := by
  obtain ⟨h1, h2⟩ := set_inj hv hw ht h
  rw [h2 q.1 hc hne] at h1
  have h3 := mod_add_inj (valid_getD hv ht) (valid_getD hw ht) h1
  apply vals_ext hv.1 hw.1
  intro c hc
  by_cases e : c = q.2
  · rw [e]; exact h3
  · exact h2 c hc e

theorem sStep_getD {g : Cfg} {q : ℤ × ℕ} (ht : q.2 < g.C) {v : Vals} (hv : Valid g v) (c : ℕ) :
    (sStep g.L q v).getD c 0 = if c = q.2 then addMod g.L q.1 (v.getD c 0) else v.getD c 0 := by
  rw [sStep, getD_set v (by rw [hv.1]; exact ht)]
  by_cases h : c = q.2
  · subst h; rfl
  · rw [if_neg h, if_neg h]

theorem cStep_getD {g : Cfg} {q : ℕ × ℕ} (ht : q.2 < g.C) {v : Vals} (hv : Valid g v) (c : ℕ) :
    (cStep g.L q v).getD c 0 = if c = q.2 then (v.getD q.1 0 + v.getD c 0) % g.L else v.getD c 0 := by
  rw [cStep, getD_set v (by rw [hv.1]; exact ht)]
  by_cases h : c = q.2
  · subst h; rfl
  · rw [if_neg h, if_neg h]

/-- the effect of all shifts -/
theorem foldl_sStep {g : Cfg} (hL : 1 ≤ g.L) (l : List (ℤ × ℕ)) (hl : ∀ q ∈ l, q.2 < g.C) {v : Vals} (hv : Valid g v) {c : ℕ} (hc : c < g.C) :
    ((l.foldl (fun v q => sStep g.L q v) v).getD c 0 : ℤ)
      = ((v.getD c 0 : ℤ) + ((l.filter (fun q => q.2 = c)).map Prod.fst).sum) % (g.L : ℤ) := by
  induction l generalizing v with
  | nil =>
    have := valid_getD hv hc
    simp only [List.foldl_nil, List.filter_nil, List.map_nil, List.sum_nil, add_zero]
    rw [Int.emod_eq_of_lt (by omega) (by omega)]
  | cons q l ih =>
    rw [List.foldl_cons, ih (fun q hq => hl q (by simp [hq])) (sStep_valid hL q hv), sStep_getD (hl q (by simp)) hv, List.filter_cons]
    by_cases h : c = q.2
    · rw [if_pos h, if_pos (by simp [h]), List.map_cons, List.sum_cons, addMod_cast hL, Int.emod_add_emod, add_assoc]
    · rw [if_neg h, if_neg (by simp only [decide_eq_true_eq]; exact fun e => h e.symm)]

/-- the effect of all controlled shifts, when no control channel is a target channel -/
theorem foldl_cStep {g : Cfg} (hL : 1 ≤ g.L) (l : List (ℕ × ℕ)) (hl : ∀ q ∈ l, q.2 < g.C) (hd : ∀ q ∈ l, ∀ r ∈ l, q.1 ≠ r.2)
    {v : Vals} (hv : Valid g v) {c : ℕ} (hc : c < g.C) :
    (l.foldl (fun v q => cStep g.L q v) v).getD c 0
      = (v.getD c 0 + ((l.filter (fun q => q.2 = c)).map (fun q => v.getD q.1 0)).sum) % g.L := by
  induction l generalizing v with
  | nil =>
    have := valid_getD hv hc
    simp only [List.foldl_nil, List.filter_nil, List.map_nil, List.sum_nil, add_zero]
    rw [Nat.mod_eq_of_lt this]
  | cons q l ih =>
    rw [List.foldl_cons, ih (fun q hq => hl q (by simp [hq])) (fun q hq r hr => hd q (by simp [hq]) r (by simp [hr])) (cStep_valid hL q hv),
      cStep_getD (hl q (by simp)) hv, List.filter_cons]
    have e : (l.filter (fun q => q.2 = c)).map (fun r => (cStep g.L q v).getD r.1 0) = (l.filter (fun q => q.2 = c)).map (fun r => v.getD r.1 0) := by
      apply List.map_congr_left
      intro r hr
      have hr := (List.mem_filter.1 hr).1
      rw [cStep_getD (hl q (by simp)) hv, if_neg (hd r (by simp [hr]) q (by simp))]
    rw [e]
    by_cases h : c = q.2
    · rw [if_pos h, if_pos (by simp [h]), List.map_cons, List.sum_cons, Nat.mod_add_mod]
      congr 1; ring
    · rw [if_neg h, if_neg (by simp only [decide_eq_true_eq]; exact fun e => h e.symm)]

/-! ### direct constructions -/

theorem shiftValues_eq {g : Cfg} (hL : 1 ≤ g.L) (targets : List ℕ) (shifts : List ℤ) (ht : ∀ q ∈ shifts.zip targets, q.2 < g.C) {v : Vals}
    (hv : Valid g v) : shiftValues g.L targets shifts v = some ((shifts.zip targets).foldl (fun v q => sStep g.L q v) v) := by
  unfold shiftValues
  generalize shifts.zip targets = l at ht
  induction l generalizing v with
  | nil => rfl
  | cons q l ih =>
    have hq : q.2 < v.length := by rw [hv.1]; exact ht q (by simp)
    rw [List.foldlM_cons, List.getElem?_eq_getElem hq, Option.map_some, Option.bind_eq_bind, Option.bind_some, List.foldl_cons]
    have e : v.set q.2 (addMod g.L q.1 v[q.2]) = sStep g.L q v := by
      rw [sStep, List.getD_eq_getElem _ _ hq]
    rw [e]
    exact ih (sStep_valid hL q hv) (fun q hq => ht q (by simp [hq]))

theorem cShiftValues_eq {g : Cfg} (hL : 1 ≤ g.L) (controls targets : List ℕ) (ht : ∀ q ∈ controls.zip targets, q.1 < g.C ∧ q.2 < g.C) {v : Vals}
    (hv : Valid g v) : cShiftValues g.L controls targets v = some ((controls.zip targets).foldl (fun v q => cStep g.L q v) v) := by
  unfold cShiftValues
  generalize controls.zip targets = l at ht
  induction l generalizing v with
  | nil => rfl
  | cons q l ih =>
    have hq : q.2 < v.length := by rw [hv.1]; exact (ht q (by simp)).2
    have hq1 : q.1 < v.length := by rw [hv.1]; exact (ht q (by simp)).1
    rw [List.foldlM_cons, List.getElem?_eq_getElem hq, List.getElem?_eq_getElem hq1, Option.bind_some, Option.map_some, Option.bind_eq_bind,
      Option.bind_some, List.foldl_cons]
    have e : v.set q.2 ((v[q.2] + v[q.1]) % g.L) = cStep g.L q v := by
      rw [cStep, List.getD_eq_getElem _ _ hq, List.getD_eq_getElem _ _ hq1, add_comm]
    rw [e]
    exact ih (cStep_valid hL q hv) (fun q hq => ht q (by simp [hq]))

theorem moveComps_eq {g : Cfg} {move : Vals → Option Vals} {F : Vals → Vals} (hm : ∀ v, Valid g v → move v = some (F v))
    (hF : ∀ v, Valid g v → Valid g (F v)) (hi : ∀ v w, Valid g v → Valid g w → F v = F w → v = w) {l : VComps} (hl : VOk g l) :
    moveComps g move (enc g l) = some (enc g (l.map (fun p => (F p.1, p.2)))) ∧ VOk g (l.map (fun p => (F p.1, p.2))) := by
  have hok : VOk g (l.map (fun p => (F p.1, p.2))) := by
    refine ⟨?_, ?_⟩
    · rw [List.map_map]
      have : (Prod.fst ∘ fun p : Vals × Comp => (F p.1, p.2)) = F ∘ Prod.fst := rfl
      rw [this, ← List.map_map]
      refine List.Nodup.map_on ?_ hl.nodup
      intro v hv w hw e
      obtain ⟨p, hp, rfl⟩ := List.mem_map.1 hv
      obtain ⟨q, hq, rfl⟩ := List.mem_map.1 hw
      exact hi _ _ (hl.valid p hp) (hl.valid q hq) e
    · intro p hp
      obtain ⟨p, hp', rfl⟩ := List.mem_map.1 hp
      exact hF _ (hl.valid p hp')
  refine ⟨?_, hok⟩
  have e : (enc g l).foldlM (fun (d : Comps) p => do
      let v ← g.parse p.1
      let w ← move v
      let s ← g.render w
      some (d.set s p.2)) [] = some (enc g (l.map (fun p => (F p.1, p.2)))) := by
    rw [enc, List.foldlM_map, foldlM_eq_some (h := fun (d : Comps) p => d.set (g.stdName (F p.1)) p.2)]
    · rw [← foldl_set_enc_nodup _ hok, List.foldl_map]
    · intro d p hp
      have hv := hl.valid p hp
      simp only [g.parse_stdName hv.2, Option.bind_eq_bind, Option.bind_some, hm _ hv, g.render_of_valid (hF _ hv)]
  unfold moveComps
  rw [e]
  exact setFromDict_enc hok.valid

end Verif
