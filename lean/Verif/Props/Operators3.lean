/-
C59: the quantum operator gate acts linearly on the given channels and leaves the others alone.
-/
import Verif.Props.Operators2
import Verif.Props.State

namespace Verif.Props
open Verif Spec
open scoped Matrix

/-- The photon numbers of the given channels. -/
def readValues (ch : List ℕ) (v : Vals) : Vals := ch.map (fun c => v.getD c 0)

/-- The photon numbers `v` with those of the given channels replaced by `a`. -/
def withValues (ch : List ℕ) (a v : Vals) : Vals := (List.range v.length).map (fun c => if c ∈ ch then a.getD (ch.idxOf c) 0 else v.getD c 0)

theorem length_putValues (ch a v : List ℕ) : (putValues v ch a).length = v.length := by
  induction ch generalizing v a with
  | nil => simp [putValues]
  | cons c cs ih =>
    cases a with
    | nil => simp [putValues]
    | cons x xs => rw [putValues, ih, List.length_set]

theorem putValues_eq {ch a v : List ℕ} (hl : a.length = ch.length) (hn : ch.Nodup) (hb : ∀ c ∈ ch, c < v.length) :
    putValues v ch a = withValues ch a v := by
  induction ch generalizing v a with
  | nil =>
    cases a with
    | nil =>
      simp only [putValues, withValues, List.not_mem_nil, if_false]
      apply List.ext_getElem
      · simp
      · intro i h1 h2; simp [List.getD_eq_getElem?_getD, List.getElem?_eq_getElem h1]
    | cons x xs => simp at hl
  | cons c cs ih =>
    cases a with
    | nil => simp at hl
    | cons x xs =>
      rw [putValues, ih (by simpa using hl) (List.nodup_cons.1 hn).2 (fun y hy => by rw [List.length_set]; exact hb y (List.mem_cons_of_mem _ hy))]
      unfold withValues
      rw [List.length_set]
      apply List.map_congr_left
      intro y hy
      rw [List.mem_range] at hy
      have hc := (List.nodup_cons.1 hn).1
      by_cases hyc : y = c
      · subst hyc
        rw [if_neg hc, if_pos List.mem_cons_self, List.idxOf_cons_self, List.getD_eq_getElem?_getD, List.getElem?_set_self hy]
        rfl
      · by_cases hys : y ∈ cs
        · rw [if_pos hys, if_pos (List.mem_cons_of_mem _ hys), List.idxOf_cons_ne _ (fun h => hyc h.symm)]; rfl
        · rw [if_neg hys, if_neg (by simp [hyc, hys]), List.getD_eq_getElem?_getD, List.getElem?_set_ne (fun h => hyc h.symm),
            List.getD_eq_getElem?_getD]

theorem getD_withValues {ch a v : List ℕ} {c : ℕ} (hc : c < v.length) :
    (withValues ch a v).getD c 0 = if c ∈ ch then a.getD (ch.idxOf c) 0 else v.getD c 0 := by
  unfold withValues
  rw [List.getD_eq_getElem?_getD, List.getElem?_map, List.getElem?_range hc]
  rfl

theorem length_withValues (ch a v : List ℕ) : (withValues ch a v).length = v.length := by simp [withValues]

theorem ext_getD_nat {u v : List ℕ} (hl : u.length = v.length) (h : ∀ c < v.length, u.getD c 0 = v.getD c 0) : u = v := by
  apply List.ext_getElem hl
  intro i h1 h2
  have := h i h2
  rwa [List.getD_eq_getElem?_getD, List.getElem?_eq_getElem h1, List.getD_eq_getElem?_getD, List.getElem?_eq_getElem h2] at this

theorem read_with {ch a v : List ℕ} (hl : a.length = ch.length) (hn : ch.Nodup) (hb : ∀ c ∈ ch, c < v.length) :
    readValues ch (withValues ch a v) = a := by
  apply ext_getD_nat (by simp [readValues, hl])
  intro i hi
  unfold readValues
  rw [List.getD_eq_getElem?_getD, List.getElem?_map, List.getElem?_eq_getElem (hl ▸ hi)]
  simp only [Option.map_some, Option.getD_some]
  have hm : ch[i]'(hl ▸ hi) ∈ ch := List.getElem_mem _
  rw [getD_withValues (hb _ hm), if_pos hm, List.Nodup.idxOf_getElem hn]

theorem with_with_read {ch a v : List ℕ} : withValues ch (readValues ch v) (withValues ch a v) = v := by
  apply ext_getD_nat (by simp [length_withValues])
  intro c hc
  rw [getD_withValues (by rw [length_withValues]; exact hc)]
  by_cases h : c ∈ ch
  · rw [if_pos h]
    unfold readValues
    rw [List.getD_eq_getElem?_getD, List.getElem?_map, List.getElem?_eq_getElem (List.idxOf_lt_length_of_mem h)]
    simp
  · rw [if_neg h, getD_withValues hc, if_neg h]

theorem valid_with {g : Cfg} {ch a v : List ℕ} (hv : Valid g v) (hl : a.length = ch.length) (ha : ∀ x ∈ a, x < g.L) : Valid g (withValues ch a v) := by
  refine ⟨(length_withValues ch a v).trans hv.1, fun x hx => ?_⟩
  unfold withValues at hx
  obtain ⟨c, hc, rfl⟩ := List.mem_map.1 hx
  rw [List.mem_range] at hc
  by_cases h : c ∈ ch
  · rw [if_pos h]
    have : ch.idxOf c < a.length := hl ▸ List.idxOf_lt_length_of_mem h
    rw [List.getD_eq_getElem?_getD, List.getElem?_eq_getElem this]
    exact ha _ (List.getElem_mem _)
  · rw [if_neg h, List.getD_eq_getElem?_getD, List.getElem?_eq_getElem hc]
    exact hv.2 _ (List.getElem_mem _)

/-- A coefficient of the transition matrix as used: small ones are dropped. -/
noncomputable def keptCoeff (thr : ℝ) (c : ℂ) : ℂ := if keepCoeff thr c = true then c else 0

/-- **C59** Which coefficients are used: those whose modulus is above the square root of the threshold, up to the rounding to four digits (5e-5); the others count as 0. -/
theorem C59_kept (thr : ℝ) (ht : 0 ≤ thr) (c : ℂ) : (Real.sqrt thr + 1 / 20000 < ‖c‖ → keptCoeff thr c = c) ∧ (‖c‖ < Real.sqrt thr - 1 / 20000 → keptCoeff thr c = 0) ∧
    (keptCoeff thr c = c ∨ keptCoeff thr c = 0) := by
  have hr : |round4 ‖c‖ - ‖c‖| ≤ 1 / 20000 := by
    have hfl := Int.floor_le (‖c‖ * 10000)
    have hfl' := Int.lt_floor_add_one (‖c‖ * 10000)
    rw [abs_le]
    unfold round4 roundHalfEven
    split_ifs <;> push_cast <;> constructor <;> linarith
  obtain ⟨h1, h2⟩ := abs_le.1 hr
  have hs := Real.sqrt_nonneg thr
  refine ⟨fun h => ?_, fun h => ?_, ?_⟩
  · have : Real.sqrt thr < round4 ‖c‖ := by linarith
    have h3 : thr < round4 ‖c‖ ^ 2 := by
      calc thr = Real.sqrt thr ^ 2 := (Real.sq_sqrt ht).symm
        _ < _ := by nlinarith
    simp [keptCoeff, keepCoeff, h3]
  · have h4 : round4 ‖c‖ < Real.sqrt thr := by linarith
    have h5 : 0 ≤ round4 ‖c‖ := by
      unfold round4 roundHalfEven
      have : 0 ≤ ⌊‖c‖ * 10000⌋ := Int.floor_nonneg.2 (by positivity)
      split_ifs <;> positivity
    have h3 : ¬ thr < round4 ‖c‖ ^ 2 := by
      rw [not_lt]
      calc round4 ‖c‖ ^ 2 ≤ Real.sqrt thr ^ 2 := by nlinarith
        _ = thr := Real.sq_sqrt ht
    simp only [keptCoeff, keepCoeff, gt_iff_lt, h3, decide_false]
    simp
  · unfold keptCoeff
    split_ifs <;> simp

/-- the contribution of one component of the input -/
noncomputable def opTerms (g : Cfg) (thr : ℝ) (k : ℕ) (T : Matrix (Fin (g.L ^ k)) (Fin (g.L ^ k)) ℂ) (ch : List ℕ) (v : Vals) (a : ℂ) (i : Fin (g.L ^ k)) :
    List (Name × ℂ) :=
  ((List.finRange (g.L ^ k)).filter (fun j => keepCoeff thr (T i j))).map (fun (j : Fin (g.L ^ k)) =>
    (g.stdName (withValues ch (limValues g.L k j) v), T i j * a))

theorem limIndex_read {g : Cfg} (hL : 1 ≤ g.L) {k : ℕ} {ch v : List ℕ} (hk : ch.length = k) (hb : ∀ c ∈ ch, c < g.C) (hv : Valid g v) :
    ∃ i : Fin (g.L ^ k), limIndex g.L k (readValues ch v) = some (i : ℕ) ∧ limValues g.L k i = readValues ch v := by
  have hr : Valid (limCfg g.L k) (readValues ch v) := by
    refine ⟨by simp [readValues, hk, limCfg], fun x hx => ?_⟩
    obtain ⟨c, hc, rfl⟩ := List.mem_map.1 hx
    have hcl : c < v.length := by rw [hv.1]; exact hb c hc
    rw [List.getD_eq_getElem?_getD, List.getElem?_eq_getElem hcl]
    exact hv.2 _ (List.getElem_mem _)
  obtain ⟨h1, h2, h3⟩ := limIndex_eq hL hr
  exact ⟨⟨_, h2⟩, h1, h3⟩

theorem limValues_ok {L k : ℕ} (hL : 1 ≤ L) {ch : List ℕ} (hk : ch.length = k) (i : Fin (L ^ k)) :
    (limValues L k i).length = ch.length ∧ ∀ x ∈ limValues L k i, x < L := by
  obtain ⟨h1, h2⟩ := limValues_valid hL i.2
  exact ⟨h1.trans hk.symm, h2⟩

theorem sum_opTerms {g : Cfg} (hL : 1 ≤ g.L) (thr : ℝ) {k : ℕ} (T : Matrix (Fin (g.L ^ k)) (Fin (g.L ^ k)) ℂ) {ch : List ℕ} (hk : ch.length = k)
    (hn : ch.Nodup) (hb : ∀ c ∈ ch, c < g.C) {v w : Vals} (hv : Valid g v) (hw : Valid g w) (a : ℂ) {i j : Fin (g.L ^ k)}
    (hi : limValues g.L k i = readValues ch v) (hj : limValues g.L k j = readValues ch w) :
    listedSum (opTerms g thr k T ch v a i) (g.stdName w) =
      ∑ m : Fin (g.L ^ k), if g.stdName (withValues ch (limValues g.L k m) w) = g.stdName v then keptCoeff thr (T m j) * a else 0 := by
  have hbv : ∀ c ∈ ch, c < v.length := fun c hc => by rw [hv.1]; exact hb c hc
  have hbw : ∀ c ∈ ch, c < w.length := fun c hc => by rw [hw.1]; exact hb c hc
  have hl : ∀ m : Fin (g.L ^ k), (limValues g.L k m).length = ch.length := fun m => (limValues_ok hL hk m).1
  have hvalv : ∀ m : Fin (g.L ^ k), Valid g (withValues ch (limValues g.L k m) v) := fun m => valid_with hv (hl m) (limValues_ok hL hk m).2
  have hvalw : ∀ m : Fin (g.L ^ k), Valid g (withValues ch (limValues g.L k m) w) := fun m => valid_with hw (hl m) (limValues_ok hL hk m).2
  have lhs : listedSum (opTerms g thr k T ch v a i) (g.stdName w) =
      ∑ m : Fin (g.L ^ k), if g.stdName (withValues ch (limValues g.L k m) v) = g.stdName w then keptCoeff thr (T i m) * a else 0 := by
    have e : ∀ l : List (Fin (g.L ^ k)), listedSum ((l.filter (fun j => keepCoeff thr (T i j))).map (fun (j : Fin (g.L ^ k)) =>
        (g.stdName (withValues ch (limValues g.L k j) v), T i j * a))) (g.stdName w) =
        (l.map (fun m : Fin (g.L ^ k) => if g.stdName (withValues ch (limValues g.L k m) v) = g.stdName w then keptCoeff thr (T i m) * a else 0)).sum := by
      intro l
      induction l with
      | nil => rfl
      | cons m l ih =>
        rw [List.map_cons, List.sum_cons, ← ih]
        unfold listedSum keptCoeff
        by_cases hm : keepCoeff thr (T i m) = true
        · rw [List.filter_cons_of_pos (by exact hm), List.map_cons]
          by_cases hs : g.stdName (withValues ch (limValues g.L k m) v) = g.stdName w
          · rw [List.filter_cons_of_pos (by simpa using hs), if_pos hs, if_pos hm]; simp
          · rw [List.filter_cons_of_neg (by simpa using hs), if_neg hs, zero_add]
        · rw [List.filter_cons_of_neg (by exact hm), if_neg hm]
          split_ifs <;> simp
    unfold opTerms
    rw [e, ← List.sum_ofFn]
    congr 1
    rw [List.ofFn_eq_map]
  rw [lhs]
  by_cases hw' : withValues ch (limValues g.L k j) v = w
  · have hv' : withValues ch (limValues g.L k i) w = v := by rw [← hw', hi]; exact with_with_read
    rw [Finset.sum_eq_single j, Finset.sum_eq_single i]
    · rw [if_pos (by rw [hw']), if_pos (by rw [hv'])]
    · intro m _ hm
      rw [if_neg]
      intro h
      have h := g.stdName_inj (hvalw m).2 hv.2 h
      apply hm
      apply Fin.ext
      apply limValues_inj hL m.2 i.2
      rw [hi, ← h, read_with (hl m) hn hbw]
    · intro h; exact absurd (Finset.mem_univ _) h
    · intro m _ hm
      rw [if_neg]
      intro h
      have h := g.stdName_inj (hvalv m).2 hw.2 h
      apply hm
      apply Fin.ext
      apply limValues_inj hL m.2 j.2
      rw [hj, ← h, read_with (hl m) hn hbv]
    · intro h; exact absurd (Finset.mem_univ _) h
  · rw [Finset.sum_eq_zero, Finset.sum_eq_zero]
    · intro m _
      rw [if_neg]
      intro h
      have h := g.stdName_inj (hvalw m).2 hv.2 h
      apply hw'
      rw [← h, hj]
      exact with_with_read
    · intro m _
      rw [if_neg]
      intro h
      have h := g.stdName_inj (hvalv m).2 hw.2 h
      apply hw'
      have : limValues g.L k j = limValues g.L k m := by rw [hj, ← h, read_with (hl m) hn hbv]
      rw [this, h]

/-- C59: the operator gate applied to a state. With channels `ch` (different, existing, as many as the operator has), the amplitude of the photon numbers `w` in the
new state is `Σ_m T_{m, w|ch} · (old amplitude of w with the photon numbers of ch replaced by those of basis state m)`; coefficients that are rounded to something
not above the threshold are dropped. -/
theorem C59_gate {g : Cfg} (hg : g.Ok) (thr : ℝ) {k : ℕ} (T : Matrix (Fin (g.L ^ k)) (Fin (g.L ^ k)) ℂ) {ch : List ℕ} (hk : ch.length = k)
    (hn : ch.Nodup) (hb : ∀ c ∈ ch, c < g.C) {c : Comps} (hc : WellFormed g c) :
    ∃ c', operatorComps g thr k T ch c = some c' ∧ WellFormed g c' ∧ ProbsAgree c' ∧
      ∀ w, Valid g w → ∀ j : Fin (g.L ^ k), limValues g.L k j = ch.map (fun x => w.getD x 0) →
        ∀ s, IsName g w s → ampOf c' s = ∑ m : Fin (g.L ^ k), keptCoeff thr (T m j) * ampOf c (g.stdName (withValues ch (limValues g.L k m) w)) := by
  have hL := hg.1
  -- the list of new components
  have hstep : ∀ p ∈ c, ∃ l : List (Name × ℂ), ∃ v, Valid g v ∧ p.1 = g.stdName v ∧ ∃ i : Fin (g.L ^ k), limValues g.L k i = readValues ch v ∧
      l = opTerms g thr k T ch v p.2.amp i ∧ (do
        let values ← g.parse p.1
        let affected ← ch.mapM (fun ch => values[ch]?)
        let i ← limIndex g.L k affected
        if hi : i < g.L ^ k then
          ((List.finRange (g.L ^ k)).filter (fun j => keepCoeff thr (T ⟨i, hi⟩ j))).mapM (fun (j : Fin (g.L ^ k)) => do
            let name ← g.render (putValues values ch (limValues g.L k j))
            some (name, T ⟨i, hi⟩ j * p.2.amp))
        else none) = some l := by
    intro p hp
    obtain ⟨v, hv, hpv⟩ := hc.named' hp
    obtain ⟨i, h1, h2⟩ := limIndex_read hL hk hb hv
    refine ⟨_, v, hv, hpv, i, h2, rfl, ?_⟩
    have hbv : ∀ c ∈ ch, c < v.length := fun c hc => by rw [hv.1]; exact hb c hc
    have hm : ch.mapM (fun c => v[c]?) = some (readValues ch v) := by
      apply mapM_some_of
      intro x hx
      rw [List.getD_eq_getElem?_getD, List.getElem?_eq_getElem (hbv x hx)]; rfl
    rw [hpv, g.parse_stdName hv.2]
    simp only [Option.bind_eq_bind, Option.bind_some, hm, h1, dif_pos i.2]
    unfold opTerms
    apply mapM_some_of
    intro m _
    rw [putValues_eq (limValues_ok hL hk m).1 hn hbv, g.render_of_valid (valid_with hv (limValues_ok hL hk m).1 (limValues_ok hL hk m).2)]
    rfl
  choose! F hF using hstep
  have hm := mapM_some_of (f := fun p : Name × Comp => (do
        let values ← g.parse p.1
        let affected ← ch.mapM (fun ch => values[ch]?)
        let i ← limIndex g.L k affected
        if hi : i < g.L ^ k then
          ((List.finRange (g.L ^ k)).filter (fun j => keepCoeff thr (T ⟨i, hi⟩ j))).mapM (fun (j : Fin (g.L ^ k)) => do
            let name ← g.render (putValues values ch (limValues g.L k j))
            some (name, T ⟨i, hi⟩ j * p.2.amp))
        else none)) (g := F) (l := c) (fun p hp => by obtain ⟨v, _, _, i, _, _, h⟩ := hF p hp; exact h)
  have hlist : ∀ p ∈ (c.map F).flatten, ∃ v, Valid g v ∧ IsName g v p.1 := by
    intro q hq
    rw [List.mem_flatten] at hq
    obtain ⟨l, hl, hql⟩ := hq
    obtain ⟨p, hp, rfl⟩ := List.mem_map.1 hl
    obtain ⟨v, hv, _, i, _, he, _⟩ := hF p hp
    rw [he] at hql
    unfold opTerms at hql
    obtain ⟨m, _, rfl⟩ := List.mem_map.1 hql
    have := valid_with (ch := ch) hv (limValues_ok hL hk m).1 (limValues_ok hL hk m).2
    exact ⟨_, this, (isName_iff this).2 rfl⟩
  obtain ⟨c', h1, h2, h3, h4, -⟩ := setFromList_aux _ hlist
  refine ⟨c', ?_, h2, h3, ?_⟩
  · unfold operatorComps
    rw [hm]
    exact h1
  · intro w hw j hj s hs
    rw [(isName_iff hw).1 hs, h4]
    have hflat : ∀ d : Comps, (∀ p ∈ d, p ∈ c) → listedSum ((d.map F).flatten) (g.stdName w) =
        ∑ m : Fin (g.L ^ k), (d.map (fun p => if g.stdName (withValues ch (limValues g.L k m) w) = p.1 then keptCoeff thr (T m j) * p.2.amp else 0)).sum := by
      intro d
      induction d with
      | nil => intro _; simp [listedSum]
      | cons p d ih =>
        intro hd
        have e : listedSum (((p :: d).map F).flatten) (g.stdName w) = listedSum (F p) (g.stdName w) + listedSum ((d.map F).flatten) (g.stdName w) := by
          unfold listedSum
          rw [List.map_cons, List.flatten_cons, List.filter_append, List.map_append, List.sum_append]
        obtain ⟨v, hv, hpv, i, hi, he, _⟩ := hF p (hd p List.mem_cons_self)
        rw [e, ih (fun q hq => hd q (List.mem_cons_of_mem _ hq)), he, sum_opTerms hL thr T hk hn hb hv hw p.2.amp hi hj, ← Finset.sum_add_distrib]
        apply Finset.sum_congr rfl
        intro m _
        rw [List.map_cons, List.sum_cons, hpv]
    rw [hflat c (fun p hp => hp)]
    apply Finset.sum_congr rfl
    intro m _
    exact sum_match hc.nodup _ _

/-- C59: channels not in the list keep their photon numbers: every component of the new state with non-zero amplitude agrees outside the given channels with a component
of the old state. -/
theorem C59_other_channels {g : Cfg} (hg : g.Ok) (thr : ℝ) {k : ℕ} (T : Matrix (Fin (g.L ^ k)) (Fin (g.L ^ k)) ℂ) {ch : List ℕ} (hk : ch.length = k)
    (hn : ch.Nodup) (hb : ∀ c ∈ ch, c < g.C) {c c' : Comps} (hc : WellFormed g c) (h : operatorComps g thr k T ch c = some c')
    {w : Vals} (hw : Valid g w) (s : Name) (hs : IsName g w s) (ha : ampOf c' s ≠ 0) :
    ∃ v, Valid g v ∧ ampOf c (g.stdName v) ≠ 0 ∧ ∀ x, x ∉ ch → v.getD x 0 = w.getD x 0 := by
  obtain ⟨c'', h1, -, -, h4⟩ := C59_gate hg thr T hk hn hb hc
  rw [h] at h1
  obtain rfl := Option.some.inj h1
  obtain ⟨j, -, hj⟩ := limIndex_read hg.1 hk hb hw
  rw [h4 w hw j hj s hs] at ha
  obtain ⟨m, -, hm⟩ := Finset.exists_ne_zero_of_sum_ne_zero ha
  refine ⟨_, valid_with hw (limValues_ok hg.1 hk m).1 (limValues_ok hg.1 hk m).2, right_ne_zero_of_mul hm, fun x hx => ?_⟩
  by_cases hxl : x < w.length
  · rw [getD_withValues hxl, if_neg hx]
  · have : ∀ u : Vals, u.length = w.length → u.getD x 0 = 0 := by
      intro u hu
      rw [List.getD_eq_getElem?_getD, List.getElem?_eq_none (by omega)]; rfl
    rw [this _ (length_withValues _ _ _), this w rfl]

theorem sum_withValues {ch a w : List ℕ} (hl : a.length = ch.length) (hn : ch.Nodup) (hb : ∀ c ∈ ch, c < w.length) :
    (withValues ch a w).sum + (readValues ch w).sum = w.sum + a.sum := by
  rw [← putValues_eq hl hn hb]
  induction ch generalizing a w with
  | nil =>
    cases a with
    | nil => simp [putValues, readValues]
    | cons x xs => simp at hl
  | cons c cs ih =>
    cases a with
    | nil => simp at hl
    | cons x xs =>
      have hnc := List.nodup_cons.1 hn
      have := ih (a := xs) (w := w.set c x) (by simpa using hl) hnc.2 (fun y hy => by rw [List.length_set]; exact hb y (List.mem_cons_of_mem _ hy))
      have e : readValues cs (w.set c x) = readValues cs w := by
        apply List.map_congr_left
        intro y hy
        have : c ≠ y := fun h => hnc.1 (h ▸ hy)
        rw [List.getD_eq_getElem?_getD, List.getElem?_set_ne this, List.getD_eq_getElem?_getD]
      rw [e] at this
      have h2 := sum_set_nat w c x (hb c List.mem_cons_self)
      simp only [putValues, readValues, List.map_cons, List.sum_cons] at *
      omega

/-- C60: a gate from Hamiltonians with as many creations as annihilations in every term conserves the total number of photons: every component of the new state
has as many photons as some component of the old state. -/
theorem C60_gate {g : Cfg} (hg : g.Ok) (thr : ℝ) {p k : ℕ} {h : Ham} {rest : List Ham} (hc : ∀ c ∈ h.chans, c < k)
    (hbal : ∀ x ∈ h :: rest, Balanced h.chans x.ops) {T : Matrix (Fin (g.L ^ k)) (Fin (g.L ^ k)) ℂ} (hT : transition g.L p k h rest = some T)
    {ch : List ℕ} (hk : ch.length = k) (hn : ch.Nodup) (hb : ∀ c ∈ ch, c < g.C) {c c' : Comps} (hw : WellFormed g c)
    (ho : operatorComps g thr k T ch c = some c') {w : Vals} (hv : Valid g w) (s : Name) (hs : IsName g w s) (ha : ampOf c' s ≠ 0) :
    ∃ v, Valid g v ∧ ampOf c (g.stdName v) ≠ 0 ∧ v.sum = w.sum := by
  obtain ⟨c'', h1, -, -, h4⟩ := C59_gate hg thr T hk hn hb hw
  rw [ho] at h1
  obtain rfl := Option.some.inj h1
  obtain ⟨j, -, hj⟩ := limIndex_read hg.1 hk hb hv
  rw [h4 w hv j hj s hs] at ha
  obtain ⟨m, -, hm⟩ := Finset.exists_ne_zero_of_sum_ne_zero ha
  refine ⟨_, valid_with hv (limValues_ok hg.1 hk m).1 (limValues_ok hg.1 hk m).2, right_ne_zero_of_mul hm, ?_⟩
  have h5 := sum_withValues (limValues_ok hg.1 hk m).1 hn (fun c hc => by rw [hv.1]; exact hb c hc) (w := w)
  have h6 : (limValues g.L k m).sum = (limValues g.L k j).sum := by
    by_contra hne
    have := C60_transition hg.1 hc hbal hT m j hne
    apply left_ne_zero_of_mul hm
    unfold keptCoeff
    rw [this]; simp
  rw [hj] at h6
  omega

/-- Non-vacuity of the C60 and C59 hypotheses: a beam-splitter Hamiltonian on the channels 2 and 0 of a circuit. -/
example : Balanced [0, 0, 1, 1] [("+0-0".toList, 1), ("-0+0".toList, -1)] ∧ ([2, 0] : List ℕ).Nodup ∧
    ∃ T, transition 3 25 2 ⟨[("+0-0".toList, 1), ("-0+0".toList, -1)], [0, 0, 1, 1]⟩ [] = some T := by
  refine ⟨?_, by simp, ?_⟩
  · intro op hop
    simp only [List.mem_cons, List.not_mem_nil, or_false] at hop
    rcases hop with rfl | rfl <;> decide
  · obtain ⟨M, hM⟩ := C52_defined (L := 3) (k := 2) (by norm_num) (by norm_num) (chans := [0, 0, 1, 1]) (by simp) [("+0-0".toList, 1), ("-0+0".toList, -1)]
    unfold transition
    rw [if_pos (show numChannels [0, 0, 1, 1] = 2 from rfl), List.mapM_cons, hM]
    exact ⟨_, rfl⟩

/-- C62: what the code does: the operator channels of all Hamiltonians but the first are ignored. -/
theorem C62_actual (L p k : ℕ) (h : Ham) (rest rest' : List Ham) (hr : rest.map Ham.ops = rest'.map Ham.ops) :
    transition L p k h rest = transition L p k h rest' := by
  have e : ∀ l : List Ham, l.mapM (fun x => limMatrix L k h.chans x.ops) = (l.map Ham.ops).mapM (fun o => limMatrix L k h.chans o) := by
    intro l
    induction l with
    | nil => rfl
    | cons x l ih => rw [List.mapM_cons, List.map_cons, List.mapM_cons, ih]
  unfold transition
  rw [e, e, List.map_cons, List.map_cons, hr]

/-- C62 (partial): when all Hamiltonians have the same operator channels, every one acts on its own operator channels. -/
theorem C62_same_channels_partial (L p k : ℕ) (h : Ham) (rest : List Ham) (hk : numChannels h.chans = k) (hs : ∀ x ∈ rest, x.chans = h.chans) :
    transition L p k h rest =
      ((h :: rest).mapM (fun x => limMatrix L k x.chans x.ops)).map (fun l => combineMatrices (l.map (expMatrix p))) := by
  unfold transition
  rw [if_pos hk]
  congr 1
  have : ∀ l : List Ham, (∀ x ∈ l, x.chans = h.chans) →
      l.mapM (fun x => limMatrix L k h.chans x.ops) = l.mapM (fun x => limMatrix L k x.chans x.ops) := by
    intro l
    induction l with
    | nil => intro _; rfl
    | cons x l ih => intro hl; rw [List.mapM_cons, List.mapM_cons, ih (fun y hy => hl y (List.mem_cons_of_mem _ hy)), hl x List.mem_cons_self]
  exact this _ (fun x hx => by
    rcases List.mem_cons.1 hx with rfl | hx
    · rfl
    · exact hs x hx)

/-- C62 fails: behind a Hamiltonian on the channels 0 and 1, "create a photon in channel 1" and "create a photon in channel 0" give the same operator,
although their matrices differ. -/
theorem C62_fails : ∃ (h x y : Ham), numChannels h.chans = 2 ∧ x.chans = [1] ∧ y.chans = [0] ∧
    transition 2 25 2 h [x] = transition 2 25 2 h [y] ∧ (∃ T, transition 2 25 2 h [x] = some T) ∧
    limMatrix 2 2 x.chans x.ops ≠ limMatrix 2 2 y.chans y.ops := by
  refine ⟨⟨[("+-".toList, 1)], [0, 1]⟩, ⟨[("+".toList, 1)], [1]⟩, ⟨[("+".toList, 1)], [0]⟩, rfl, rfl, rfl, C62_actual _ _ _ _ _ _ rfl, ?_, ?_⟩
  · obtain ⟨M, hM⟩ := C52_defined (L := 2) (k := 2) (by norm_num) (by norm_num) (chans := [0, 1]) (by simp) [("+-".toList, 1)]
    obtain ⟨N, hN⟩ := C52_defined (L := 2) (k := 2) (by norm_num) (by norm_num) (chans := [0, 1]) (by simp) [("+".toList, 1)]
    unfold transition
    rw [if_pos (show numChannels [0, 1] = 2 from rfl), List.mapM_cons, hM, List.mapM_cons, hN]
    exact ⟨_, rfl⟩
  · obtain ⟨M, hM⟩ := C52_defined (L := 2) (k := 2) (by norm_num) (by norm_num) (chans := [1]) (by simp) [("+".toList, 1)]
    obtain ⟨N, hN⟩ := C52_defined (L := 2) (k := 2) (by norm_num) (by norm_num) (chans := [0]) (by simp) [("+".toList, 1)]
    simp only [hM, hN]
    intro h
    rw [Option.some.injEq] at h
    have h01 := congrFun (congrFun h 0) 1
    rw [C52_creation (by norm_num) (pre := []) (post := []) (c := 1) rfl (by simp) (by simp) hM 0 1,
      C52_creation (by norm_num) (pre := []) (post := []) (c := 0) rfl (by simp) (by simp) hN 0 1] at h01
    norm_num [limValues, List.replicate_succ] at h01

end Verif.Props
