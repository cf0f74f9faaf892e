/-
What a measurement after optical elements finds (properties C117 to C119).
-/
import Verif.Spec.Born
import Verif.Spec.Plot
import Verif.Lemmas.Locality2
import Verif.Props.Creation
import Verif.Props.SpectralArgs
import Verif.Props.Measurement

namespace Verif
open Spec Props MvPolynomial

theorem findProb_sum {g : Cfg} (hL : 1 ≤ g.L) (thr : ℝ) (P : MvPolynomial Mode ℂ) (opt o : List ℕ) :
    findProb g thr P opt o = ∑ i ∈ Finset.range g.size, if outcomeOf opt (g.valuesFromIndex i) = o ∧ thr ≤ ‖amplitudeIn P none (g.valuesFromIndex i)‖ ^ 2
      then ‖amplitudeIn P none (g.valuesFromIndex i)‖ ^ 2 else 0 := by
  classical
  have hs : {w : Vals | Valid g w ∧ Reads opt w o ∧ thr ≤ ‖amplitudeIn P none w‖ ^ 2}
      = (((Finset.range g.size).image g.valuesFromIndex).filter (fun w => outcomeOf opt w = o ∧ thr ≤ ‖amplitudeIn P none w‖ ^ 2) : Finset Vals) := by
    ext w
    simp only [Set.mem_ofPred_eq, Finset.coe_filter, Finset.mem_image, Finset.mem_range]
    constructor
    · rintro ⟨hv, hr, ht⟩
      exact ⟨⟨g.indexOf w, g.indexOf_lt hv, g.valuesFromIndex_indexOf hv⟩, hr.symm, ht⟩
    · rintro ⟨⟨i, hi, rfl⟩, hr, ht⟩
      exact ⟨g.valid_valuesFromIndex hL i, hr.symm, ht⟩
  unfold findProb
  rw [hs, finsum_mem_coe_finset, Finset.sum_filter, Finset.sum_image]
  intro i hi j hj e
  rw [← g.indexOf_valuesFromIndex (Finset.mem_range.1 (Finset.mem_coe.1 hi)), e, g.indexOf_valuesFromIndex (Finset.mem_range.1 (Finset.mem_coe.1 hj))]

/-- leaving out small amplitudes makes the probability smaller, by little -/
theorem findProb_close {g : Cfg} (hL : 1 ≤ g.L) {thr : ℝ} (ht : 0 ≤ thr) (P : MvPolynomial Mode ℂ) (opt o : List ℕ) :
    findProb g thr P opt o ≤ findProb g 0 P opt o ∧ findProb g 0 P opt o ≤ findProb g thr P opt o + (g.L ^ g.C : ℕ) * thr := by
  rw [findProb_sum hL, findProb_sum hL]
  constructor
  · apply Finset.sum_le_sum
    intro i _
    have := sq_nonneg ‖amplitudeIn P none (g.valuesFromIndex i)‖
    split_ifs <;> simp_all
  · have e : ((g.L ^ g.C : ℕ) : ℝ) * thr = ∑ i ∈ Finset.range g.size, thr := by
      rw [Finset.sum_const, Finset.card_range, nsmul_eq_mul]; rfl
    rw [e, ← Finset.sum_add_distrib]
    apply Finset.sum_le_sum
    intro i _
    have := sq_nonneg ‖amplitudeIn P none (g.valuesFromIndex i)‖
    split_ifs with h1 h2 h2
    · linarith
    · have : ‖amplitudeIn P none (g.valuesFromIndex i)‖ ^ 2 < thr := by
        by_contra h; exact h2 ⟨h1.1, not_lt.1 h⟩
      linarith
    · linarith
    · linarith

/-- the Born rule for the pruned vector -/
theorem outcomeProb_born {g : Cfg} (hg : g.Ok) {thr : ℝ} (full : Bool) {gates : List Gate} {n : Opt × List ℕ} {l : List (Opt × List ℕ)}
    (hgn : List.Forall₂ (GateNode g) gates (n :: l)) {m : ℕ} {q : QState} (hq : Sendable g m q) {c' : Comps}
    (hc : applyOptical g thr full (standardKeys g) n l q.comps = some c') (hw : WellFormed g c') (opt o : List ℕ) :
    outcomeProb g opt c' o = findProb g thr (opticsSubst gates (statePolynomial g q)) opt o := by
  rw [outcomeProb_vec hg.1 hw, findProb_sum hg.1]
  refine Finset.sum_congr rfl fun i hi => ?_
  have hv := g.valid_valuesFromIndex hg.1 i
  have hA := C100_optics_partial g hg thr full gates n l hgn ⟨q, none⟩ hq.measurable.wf hq.nonempty hq.few c' hc _ hv _ ((isName_iff hv).2 rfl)
  rw [norm_part_sq]
  have e : vec g c' i = ampOf c' (g.stdName (g.valuesFromIndex i)) := by
    rw [← vec_index hv, g.indexOf_valuesFromIndex (Finset.mem_range.1 hi)]
  rw [e, hA]
  change (if _ then ‖prune thr (amplitudeIn (opticsSubst gates (statePolynomial g q)) none _)‖ ^ 2 else 0) = _
  unfold prune
  by_cases h1 : outcomeOf opt (g.valuesFromIndex i) = o
  · by_cases h2 : ‖amplitudeIn (opticsSubst gates (statePolynomial g q)) none (g.valuesFromIndex i)‖ ^ 2 < thr
    · rw [if_pos h1, if_pos h2, if_neg (fun h => absurd h.2 (not_le.2 h2))]; simp
    · rw [if_pos h1, if_neg h2, if_pos ⟨h1, not_lt.1 h2⟩]
  · rw [if_neg h1, if_neg (fun h => h1 h.1)]

/-- the classical values of a produced state show the outcome -/
theorem shown_produced {g : Cfg} {opt cls : List ℕ} (hlen : cls.length = opt.length) (hnd : cls.Nodup) {q q' : QState} {o : List ℕ}
    (h : Produced g opt cls q o q') (v : List ℕ) :
    Shown (cls.map (fun n : ℕ => (n : ℤ))) q' (v.map (fun n : ℕ => (n : ℝ))) ↔ v = o := by
  obtain ⟨p, hp⟩ : ∃ p, p ∈ q'.comps := by
    cases e : q'.comps with
    | nil => have := h.norm; rw [e] at this; simp [totalProb] at this
    | cons p _ => exact ⟨p, by simp⟩
  obtain ⟨w, hw, hn⟩ := h.wf.named p hp
  have hr := ((h.mem w p.1 hw hn).1 (List.mem_map_of_mem hp)).2
  have hcl : ∀ (i x n : ℕ), cls[i]? = some x → opt[i]? = some n → q'.classical[x]? = some (w.getD n 0 : ℝ) := by
    intro i x n hi hn'
    refine h.written i x n hi hn' ?_ w p.1 hw hn (List.mem_map_of_mem hp)
    intro j hj hj'
    have h1 := (List.getElem?_eq_some_iff.1 hi)
    have h2 := (List.getElem?_eq_some_iff.1 hj')
    obtain ⟨l1, e1⟩ := h1
    obtain ⟨l2, e2⟩ := h2
    exact absurd ((List.Nodup.getElem_inj_iff hnd).1 (e1.trans e2.symm)) (by omega)
  have hlo : o.length = cls.length := by rw [hr]; simp [hlen]
  have hval : ∀ (i x : ℕ), cls[i]? = some x → q'.classical[x]? = (o[i]?).map (fun n : ℕ => (n : ℝ)) := by
    intro i x hi
    obtain ⟨li, -⟩ := List.getElem?_eq_some_iff.1 hi
    obtain ⟨a, ho⟩ : ∃ a, opt[i]? = some a := ⟨_, List.getElem?_eq_getElem (by omega)⟩
    have hr' : o = opt.map (fun n => w.getD n 0) := hr
    rw [hcl i x _ hi ho, hr', List.getElem?_map, ho]
    rfl
  unfold Shown
  rw [List.forall₂_iff_get]
  simp only [List.length_map, List.get_eq_getElem, List.getElem_map, pyGet_nat]
  constructor
  · rintro ⟨hl, hf⟩
    apply List.ext_getElem (by omega)
    intro i h1 h2
    have := hf i (by omega) h1
    rw [hval i _ (List.getElem?_eq_getElem (by omega)), List.getElem?_eq_getElem h2] at this
    simpa using this.symm
  · rintro rfl
    refine ⟨by omega, fun i h1 h2 => ?_⟩
    rw [hval i _ (List.getElem?_eq_getElem (by omega)), List.getElem?_eq_getElem (by omega)]
    rfl

theorem outcomeProb_absent {g : Cfg} {opt : List ℕ} {c : Comps} {o : List ℕ} (h : ¬ Occurs g opt c o) : outcomeProb g opt c o = 0 := by
  unfold outcomeProb
  apply List.sum_eq_zero
  intro x hx
  obtain ⟨p, hp, rfl⟩ := List.mem_map.1 hx
  rw [if_neg]
  rintro ⟨v, hv, hn, hr⟩
  exact h ⟨v, p.1, hv, hn, List.mem_map_of_mem hp, hr⟩

/-- one measured state -/
theorem measure_shown {g : Cfg} {thr : ℝ} {m : ℕ} {q : QState} {opt cls : List ℕ} (hq : Measurable g m q) (hlen : cls.length = opt.length)
    (hnd : cls.Nodup) {qs : List QState} (h : measure g thr m q opt cls = some qs) (k : List Char) (v : List ℕ) :
    open Classical in (qs.map (fun s => if s.initial = k ∧ Shown (cls.map (fun n : ℕ => (n : ℤ))) s (v.map (fun n : ℕ => (n : ℝ))) then s.cum else 0)).sum
      = if q.initial = k then q.cum * outcomeProb g opt q.comps v else 0 := by
  classical
  obtain ⟨outs, hno, hocc, hf⟩ := C26_outcomes g thr m q opt cls hq hlen qs h
  have key : ∀ (os : List (List ℕ)) (qs : List QState), os.Nodup → List.Forall₂ (Produced g opt cls q) os qs →
      (qs.map (fun s => if s.initial = k ∧ Shown (cls.map (fun n : ℕ => (n : ℤ))) s (v.map (fun n : ℕ => (n : ℝ))) then s.cum else 0)).sum
        = if q.initial = k ∧ v ∈ os then q.cum * outcomeProb g opt q.comps v else 0 := by
    intro os qs hno hf
    induction hf with
    | nil => simp
    | @cons o q' os qs h1 _ ih =>
      rw [List.map_cons, List.sum_cons, ih (List.nodup_cons.1 hno).2, shown_produced hlen hnd h1, h1.initial, h1.cum]
      have hnm := (List.nodup_cons.1 hno).1
      by_cases hk : q.initial = k
      · by_cases hv : v = o
        · subst hv; simp [hk, hnm]
        · simp [hk, hv]
      · simp [hk]
  rw [key outs qs hno hf]
  by_cases hv : v ∈ outs
  · simp [hv]
  · rw [if_neg (fun h => hv h.2), outcomeProb_absent (fun h => hv ((hocc v).2 h))]; simp

theorem shown_nat {g : Cfg} {thr : ℝ} {m : ℕ} {q : QState} {opt cls : List ℕ} (hL : 1 ≤ g.L) (hq : Measurable g m q) (hlen : cls.length = opt.length)
    (hnd : cls.Nodup) {qs : List QState} (h : measure g thr m q opt cls = some qs) {s : QState} (hs : s ∈ qs) :
    ∃ v, ShownNat g.L (cls.map (fun n : ℕ => (n : ℤ))) s v := by
  obtain ⟨outs, -, hocc, hf⟩ := C26_outcomes g thr m q opt cls hq hlen qs h
  obtain ⟨i, hi, e⟩ := List.getElem_of_mem hs
  obtain ⟨hl, hget⟩ := List.forall₂_iff_get.1 hf
  have hp := hget i (by omega) hi
  simp only [List.get_eq_getElem] at hp
  rw [e] at hp
  refine ⟨outs[i]'(by omega), (shown_produced hlen hnd hp _).2 rfl, ?_⟩
  obtain ⟨v, s', hv, -, -, hr⟩ := (hocc _).1 (List.getElem_mem (by omega : i < outs.length))
  intro n hn
  have hr' : outs[i]'(by omega) = opt.map (fun n => v.getD n 0) := hr
  rw [hr'] at hn
  obtain ⟨x, -, rfl⟩ := List.mem_map.1 hn
  exact valid_getD_below hv hL x

/-- states produced by a measurement keep the initial label and the number of classical channels -/
theorem measured_kept {g : Cfg} {thr : ℝ} {m : ℕ} {q : QState} {opt cls : List ℕ} (hL : 1 ≤ g.L) (hq : Measurable g m q) (hlen : cls.length = opt.length)
    (hnd : cls.Nodup) (hcls : ∀ x ∈ cls, x < m) {qs : List QState} (h : measure g thr m q opt cls = some qs) {s : QState} (hs : s ∈ qs) :
    s.initial = q.initial ∧ s.classical.length = m := by
  obtain ⟨v, hsh, -⟩ := shown_nat hL hq hlen hnd h hs
  obtain ⟨outs, -, -, hf⟩ := C26_outcomes g thr m q opt cls hq hlen qs h
  obtain ⟨i, hi, e⟩ := List.getElem_of_mem hs
  obtain ⟨hl, hget⟩ := List.forall₂_iff_get.1 hf
  have hp := hget i (by omega) hi
  simp only [List.get_eq_getElem] at hp
  rw [e] at hp
  refine ⟨hp.initial, le_antisymm ?_ ?_⟩
  · have := hp.kept m (fun h => absurd (hcls m h) (lt_irrefl m))
    rw [List.getElem?_eq_none (l := q.classical) (by rw [hq.classical])] at this
    exact List.getElem?_eq_none_iff.1 this
  · by_contra hc
    push Not at hc
    have hm : s.classical[m - 1]? = none := List.getElem?_eq_none (by omega)
    by_cases hx : m - 1 ∈ cls
    · obtain ⟨j, hj, ej⟩ := List.getElem_of_mem hx
      obtain ⟨hl2, hg2⟩ := List.forall₂_iff_get.1 hsh
      have := hg2 j (by simpa using hj) (by rw [← hl2]; simpa using hj)
      simp only [List.get_eq_getElem, List.getElem_map, ej] at this
      rw [pyGet_nat, hm] at this
      exact absurd this (by simp)
    · have := hp.kept (m - 1) hx
      rw [hm, List.getElem?_eq_getElem (by rw [hq.classical]; omega)] at this
      exact absurd this (by simp)

theorem probOf_sum (coll : Coll) (P : QState → Prop) :
    probOf coll P = open Classical in ((coll.map Prod.snd).map (fun s => if P s then s.cum else 0)).sum := by
  classical
  unfold probOf
  induction coll with
  | nil => simp
  | cons p coll ih =>
    simp only [List.filter_cons, List.map_cons, List.sum_cons]
    rw [← ih]
    by_cases h : P p.2
    · simp [h]
    · simp [h]

/-- a collection whose states can be measured can be measured -/
theorem measureColl_of_parts {g : Cfg} {thr : ℝ} {m : ℕ} (kinds : List Bool) (idx : ℕ) {opt cls : List ℕ} {coll : Coll} (hid : (coll.map Prod.fst).Nodup)
    {qss : List (List QState)} (h : List.Forall₂ (fun p qs => measure g thr m p.2 opt cls = some qs) coll qss) :
    ∃ out, measureColl g thr m (measurementId kinds idx) opt cls coll = some out ∧ out.map Prod.snd = qss.flatten := by
  have hA : ∃ out, measureColl g thr m (measurementId kinds idx) opt cls coll = some out := by
    unfold measureColl
    have : ∀ (gs : Coll) (qs : List (List QState)) (acc : Coll), List.Forall₂ (fun p' qs1 => measure g thr m p'.2 opt cls = some qs1) gs qs →
        ∃ out, gs.foldlM (fun out iq => do
          let qs ← measure g thr m iq.2 opt cls
          some (qs.zipIdx.foldl (fun (out : Coll) qk => out.set (iq.1 ++ ['-', 'M'] ++ (measurementId kinds idx) ++ marker qk.2) qk.1) out)) acc
          = some out := by
      intro gs qs acc h
      induction h generalizing acc with
      | nil => exact ⟨acc, rfl⟩
      | cons h1 _ ih =>
        rw [List.foldlM_cons]
        simp only [h1, Option.bind_eq_bind, Option.bind_some]
        exact ih _
    exact this coll qss [] h
  obtain ⟨out, hA⟩ := hA
  obtain ⟨-, qss', hf, e⟩ := C29_no_state_lost g thr m kinds idx opt cls coll out hid hA
  refine ⟨out, hA, ?_⟩
  rw [e]
  congr 1
  clear hA e hid
  induction hf generalizing qss with
  | nil => cases h; rfl
  | cons h1 _ ih =>
    cases h with
    | cons h2 k1 =>
      rw [h1] at h2
      rw [Option.some.inj h2, ih k1]

/-! ### a single photon -/

theorem onePhoton_getD {C j : ℕ} (hj : j < C) (i : ℕ) : (onePhoton C j).getD i 0 = if i = j then 1 else 0 := by
  unfold onePhoton
  rw [List.getD_eq_getElem?_getD, List.getElem?_set]
  by_cases h : i = j
  · subst h; simp [hj]
  · rw [if_neg (fun e => h e.symm), if_neg h, List.getElem?_replicate]
    split <;> rfl

theorem onePhoton_valid {g : Cfg} (hL : 2 ≤ g.L) (j : ℕ) : Valid g (onePhoton g.C j) := by
  refine ⟨by simp [onePhoton], fun n hn => ?_⟩
  unfold onePhoton at hn
  rcases List.mem_or_eq_of_mem_set hn with h | h
  · rw [List.eq_of_mem_replicate h]; omega
  · omega

theorem onePhoton_sum {C j : ℕ} (hj : j < C) : (onePhoton C j).sum = 1 := by
  unfold onePhoton
  rw [List.sum_set]
  simp [hj]

theorem onePhoton_inj {C i j : ℕ} (hi : i < C) (hj : j < C) (h : onePhoton C i = onePhoton C j) : i = j := by
  have := onePhoton_getD hi i
  rw [h, onePhoton_getD hj, if_pos rfl] at this
  by_contra hne
  rw [if_neg hne] at this
  omega

theorem eq_onePhoton {g : Cfg} {v : Vals} (hv : Valid g v) (h : v.sum = 1) : ∃ j < g.C, v = onePhoton g.C j := by
  obtain ⟨hl, -⟩ := hv
  rw [← hl]
  clear hl
  induction v with
  | nil => simp at h
  | cons a v ih =>
    rw [List.sum_cons] at h
    rcases Nat.eq_zero_or_pos a with rfl | ha
    · obtain ⟨j, hj, e⟩ := ih (by omega)
      refine ⟨j + 1, by simpa using hj, ?_⟩
      conv_lhs => rw [e]
      simp [onePhoton, List.replicate_succ]
    · have ha1 : a = 1 := by omega
      have hs : v.sum = 0 := by omega
      refine ⟨0, by simp, ?_⟩
      subst ha1
      have : v = List.replicate v.length 0 := List.eq_replicate_iff.2 ⟨rfl, fun b hb => List.sum_eq_zero_iff.1 hs b hb⟩
      conv_lhs => rw [this]
      simp [onePhoton, List.replicate_succ]

theorem ketPoly_one {C j : ℕ} (hj : j < C) : ketPoly none (onePhoton C j) = X (j, none) := by
  rw [ketPoly_range, Finset.prod_eq_single j]
  · rw [onePhoton_getD hj, if_pos rfl]; simp
  · intro i _ hi
    rw [onePhoton_getD hj, if_neg hi]; simp
  · intro h
    exact absurd (Finset.mem_range.2 (by simpa [onePhoton] using hj)) h

/-- a field as polynomial -/
noncomputable def fieldPoly (C : ℕ) (u : ℕ → ℂ) : MvPolynomial Mode ℂ := ∑ j ∈ Finset.range C, MvPolynomial.C (u j) * X (j, none)

open Classical in
theorem fieldPoly_vec {g : Cfg} (hL : 2 ≤ g.L) (u : ℕ → ℂ) :
    fieldPoly g.C u = vecPoly g none (fun k => ∑ j ∈ Finset.range g.C, if g.valuesFromIndex k = onePhoton g.C j then u j else 0) := by
  unfold fieldPoly vecPoly
  simp only [map_sum, Finset.sum_mul]
  rw [Finset.sum_comm]
  refine Finset.sum_congr rfl fun j hj => ?_
  have hv := onePhoton_valid hL j
  rw [Finset.sum_eq_single (g.indexOf (onePhoton g.C j))]
  · rw [g.valuesFromIndex_indexOf hv, if_pos rfl, ketPoly_one (Finset.mem_range.1 hj)]
  · intro k hk hne
    rw [if_neg, C_0, zero_mul]
    intro e
    exact hne (by rw [← e, g.indexOf_valuesFromIndex (Finset.mem_range.1 hk)])
  · intro h; exact absurd (Finset.mem_range.2 (g.indexOf_lt hv)) h

open Classical in
theorem amplitudeIn_field {g : Cfg} (hg : g.Ok) (hL : 2 ≤ g.L) (u : ℕ → ℂ) {w : Vals} (hw : Valid g w) :
    amplitudeIn (fieldPoly g.C u) none w = ∑ j ∈ Finset.range g.C, if w = onePhoton g.C j then u j else 0 := by
  rw [fieldPoly_vec hL, amplitudeIn_vec hg none _ hw, g.valuesFromIndex_indexOf hw]

theorem statePoly_field {g : Cfg} (hL : 2 ≤ g.L) {q : QState} (h : WellFormed g q.comps) {u : ℕ → ℂ} (hu : SinglePhoton g q u) :
    statePolynomial g q = fieldPoly g.C u := by
  classical
  unfold statePolynomial
  rw [statePoly_vec (by omega) ⟨q, none⟩ h, fieldPoly_vec hL]
  refine vecPoly_congr fun k hk => ?_
  have hv := g.valid_valuesFromIndex (by omega : 1 ≤ g.L) k
  by_cases h1 : (g.valuesFromIndex k).sum = 1
  · obtain ⟨j, hj, e⟩ := eq_onePhoton hv h1
    rw [Finset.sum_eq_single j]
    · rw [if_pos e]
      show vec g q.comps k = u j
      rw [← hu.amp j hj _ ((isName_iff (onePhoton_valid hL j)).2 rfl), ← e]
      conv_lhs => rw [← g.indexOf_valuesFromIndex hk]
      exact vec_index hv _
    · intro i hi hne
      rw [if_neg]
      intro e'
      exact hne (onePhoton_inj (Finset.mem_range.1 hi) hj (e'.symm.trans e))
    · intro h; exact absurd (Finset.mem_range.2 hj) h
  · rw [Finset.sum_eq_zero]
    · show vec g q.comps k = 0
      by_contra h0
      apply h1
      rw [← g.indexOf_valuesFromIndex hk, vec_index hv, ampOf] at h0
      cases hget : Dict.get? q.comps (g.stdName (g.valuesFromIndex k)) with
      | none => rw [hget] at h0; exact absurd rfl h0
      | some p => exact hu.one _ (Dict.get?_mem hget) _ hv ((isName_iff hv).2 rfl)
    · intro j hj
      rw [if_neg]
      intro e
      rw [e, onePhoton_sum (Finset.mem_range.1 hj)] at h1
      exact h1 rfl

theorem gateSubst_field {C : ℕ} (e : Gate) (hh : e.h < C) (hc : e.c < C) (hne : e.h ≠ e.c) (u : ℕ → ℂ) :
    gateSubst e.M e.h e.c (fieldPoly C u) = fieldPoly C (fieldStep u e) := by
  have split : ∀ f : ℕ → MvPolynomial Mode ℂ, ∑ j ∈ Finset.range C, f j = f e.h + (f e.c + ∑ j ∈ ((Finset.range C).erase e.h).erase e.c, f j) := by
    intro f
    rw [Finset.add_sum_erase _ _ (Finset.mem_erase.2 ⟨hne.symm, Finset.mem_range.2 hc⟩), Finset.add_sum_erase _ _ (Finset.mem_range.2 hh)]
  unfold fieldPoly
  rw [map_sum]
  simp only [map_mul, gateSubst_C]
  rw [split, split]
  have hx : ∀ j, gateSubst e.M e.h e.c (X (j, none)) = if j = e.h then MvPolynomial.C (e.M 0 0) * X (e.h, none) + MvPolynomial.C (e.M 0 1) * X (e.c, none)
      else if j = e.c then MvPolynomial.C (e.M 1 0) * X (e.h, none) + MvPolynomial.C (e.M 1 1) * X (e.c, none) else X (j, none) := by
    intro j; unfold gateSubst; rw [aeval_X]
  have hrest : ∑ j ∈ ((Finset.range C).erase e.h).erase e.c, MvPolynomial.C (u j) * gateSubst e.M e.h e.c (X (j, none))
      = ∑ j ∈ ((Finset.range C).erase e.h).erase e.c, MvPolynomial.C (fieldStep u e j) * X (j, none) := by
    refine Finset.sum_congr rfl fun j hj => ?_
    simp only [Finset.mem_erase] at hj
    rw [hx, if_neg hj.2.1, if_neg hj.1]
    simp only [fieldStep, if_neg hj.2.1, if_neg hj.1]
  rw [hrest, hx, hx, if_pos rfl, if_neg hne.symm, if_pos rfl]
  simp only [fieldStep, if_true, if_neg hne.symm, C_add, C_mul]
  ring

theorem opticsSubst_field {g : Cfg} {gates : List Gate} {nodes : List (Opt × List ℕ)} (h : List.Forall₂ (GateNode g) gates nodes) (u : ℕ → ℂ) :
    opticsSubst gates (fieldPoly g.C u) = fieldPoly g.C (fieldAfter gates u) := by
  induction h generalizing u with
  | nil => rfl
  | @cons e n gates nodes h1 _ ih =>
    show opticsSubst gates (gateSubst e.M e.h e.c (fieldPoly g.C u)) = _
    rw [gateSubst_field e h1.h h1.c h1.ne, ih]
    rfl

open Classical in
theorem findProb_field {g : Cfg} (hg : g.Ok) (hL : 2 ≤ g.L) {thr : ℝ} (ht : 0 < thr) (u : ℕ → ℂ) (opt o : List ℕ) :
    findProb g thr (fieldPoly g.C u) opt o = ∑ j ∈ Finset.range g.C, if o = foundFor opt j ∧ thr ≤ ‖u j‖ ^ 2 then ‖u j‖ ^ 2 else 0 := by
  have hamp : ∀ j < g.C, amplitudeIn (fieldPoly g.C u) none (onePhoton g.C j) = u j := by
    intro j hj
    rw [amplitudeIn_field hg hL u (onePhoton_valid hL j), Finset.sum_eq_single j]
    · rw [if_pos rfl]
    · intro i hi hne
      rw [if_neg]
      intro e
      exact hne (onePhoton_inj hj (Finset.mem_range.1 hi) e).symm
    · intro h; exact absurd (Finset.mem_range.2 hj) h
  have hout : ∀ j < g.C, outcomeOf opt (onePhoton g.C j) = foundFor opt j := by
    intro j hj
    unfold outcomeOf foundFor
    exact List.map_congr_left fun x _ => onePhoton_getD hj x
  rw [findProb_sum hg.1]
  have himg : (Finset.range g.C).image (fun j => g.indexOf (onePhoton g.C j)) ⊆ Finset.range g.size := by
    intro i hi
    obtain ⟨j, -, rfl⟩ := Finset.mem_image.1 hi
    exact Finset.mem_range.2 (g.indexOf_lt (onePhoton_valid hL j))
  rw [← Finset.sum_subset himg, Finset.sum_image]
  · refine Finset.sum_congr rfl fun j hj => ?_
    have hj' := Finset.mem_range.1 hj
    simp only [g.valuesFromIndex_indexOf (onePhoton_valid hL j), hamp j hj', hout j hj']
    by_cases h : o = foundFor opt j
    · simp [h]
    · rw [if_neg (fun h' => h h'.1.symm), if_neg (fun h' => h h'.1)]
  · intro i hi j hj e
    refine onePhoton_inj (Finset.mem_range.1 (Finset.mem_coe.1 hi)) (Finset.mem_range.1 (Finset.mem_coe.1 hj)) ?_
    rw [← g.valuesFromIndex_indexOf (onePhoton_valid hL i), ← g.valuesFromIndex_indexOf (onePhoton_valid hL j)]
    exact congrArg g.valuesFromIndex e
  · intro i hi hni
    rw [if_neg]
    rintro ⟨-, h2⟩
    have hv := g.valid_valuesFromIndex hg.1 i
    rw [amplitudeIn_field hg hL u hv, Finset.sum_eq_zero] at h2
    · simp at h2; linarith
    · intro j hj
      rw [if_neg]
      intro e
      exact hni (Finset.mem_image.2 ⟨j, hj, by rw [← e, g.indexOf_valuesFromIndex (Finset.mem_range.1 hi)]⟩)

end Verif
