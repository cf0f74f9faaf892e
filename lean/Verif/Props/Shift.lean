/-
Properties C42 (shift nodes), C43 (controlled shifts) and C56 (channel coupling).
-/
import Verif.Lemmas.Shift
import Mathlib.Tactic.FinCases

namespace Verif.Props
open Verif Spec

/-! ### general facts about matrices that move basis states -/

theorem foldr_eq_foldl_reverse {α : Type*} (step : α → Vals → Vals) (l : List α) (v : Vals) :
    l.foldr step v = l.reverse.foldl (fun v q => step q v) v := by
  rw [List.foldl_reverse]

theorem movesBy_congr {g : Cfg} (hL : 1 ≤ g.L) {F G : Vals → Vals} (h : ∀ v, Valid g v → F v = G v) {M : SqArr} (hM : MovesBy g F M) :
    MovesBy g G M :=
  ⟨hM.1, fun o ho i hi => by rw [hM.2 o ho i hi, h _ (g.valid_valuesFromIndex hL i)]⟩

theorem movesBy_transition {g : Cfg} {F : Vals → Vals} {M : SqArr} {R : Vals → Vals → Prop}
    (hM : MovesBy g F M) (hR : ∀ v w, Valid g v → Valid g w → (R v w ↔ w = F v)) : TransitionMatrix g R M := by
  refine ⟨hM.1, fun v w hv hw => ?_⟩
  have e := hM.2 _ (g.indexOf_lt hw) _ (g.indexOf_lt hv)
  rw [g.valuesFromIndex_indexOf hw, g.valuesFromIndex_indexOf hv] at e
  rw [hR v w hv hw]
  exact ⟨fun h => by rw [e, if_pos h], fun h => by rw [e, if_neg h]⟩

theorem surj_of_inj {g : Cfg} (hL : 1 ≤ g.L) {F : Vals → Vals} (hF : ∀ v, Valid g v → Valid g (F v))
    (hi : ∀ v w, Valid g v → Valid g w → F v = F w → v = w) {w : Vals} (hw : Valid g w) : ∃ v, Valid g v ∧ F v = w := by
  let f : Fin g.size → Fin g.size := fun i => ⟨g.indexOf (F (g.valuesFromIndex i)), g.indexOf_lt (hF _ (g.valid_valuesFromIndex hL i))⟩
  have hf : Function.Injective f := by
    intro i j h
    have h1 : g.indexOf (F (g.valuesFromIndex i)) = g.indexOf (F (g.valuesFromIndex j)) := congrArg Fin.val h
    have vi := g.valid_valuesFromIndex hL i
    have vj := g.valid_valuesFromIndex hL j
    have h2 : F (g.valuesFromIndex i) = F (g.valuesFromIndex j) := by
      rw [← g.valuesFromIndex_indexOf (hF _ vi), h1, g.valuesFromIndex_indexOf (hF _ vj)]
    have h3 := hi _ _ vi vj h2
    apply Fin.ext
    rw [← g.indexOf_valuesFromIndex i.2, h3, g.indexOf_valuesFromIndex j.2]
  obtain ⟨i, e⟩ := (Finite.injective_iff_surjective.1 hf) ⟨g.indexOf w, g.indexOf_lt hw⟩
  refine ⟨g.valuesFromIndex i, g.valid_valuesFromIndex hL i, ?_⟩
  have h1 : g.indexOf (F (g.valuesFromIndex i)) = g.indexOf w := congrArg Fin.val e
  rw [← g.valuesFromIndex_indexOf (hF _ (g.valid_valuesFromIndex hL i)), h1, g.valuesFromIndex_indexOf hw]

theorem permutation_of_inj {g : Cfg} (hL : 1 ≤ g.L) {F : Vals → Vals} (hF : ∀ v, Valid g v → Valid g (F v))
    (hi : ∀ v w, Valid g v → Valid g w → F v = F w → v = w) {R : Vals → Vals → Prop}
    (hR : ∀ v w, Valid g v → Valid g w → (R v w ↔ w = F v)) : IsPermutation g R := by
  refine ⟨fun v hv => ⟨F v, ⟨hF v hv, (hR v _ hv (hF v hv)).2 rfl⟩, ?_⟩, fun w hw => ?_⟩
  · rintro w ⟨hw, h⟩
    exact (hR v w hv hw).1 h
  · obtain ⟨v, hv, e⟩ := surj_of_inj hL hF hi hw
    refine ⟨v, ⟨hv, (hR v w hv hw).2 e.symm⟩, ?_⟩
    rintro u ⟨hu, h⟩
    exact hi _ _ hu hv (by rw [e, (hR u w hu hw).1 h])

theorem movesBy_unitary {g : Cfg} (hL : 1 ≤ g.L) {F : Vals → Vals} (hF : ∀ v, Valid g v → Valid g (F v))
    (hi : ∀ v w, Valid g v → Valid g w → F v = F w → v = w) {M : SqArr} (hM : MovesBy g F M) : IsUnitary M := by
  unfold IsUnitary
  rw [Matrix.mem_unitaryGroup_iff']
  ext i j
  rw [Matrix.mul_apply, Matrix.one_apply]
  have hi' : (i : ℕ) < g.size := by rw [← hM.1]; exact i.2
  have hj' : (j : ℕ) < g.size := by rw [← hM.1]; exact j.2
  have vi := g.valid_valuesFromIndex hL i
  have vj := g.valid_valuesFromIndex hL j
  let k : Fin M.size := ⟨g.indexOf (F (g.valuesFromIndex j)), lt_of_lt_of_eq (g.indexOf_lt (hF _ vj)) hM.1.symm⟩
  rw [Finset.sum_eq_single k]
  · simp only [toMatrix, Matrix.star_apply, k]
    rw [hM.2 _ (g.indexOf_lt (hF _ vj)) _ hi', hM.2 _ (g.indexOf_lt (hF _ vj)) _ hj', g.valuesFromIndex_indexOf (hF _ vj), if_pos rfl, mul_one]
    by_cases h : i = j
    · subst h; simp
    · rw [if_neg h, if_neg, star_zero]
      intro e
      have := hi _ _ vj vi e
      apply h
      apply Fin.ext
      rw [← g.indexOf_valuesFromIndex hi', ← this, g.indexOf_valuesFromIndex hj']
  · intro l _ hne
    have hl : (l : ℕ) < g.size := by rw [← hM.1]; exact l.2
    simp only [toMatrix, Matrix.star_apply]
    rw [hM.2 _ hl _ hj', if_neg, mul_zero]
    intro e
    apply hne
    apply Fin.ext
    simp only [k]
    rw [← e, g.indexOf_valuesFromIndex hl]
  · intro h; exact absurd (Finset.mem_univ _) h

/-- the result of multiplying the vector of a state with a matrix that moves basis states -/
theorem applyCustom_moves {g : Cfg} (hL : 1 ≤ g.L) {F : Vals → Vals} (hF : ∀ v, Valid g v → Valid g (F v))
    (hi : ∀ v w, Valid g v → Valid g w → F v = F w → v = w) {M : SqArr} (hM : MovesBy g F M) (thr : ℝ) {c : Comps} (h : WellFormed g c) :
    ∃ m, applyCustom g thr M c = some m ∧ WellFormed g m ∧ ProbsAgree m ∧ ∀ v, Valid g v →
      ampOf m (g.stdName (F v)) = if ‖ampOf c (g.stdName v)‖ ^ 2 < thr then 0 else ampOf c (g.stdName v) := by
  obtain ⟨x, hx, hxi⟩ := toVector_spec hL h
  obtain ⟨m, hm, hw, hp, -⟩ := fromVector_spec hL thr (M.mulVec x)
  refine ⟨m, ?_, hw, hp, ?_⟩
  · unfold applyCustom; rw [hx]; exact hm
  · intro v hv
    have hk := g.indexOf_lt (hF v hv)
    have e := vec_fromVector hL hm hk
    rw [vec_index (hF v hv)] at e
    have e2 : M.mulVec x (g.indexOf (F v)) = ampOf c (g.stdName v) := by
      unfold SqArr.mulVec
      rw [hM.1, Finset.sum_eq_single (g.indexOf v)]
      · rw [hM.2 _ hk _ (g.indexOf_lt hv), g.valuesFromIndex_indexOf (hF v hv), g.valuesFromIndex_indexOf hv, if_pos rfl, one_mul,
          hxi _ (g.indexOf_lt hv), vec_index hv]
      · intro i hi' hne
        have hi' := Finset.mem_range.1 hi'
        rw [hM.2 _ hk _ hi', if_neg, zero_mul]
        rw [g.valuesFromIndex_indexOf (hF v hv)]
        intro e
        apply hne
        rw [hi _ _ hv (g.valid_valuesFromIndex hL i) e, g.indexOf_valuesFromIndex hi']
      · intro h; exact absurd (Finset.mem_range.2 (g.indexOf_lt hv)) h
    rw [e, e2]

/-- the result of rewriting the components one by one -/
theorem moveComps_spec {g : Cfg} {move : Vals → Option Vals} {F : Vals → Vals} (hm : ∀ v, Valid g v → move v = some (F v))
    (hF : ∀ v, Valid g v → Valid g (F v)) (hi : ∀ v w, Valid g v → Valid g w → F v = F w → v = w) {c : Comps} (h : WellFormed g c) :
    ∃ d, moveComps g move c = some d ∧ WellFormed g d ∧ totalProb d = totalProb c ∧
      ∀ v, Valid g v → d.get? (g.stdName (F v)) = c.get? (g.stdName v) := by
  obtain ⟨l, hl, rfl⟩ := exists_enc h
  obtain ⟨e, hok⟩ := moveComps_eq hm hF hi hl
  refine ⟨_, e, wf_enc hok, ?_, ?_⟩
  · rw [totalProb_enc, totalProb_enc, List.map_map]; rfl
  · intro v hv
    rw [get?_enc hok.valid (hF v hv), get?_enc hl.valid hv]
    have hv' := hl.valid
    clear e hok hl h
    induction l with
    | nil => rfl
    | cons p l ih =>
      have ih := ih (fun q hq => hv' q (by simp [hq]))
      rw [List.map_cons, Dict.get?_cons, Dict.get?_cons]
      by_cases e : p.1 = v
      · rw [if_pos (by rw [e]), if_pos e]
      · rw [if_neg (fun h => e (hi _ _ (hv' p (by simp)) hv h)), if_neg e]
        exact ih

/-! ### shift -/

/-- the shifts of all listed channels -/
def shiftAll (g : Cfg) (l : List (ℤ × ℕ)) (v : Vals) : Vals := l.foldl (fun v q => sStep g.L q v) v

theorem shiftAll_valid {g : Cfg} (hL : 1 ≤ g.L) (l : List (ℤ × ℕ)) {v : Vals} (hv : Valid g v) : Valid g (shiftAll g l v) :=
  foldl_valid _ (fun q _ hv => sStep_valid hL q hv) l hv

theorem shiftAll_inj {g : Cfg} (hL : 1 ≤ g.L) (l : List (ℤ × ℕ)) (hl : ∀ q ∈ l, q.2 < g.C) {v w : Vals} (hv : Valid g v) (hw : Valid g w)
    (h : shiftAll g l v = shiftAll g l w) : v = w :=
  foldl_inj (g := g) (sStep g.L) (fun q _ hv => sStep_valid hL q hv) l (fun q hq _ _ hv hw h => sStep_inj hL (hl q hq) hv hw h) hv hw h

theorem shifted_iff {g : Cfg} (hL : 1 ≤ g.L) (targets : List ℕ) (shifts : List ℤ) (ht : ∀ q ∈ shifts.zip targets, q.2 < g.C) {v w : Vals}
    (hv : Valid g v) (hw : Valid g w) : Shifted g targets shifts v w ↔ w = shiftAll g (shifts.zip targets) v := by
  constructor
  · intro h
    apply vals_ext hw.1 (shiftAll_valid hL _ hv).1
    intro c hc
    have e := foldl_sStep hL (shifts.zip targets) ht hv hc
    have h := h c hc
    rw [← e] at h
    exact_mod_cast h
  · rintro rfl c hc
    exact foldl_sStep hL (shifts.zip targets) ht hv hc

theorem shiftAll_reverse {g : Cfg} (hL : 1 ≤ g.L) (l : List (ℤ × ℕ)) (hl : ∀ q ∈ l, q.2 < g.C) {v : Vals} (hv : Valid g v) :
    shiftAll g l.reverse v = shiftAll g l v := by
  apply vals_ext (g := g) (shiftAll_valid hL _ hv).1 (shiftAll_valid hL _ hv).1
  intro c hc
  have e1 := foldl_sStep hL l hl hv hc
  have e2 := foldl_sStep hL l.reverse (fun q hq => hl q (by simpa using hq)) hv hc
  rw [List.filter_reverse, List.map_reverse, List.sum_reverse, ← e1] at e2
  exact_mod_cast e2

theorem shiftMatrix_moves {g : Cfg} (hL : 1 ≤ g.L) (targets : List ℕ) (shifts : List ℤ) (hne : shifts.zip targets ≠ [])
    (ht : ∀ q ∈ shifts.zip targets, q.2 < g.C) :
    ∃ M, shiftMatrix g (standardKeys g) targets shifts = some M ∧ MovesBy g (shiftAll g (shifts.zip targets)) M := by
  unfold shiftMatrix
  generalize shifts.zip targets = l at hne ht
  match l with
  | [] => exact absurd rfl hne
  | p :: rest =>
    simp only
    rw [if_pos (by simpa using ht)]
    refine ⟨_, rfl, ?_⟩
    have h := movesBy_foldl hL (fun q : ℤ × ℕ => shiftMatrixOne g (standardKeys g) q.1 q.2) (sStep g.L) rest
      (fun q _ v hv => sStep_valid hL q hv) (fun q hq => shiftMatrixOne_moves hL q (ht q (by simp [hq])))
      (shiftMatrixOne_moves hL p (ht p (by simp)))
    refine movesBy_congr hL ?_ h
    intro v hv
    show (p :: rest).foldr (sStep g.L) v = _
    rw [foldr_eq_foldl_reverse]
    exact shiftAll_reverse hL (p :: rest) ht hv

/-- **C42** The matrix of a shift node sends each basis state to the basis state with, in every channel, the sum of the shifts
listed for the channel added modulo the length (channels listed twice are shifted twice), and to no other. -/
theorem C42_matrix (g : Cfg) (hg : g.Ok) (targets : List ℕ) (shifts : List ℤ) (hlen : shifts.length = targets.length) (hne : targets ≠ [])
    (ht : ∀ t ∈ targets, t < g.C) :
    ∃ M, shiftMatrix g (standardKeys g) targets shifts = some M ∧ TransitionMatrix g (Shifted g targets shifts) M ∧
      IsPermutation g (Shifted g targets shifts) ∧ IsUnitary M := by
  have ht' : ∀ q ∈ shifts.zip targets, q.2 < g.C := fun q hq => ht _ (List.of_mem_zip hq).2
  have hne' : shifts.zip targets ≠ [] := by
    intro h
    rw [List.zip_eq_nil_iff] at h
    rcases h with h | h
    · subst h; exact hne (List.length_eq_zero_iff.1 hlen.symm)
    · exact hne h
  obtain ⟨M, e, hM⟩ := shiftMatrix_moves hg.1 targets shifts hne' ht'
  have hF : ∀ v, Valid g v → Valid g (shiftAll g (shifts.zip targets) v) := fun v hv => shiftAll_valid hg.1 _ hv
  have hi : ∀ v w, Valid g v → Valid g w → shiftAll g (shifts.zip targets) v = shiftAll g (shifts.zip targets) w → v = w :=
    fun v w hv hw h => shiftAll_inj hg.1 _ ht' hv hw h
  exact ⟨M, e, movesBy_transition hM (fun v w hv hw => shifted_iff hg.1 _ _ ht' hv hw),
    permutation_of_inj hg.1 hF hi (fun v w hv hw => shifted_iff hg.1 _ _ ht' hv hw), movesBy_unitary hg.1 hF hi hM⟩

/-- **C42** `shift_direct` moves every component (amplitude and stored probability) to the shifted photon numbers, keeps the total
probability, and agrees with `shift`, except that `shift` drops components below the probability threshold. -/
theorem C42_direct (g : Cfg) (hg : g.Ok) (thr : ℝ) (targets : List ℕ) (shifts : List ℤ) (hlen : shifts.length = targets.length) (hne : targets ≠ [])
    (ht : ∀ t ∈ targets, t < g.C) (c : Comps) (h : WellFormed g c) (M : SqArr) (hM : shiftMatrix g (standardKeys g) targets shifts = some M) :
    ∃ d m, shiftDirect g targets shifts c = some d ∧ applyCustom g thr M c = some m ∧ WellFormed g d ∧ WellFormed g m ∧
      totalProb d = totalProb c ∧
      (∀ v w s t, Valid g v → Valid g w → IsName g v s → IsName g w t → Shifted g targets shifts v w → d.get? t = c.get? s) ∧
      (∀ v s, Valid g v → IsName g v s → ampOf m s = if ‖ampOf d s‖ ^ 2 < thr then 0 else ampOf d s) := by
  have ht' : ∀ q ∈ shifts.zip targets, q.2 < g.C := fun q hq => ht _ (List.of_mem_zip hq).2
  have hne' : shifts.zip targets ≠ [] := by
    intro h
    rw [List.zip_eq_nil_iff] at h
    rcases h with h | h
    · subst h; exact hne (List.length_eq_zero_iff.1 hlen.symm)
    · exact hne h
  obtain ⟨M', e, hM'⟩ := shiftMatrix_moves hg.1 targets shifts hne' ht'
  rw [hM] at e
  obtain rfl := Option.some.inj e
  have hF : ∀ v, Valid g v → Valid g (shiftAll g (shifts.zip targets) v) := fun v hv => shiftAll_valid hg.1 _ hv
  have hi : ∀ v w, Valid g v → Valid g w → shiftAll g (shifts.zip targets) v = shiftAll g (shifts.zip targets) w → v = w :=
    fun v w hv hw h => shiftAll_inj hg.1 _ ht' hv hw h
  obtain ⟨d, hd, hwd, htot, hget⟩ := moveComps_spec (fun v hv => shiftValues_eq hg.1 targets shifts ht' hv) hF hi h
  obtain ⟨m, hm, hwm, -, hamp⟩ := applyCustom_moves hg.1 hF hi hM' thr h
  refine ⟨d, m, hd, hm, hwd, hwm, htot, ?_, ?_⟩
  · intro v w s t hv hw hs ht'' hR
    rw [isName_iff hv] at hs
    rw [isName_iff hw] at ht''
    subst hs ht''
    rw [(shifted_iff hg.1 _ _ ht' hv hw).1 hR]
    exact hget v hv
  · intro w s hw hs
    rw [isName_iff hw] at hs
    subst hs
    obtain ⟨v, hv, e⟩ := surj_of_inj hg.1 hF hi hw
    subst e
    rw [hamp v hv]
    have : ampOf d (g.stdName (shiftAll g (shifts.zip targets) v)) = ampOf c (g.stdName v) := by
      exact congrArg (fun o : Option Comp => o.elim 0 Comp.amp) (hget v hv)
    rw [this]

theorem sum_neg_list (l : List ℤ) : (l.map Neg.neg).sum = - l.sum := by
  induction l with
  | nil => rfl
  | cons a l ih => rw [List.map_cons, List.sum_cons, List.sum_cons, ih]; ring

theorem filter_neg (shifts : List ℤ) (targets : List ℕ) (c : ℕ) :
    (((shifts.map Neg.neg).zip targets).filter (fun q => q.2 = c)).map Prod.fst
      = (((shifts.zip targets).filter (fun q => q.2 = c)).map Prod.fst).map Neg.neg := by
  induction shifts generalizing targets with
  | nil => rfl
  | cons a l ih =>
    cases targets with
    | nil => rfl
    | cons t ts =>
      rw [List.map_cons, List.zip_cons_cons, List.zip_cons_cons, List.filter_cons, List.filter_cons]
      by_cases h : t = c
      · simp only [h, decide_true, if_true, List.map_cons, ih]
      · simp only [h, decide_false, Bool.false_eq_true, if_false, ih]

theorem shiftAll_neg {g : Cfg} (hL : 1 ≤ g.L) (targets : List ℕ) (shifts : List ℤ) (ht : ∀ q ∈ shifts.zip targets, q.2 < g.C) {v : Vals}
    (hv : Valid g v) : shiftAll g ((shifts.map Neg.neg).zip targets) (shiftAll g (shifts.zip targets) v) = v := by
  have ht2 : ∀ q ∈ (shifts.map Neg.neg).zip targets, q.2 < g.C := by
    intro q hq
    rw [List.zip_map_left] at hq
    obtain ⟨r, hr, rfl⟩ := List.mem_map.1 hq
    exact ht r hr
  have hv1 := shiftAll_valid hL (shifts.zip targets) hv
  apply vals_ext (g := g) (shiftAll_valid hL _ hv1).1 hv.1
  intro c hc
  have e1 := foldl_sStep hL _ ht hv hc
  have e2 := foldl_sStep hL _ ht2 hv1 hc
  rw [filter_neg, sum_neg_list] at e2
  unfold shiftAll at *
  rw [e1, Int.emod_add_emod, add_neg_cancel_right] at e2
  have := valid_getD hv hc
  rw [Int.emod_eq_of_lt (by omega) (by omega)] at e2
  exact_mod_cast e2

/-- **C42** Opposite shifts undo each other: on photon numbers, and on every state (exactly the same components, in the same order). -/
theorem C42_undo (g : Cfg) (hg : g.Ok) (targets : List ℕ) (shifts : List ℤ) (ht : ∀ t ∈ targets, t < g.C) :
    (∀ v w, Valid g v → Valid g w → (Shifted g targets shifts v w ↔ Shifted g targets (shifts.map (fun s => -s)) w v)) ∧
    (∀ c, WellFormed g c → ∃ d, shiftDirect g targets shifts c = some d ∧ shiftDirect g targets (shifts.map (fun s => -s)) d = some c) := by
  have ht' : ∀ q ∈ shifts.zip targets, q.2 < g.C := fun q hq => ht _ (List.of_mem_zip hq).2
  have htn : ∀ q ∈ (shifts.map Neg.neg).zip targets, q.2 < g.C := fun q hq => ht _ (List.of_mem_zip hq).2
  have hi : ∀ v w, Valid g v → Valid g w → shiftAll g (shifts.zip targets) v = shiftAll g (shifts.zip targets) w → v = w :=
    fun v w hv hw h => shiftAll_inj hg.1 _ ht' hv hw h
  have hin : ∀ v w, Valid g v → Valid g w → shiftAll g ((shifts.map Neg.neg).zip targets) v = shiftAll g ((shifts.map Neg.neg).zip targets) w → v = w :=
    fun v w hv hw h => shiftAll_inj hg.1 _ htn hv hw h
  refine ⟨?_, ?_⟩
  · intro v w hv hw
    rw [shifted_iff hg.1 _ _ ht' hv hw]
    refine Iff.trans ?_ (shifted_iff hg.1 targets (shifts.map Neg.neg) htn hw hv).symm
    constructor
    · rintro rfl; exact (shiftAll_neg hg.1 targets shifts ht' hv).symm
    · intro h
      apply hin _ _ hw (shiftAll_valid hg.1 _ hv)
      rw [shiftAll_neg hg.1 targets shifts ht' hv, ← h]
  · intro c h
    obtain ⟨l, hl, rfl⟩ := exists_enc h
    obtain ⟨e, hok⟩ := moveComps_eq (fun v hv => shiftValues_eq hg.1 targets shifts ht' hv) (fun v hv => shiftAll_valid hg.1 _ hv) hi hl
    obtain ⟨e2, -⟩ := moveComps_eq (fun v hv => shiftValues_eq hg.1 targets (shifts.map Neg.neg) htn hv) (fun v hv => shiftAll_valid hg.1 _ hv) hin hok
    refine ⟨_, e, ?_⟩
    rw [shiftDirect]
    refine e2.trans ?_
    congr 2
    rw [List.map_map]
    conv_rhs => rw [← List.map_id l]
    apply List.map_congr_left
    intro p hp
    simp only [Function.comp_apply, id_eq]
    have := shiftAll_neg hg.1 targets shifts ht' (hl.valid p hp)
    unfold shiftAll at this
    rw [this]

/-- **C42** A target channel that does not exist is refused when the node is built (an index error), and so is an empty channel list. -/
theorem C42_refused (g : Cfg) (keys : List Vals) (targets : List ℕ) (shifts : List ℤ) (hlen : shifts.length = targets.length)
    (h : targets = [] ∨ ∃ t ∈ targets, g.C ≤ t) : shiftMatrix g keys targets shifts = none := by
  unfold shiftMatrix
  rcases h with h | ⟨t, ht, hC⟩
  · rw [h, List.zip_nil_right]
  · have : ∃ q ∈ shifts.zip targets, q.2 = t := by
      have : t ∈ (shifts.zip targets).map Prod.snd := by rw [List.map_snd_zip (by omega)]; exact ht
      obtain ⟨q, hq, e⟩ := List.mem_map.1 this
      exact ⟨q, hq, e⟩
    obtain ⟨q, hq, e⟩ := this
    generalize shifts.zip targets = l at hq
    match l with
    | [] => rfl
    | p :: rest =>
      simp only
      rw [if_neg]
      intro hall
      have := (List.all_eq_true.1 hall) q hq
      simp only [decide_eq_true_eq] at this
      omega

/-- Length 3, two channels, shift channel 0 by 2 and channel 1 by -1: the hypotheses of C42 hold and 10 goes to 02. -/
example : Shifted ⟨3, 2, true⟩ [0, 1] [2, -1] [1, 0] [0, 2] ∧ Cfg.Ok ⟨3, 2, true⟩ ∧
    shiftDirect ⟨3, 2, true⟩ [0, 1] [2, -1] [("10".toList, ⟨1, 1⟩)] = some [("02".toList, ⟨1, 1⟩)] := by
  refine ⟨?_, ?_, ?_⟩
  · intro c hc
    have : c = 0 ∨ c = 1 := by simp at hc; omega
    rcases this with rfl | rfl <;> simp
  · decide
  · rfl

/-! ### controlled shift -/

/-- the controlled shifts of all listed pairs -/
def cShiftAll (g : Cfg) (l : List (ℕ × ℕ)) (v : Vals) : Vals := l.foldl (fun v q => cStep g.L q v) v

theorem cShiftAll_valid {g : Cfg} (hL : 1 ≤ g.L) (l : List (ℕ × ℕ)) {v : Vals} (hv : Valid g v) : Valid g (cShiftAll g l v) :=
  foldl_valid _ (fun q _ hv => cStep_valid hL q hv) l hv

theorem cShiftAll_inj {g : Cfg} (hL : 1 ≤ g.L) (l : List (ℕ × ℕ)) (hl : ∀ q ∈ l, q.1 < g.C ∧ q.2 < g.C) (hne : ∀ q ∈ l, q.1 ≠ q.2) {v w : Vals}
    (hv : Valid g v) (hw : Valid g w) (h : cShiftAll g l v = cShiftAll g l w) : v = w :=
  foldl_inj (g := g) (cStep g.L) (fun q _ hv => cStep_valid hL q hv) l
    (fun q hq _ _ hv hw h => cStep_inj (hl q hq).1 (hl q hq).2 (hne q hq) hv hw h) hv hw h

theorem cShiftMatrix_moves {g : Cfg} (hL : 1 ≤ g.L) (controls targets : List ℕ) (hne : controls.zip targets ≠ [])
    (ht : ∀ q ∈ controls.zip targets, q.1 < g.C ∧ q.2 < g.C) :
    ∃ M, cShiftMatrix g (standardKeys g) controls targets = some M ∧ MovesBy g (cShiftAll g (controls.zip targets).reverse) M := by
  unfold cShiftMatrix
  generalize controls.zip targets = l at hne ht
  match l with
  | [] => exact absurd rfl hne
  | p :: rest =>
    simp only
    rw [if_pos (by simpa using ht)]
    refine ⟨_, rfl, ?_⟩
    have h := movesBy_foldl hL (fun q : ℕ × ℕ => cShiftMatrixOne g (standardKeys g) q.1 q.2) (cStep g.L) rest
      (fun q _ v hv => cStep_valid hL q hv) (fun q hq => cShiftMatrixOne_moves hL q (ht q (by simp [hq])).2)
      (cShiftMatrixOne_moves hL p (ht p (by simp)).2)
    refine movesBy_congr hL ?_ h
    intro v _
    show (p :: rest).foldr (cStep g.L) v = _
    rw [foldr_eq_foldl_reverse]
    rfl

theorem zip_reverse_of_length {α β : Type*} (a : List α) (b : List β) (h : a.length = b.length) : (a.zip b).reverse = a.reverse.zip b.reverse := by
  induction a generalizing b with
  | nil => cases b with
    | nil => rfl
    | cons _ _ => simp at h
  | cons x a ih => cases b with
    | nil => simp at h
    | cons y b =>
      rw [List.zip_cons_cons, List.reverse_cons, List.reverse_cons, List.reverse_cons, ih b (by simpa using h),
        List.zip_append (by simpa using h)]
      rfl

/-- **C43 (what the code does, for all lists of different control and target channels)** Applying the node `c_shift` to a state gives the
result of `c_shift_direct` with both channel lists reversed (except for components below the threshold): the matrix treats the last pair first. -/
theorem C43_reversed (g : Cfg) (hg : g.Ok) (thr : ℝ) (controls targets : List ℕ) (hlen : controls.length = targets.length) (hne : targets ≠ [])
    (hc : ∀ q ∈ controls.zip targets, q.1 < g.C ∧ q.2 < g.C ∧ q.1 ≠ q.2) (c : Comps) (h : WellFormed g c) :
    ∃ M d m, cShiftMatrix g (standardKeys g) controls targets = some M ∧ IsUnitary M ∧
      cShiftDirect g controls.reverse targets.reverse c = some d ∧ applyCustom g thr M c = some m ∧ totalProb d = totalProb c ∧
      (∀ v s, Valid g v → IsName g v s → ampOf m s = if ‖ampOf d s‖ ^ 2 < thr then 0 else ampOf d s) := by
  have hne' : controls.zip targets ≠ [] := by
    intro h
    rw [List.zip_eq_nil_iff] at h
    rcases h with h | h
    · subst h; exact hne (List.length_eq_zero_iff.1 hlen.symm)
    · exact hne h
  obtain ⟨M, e, hM⟩ := cShiftMatrix_moves hg.1 controls targets hne' (fun q hq => ⟨(hc q hq).1, (hc q hq).2.1⟩)
  rw [zip_reverse_of_length _ _ hlen] at hM
  have hr : ∀ q ∈ controls.reverse.zip targets.reverse, q.1 < g.C ∧ q.2 < g.C ∧ q.1 ≠ q.2 := by
    intro q hq
    rw [← zip_reverse_of_length _ _ hlen] at hq
    exact hc q (by simpa using hq)
  have hF : ∀ v, Valid g v → Valid g (cShiftAll g (controls.reverse.zip targets.reverse) v) := fun v hv => cShiftAll_valid hg.1 _ hv
  have hi : ∀ v w, Valid g v → Valid g w →
      cShiftAll g (controls.reverse.zip targets.reverse) v = cShiftAll g (controls.reverse.zip targets.reverse) w → v = w :=
    fun v w hv hw h => cShiftAll_inj hg.1 _ (fun q hq => ⟨(hr q hq).1, (hr q hq).2.1⟩) (fun q hq => (hr q hq).2.2) hv hw h
  obtain ⟨d, hd, -, htot, hget⟩ := moveComps_spec
    (fun v hv => cShiftValues_eq hg.1 controls.reverse targets.reverse (fun q hq => ⟨(hr q hq).1, (hr q hq).2.1⟩) hv) hF hi h
  obtain ⟨m, hm, -, -, hamp⟩ := applyCustom_moves hg.1 hF hi hM thr h
  refine ⟨M, d, m, e, movesBy_unitary hg.1 hF hi hM, hd, hm, htot, ?_⟩
  intro w s hw hs
  rw [isName_iff hw] at hs
  subst hs
  obtain ⟨v, hv, e⟩ := surj_of_inj hg.1 hF hi hw
  subst e
  rw [hamp v hv]
  have : ampOf d (g.stdName (cShiftAll g (controls.reverse.zip targets.reverse) v)) = ampOf c (g.stdName v) := by
    exact congrArg (fun o : Option Comp => o.elim 0 Comp.amp) (hget v hv)
  rw [this]

/-- **C43** When no control channel is also a target channel, `c_shift` and `c_shift_direct` agree, the matrix is a permutation matrix and adds
to each channel the photon numbers of all its control channels, modulo the length. Missing: lists where a target of one pair controls another. -/
theorem C43_partial (g : Cfg) (hg : g.Ok) (thr : ℝ) (controls targets : List ℕ) (hlen : controls.length = targets.length) (hne : targets ≠ [])
    (hc : ∀ a ∈ controls, a < g.C ∧ a ∉ targets) (ht : ∀ t ∈ targets, t < g.C) :
    ∃ M, cShiftMatrix g (standardKeys g) controls targets = some M ∧ TransitionMatrix g (CShifted g controls targets) M ∧
      IsPermutation g (CShifted g controls targets) ∧ IsUnitary M ∧
      ∀ c, WellFormed g c → ∃ d m, cShiftDirect g controls targets c = some d ∧ applyCustom g thr M c = some m ∧
        WellFormed g d ∧ WellFormed g m ∧ totalProb d = totalProb c ∧
        (∀ v w s t, Valid g v → Valid g w → IsName g v s → IsName g w t → CShifted g controls targets v w → d.get? t = c.get? s) ∧
        (∀ v s, Valid g v → IsName g v s → ampOf m s = if ‖ampOf d s‖ ^ 2 < thr then 0 else ampOf d s) := by
  have hne' : controls.zip targets ≠ [] := by
    intro h
    rw [List.zip_eq_nil_iff] at h
    rcases h with h | h
    · subst h; exact hne (List.length_eq_zero_iff.1 hlen.symm)
    · exact hne h
  have hz : ∀ q ∈ controls.zip targets, q.1 < g.C ∧ q.2 < g.C := fun q hq => ⟨(hc _ (List.of_mem_zip hq).1).1, ht _ (List.of_mem_zip hq).2⟩
  have hd : ∀ q ∈ controls.zip targets, ∀ r ∈ controls.zip targets, q.1 ≠ r.2 := fun q hq r hr e =>
    (hc _ (List.of_mem_zip hq).1).2 (e ▸ (List.of_mem_zip hr).2)
  have hF : ∀ v, Valid g v → Valid g (cShiftAll g (controls.zip targets) v) := fun v hv => cShiftAll_valid hg.1 _ hv
  have hi : ∀ v w, Valid g v → Valid g w → cShiftAll g (controls.zip targets) v = cShiftAll g (controls.zip targets) w → v = w :=
    fun v w hv hw h => cShiftAll_inj hg.1 _ hz (fun q hq => hd q hq q hq) hv hw h
  have hR : ∀ v w, Valid g v → Valid g w → (CShifted g controls targets v w ↔ w = cShiftAll g (controls.zip targets) v) := by
    intro v w hv hw
    constructor
    · intro h
      apply vals_ext hw.1 (hF v hv).1
      intro c hc
      rw [h c hc]
      exact (foldl_cStep hg.1 _ (fun q hq => (hz q hq).2) hd hv hc).symm
    · rintro rfl c hc
      exact foldl_cStep hg.1 _ (fun q hq => (hz q hq).2) hd hv hc
  have hrev : ∀ v, Valid g v → cShiftAll g (controls.zip targets).reverse v = cShiftAll g (controls.zip targets) v := by
    intro v hv
    apply vals_ext (g := g) (cShiftAll_valid hg.1 _ hv).1 (hF v hv).1
    intro c hc
    have e1 := foldl_cStep hg.1 _ (fun q hq => (hz q hq).2) hd hv hc
    have e2 := foldl_cStep hg.1 (controls.zip targets).reverse (fun q hq => (hz q (by simpa using hq)).2)
      (fun q hq r hr => hd q (by simpa using hq) r (by simpa using hr)) hv hc
    rw [List.filter_reverse, List.map_reverse, List.sum_reverse, ← e1] at e2
    exact e2
  obtain ⟨M, e, hM⟩ := cShiftMatrix_moves hg.1 controls targets hne' hz
  have hM := movesBy_congr hg.1 hrev hM
  refine ⟨M, e, movesBy_transition hM hR, permutation_of_inj hg.1 hF hi hR, movesBy_unitary hg.1 hF hi hM, ?_⟩
  intro c h
  obtain ⟨d, hd, hwd, htot, hget⟩ := moveComps_spec (fun v hv => cShiftValues_eq hg.1 controls targets hz hv) hF hi h
  obtain ⟨m, hm, hwm, -, hamp⟩ := applyCustom_moves hg.1 hF hi hM thr h
  refine ⟨d, m, hd, hm, hwd, hwm, htot, ?_, ?_⟩
  · intro v w s t hv hw hs ht'' hRvw
    rw [isName_iff hv] at hs
    rw [isName_iff hw] at ht''
    subst hs ht''
    rw [(hR v w hv hw).1 hRvw]
    exact hget v hv
  · intro w s hw hs
    rw [isName_iff hw] at hs
    subst hs
    obtain ⟨v, hv, e⟩ := surj_of_inj hg.1 hF hi hw
    subst e
    rw [hamp v hv]
    have : ampOf d (g.stdName (cShiftAll g (controls.zip targets) v)) = ampOf c (g.stdName v) := by
      exact congrArg (fun o : Option Comp => o.elim 0 Comp.amp) (hget v hv)
    rw [this]

/-- Length 3, four channels, controls 0 and 1, target 2 twice: the hypotheses of C43_partial hold. -/
example : CShifted ⟨3, 4, true⟩ [0, 1] [2, 2] [2, 1, 1, 0] [2, 1, 1, 0] ∧ CShifted ⟨3, 4, true⟩ [0, 1] [2, 2] [2, 0, 0, 1] [2, 0, 2, 1] ∧
    (∀ a ∈ [0, 1], a < (⟨3, 4, true⟩ : Cfg).C ∧ a ∉ [2, 2]) := by
  refine ⟨?_, ?_, by decide⟩ <;>
  · intro c hc
    have : c = 0 ∨ c = 1 ∨ c = 2 ∨ c = 3 := by simp at hc; omega
    rcases this with rfl | rfl | rfl | rfl <;> decide

/-- **C43 fails** when the target of one pair is the control of a later one: length 2, three channels, pairs (0 → 1) and (1 → 2). On |100⟩
`c_shift_direct` gives |111⟩ and `c_shift` gives |110⟩. -/
theorem C43_fails : ∃ M m, cShiftMatrix ⟨2, 3, true⟩ (standardKeys ⟨2, 3, true⟩) [0, 1] [1, 2] = some M ∧
    cShiftDirect ⟨2, 3, true⟩ [0, 1] [1, 2] [("100".toList, ⟨1, 1⟩)] = some [("111".toList, ⟨1, 1⟩)] ∧
    applyCustom ⟨2, 3, true⟩ (1/10000) M [("100".toList, ⟨1, 1⟩)] = some m ∧
    ampOf m "110".toList = 1 ∧ ampOf m "111".toList = 0 := by
  have hg : Cfg.Ok ⟨2, 3, true⟩ := by decide
  have hwf : WellFormed ⟨2, 3, true⟩ [("100".toList, ⟨1, 1⟩)] :=
    (wf_iff_enc (g := ⟨2, 3, true⟩)).2 ⟨[([1, 0, 0], ⟨1, 1⟩)], ⟨by simp, by intro p hp; simp at hp; subst hp; exact ⟨rfl, by decide⟩⟩, rfl⟩
  obtain ⟨M, d, m, hM, -, hd, hm, -, hamp⟩ := C43_reversed ⟨2, 3, true⟩ hg (1/10000) [0, 1] [1, 2] rfl (by simp) (by decide) _ hwf
  have hd' : cShiftDirect ⟨2, 3, true⟩ [0, 1].reverse [1, 2].reverse [("100".toList, ⟨1, 1⟩)] = some [("110".toList, ⟨1, 1⟩)] := rfl
  rw [hd] at hd'
  obtain rfl := Option.some.inj hd'
  refine ⟨M, m, hM, rfl, hm, ?_, ?_⟩
  · have := hamp [1, 1, 0] "110".toList ⟨rfl, by decide⟩ ((isName_iff ⟨rfl, by decide⟩).2 rfl)
    have e : ampOf [("110".toList, ⟨1, 1⟩)] "110".toList = 1 := by rw [ampOf_cons, if_pos rfl]
    rw [this, e, ← Complex.ofReal_one, Complex.norm_real, norm_one, if_neg (by norm_num)]
  · have := hamp [1, 1, 1] "111".toList ⟨rfl, by decide⟩ ((isName_iff ⟨rfl, by decide⟩).2 rfl)
    have e : ampOf [("110".toList, ⟨1, 1⟩)] "111".toList = 0 := by rw [ampOf_cons, if_neg (by simp), ampOf_nil]
    rw [this, e, ite_self]

/-- length 2, two channels, reading order left -/
def pairCfg : Cfg := ⟨2, 2, true⟩

theorem cShiftDirect_self (a : Comp) : cShiftDirect ⟨2, 2, true⟩ [0] [0] [("00".toList, a), ("10".toList, a)] = some [("00".toList, a)] := by
  have e := setFromDict_enc (g := pairCfg) (l := [([0, 0], a)]) (by
    intro p hp; simp only [List.mem_singleton] at hp; subst hp; exact ⟨rfl, by simp [pairCfg]⟩)
  have f : ([("00".toList, a), ("10".toList, a)] : Comps).foldlM (fun (d : Comps) p => do
    let v ← pairCfg.parse p.1
    let w ← cShiftValues pairCfg.L [0] [0] v
    let s ← pairCfg.render w
    some (d.set s p.2)) [] = some (enc pairCfg [([0, 0], a)]) := by
    have h1 : pairCfg.parse "00".toList = some [0, 0] := rfl
    have h2 : pairCfg.parse "10".toList = some [1, 0] := rfl
    have h3 : cShiftValues pairCfg.L [0] [0] [0, 0] = some [0, 0] := rfl
    have h4 : cShiftValues pairCfg.L [0] [0] [1, 0] = some [0, 0] := rfl
    have h5 : pairCfg.render [0, 0] = some "00".toList := rfl
    have h6 : pairCfg.stdName [0, 0] = "00".toList := rfl
    simp only [List.foldlM_cons, List.foldlM_nil, h1, h2, h3, h4, h5, Option.bind_eq_bind, Option.bind_some, enc, List.map_cons, List.map_nil, h6,
      Dict.set, if_true]
    rfl
  show moveComps pairCfg (cShiftValues pairCfg.L [0] [0]) _ = _
  unfold moveComps
  rw [f]
  exact e

/-- **C43 fails** also when a channel controls itself, which the documentation forbids but the code does not refuse: for length 2 the state
(|00⟩ + |10⟩)/√2 loses half of its probability in `c_shift_direct`, because both components get the same name. -/
theorem C43_self_fails : ∃ c d, WellFormed ⟨2, 2, true⟩ c ∧ totalProb c = 1 ∧ cShiftDirect ⟨2, 2, true⟩ [0] [0] c = some d ∧ totalProb d = 1 / 2 := by
  let a : Comp := ⟨(Real.sqrt (1/2) : ℂ), 1/2⟩
  have hn : ‖a.amp‖ ^ 2 = 1 / 2 := by
    simp only [a]
    rw [Complex.norm_real, Real.norm_eq_abs, sq_abs, Real.sq_sqrt (by norm_num)]
  refine ⟨[("00".toList, a), ("10".toList, a)], [("00".toList, a)], ?_, ?_, cShiftDirect_self a, ?_⟩
  · refine (wf_iff_enc (g := ⟨2, 2, true⟩)).2 ⟨[([0, 0], a), ([1, 0], a)], ⟨by simp, ?_⟩, rfl⟩
    intro p hp
    simp only [List.mem_cons, List.not_mem_nil, or_false] at hp
    rcases hp with rfl | rfl <;> exact ⟨rfl, by decide⟩
  · simp only [totalProb, List.map_cons, List.map_nil, List.sum_cons, List.sum_nil, hn]; norm_num
  · simp only [totalProb, List.map_cons, List.map_nil, List.sum_cons, List.sum_nil, hn]; norm_num

/-! ### channel coupling -/

theorem keysLen (g : Cfg) : (standardKeys g).length = g.size := by simp [standardKeys]

/-- the entries of the coupling matrix of one pair -/
theorem couplingOne_entry {g : Cfg} (hL : 1 ≤ g.L) (σ : ℝ) (q : ℕ × ℕ) (ht : q.2 < g.C) {o i : ℕ} (ho : o < g.size) (hi : i < g.size) :
    (couplingOne g (standardKeys g) σ q.1 q.2).at_ o i =
      if g.valuesFromIndex o = cStep g.L q (g.valuesFromIndex i) then (if i = o then 1 else (Real.sqrt σ : ℂ))
      else (if i = o then (Real.sqrt (1 - σ) : ℂ) else 0) := by
  simp only [couplingOne]
  rw [keys_getD ho, keys_getD hi]
  simp only [eq_set_iff (g.valid_valuesFromIndex hL i) (g.valid_valuesFromIndex hL o) ht]
  rfl

/-- **C56** One pair: a basis state that is changed by the controlled shift goes with probability `σ` to the shifted basis state and stays
with probability `1 - σ`; a basis state that is not changed stays. -/
theorem C56_single_pair_partial (g : Cfg) (hg : g.Ok) (σ : ℝ) (hσ : 0 ≤ σ ∧ σ ≤ 1) (a t : ℕ) (ha : a < g.C) (ht : t < g.C) :
    ∃ M, couplingMatrix g (standardKeys g) σ [a] [t] = some M ∧ M.size = g.L ^ g.C ∧
      ∀ v w u, Valid g v → Valid g w → Valid g u → CShifted g [a] [t] v w →
        (v ≠ w → ‖M.at_ (g.indexOf w) (g.indexOf v)‖ ^ 2 = σ ∧ ‖M.at_ (g.indexOf v) (g.indexOf v)‖ ^ 2 = 1 - σ ∧
          (u ≠ v → u ≠ w → M.at_ (g.indexOf u) (g.indexOf v) = 0)) ∧
        (v = w → M.at_ (g.indexOf v) (g.indexOf v) = 1 ∧ (u ≠ v → M.at_ (g.indexOf u) (g.indexOf v) = 0)) := by
  have hM : couplingMatrix g (standardKeys g) σ [a] [t] = some (SqArr.mul ⟨(standardKeys g).length, fun i j => if i = j then 1 else 0⟩
      (couplingOne g (standardKeys g) σ a t)) := by
    unfold couplingMatrix
    rw [if_pos (by simp [ha, ht])]
    rfl
  refine ⟨_, hM, keysLen g, ?_⟩
  intro v w u hv hw hu hR
  have hent : ∀ x, Valid g x → (SqArr.mul ⟨(standardKeys g).length, fun i j => if i = j then 1 else 0⟩
      (couplingOne g (standardKeys g) σ a t)).at_ (g.indexOf x) (g.indexOf v) =
      if x = w then (if v = x then 1 else (Real.sqrt σ : ℂ)) else (if v = x then (Real.sqrt (1 - σ) : ℂ) else 0) := by
    intro x hx
    have hw' : w = cStep g.L (a, t) v := by
      apply vals_ext hw.1 (cStep_valid hg.1 (a, t) hv).1
      intro c hc
      rw [cStep_getD (g := g) (q := (a, t)) ht hv, hR c hc]
      by_cases h : c = t
      · subst h; simp [add_comm]
      · rw [if_neg h]
        have : ¬ t = c := fun e => h e.symm
        simp [this, -List.getD_eq_getElem?_getD]
        exact Nat.mod_eq_of_lt (valid_getD hv hc)
    simp only [SqArr.mul]
    rw [Finset.sum_eq_single (g.indexOf x)]
    · rw [if_pos rfl, one_mul, couplingOne_entry hg.1 σ (a, t) ht (g.indexOf_lt hx) (g.indexOf_lt hv), g.valuesFromIndex_indexOf hx,
        g.valuesFromIndex_indexOf hv, ← hw']
      have : g.indexOf v = g.indexOf x ↔ v = x :=
        ⟨fun e => by rw [← g.valuesFromIndex_indexOf hv, e, g.valuesFromIndex_indexOf hx], fun e => by rw [e]⟩
      simp only [this]
    · intro k _ hne
      rw [if_neg (fun e => hne e.symm), zero_mul]
    · intro h
      exact absurd (Finset.mem_range.2 (by rw [keysLen]; exact g.indexOf_lt hx)) h
  have sq : ∀ r : ℝ, 0 ≤ r → ‖(Real.sqrt r : ℂ)‖ ^ 2 = r := fun r hr => by
    rw [Complex.norm_real, Real.norm_eq_abs, sq_abs, Real.sq_sqrt hr]
  refine ⟨fun hne => ⟨?_, ?_, ?_⟩, ?_⟩
  · rw [hent w hw, if_pos rfl, if_neg hne, sq _ hσ.1]
  · rw [hent v hv, if_neg hne, if_pos rfl, sq _ (by linarith [hσ.2])]
  · intro h1 h2
    rw [hent u hu, if_neg h2, if_neg (fun e => h1 e.symm)]
  · rintro rfl
    refine ⟨by rw [hent v hv, if_pos rfl, if_pos rfl], fun h => by rw [hent u hu, if_neg h, if_neg (fun e => h e.symm)]⟩

theorem couplingMatrix_moves {g : Cfg} (hL : 1 ≤ g.L) (σ : ℝ) (step : ℕ × ℕ → Vals → Vals) (controls targets : List ℕ)
    (ht : ∀ q ∈ controls.zip targets, q.1 < g.C ∧ q.2 < g.C) (hs : ∀ q v, Valid g v → Valid g (step q v))
    (ho : ∀ q ∈ controls.zip targets, MovesBy g (step q) (couplingOne g (standardKeys g) σ q.1 q.2)) :
    ∃ M, couplingMatrix g (standardKeys g) σ controls targets = some M ∧
      MovesBy g (fun v => (controls.zip targets).foldr step v) M := by
  refine ⟨_, by unfold couplingMatrix; rw [if_pos (by simpa using ht)], ?_⟩
  refine movesBy_foldl (F := id) hL (fun q : ℕ × ℕ => couplingOne g (standardKeys g) σ q.1 q.2) step _ (fun q _ => hs q) ho ?_
  refine ⟨keysLen g, ?_⟩
  intro o h1 i h2
  simp only [id_eq]
  have : g.valuesFromIndex o = g.valuesFromIndex i ↔ o = i :=
    ⟨fun e => by rw [← g.indexOf_valuesFromIndex h1, e, g.indexOf_valuesFromIndex h2], fun e => by rw [e]⟩
  simp only [this]

/-- **C56** With strength 0 the node does nothing: the matrix is the identity, for all lists of channels. -/
theorem C56_zero (g : Cfg) (hg : g.Ok) (controls targets : List ℕ) (ht : ∀ q ∈ controls.zip targets, q.1 < g.C ∧ q.2 < g.C) :
    ∃ M, couplingMatrix g (standardKeys g) 0 controls targets = some M ∧ TransitionMatrix g (fun v w => w = v) M := by
  obtain ⟨M, e, hM⟩ := couplingMatrix_moves hg.1 0 (fun _ v => v) controls targets ht (fun _ _ h => h) (by
    intro q hq
    refine ⟨keysLen g, ?_⟩
    intro o h1 i h2
    have : g.valuesFromIndex o = g.valuesFromIndex i ↔ i = o :=
      ⟨fun e => by rw [← g.indexOf_valuesFromIndex h1, e, g.indexOf_valuesFromIndex h2], fun e => by rw [e]⟩
    rw [couplingOne_entry hg.1 0 q (ht q hq).2 h1 h2]
    simp only [this, Real.sqrt_zero, sub_zero, Real.sqrt_one, Complex.ofReal_zero, Complex.ofReal_one, ite_self])
  refine ⟨M, e, movesBy_transition hM (fun v w _ _ => ?_)⟩
  have : ∀ l : List (ℕ × ℕ), l.foldr (fun (_ : ℕ × ℕ) (v : Vals) => v) v = v := by
    intro l; induction l with
    | nil => rfl
    | cons _ _ ih => exact ih
  simp only [this]

/-- **C56** With strength 1 the node is the controlled shift `c_shift`: the same matrix, for all lists of channels. -/
theorem C56_one (g : Cfg) (hg : g.Ok) (controls targets : List ℕ) (hne : controls.zip targets ≠ [])
    (ht : ∀ q ∈ controls.zip targets, q.1 < g.C ∧ q.2 < g.C) :
    ∃ M N, couplingMatrix g (standardKeys g) 1 controls targets = some M ∧ cShiftMatrix g (standardKeys g) controls targets = some N ∧
      M.size = N.size ∧ ∀ o < M.size, ∀ i < M.size, M.at_ o i = N.at_ o i := by
  obtain ⟨M, e, hM⟩ := couplingMatrix_moves hg.1 1 (cStep g.L) controls targets ht (fun q _ h => cStep_valid hg.1 q h) (by
    intro q hq
    refine ⟨keysLen g, ?_⟩
    intro o h1 i h2
    rw [couplingOne_entry hg.1 1 q (ht q hq).2 h1 h2]
    simp only [Real.sqrt_one, sub_self, Real.sqrt_zero, Complex.ofReal_zero, Complex.ofReal_one, ite_self])
  obtain ⟨N, e', hN⟩ := cShiftMatrix_moves hg.1 controls targets hne ht
  refine ⟨M, N, e, e', hM.1.trans hN.1.symm, ?_⟩
  intro o ho i hi
  rw [hM.1] at ho hi
  rw [hM.2 o ho i hi, hN.2 o ho i hi]
  simp only [foldr_eq_foldl_reverse]
  rfl

/-- **C56 fails** for strengths strictly between 0 and 1: length 2, two channels, one pair (0 → 1), strength 1/2. The normalised state
(|10⟩ + |11⟩)/√2 gets total probability 2 (both components move into each other, and the amplitudes add up). -/
theorem C56_fails : ∃ M c d, couplingMatrix ⟨2, 2, true⟩ (standardKeys ⟨2, 2, true⟩) (1/2) [0] [1] = some M ∧ WellFormed ⟨2, 2, true⟩ c ∧
    totalProb c = 1 ∧ applyCustom ⟨2, 2, true⟩ (1/10000) M c = some d ∧ totalProb d = 2 := by
  have hg : pairCfg.Ok := by decide
  let a : Comp := ⟨(Real.sqrt (1/2) : ℂ), 1/2⟩
  have hn : ‖a.amp‖ ^ 2 = 1 / 2 := by
    simp only [a]
    rw [Complex.norm_real, Real.norm_eq_abs, sq_abs, Real.sq_sqrt (by norm_num)]
  have hs : ((Real.sqrt (1/2) : ℝ) : ℂ) * ((Real.sqrt (1/2) : ℝ) : ℂ) = 1 / 2 := by
    rw [← Complex.ofReal_mul, Real.mul_self_sqrt (by norm_num)]; norm_num
  have hwf : WellFormed pairCfg [("10".toList, a), ("11".toList, a)] := by
    refine (wf_iff_enc (g := pairCfg)).2 ⟨[([1, 0], a), ([1, 1], a)], ⟨by simp, ?_⟩, rfl⟩
    intro p hp
    simp only [List.mem_cons, List.not_mem_nil, or_false] at hp
    rcases hp with rfl | rfl <;> exact ⟨rfl, by decide⟩
  let M : SqArr := SqArr.mul ⟨(standardKeys pairCfg).length, fun i j => if i = j then 1 else 0⟩ (couplingOne pairCfg (standardKeys pairCfg) (1/2) 0 1)
  have hM : couplingMatrix pairCfg (standardKeys pairCfg) (1/2) [0] [1] = some M := by
    unfold couplingMatrix
    rw [if_pos (by decide)]
    rfl
  obtain ⟨x, hx, hxi⟩ := toVector_spec (g := pairCfg) hg.1 hwf
  obtain ⟨d, hd, hwd, -, -⟩ := fromVector_spec (g := pairCfg) hg.1 (1/10000) (M.mulVec x)
  refine ⟨M, _, d, hM, hwf, ?_, ?_, ?_⟩
  · simp only [totalProb, List.map_cons, List.map_nil, List.sum_cons, List.sum_nil, hn]; norm_num
  · show applyCustom pairCfg (1/10000) M _ = _
    unfold applyCustom; rw [hx]; exact hd
  · have hent : ∀ o < 4, ∀ i < 4, M.at_ o i = if pairCfg.valuesFromIndex o = cStep pairCfg.L (0, 1) (pairCfg.valuesFromIndex i) then
        (if i = o then 1 else ((Real.sqrt (1/2) : ℝ) : ℂ)) else (if i = o then ((Real.sqrt (1/2) : ℝ) : ℂ) else 0) := by
      intro o ho i hi
      have := couplingOne_entry (g := pairCfg) hg.1 (1/2) (0, 1) (by decide) (o := o) (i := i) ho hi
      rw [show (1 : ℝ) - 1/2 = 1/2 by norm_num] at this
      rw [← this]
      simp only [M, SqArr.mul]
      rw [Finset.sum_eq_single o]
      · rw [if_pos rfl, one_mul]
      · intro k _ hne; rw [if_neg (fun e => hne e.symm), zero_mul]
      · intro h; exact absurd (Finset.mem_range.2 (by rw [keysLen]; exact ho)) h
    have hx0 : x 0 = 0 := by
      rw [hxi 0 (by decide)]; unfold vec
      rw [ampOf_cons, ampOf_cons, if_neg (by decide), if_neg (by decide), ampOf_nil]
    have hx1 : x 1 = a.amp := by
      rw [hxi 1 (by decide)]; unfold vec
      rw [ampOf_cons, if_pos (by decide)]
    have hx2 : x 2 = 0 := by
      rw [hxi 2 (by decide)]; unfold vec
      rw [ampOf_cons, ampOf_cons, if_neg (by decide), if_neg (by decide), ampOf_nil]
    have hx3 : x 3 = a.amp := by
      rw [hxi 3 (by decide)]; unfold vec
      rw [ampOf_cons, ampOf_cons, if_neg (by decide), if_pos (by decide)]
    have hmul : ∀ o, M.mulVec x o = M.at_ o 1 * a.amp + M.at_ o 3 * a.amp := by
      intro o
      have hsz : M.size = 4 := rfl
      unfold SqArr.mulVec
      rw [hsz, Finset.sum_range_succ, Finset.sum_range_succ, Finset.sum_range_succ, Finset.sum_range_succ, Finset.sum_range_zero, hx0, hx1, hx2, hx3]
      ring
    have y0 : M.mulVec x 0 = 0 := by
      rw [hmul, hent 0 (by decide) 1 (by decide), hent 0 (by decide) 3 (by decide), if_neg (by decide), if_neg (by decide), if_neg (by decide), if_neg (by decide)]
      ring
    have y1 : M.mulVec x 1 = 1 := by
      rw [hmul, hent 1 (by decide) 1 (by decide), hent 1 (by decide) 3 (by decide), if_neg (by decide), if_pos rfl, if_pos (by decide), if_neg (by decide)]
      simp only [a]
      rw [hs]; norm_num
    have y2 : M.mulVec x 2 = 0 := by
      rw [hmul, hent 2 (by decide) 1 (by decide), hent 2 (by decide) 3 (by decide), if_neg (by decide), if_neg (by decide), if_neg (by decide), if_neg (by decide)]
      ring
    have y3 : M.mulVec x 3 = 1 := by
      rw [hmul, hent 3 (by decide) 1 (by decide), hent 3 (by decide) 3 (by decide), if_pos (by decide), if_neg (by decide), if_neg (by decide), if_pos rfl]
      simp only [a]
      rw [hs]; norm_num
    have hone : ‖(1 : ℂ)‖ = 1 := by rw [← Complex.ofReal_one, Complex.norm_real, norm_one]
    rw [totalProb_eq hg.1 hwd]
    have hsz : pairCfg.size = 4 := rfl
    rw [hsz, Finset.sum_range_succ, Finset.sum_range_succ, Finset.sum_range_succ, Finset.sum_range_succ, Finset.sum_range_zero]
    rw [vec_fromVector hg.1 hd (i := 0) (by decide), vec_fromVector hg.1 hd (i := 1) (by decide), vec_fromVector hg.1 hd (i := 2) (by decide),
      vec_fromVector hg.1 hd (i := 3) (by decide), y0, y1, y2, y3, hone, ite_self, if_neg (by norm_num : ¬ ((1 : ℝ) ^ 2 < 1 / 10000)), hone, norm_zero]
    norm_num

end Verif.Props
