/- Helper lemmas: successive measurements. -/
import Verif.Spec.Successive
import Verif.Lemmas.Independent

namespace Verif
open Spec Props

theorem collapse_eq {g : Cfg} {thr : ℝ} (ht : 0 ≤ thr) {m : ℕ} {q : QState} (hq : Measurable g m q) {l : VComps} (hl : VOk g l) (e : q.comps = enc g l)
    (opt cls o : List ℕ) :
    collapse g thr m q cls o (itemsAt opt l o) = if probAt opt l o = 0 then none else (writeClassical cls o q.classical).map (fun cl =>
      ⟨q.initial, q.cum * probAt opt l o, enc g ((itemsAt opt l o).map (scaled (probAt opt l o))), cl, q.results ++ [⟨cl, probAt opt l o⟩]⟩) := by
  apply Option.ext
  intro q'
  rw [collapse_iff (itemsAt_nodup hl o) (itemsAt_valid hl o) (rfl : probAt opt l o = _)]
  have h1 := probAt_le opt l o
  have h2 := hq.total
  rw [e, totalProb_enc] at h2
  have h3 := probAt_nonneg opt l o
  have h4 := hq.cum0
  have h5 := hq.cum1
  have hm : mulCum q.cum (probAt opt l o) = some (q.cum * probAt opt l o) := mulCum_of_le (mul_nonneg h4 h3) (by nlinarith)
  by_cases h0 : probAt opt l o = 0
  · rw [if_pos h0]; simp [h0]
  · rw [if_neg h0, Option.map_eq_some_iff]
    constructor
    · rintro ⟨-, -, cum, cl, k1, k2, rfl⟩
      rw [hm] at k1
      obtain rfl := Option.some.inj k1
      exact ⟨cl, k2, rfl⟩
    · rintro ⟨cl, k2, rfl⟩
      exact ⟨h0, measurable_check hq ht, _, cl, hm, k2, rfl⟩

theorem measure_eq {g : Cfg} {thr : ℝ} {m : ℕ} {q : QState} {l : VComps} (hl : VOk g l) (e : q.comps = enc g l)
    {opt cls : List ℕ} (hlen : cls.length = opt.length) :
    measure g thr m q opt cls = (outcomes opt l).mapM (fun o => collapse g thr m q cls o (itemsAt opt l o)) := by
  apply Option.ext
  intro qs
  rw [measure_enc hl e, if_neg (by omega), forall₂_mapM]

/-- the components with one outcome, unscaled -/
def compsAt (opt : List ℕ) (l : VComps) (o : List ℕ) : VComps := l.filter (fun p => outcomeOf opt p.1 = o)

theorem itemsAt_eq (opt : List ℕ) (l : VComps) (o : List ℕ) : itemsAt opt l o = itemsOf (compsAt opt l o) := by
  unfold itemsAt itemsOf compsAt
  rw [List.filter_map]
  rfl

theorem outcomeOf_append (opt₁ opt₂ : List ℕ) (v : Vals) : outcomeOf (opt₁ ++ opt₂) v = outcomeOf opt₁ v ++ outcomeOf opt₂ v := by
  unfold outcomeOf; rw [List.map_append]

theorem outcomeOf_length (opt : List ℕ) (v : Vals) : (outcomeOf opt v).length = opt.length := by unfold outcomeOf; simp

/-- both outcomes together -/
theorem itemsAt_both (opt₁ opt₂ : List ℕ) (l : VComps) {o₁ o₂ : List ℕ} (h1 : o₁.length = opt₁.length) :
    itemsAt (opt₁ ++ opt₂) l (o₁ ++ o₂) = itemsAt opt₂ (compsAt opt₁ l o₁) o₂ := by
  unfold itemsAt itemsOf compsAt
  rw [List.filter_map, List.filter_map, List.filter_filter]
  congr 1
  apply List.filter_congr
  intro p _
  simp only [Function.comp_def, outcomeOf_append]
  by_cases ha : outcomeOf opt₁ p.1 = o₁
  · simp [ha]
  · have : ¬ (outcomeOf opt₁ p.1 ++ outcomeOf opt₂ p.1 = o₁ ++ o₂) := by
      intro h
      exact ha (List.append_inj h (by rw [outcomeOf_length, h1])).1
    simp [ha, this]

theorem outcomes_scaled (opt opt₂ : List ℕ) (l : VComps) (o : List ℕ) (tot : ℝ) :
    outcomes opt₂ ((itemsAt opt l o).map (scaled tot)) = outcomes opt₂ (compsAt opt l o) := by
  have hkeys : ∀ (x y : List (Vals × ℂ)), x.map Prod.fst = y.map Prod.fst →
      Dict.keys (groupBy (fun p : Vals × ℂ => outcomeOf opt₂ p.1) x) = Dict.keys (groupBy (fun p : Vals × ℂ => outcomeOf opt₂ p.1) y) := by
    intro x
    induction x using List.reverseRecOn with
    | nil =>
      intro y h
      have : y = [] := by simpa using h.symm
      rw [this]
    | append_singleton x a ih =>
      intro y h
      rcases List.eq_nil_or_concat y with rfl | ⟨y', b, rfl⟩
      · simp at h
      rw [List.concat_eq_append] at h ⊢
      rw [List.map_append, List.map_append] at h
      obtain ⟨e1, e2⟩ := List.append_inj' h (by simp)
      have e2 : a.1 = b.1 := by simpa using e2
      have := ih y' e1
      rw [groupBy_append, groupBy_append, e2]
      have hset : ∀ (d d' : Dict (List ℕ) (List (Vals × ℂ))) k v v', Dict.keys d = Dict.keys d' → Dict.keys (d.set k v) = Dict.keys (d'.set k v') := by
        intro d d' k v v' hd
        by_cases hk : k ∈ Dict.keys d
        · rw [Dict.keys_set_of_mem _ hk, Dict.keys_set_of_mem _ (hd ▸ hk), hd]
        · rw [Dict.keys_set_of_not_mem _ hk, Dict.keys_set_of_not_mem _ (hd ▸ hk), hd]
      exact hset _ _ _ _ _ this
  unfold outcomes
  apply hkeys
  rw [itemsAt_eq]
  unfold itemsOf
  simp only [List.map_map]
  rfl

theorem itemsAt_scaled (opt opt₂ : List ℕ) (l : VComps) (o o₂ : List ℕ) (tot : ℝ) :
    itemsAt opt₂ ((itemsAt opt l o).map (scaled tot)) o₂ = (itemsAt opt₂ (compsAt opt l o) o₂).map (fun p => (p.1, p.2 / (Real.sqrt tot : ℂ))) := by
  rw [itemsAt_eq opt l o]
  unfold itemsAt itemsOf
  simp only [List.map_map, List.filter_map]
  rfl

theorem probAt_scaled (opt opt₂ : List ℕ) (l : VComps) (o o₂ : List ℕ) {tot : ℝ} (h : 0 ≤ tot) :
    probAt opt₂ ((itemsAt opt l o).map (scaled tot)) o₂ = probAt opt₂ (compsAt opt l o) o₂ / tot := by
  have h1 := sum_scaled (itemsAt opt₂ (compsAt opt l o) o₂) tot h
  unfold probAt
  rw [itemsAt_scaled, ← h1, List.map_map, List.map_map]
  rfl

theorem probAt_both (opt₁ opt₂ : List ℕ) (l : VComps) {o₁ o₂ : List ℕ} (h1 : o₁.length = opt₁.length) :
    probAt (opt₁ ++ opt₂) l (o₁ ++ o₂) = probAt opt₂ (compsAt opt₁ l o₁) o₂ := by
  unfold probAt; rw [itemsAt_both _ _ _ h1]

theorem compsAt_prob (opt : List ℕ) (l : VComps) (o : List ℕ) : ((compsAt opt l o).map (fun p => ‖p.2.amp‖ ^ 2)).sum = probAt opt l o := by
  unfold probAt
  rw [itemsAt_eq]
  unfold itemsOf
  rw [List.map_map]
  rfl

/-- writing to the classical channels one after the other -/
theorem writeClassical_both (cls₁ cls₂ o₁ o₂ : List ℕ) (h : cls₁.length = o₁.length) (vals : List ℝ) :
    writeClassical (cls₁ ++ cls₂) (o₁ ++ o₂) vals = (writeClassical cls₁ o₁ vals).bind (writeClassical cls₂ o₂) := by
  have hfirst : ∀ (cls : List ℕ), cls.length ≤ o₁.length → writeClassical cls (o₁ ++ o₂) vals = writeClassical cls o₁ vals := by
    intro cls
    induction cls using List.reverseRecOn with
    | nil => intro _; rfl
    | append_singleton cls n ih =>
      intro hl
      rw [List.length_append, List.length_singleton] at hl
      rw [writeClassical_append, writeClassical_append, ih (by omega), List.getElem?_append_left (by omega)]
  induction cls₂ using List.reverseRecOn with
  | nil =>
    rw [List.append_nil, hfirst cls₁ (by omega)]
    cases writeClassical cls₁ o₁ vals <;> rfl
  | append_singleton cls n ih =>
    rw [← List.append_assoc, writeClassical_append, ih]
    cases writeClassical cls₁ o₁ vals with
    | none => rfl
    | some v =>
      simp only [Option.bind_some]
      rw [writeClassical_append, List.length_append, h, List.getElem?_append_right (by omega)]
      simp

/-- the joint outcomes -/
theorem outcomes_both (opt₁ opt₂ : List ℕ) (l : VComps) :
    ((outcomes opt₁ l).flatMap (fun o₁ => (outcomes opt₂ (compsAt opt₁ l o₁)).map (fun o₂ => o₁ ++ o₂))).Perm (outcomes (opt₁ ++ opt₂) l) := by
  have hlen : ∀ o ∈ outcomes opt₁ l, o.length = opt₁.length := by
    intro o ho
    obtain ⟨p, -, rfl⟩ := mem_outcomes.1 ho
    exact outcomeOf_length _ _
  rw [List.perm_ext_iff_of_nodup _ (nodup_outcomes _ _)]
  · intro o
    rw [List.mem_flatMap, mem_outcomes]
    constructor
    · rintro ⟨o₁, h1, h2⟩
      obtain ⟨o₂, h3, rfl⟩ := List.mem_map.1 h2
      obtain ⟨p, hp, rfl⟩ := mem_outcomes.1 h3
      obtain ⟨hp, ho⟩ := List.mem_filter.1 hp
      exact ⟨p, hp, by rw [outcomeOf_append, of_decide_eq_true ho]⟩
    · rintro ⟨p, hp, rfl⟩
      refine ⟨outcomeOf opt₁ p.1, mem_outcomes.2 ⟨p, hp, rfl⟩, List.mem_map.2 ⟨outcomeOf opt₂ p.1, mem_outcomes.2 ⟨p, ?_, rfl⟩, (outcomeOf_append _ _ _).symm⟩⟩
      exact List.mem_filter.2 ⟨hp, by simp⟩
  · rw [List.nodup_flatMap]
    refine ⟨?_, ?_⟩
    · intro o _
      exact (nodup_outcomes _ _).map (fun a b e => List.append_cancel_left e)
    · refine (nodup_outcomes opt₁ l).pairwise_of_forall_ne ?_
      intro a ha b hb hne x hx hy
      obtain ⟨x₂, -, rfl⟩ := List.mem_map.1 hx
      obtain ⟨y₂, -, e⟩ := List.mem_map.1 hy
      exact hne (List.append_inj e.symm (by rw [hlen a ha, hlen b hb])).1

/-- the result of two measurements with outcomes `o₁`, `o₂` -/
theorem two_collapses {g : Cfg} {thr : ℝ} (ht : 0 ≤ thr) {m : ℕ} {q : QState} (hq : Measurable g m q) {l : VComps} (hl : VOk g l) (e : q.comps = enc g l)
    {opt₁ opt₂ cls₁ cls₂ o₁ o₂ : List ℕ} (hlen₁ : cls₁.length = opt₁.length) (ho₁ : o₁.length = opt₁.length) :
    Option.Rel SameAsJoint
      ((collapse g thr m q cls₁ o₁ (itemsAt opt₁ l o₁)).bind (fun q' => collapse g thr m q' cls₂ o₂ (itemsAt opt₂ ((itemsAt opt₁ l o₁).map (scaled (probAt opt₁ l o₁))) o₂)))
      (collapse g thr m q (cls₁ ++ cls₂) (o₁ ++ o₂) (itemsAt (opt₁ ++ opt₂) l (o₁ ++ o₂))) := by
  have hok := scaled_ok (opt := opt₁) hl o₁ (probAt opt₁ l o₁)
  have hle : probAt (opt₁ ++ opt₂) l (o₁ ++ o₂) ≤ probAt opt₁ l o₁ := by
    rw [probAt_both _ _ _ ho₁, ← compsAt_prob opt₁]
    exact probAt_le _ _ _
  have hJ0 := probAt_nonneg (opt₁ ++ opt₂) l (o₁ ++ o₂)
  have h10 := probAt_nonneg opt₁ l o₁
  rw [collapse_eq ht hq hl e opt₁ cls₁ o₁, collapse_eq ht hq hl e, writeClassical_both _ _ _ _ (by omega)]
  by_cases h0 : probAt opt₁ l o₁ = 0
  · rw [if_pos h0, if_pos (by linarith)]
    exact Option.Rel.none
  rw [if_neg h0]
  cases hw : writeClassical cls₁ o₁ q.classical with
  | none =>
    simp only [Option.map_none, Option.bind_none]
    split <;> exact Option.Rel.none
  | some cl =>
    simp only [Option.map_some, Option.bind_some]
    have hq' : Measurable g m (⟨q.initial, q.cum * probAt opt₁ l o₁, enc g ((itemsAt opt₁ l o₁).map (scaled (probAt opt₁ l o₁))), cl,
        q.results ++ [⟨cl, probAt opt₁ l o₁⟩]⟩ : QState) := by
      have h1 := probAt_le opt₁ l o₁
      have h2 := hq.total
      rw [e, totalProb_enc] at h2
      have h4 := hq.cum0
      have h5 := hq.cum1
      refine ⟨wf_enc hok, ?_, ?_, mul_nonneg h4 h10, by simp only; nlinarith, ?_⟩
      · intro p hp
        obtain ⟨r, hr, rfl⟩ := List.mem_map.1 hp
        obtain ⟨s, _, rfl⟩ := List.mem_map.1 hr
        rfl
      · show totalProb (enc g _) ≤ 1
        rw [totalProb_enc, sum_scaled _ _ h10]
        exact le_of_eq (div_self h0)
      · show cl.length = m
        rw [(writeClassical_spec hw).1, hq.classical]
    rw [collapse_eq ht hq' hok rfl opt₂ cls₂ o₂, probAt_scaled _ _ _ _ _ h10, ← probAt_both _ _ _ ho₁]
    by_cases hJ : probAt (opt₁ ++ opt₂) l (o₁ ++ o₂) = 0
    · rw [if_pos (by rw [hJ, zero_div]), if_pos hJ]
      exact Option.Rel.none
    rw [if_neg (div_ne_zero hJ h0), if_neg hJ]
    cases writeClassical cls₂ o₂ cl with
    | none => exact Option.Rel.none
    | some cl' =>
      simp only [Option.map_some]
      refine Option.Rel.some ⟨rfl, ?_, ?_, rfl, ?_⟩
      · simp only
        field_simp
      · simp only
        congr 1
        rw [itemsAt_scaled, itemsAt_both _ _ _ ho₁, List.map_map]
        apply List.map_congr_left
        intro p _
        have hs : ((Real.sqrt (probAt opt₁ l o₁) : ℝ) : ℂ) * ((Real.sqrt (probAt (opt₁ ++ opt₂) l (o₁ ++ o₂) / probAt opt₁ l o₁) : ℝ) : ℂ)
            = ((Real.sqrt (probAt (opt₁ ++ opt₂) l (o₁ ++ o₂)) : ℝ) : ℂ) := by
          rw [← Complex.ofReal_mul, ← Real.sqrt_mul h10, mul_div_cancel₀ _ h0]
        simp only [Function.comp_def, scaled, div_div, hs]
      · refine ⟨q.results, ⟨cl, probAt opt₁ l o₁⟩, ⟨cl', probAt (opt₁ ++ opt₂) l (o₁ ++ o₂) / probAt opt₁ l o₁⟩, _, by simp, rfl, rfl, ?_⟩
        simp only
        field_simp

theorem mapM_nested {α β γ : Type*} (t : α → β → Option γ) (h : α → List β) (l : List α) :
    (l.mapM (fun a => (h a).mapM (t a))).map List.flatten = (l.flatMap (fun a => (h a).map (fun b => (a, b)))).mapM (fun p => t p.1 p.2) := by
  induction l with
  | nil => rfl
  | cons a l ih =>
    rw [mapM_cons_opt, List.flatMap_cons, mapM_append_opt, ← ih, List.mapM_map]
    have : (h a).mapM ((fun p : α × β => t p.1 p.2) ∘ fun b => (a, b)) = (h a).mapM (t a) := rfl
    rw [this]
    cases (h a).mapM (t a) with
    | none => rfl
    | some x =>
      simp only [Option.bind_some]
      cases l.mapM (fun a => (h a).mapM (t a)) <;> simp

theorem mapM_rel {α β γ : Type*} {R : β → γ → Prop} {f : α → Option β} {f' : α → Option γ} {l : List α} (h : ∀ a ∈ l, Option.Rel R (f a) (f' a)) :
    Option.Rel (List.Forall₂ R) (l.mapM f) (l.mapM f') := by
  induction l with
  | nil => exact Option.Rel.some List.Forall₂.nil
  | cons a l ih =>
    have ih := ih (fun b hb => h b (by simp [hb]))
    have ha := h a (by simp)
    rw [mapM_cons_opt, mapM_cons_opt]
    generalize f a = x at ha
    generalize f' a = y at ha
    cases ha with
    | none => exact Option.Rel.none
    | some hxy =>
      simp only [Option.bind_some]
      generalize l.mapM f = u at ih
      generalize l.mapM f' = v at ih
      cases ih with
      | none => exact Option.Rel.none
      | some huv => exact Option.Rel.some (List.Forall₂.cons hxy huv)

theorem mapM_perm {α β : Type*} (f : α → Option β) {l l' : List α} (h : l.Perm l') : Option.Rel List.Perm (l.mapM f) (l'.mapM f) := by
  cases hm : l'.mapM f with
  | some x =>
    obtain ⟨y, hy, hp⟩ := List.perm_comp_forall₂ h ((forall₂_mapM _ _ _).1 hm)
    rw [(forall₂_mapM _ _ _).2 hy]
    exact Option.Rel.some hp
  | none =>
    cases hm' : l.mapM f with
    | none => exact Option.Rel.none
    | some x =>
      obtain ⟨y, hy, hp⟩ := List.perm_comp_forall₂ h.symm ((forall₂_mapM _ _ _).1 hm')
      rw [(forall₂_mapM _ _ _).2 hy] at hm
      cases hm

/-- one measurement after the other on one state -/
noncomputable def measureTwice (g : Cfg) (thr : ℝ) (m : ℕ) (q : QState) (opt₁ cls₁ opt₂ cls₂ : List ℕ) : Option (List QState) :=
  (measure g thr m q opt₁ cls₁).bind (fun qs => (qs.mapM (fun q' => measure g thr m q' opt₂ cls₂)).map List.flatten)

theorem measureTwice_joint {g : Cfg} {thr : ℝ} (ht : 0 ≤ thr) {m : ℕ} {q : QState} (hq : Measurable g m q) {opt₁ opt₂ cls₁ cls₂ : List ℕ}
    (hlen₁ : cls₁.length = opt₁.length) (hlen₂ : cls₂.length = opt₂.length) :
    Option.Rel (Corresponding SameAsJoint) (measureTwice g thr m q opt₁ cls₁ opt₂ cls₂) (measure g thr m q (opt₁ ++ opt₂) (cls₁ ++ cls₂)) := by
  obtain ⟨l, hl, e⟩ := exists_enc hq.wf
  have hlen : ∀ o ∈ outcomes opt₁ l, o.length = opt₁.length := by
    intro o ho
    obtain ⟨p, -, rfl⟩ := mem_outcomes.1 ho
    exact outcomeOf_length _ _
  set T : List ℕ → List ℕ → Option QState := fun o₁ o₂ => (collapse g thr m q cls₁ o₁ (itemsAt opt₁ l o₁)).bind (fun q' =>
    collapse g thr m q' cls₂ o₂ (itemsAt opt₂ ((itemsAt opt₁ l o₁).map (scaled (probAt opt₁ l o₁))) o₂)) with hT
  set J : List ℕ → Option QState := fun o => collapse g thr m q (cls₁ ++ cls₂) o (itemsAt (opt₁ ++ opt₂) l o) with hJ
  have e1 : measureTwice g thr m q opt₁ cls₁ opt₂ cls₂ = ((outcomes opt₁ l).mapM (fun o₁ => (outcomes opt₂ (compsAt opt₁ l o₁)).mapM (T o₁))).map List.flatten := by
    unfold measureTwice
    rw [measure_eq hl e hlen₁]
    have : ∀ x : Option (List QState), x.bind (fun qs => (qs.mapM (fun q' => measure g thr m q' opt₂ cls₂)).map List.flatten)
        = (x.bind (fun qs => qs.mapM (fun q' => measure g thr m q' opt₂ cls₂))).map List.flatten := by intro x; cases x <;> rfl
    rw [this, mapM_bind_opt]
    congr 1
    have hall : ∀ o ∈ outcomes opt₁ l, (collapse g thr m q cls₁ o (itemsAt opt₁ l o)).bind (fun q' => measure g thr m q' opt₂ cls₂)
        = (outcomes opt₂ (compsAt opt₁ l o)).mapM (T o) := by
      intro o ho
      cases hc : collapse g thr m q cls₁ o (itemsAt opt₁ l o) with
      | none =>
        obtain ⟨p, hp, ho'⟩ := mem_outcomes.1 ho
        have hmem : outcomeOf opt₂ p.1 ∈ outcomes opt₂ (compsAt opt₁ l o) := mem_outcomes.2 ⟨p, List.mem_filter.2 ⟨hp, by simpa using ho'⟩, rfl⟩
        cases hm : (outcomes opt₂ (compsAt opt₁ l o)).mapM (T o) with
        | none => rfl
        | some x =>
          obtain ⟨y, -, hy⟩ := forall₂_mem_left' ((forall₂_mapM _ _ _).1 hm) hmem
          rw [hT] at hy
          simp only [hc, Option.bind_none] at hy
          cases hy
      | some q' =>
        have hcc := hc
        rw [collapse_eq ht hq hl e] at hcc
        split at hcc
        · cases hcc
        obtain ⟨cl, -, rfl⟩ := Option.map_eq_some_iff.1 hcc
        rw [Option.bind_some, measure_eq (scaled_ok hl o _) rfl hlen₂, outcomes_scaled]
        simp only [hT, hc, Option.bind_some]
    apply Option.ext
    intro x
    rw [forall₂_mapM, forall₂_mapM]
    exact forall₂_mem_congr (fun o y ho => by rw [hall o ho])
  have e2 : measure g thr m q (opt₁ ++ opt₂) (cls₁ ++ cls₂) = (outcomes (opt₁ ++ opt₂) l).mapM J :=
    measure_eq hl e (by rw [List.length_append, List.length_append, hlen₁, hlen₂])
  rw [e1, e2, mapM_nested]
  set pairs := (outcomes opt₁ l).flatMap (fun o₁ => (outcomes opt₂ (compsAt opt₁ l o₁)).map (fun o₂ => (o₁, o₂))) with hpairs
  have hrel : Option.Rel (List.Forall₂ SameAsJoint) (pairs.mapM (fun p => T p.1 p.2)) (pairs.mapM (fun p => J (p.1 ++ p.2))) := by
    apply mapM_rel
    intro p hp
    obtain ⟨o₁, h1, h2⟩ := List.mem_flatMap.1 hp
    obtain ⟨o₂, -, rfl⟩ := List.mem_map.1 h2
    exact two_collapses ht hq hl e hlen₁ (hlen o₁ h1)
  have hperm : Option.Rel List.Perm (pairs.mapM (fun p => J (p.1 ++ p.2))) ((outcomes (opt₁ ++ opt₂) l).mapM J) := by
    have h1 : pairs.mapM (fun p => J (p.1 ++ p.2)) = (pairs.map (fun p => p.1 ++ p.2)).mapM J := by rw [List.mapM_map]; rfl
    rw [h1]
    apply mapM_perm
    rw [hpairs, List.map_flatMap]
    simp only [List.map_map]
    exact outcomes_both opt₁ opt₂ l
  generalize pairs.mapM (fun p => T p.1 p.2) = a at hrel
  generalize pairs.mapM (fun p => J (p.1 ++ p.2)) = b at hrel hperm
  generalize (outcomes (opt₁ ++ opt₂) l).mapM J = c at hperm
  cases hrel with
  | none => cases hperm; exact Option.Rel.none
  | some h1 =>
    cases hperm with
    | some h2 => exact Option.Rel.some ⟨_, h2, h1⟩

/-- writing to different classical channels in the other order -/
theorem writeClassical_swap {cls₁ cls₂ o₁ o₂ : List ℕ} (h₁ : cls₁.length = o₁.length) (hd : ∀ n ∈ cls₁, n ∉ cls₂) (vals : List ℝ) :
    (writeClassical cls₁ o₁ vals).bind (writeClassical cls₂ o₂) = (writeClassical cls₂ o₂ vals).bind (writeClassical cls₁ o₁) := by
  -- one channel
  have one : ∀ (cls o : List ℕ) (n : ℕ) (x : ℝ) (v : List ℝ), n ∉ cls → n < v.length →
      writeClassical cls o (v.set n x) = (writeClassical cls o v).map (fun w => w.set n x) := by
    intro cls o n x
    induction cls using List.reverseRecOn with
    | nil => intro v _ _; rfl
    | append_singleton cls k ih =>
      intro v hn hv
      rw [List.mem_append, List.mem_singleton, not_or] at hn
      rw [writeClassical_append, writeClassical_append, ih v hn.1 hv]
      cases hw : writeClassical cls o v with
      | none => rfl
      | some w =>
        simp only [Option.map_some, Option.bind_some, List.length_set]
        split
        · cases o[cls.length]? with
          | none => rfl
          | some y =>
            simp only [Option.map_some]
            rw [List.set_comm _ _ hn.2]
        · rfl
  induction cls₁ using List.reverseRecOn generalizing o₁ with
  | nil =>
    have e0 : ∀ (o : List ℕ) (v : List ℝ), writeClassical [] o v = some v := fun _ _ => rfl
    rw [e0, Option.bind_some]
    cases hw : writeClassical cls₂ o₂ vals with
    | none => rfl
    | some w => rw [Option.bind_some, e0]
  | append_singleton cls k ih =>
    have hsplit : ∃ o x, o₁ = o ++ [x] ∧ o.length = cls.length := by
      rcases List.eq_nil_or_concat o₁ with rfl | ⟨o, x, rfl⟩
      · simp at h₁
      · rw [List.concat_eq_append] at h₁ ⊢
        simp only [List.length_append, List.length_singleton] at h₁
        exact ⟨o, x, rfl, by omega⟩
    obtain ⟨o, x, rfl, ho⟩ := hsplit
    have ih := ih (o₁ := o) ho.symm (fun n hn => hd n (by simp [hn]))
    have hk : k ∉ cls₂ := hd k (by simp)
    have e1 : ∀ v, writeClassical (cls ++ [k]) (o ++ [x]) v = (writeClassical cls o v).bind (fun w => if k < w.length then some (w.set k (x : ℝ)) else none) := by
      intro v
      rw [writeClassical_both _ _ _ _ ho.symm]
      congr 1
      funext w
      rw [show ([k] : List ℕ) = [] ++ [k] from rfl, writeClassical_append]
      rfl
    have hswap : ∀ w : List ℝ, (if k < w.length then some (w.set k (x : ℝ)) else none : Option (List ℝ)).bind (writeClassical cls₂ o₂)
        = (writeClassical cls₂ o₂ w).bind (fun w => if k < w.length then some (w.set k (x : ℝ)) else none) := by
      intro w
      by_cases hlt : k < w.length
      · rw [if_pos hlt, Option.bind_some, one cls₂ o₂ k x w hk hlt]
        cases hw : writeClassical cls₂ o₂ w with
        | none => rfl
        | some u =>
          rw [Option.map_some, Option.bind_some, if_pos (by rw [(writeClassical_spec hw).1]; exact hlt)]
      · rw [if_neg hlt]
        cases hw : writeClassical cls₂ o₂ w with
        | none => rfl
        | some u =>
          rw [Option.bind_some, if_neg (by rw [(writeClassical_spec hw).1]; exact hlt)]
          rfl
    simp only [e1, Option.bind_assoc]
    have : ∀ w : List ℝ, (if k < w.length then some (w.set k (x : ℝ)) else none : Option (List ℝ)).bind (writeClassical cls₂ o₂)
        = (writeClassical cls₂ o₂ w).bind (fun w => if k < w.length then some (w.set k (x : ℝ)) else none) := hswap
    simp only [this]
    rw [← Option.bind_assoc, ih, Option.bind_assoc]

/-- joint measurements in the two orders -/
theorem joint_swap {g : Cfg} {thr : ℝ} (ht : 0 ≤ thr) {m : ℕ} {q : QState} (hq : Measurable g m q) {opt₁ opt₂ cls₁ cls₂ : List ℕ}
    (hlen₁ : cls₁.length = opt₁.length) (hlen₂ : cls₂.length = opt₂.length) (hd : ∀ n ∈ cls₁, n ∉ cls₂) :
    Option.Rel List.Perm (measure g thr m q (opt₁ ++ opt₂) (cls₁ ++ cls₂)) (measure g thr m q (opt₂ ++ opt₁) (cls₂ ++ cls₁)) := by
  obtain ⟨l, hl, e⟩ := exists_enc hq.wf
  rw [measure_eq hl e (by simp [hlen₁, hlen₂]), measure_eq hl e (by simp [hlen₁, hlen₂])]
  -- the outcomes with the two parts exchanged
  set sw : List ℕ → List ℕ := fun o => o.drop opt₁.length ++ o.take opt₁.length with hsw
  have hsw' : ∀ v, sw (outcomeOf (opt₁ ++ opt₂) v) = outcomeOf (opt₂ ++ opt₁) v := by
    intro v
    simp only [hsw, outcomeOf_append]
    rw [List.drop_left' (outcomeOf_length _ _), List.take_left' (outcomeOf_length _ _)]
  have hinj : ∀ a ∈ outcomes (opt₁ ++ opt₂) l, ∀ b ∈ outcomes (opt₁ ++ opt₂) l, sw a = sw b → a = b := by
    intro a ha b hb hab
    obtain ⟨p, -, rfl⟩ := mem_outcomes.1 ha
    obtain ⟨r, -, rfl⟩ := mem_outcomes.1 hb
    rw [hsw', hsw', outcomeOf_append, outcomeOf_append] at hab
    obtain ⟨h1, h2⟩ := List.append_inj hab (by rw [outcomeOf_length, outcomeOf_length])
    rw [outcomeOf_append, outcomeOf_append, h1, h2]
  have hperm : ((outcomes (opt₁ ++ opt₂) l).map sw).Perm (outcomes (opt₂ ++ opt₁) l) := by
    rw [List.perm_ext_iff_of_nodup ((nodup_outcomes _ _).map_on hinj) (nodup_outcomes _ _)]
    intro o
    rw [List.mem_map, mem_outcomes]
    constructor
    · rintro ⟨o', ho', rfl⟩
      obtain ⟨p, hp, rfl⟩ := mem_outcomes.1 ho'
      exact ⟨p, hp, (hsw' p.1).symm⟩
    · rintro ⟨p, hp, rfl⟩
      exact ⟨_, mem_outcomes.2 ⟨p, hp, rfl⟩, hsw' p.1⟩
  have hmap := mapM_perm (fun o => collapse g thr m q (cls₂ ++ cls₁) o (itemsAt (opt₂ ++ opt₁) l o)) hperm
  have heq : (outcomes (opt₁ ++ opt₂) l).mapM (fun o => collapse g thr m q (cls₁ ++ cls₂) o (itemsAt (opt₁ ++ opt₂) l o))
      = ((outcomes (opt₁ ++ opt₂) l).map sw).mapM (fun o => collapse g thr m q (cls₂ ++ cls₁) o (itemsAt (opt₂ ++ opt₁) l o)) := by
    rw [List.mapM_map]
    apply Option.ext
    intro x
    rw [forall₂_mapM, forall₂_mapM]
    refine forall₂_mem_congr ?_
    intro o y ho
    simp only [Function.comp_def]
    obtain ⟨p, -, rfl⟩ := mem_outcomes.1 ho
    have hitems : itemsAt (opt₂ ++ opt₁) l (sw (outcomeOf (opt₁ ++ opt₂) p.1)) = itemsAt (opt₁ ++ opt₂) l (outcomeOf (opt₁ ++ opt₂) p.1) := by
      rw [hsw']
      unfold itemsAt
      apply List.filter_congr
      intro r _
      rw [outcomeOf_append, outcomeOf_append, outcomeOf_append, outcomeOf_append]
      have : outcomeOf opt₂ r.1 ++ outcomeOf opt₁ r.1 = outcomeOf opt₂ p.1 ++ outcomeOf opt₁ p.1 ↔
          outcomeOf opt₁ r.1 ++ outcomeOf opt₂ r.1 = outcomeOf opt₁ p.1 ++ outcomeOf opt₂ p.1 := by
        constructor
        · intro h
          obtain ⟨h1, h2⟩ := List.append_inj h (by rw [outcomeOf_length, outcomeOf_length])
          rw [h1, h2]
        · intro h
          obtain ⟨h1, h2⟩ := List.append_inj h (by rw [outcomeOf_length, outcomeOf_length])
          rw [h1, h2]
      simp only [this]
    have hprob : probAt (opt₂ ++ opt₁) l (sw (outcomeOf (opt₁ ++ opt₂) p.1)) = probAt (opt₁ ++ opt₂) l (outcomeOf (opt₁ ++ opt₂) p.1) := by
      unfold probAt; rw [hitems]
    have hwr : writeClassical (cls₂ ++ cls₁) (sw (outcomeOf (opt₁ ++ opt₂) p.1)) q.classical
        = writeClassical (cls₁ ++ cls₂) (outcomeOf (opt₁ ++ opt₂) p.1) q.classical := by
      rw [hsw', outcomeOf_append, outcomeOf_append, writeClassical_both _ _ _ _ (by rw [outcomeOf_length, hlen₂]),
        writeClassical_both _ _ _ _ (by rw [outcomeOf_length, hlen₁]),
        writeClassical_swap (by rw [outcomeOf_length, hlen₁]) hd]
    rw [collapse_eq ht hq hl e, collapse_eq ht hq hl e, hprob, hwr, hitems]
  rw [heq]
  exact hmap

theorem sameInOtherOrder_of {a b c : QState} (h1 : SameAsJoint a c) (h2 : SameAsJoint b c) : SameInOtherOrder a b := by
  refine ⟨h1.initial.trans h2.initial.symm, h1.cum.trans h2.cum.symm, h1.comps.trans h2.comps.symm, h1.classical.trans h2.classical.symm, ?_⟩
  obtain ⟨h, r₁, r₂, r, e1, e2, e3, e4⟩ := h1.history
  obtain ⟨k, s₁, s₂, s, f1, f2, f3, f4⟩ := h2.history
  rw [e2] at f2
  obtain ⟨rfl, e⟩ := List.append_inj' f2 (by simp)
  obtain rfl : r = s := by simpa using e
  exact ⟨h, r₁, r₂, s₁, s₂, e1, f1, e3.symm.trans f3, e4.symm.trans f4⟩

theorem measureTwice_order {g : Cfg} {thr : ℝ} (ht : 0 ≤ thr) {m : ℕ} {q : QState} (hq : Measurable g m q) {opt₁ opt₂ cls₁ cls₂ : List ℕ}
    (hlen₁ : cls₁.length = opt₁.length) (hlen₂ : cls₂.length = opt₂.length) (hd : ∀ n ∈ cls₁, n ∉ cls₂) :
    Option.Rel (Corresponding SameInOtherOrder) (measureTwice g thr m q opt₁ cls₁ opt₂ cls₂) (measureTwice g thr m q opt₂ cls₂ opt₁ cls₁) := by
  have h1 := measureTwice_joint ht hq hlen₁ hlen₂
  have h2 := measureTwice_joint ht hq hlen₂ hlen₁
  have h3 := joint_swap ht hq hlen₁ hlen₂ hd
  generalize measureTwice g thr m q opt₁ cls₁ opt₂ cls₂ = a at h1 ⊢
  generalize measureTwice g thr m q opt₂ cls₂ opt₁ cls₁ = b at h2 ⊢
  generalize measure g thr m q (opt₁ ++ opt₂) (cls₁ ++ cls₂) = c at h1 h3
  generalize measure g thr m q (opt₂ ++ opt₁) (cls₂ ++ cls₁) = d at h2 h3
  cases h1 with
  | none => cases h3; cases h2; exact Option.Rel.none
  | some h1 =>
    cases h3 with
    | some h3 =>
      cases h2 with
      | some h2 =>
        apply Option.Rel.some
        rename_i a c d b
        obtain ⟨c', hc, hac⟩ := h1
        obtain ⟨d', hd', hbd⟩ := h2
        -- c' ~ c ~ d ~ d'
        have hp : c'.Perm d' := hc.trans (h3.trans hd'.symm)
        obtain ⟨b', hb', hpb⟩ := List.perm_comp_forall₂ hp hbd.flip
        refine ⟨b', hpb, ?_⟩
        clear hc hbd hp hpb hd' h3
        induction hac generalizing b' with
        | nil => cases hb'; exact List.Forall₂.nil
        | cons hx _ ih =>
          cases hb' with
          | cons hy hb' => exact List.Forall₂.cons (sameInOtherOrder_of hx hy) (ih _ hb')

/-- from states to collections -/
theorem collection_rel {R : QState → QState → Prop} {F F' : Coll → Option Coll} {f f' : QState → Option (List QState)} (hF : ActsPerState F f) (hF' : ActsPerState F' f')
    {coll : Coll} (hid : (coll.map Prod.fst).Nodup) (h : ∀ p ∈ coll, Option.Rel (Corresponding R) (f p.2) (f' p.2)) :
    Option.Rel (Corresponding R) ((F coll).map statesOf) ((F' coll).map statesOf) := by
  rw [hF.states coll hid, hF'.states coll hid]
  clear hid
  induction coll with
  | nil => exact Option.Rel.some ⟨[], List.Perm.refl _, List.Forall₂.nil⟩
  | cons p coll ih =>
    have ih := ih (fun r hr => h r (by simp [hr]))
    have hp := h p (by simp)
    rw [statesOf_cons, mapM_cons_opt, mapM_cons_opt]
    generalize f p.2 = x at hp
    generalize f' p.2 = y at hp
    cases hp with
    | none => exact Option.Rel.none
    | some hp =>
      simp only [Option.bind_some]
      generalize (statesOf coll).mapM f = u at ih
      generalize (statesOf coll).mapM f' = v at ih
      cases u with
      | none => cases v with
        | none => exact Option.Rel.none
        | some v => cases ih
      | some u => cases v with
        | none => cases ih
        | some v =>
          cases ih with
          | some ih =>
            obtain ⟨b, hb, hf⟩ := hp
            obtain ⟨b', hb', hf'⟩ := ih
            refine Option.Rel.some ⟨b ++ b', ?_, ?_⟩
            · rw [List.flatten_cons]; exact hb.append hb'
            · rw [List.flatten_cons]; exact List.rel_append hf hf'

end Verif
