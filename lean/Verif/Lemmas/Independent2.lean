/- Helper lemmas: bridges treat every state on its own. -/
import Verif.Lemmas.Independent
import Verif.Lemmas.Compound
import Verif.Lemmas.ReduceColl
import Verif.Lemmas.Bridge

namespace Verif
open Spec Props

theorem actsPerState_copy (thr : ℝ) (m : ℕ) : ActsPerState (copyColl thr m) (fun q => (copyState thr m q).map (fun q' => [q'])) := by
  refine (actsPerState_map (copyState thr m)).congr ?_
  intro coll hn
  apply Option.ext
  intro out
  change copyColl thr m coll = some out ↔ coll.mapM _ = some out
  rw [copyColl_iff hn, forall₂_mapM]
  constructor
  · rintro ⟨hv, rfl⟩
    apply List.forall₂_same.2
    intro p hp
    rw [copyState, if_pos (hv p hp)]; rfl
  · intro h
    have hv : ∀ p ∈ coll, CheckValid thr m p.2 := by
      intro p hp
      obtain ⟨p', _, hp'⟩ := forall₂_mem_left' h hp
      by_contra hc
      rw [copyState, if_neg hc] at hp'
      cases hp'
    refine ⟨hv, ?_⟩
    clear hn
    induction h with
    | nil => rfl
    | cons h1 _ ih =>
      rw [copyState, if_pos (hv _ (by simp))] at h1
      rw [ih (fun p hp => hv p (by simp [hp]))]
      obtain rfl := Option.some.inj h1
      rfl

/-! ### `extend` -/

theorem mapM_none_of {α β : Type*} {f : α → Option β} {l : List α} {a : α} (ha : a ∈ l) (h : f a = none) : l.mapM f = none := by
  cases e : l.mapM f with
  | none => rfl
  | some m =>
    obtain ⟨b, _, hb⟩ := forall₂_mem_left' ((forall₂_mapM _ _ _).1 e) ha
    rw [h] at hb; cases hb

theorem mapM_some_of_all {α β : Type*} {f : α → Option β} {z : α → β} {l : List α} (h : ∀ a ∈ l, f a = some (z a)) : l.mapM f = some (l.map z) := by
  rw [forall₂_mapM]
  induction l with
  | nil => exact List.Forall₂.nil
  | cons a l ih => exact List.Forall₂.cons (h a (by simp)) (ih (fun b hb => h b (by simp [hb])))

/-- adding the states that are kept -/
theorem add_inner (y : QState → Option (Option QState)) (r : ℕ → ℕ → ℕ) (states acc : Coll) (ha : (acc.map Prod.fst).Nodup) :
    (∀ z : QState → Option QState, (∀ p ∈ states, y p.2 = some (z p.2)) →
      ∃ out, states.foldlM (fun (out : Coll) p => (y p.2).map (fun o => match o with
        | some q => addState out q none (r out.length)
        | none => out)) acc = some out ∧ (out.map Prod.fst).Nodup ∧ statesOf out = statesOf acc ++ (statesOf states).filterMap z) ∧
    ((∃ p ∈ states, y p.2 = none) → states.foldlM (fun (out : Coll) p => (y p.2).map (fun o => match o with
        | some q => addState out q none (r out.length)
        | none => out)) acc = none) := by
  induction states generalizing acc with
  | nil =>
    refine ⟨fun z _ => ⟨acc, rfl, ha, by simp [statesOf]⟩, ?_⟩
    rintro ⟨p, hp, -⟩
    cases hp
  | cons p states ih =>
    rw [List.foldlM_cons]
    simp only [Option.bind_eq_bind]
    refine ⟨?_, ?_⟩
    · intro z hz
      rw [hz p (by simp), Option.map_some, Option.bind_some, statesOf_cons]
      cases hq : z p.2 with
      | none =>
        obtain ⟨out, h1, h2, h3⟩ := (ih acc ha).1 z (fun q hq => hz q (by simp [hq]))
        exact ⟨out, h1, h2, by rw [h3, List.filterMap_cons_none hq]⟩
      | some q =>
        obtain ⟨i, hi, e⟩ := addState_none_nodup ha q (r acc.length)
        simp only [e]
        obtain ⟨out, h1, h2, h3⟩ := (ih (acc ++ [(i, q)]) hi).1 z (fun q hq => hz q (by simp [hq]))
        exact ⟨out, h1, h2, by rw [h3, List.filterMap_cons_some hq]; simp [statesOf]⟩
    · rintro ⟨p', hp', hno⟩
      rcases List.mem_cons.1 hp' with rfl | hp'
      · rw [hno]; rfl
      · cases hy : y p.2 with
        | none => rfl
        | some o =>
          rw [Option.map_some, Option.bind_some]
          cases o with
          | none => exact (ih acc ha).2 ⟨p', hp', hno⟩
          | some q =>
            obtain ⟨i, hi, e⟩ := addState_none_nodup ha q (r acc.length)
            simp only [e]
            exact (ih _ hi).2 ⟨p', hp', hno⟩

theorem add_outer {ε : Type*} (y : ε → QState → Option (Option QState)) (r : ℕ → ℕ → ℕ) (es : List ε) (states acc : Coll) (ha : (acc.map Prod.fst).Nodup) :
    (∀ z : ε → QState → Option QState, (∀ e ∈ es, ∀ p ∈ states, y e p.2 = some (z e p.2)) →
      ∃ out, es.foldlM (fun (out : Coll) e => states.foldlM (fun (out : Coll) p => (y e p.2).map (fun o => match o with
        | some q => addState out q none (r out.length)
        | none => out)) out) acc = some out ∧ (out.map Prod.fst).Nodup ∧
        statesOf out = statesOf acc ++ es.flatMap (fun e => (statesOf states).filterMap (z e))) ∧
    ((∃ e ∈ es, ∃ p ∈ states, y e p.2 = none) → es.foldlM (fun (out : Coll) e => states.foldlM (fun (out : Coll) p => (y e p.2).map (fun o => match o with
        | some q => addState out q none (r out.length)
        | none => out)) out) acc = none) := by
  induction es generalizing acc with
  | nil =>
    refine ⟨fun z _ => ⟨acc, rfl, ha, by simp⟩, ?_⟩
    rintro ⟨e, he, -⟩
    cases he
  | cons e es ih =>
    rw [List.foldlM_cons]
    simp only [Option.bind_eq_bind]
    refine ⟨?_, ?_⟩
    · intro z hz
      obtain ⟨out, h1, h2, h3⟩ := (add_inner (y e) r states acc ha).1 (z e) (hz e (by simp))
      rw [h1, Option.bind_some]
      obtain ⟨out', k1, k2, k3⟩ := (ih out h2).1 z (fun e he => hz e (by simp [he]))
      exact ⟨out', k1, k2, by rw [k3, h3, List.flatMap_cons, List.append_assoc]⟩
    · rintro ⟨e', he', p, hp, hno⟩
      by_cases hfail : ∃ p ∈ states, y e p.2 = none
      · rw [(add_inner (y e) r states acc ha).2 hfail]; rfl
      · push Not at hfail
        rcases List.mem_cons.1 he' with rfl | he'
        · exact absurd hno (hfail p hp)
        obtain ⟨out, h1, h2, -⟩ := (add_inner (y e) r states acc ha).1 (fun q => (y e q).getD none) (by
          intro p hp
          cases h : y e p.2 with
          | none => exact absurd h (hfail p hp)
          | some o => rfl)
        rw [h1, Option.bind_some]
        exact (ih out h2).2 ⟨e', he', p, hp, hno⟩

/-- only one choice of the extra values keeps anything -/
theorem flatMap_single {ε : Type*} {w : ε → Prop} (z : ε → QState → Option QState) (es : List ε) (hone : es.Pairwise (fun e e' => ¬ (w e ∧ w e')))
    (qs : List QState) (hz : ∀ e ∈ es, ¬ w e → ∀ q ∈ qs, z e q = none) :
    es.flatMap (fun e => qs.filterMap (z e)) = qs.flatMap (fun q => es.filterMap (fun e => z e q)) := by
  induction es with
  | nil => simp
  | cons e es ihe =>
    rw [List.pairwise_cons] at hone
    have key := ihe hone.2 (fun e he => hz e (by simp [he]))
    rw [List.flatMap_cons, key]
    clear key ihe
    by_cases hw : w e
    · have h0 : ∀ q ∈ qs, es.filterMap (fun e => z e q) = [] := by
        intro q hq
        rw [List.filterMap_eq_nil_iff]
        intro e' he'
        exact hz e' (by simp [he']) (fun h => hone.1 e' he' ⟨hw, h⟩) q hq
      clear hz hone
      induction qs with
      | nil => simp
      | cons q qs ih =>
        have h0' := h0 q (by simp)
        have ih' := ih (fun q hq => h0 q (by simp [hq]))
        rw [List.flatMap_cons, List.flatMap_cons, h0', List.nil_append, ← ih']
        cases hq : z e q with
        | none =>
          rw [List.filterMap_cons_none hq, List.filterMap_cons_none (f := fun e => z e q) hq, h0', List.nil_append]
        | some q' =>
          rw [List.filterMap_cons_some hq, List.filterMap_cons_some (f := fun e => z e q) hq, h0', List.singleton_append, List.cons_append]
    · have h0 : ∀ q ∈ qs, z e q = none := hz e (by simp) hw
      rw [List.filterMap_eq_nil_iff.2 h0, List.nil_append]
      have h1 : ∀ q ∈ qs, (e :: es).filterMap (fun e => z e q) = es.filterMap (fun e => z e q) := fun q hq => List.filterMap_cons_none (h0 q hq)
      clear hz h0 hone
      induction qs with
      | nil => rfl
      | cons q qs ih =>
        rw [List.flatMap_cons, List.flatMap_cons, h1 q (by simp), ih (fun q hq => h1 q (by simp [hq]))]

open Classical in
/-- one choice of extra values for one state: `some none` if it is left out -/
noncomputable def extendOne (g : Cfg) (m : ℕ) (thr : ℝ) (eo ec : ℕ) (e : ℝ × Vals) (q : QState) : Option (Option QState) :=
  (extendedState g ⟨g.L, g.C + eo, g.left⟩ ec q e.1 e.2).bind (fun q' => if q'.cum ≥ thr then (newState thr (m + ec) q').map some else some none)

theorem extendedState_cum {g g' : Cfg} {ec : ℕ} {q q' : QState} {w : ℝ} {vals : Vals} (h : extendedState g g' ec q w vals = some q') :
    q'.cum = q.cum * w ∧ q'.initial = q.initial := by
  unfold extendedState at h
  simp only [Option.bind_eq_bind] at h
  obtain ⟨comps, _, h⟩ := Option.bind_eq_some_iff.1 h
  obtain rfl := Option.some.inj h
  exact ⟨rfl, rfl⟩

theorem actsPerState_extend {g : Cfg} (hg : g.Ok) (m : ℕ) {thr : ℝ} (ht : 0 < thr) (eo ec : ℕ) :
    ∃ f, KeepsLabel f ∧ ∀ r, ActsPerState (fun st => (extendColl ⟨g, m, thr, st⟩ eo ec [] r).map Collection.states) f := by
  classical
  by_cases h0 : eo = 0 ∧ ec = 0
  · refine ⟨fun q => some [q], ?_, fun r => actsPerState_id.congr ?_⟩
    · intro q qs e q' hq'
      obtain rfl := Option.some.inj e
      obtain rfl : q' = q := by simpa using hq'
      rfl
    · intro coll _
      obtain ⟨step, e⟩ := extendColl_unfold ⟨g, m, thr, coll⟩ eo ec [] r
      have hL : ((1 : ℝ) :: List.replicate (g.L - 1) 0).length = g.L := by have := hg.1; simp; omega
      simp only [if_true] at e
      rw [e, if_neg (not_not.2 hL), if_pos h0]
      rfl
  set dist : List ℝ := (1 : ℝ) :: List.replicate (g.L - 1) 0 with hdist
  have hL : dist.length = g.L := by have := hg.1; simp [hdist]; omega
  obtain ⟨d, h1, h2⟩ := extraValues_spec hL eo
  set es : List (ℝ × Vals) := d.map Prod.snd with hes
  have hok : (⟨g.L, g.C + eo, g.left⟩ : Cfg).Ok := ⟨hg.1, le_trans hg.2 (Nat.le_add_right _ _)⟩
  -- the weights
  have hw : ∀ e : Vals, weight dist e ≠ 0 → ∀ x ∈ e, x = 0 := by
    intro e
    induction e with
    | nil => intro _ x hx; cases hx
    | cons a e ih =>
      intro hne x hx
      have e1 : weight dist (a :: e) = dist.getD a 0 * weight dist e := by simp [weight]
      rw [e1] at hne
      rcases List.mem_cons.1 hx with rfl | hx
      · by_contra hx0
        apply hne
        have : dist.getD x 0 = 0 := by
          obtain ⟨n, rfl⟩ : ∃ n, x = n + 1 := ⟨x - 1, by omega⟩
          rw [hdist, List.getD_cons_succ, List.getD_eq_getElem?_getD, List.getElem?_replicate]
          split <;> rfl
        rw [this, zero_mul]
      · exact ih (fun h => hne (by rw [h, mul_zero])) x hx
  have hone : es.Pairwise (fun e e' => ¬ (e.1 ≠ 0 ∧ e'.1 ≠ 0)) := by
    rw [h2, List.pairwise_map]
    refine (nodup_allLists g.L eo).pairwise_of_forall_ne ?_
    · intro a ha b hb hne hab
      obtain ⟨la, -⟩ := mem_allLists.1 ha
      obtain ⟨lb, -⟩ := mem_allLists.1 hb
      apply hne
      have ea := List.eq_replicate_of_mem (hw a hab.1)
      have eb := List.eq_replicate_of_mem (hw b hab.2)
      rw [ea, eb, la, lb]
  have hzero : ∀ e : ℝ × Vals, ¬ e.1 ≠ 0 → ∀ q o, extendOne g m thr eo ec e q = some o → o = none := by
    intro e he q o h
    unfold extendOne at h
    obtain ⟨q', hq', h⟩ := Option.bind_eq_some_iff.1 h
    have := (extendedState_cum hq').1
    push Not at he
    rw [he, mul_zero] at this
    rw [if_neg (by rw [this]; linarith)] at h
    exact (Option.some.inj h).symm
  have hunf : ∀ (r : ℕ → ℕ → ℕ) (st : Coll), (extendColl ⟨g, m, thr, st⟩ eo ec [] r).map Collection.states =
      es.foldlM (fun (out : Coll) e => st.foldlM (fun (out : Coll) p => (extendOne g m thr eo ec e p.2).map (fun o => match o with
        | some q => addState out q none (r out.length)
        | none => out)) out) [] := by
    intro r st
    have e0 : extendColl ⟨g, m, thr, st⟩ eo ec [] r = (do
      if dist.length ≠ g.L then none
      if eo = 0 ∧ ec = 0 then some ⟨g, m, thr, st⟩ else
      if ¬ (⟨g.L, g.C + eo, g.left⟩ : Cfg).Ok then none
      let extra ← extraValues g dist eo
      let out ← extra.foldlM (fun (out : Coll) e => st.foldlM (fun (out : Coll) p => do
        let q ← extendedState g ⟨g.L, g.C + eo, g.left⟩ ec p.2 e.2.1 e.2.2
        if q.cum ≥ thr then
          let q' ← newState thr (m + ec) q
          some (addState out q' none (r out.length))
        else some out) out) []
      some ⟨⟨g.L, g.C + eo, g.left⟩, m + ec, thr, out⟩) := rfl
    rw [e0, if_neg (not_not.2 hL), if_neg h0, if_neg (not_not.2 hok), h1]
    simp only [Option.bind_eq_bind, Option.bind_some]
    have e1 : ∀ (x : Option Coll), (x.bind (fun out => some (⟨⟨g.L, g.C + eo, g.left⟩, m + ec, thr, out⟩ : Collection))).map Collection.states = x := by
      intro x; cases x <;> rfl
    rw [e1, hes, List.foldlM_map]
    congr 1
    funext out e
    congr 1
    funext out p
    unfold extendOne
    cases extendedState g ⟨g.L, g.C + eo, g.left⟩ ec p.2 e.2.1 e.2.2 with
    | none => rfl
    | some q =>
      simp only [Option.bind_some]
      split
      · cases newState thr (m + ec) q <;> rfl
      · rfl
  refine ⟨fun q => (es.mapM (fun e => extendOne g m thr eo ec e q)).map (fun os => os.filterMap id), ?_, ?_⟩
  · intro q qs h q' hq'
    obtain ⟨os, ho, rfl⟩ := Option.map_eq_some_iff.1 h
    obtain ⟨o, ho', e⟩ := List.mem_filterMap.1 hq'
    obtain ⟨ex, _, he⟩ := forall₂_mem_left' ((forall₂_mapM _ _ _).1 ho).flip ho'
    unfold extendOne at he
    obtain ⟨q'', hq'', he⟩ := Option.bind_eq_some_iff.1 he
    have hlab := (extendedState_cum hq'').2
    split at he
    · obtain ⟨q3, h3, rfl⟩ := Option.map_eq_some_iff.1 he
      unfold newState at h3
      split at h3
      · obtain rfl := Option.some.inj h3
        obtain rfl : q'' = q' := by simpa using e
        exact hlab
      · cases h3
    · obtain rfl := Option.some.inj he
      simp at e
  · intro r
    constructor
    · intro coll hn
      rw [hunf]
      by_cases hfail : ∃ e ∈ es, ∃ p ∈ coll, extendOne g m thr eo ec e p.2 = none
      · rw [(add_outer (extendOne g m thr eo ec) r es coll [] (by simp)).2 hfail]
        obtain ⟨e, he, p, hp, hno⟩ := hfail
        rw [mapM_none_of (show p.2 ∈ statesOf coll from List.mem_map_of_mem (f := Prod.snd) hp)]
        · rfl
        · rw [mapM_none_of he hno]; rfl
      · push Not at hfail
        set z : ℝ × Vals → QState → Option QState := fun e q => (extendOne g m thr eo ec e q).getD none with hz
        have hyz : ∀ e ∈ es, ∀ p ∈ coll, extendOne g m thr eo ec e p.2 = some (z e p.2) := by
          intro e he p hp
          cases h : extendOne g m thr eo ec e p.2 with
          | none => exact absurd h (hfail e he p hp)
          | some o => rw [hz]; simp only [h]; rfl
        obtain ⟨out, k1, -, k3⟩ := (add_outer (extendOne g m thr eo ec) r es coll [] (by simp)).1 z hyz
        rw [k1, Option.map_some, k3]
        have hm : (statesOf coll).mapM (fun q => (es.mapM (fun e => extendOne g m thr eo ec e q)).map (fun os => os.filterMap id))
            = some ((statesOf coll).map (fun q => es.filterMap (fun e => z e q))) := by
          apply mapM_some_of_all
          intro q hq
          obtain ⟨p, hp, rfl⟩ := List.mem_map.1 hq
          rw [mapM_some_of_all (fun e he => hyz e he p hp), Option.map_some, List.filterMap_map]
          rfl
        rw [hm, Option.map_some, ← List.flatMap_def]
        congr 1
        rw [show statesOf ([] : Coll) = [] from rfl, List.nil_append]
        apply flatMap_single (w := fun e => e.1 ≠ 0) z es hone
        intro e he hw q hq
        obtain ⟨p, hp, rfl⟩ := List.mem_map.1 hq
        exact hzero e hw p.2 _ (hyz e he p hp)
    · intro coll out _ h
      rw [hunf] at h
      by_cases hfail : ∃ e ∈ es, ∃ p ∈ coll, extendOne g m thr eo ec e p.2 = none
      · rw [(add_outer (extendOne g m thr eo ec) r es coll [] (by simp)).2 hfail] at h; cases h
      · push Not at hfail
        obtain ⟨out', k1, k2, -⟩ := (add_outer (extendOne g m thr eo ec) r es coll [] (by simp)).1 (fun e q => (extendOne g m thr eo ec e q).getD none) (by
          intro e he p hp
          cases h : extendOne g m thr eo ec e p.2 with
          | none => exact absurd h (hfail e he p hp)
          | some o => rfl)
        rw [k1] at h
        obtain rfl := Option.some.inj h
        exact k2

/-! ### `reduce` -/

/-- every state gives a list of new states, whose identifiers extend its own by parts of the same length -/
theorem actsPerState_entries {one : QState → Option (List (List Char × QState))} {n : ℕ}
    (hk : ∀ q l, one q = some l → (l.map Prod.fst).Nodup ∧ ∀ e ∈ l, e.1.length = n) :
    ActsPerState (fun coll => coll.foldlM (fun (out : Coll) p =>
      ((one p.2).map (fun l => l.map (fun e => (p.1 ++ e.1, e.2)))).map (fun l => l.foldl (fun (out : Coll) e => out.set e.1 e.2) out)) [])
      (fun q => (one q).map (fun l => l.map Prod.snd)) := by
  have key : ∀ (coll : Coll) (ls : List (List (List Char × QState))), (coll.map Prod.fst).Nodup →
      List.Forall₂ (fun p l => (one p.2).map (fun l => l.map (fun e => (p.1 ++ e.1, e.2))) = some l) coll ls →
      (ls.flatten.map Prod.fst).Nodup ∧ (statesOf coll).mapM (fun q => (one q).map (fun l => l.map Prod.snd)) = some (ls.map (fun l => l.map Prod.snd))
        ∧ ∀ e ∈ ls.flatten, ∃ i ∈ coll.map Prod.fst, ∃ t, t.length = n ∧ e.1 = i ++ t := by
    intro coll ls hn h
    induction h with
    | nil => simp [statesOf]
    | @cons p l coll ls h1 h2 ih =>
      rw [List.map_cons, List.nodup_cons] at hn
      obtain ⟨i1, i2, i3⟩ := ih hn.2
      obtain ⟨l0, hl0, rfl⟩ := Option.map_eq_some_iff.1 h1
      obtain ⟨k1, k2⟩ := hk _ _ hl0
      refine ⟨?_, ?_, ?_⟩
      · rw [List.flatten_cons, List.map_append, List.nodup_append]
        refine ⟨?_, i1, ?_⟩
        · rw [List.map_map]
          have : (Prod.fst ∘ fun e : List Char × QState => (p.1 ++ e.1, e.2)) = (fun t => p.1 ++ t) ∘ Prod.fst := rfl
          rw [this, ← List.map_map]
          exact k1.map (fun a b e => List.append_cancel_left e)
        · intro a ha b hb hab
          subst hab
          obtain ⟨e, he, rfl⟩ := List.mem_map.1 ha
          obtain ⟨e0, he0, rfl⟩ := List.mem_map.1 he
          obtain ⟨e', he', hee⟩ := List.mem_map.1 hb
          obtain ⟨i, hi, t, ht, e3⟩ := i3 e' he'
          rw [e3] at hee
          have := (List.append_inj' hee (by rw [ht, k2 e0 he0])).1
          exact hn.1 (this ▸ hi)
      · rw [statesOf_cons, mapM_cons_opt, i2, hl0]
        simp
      · intro e he
        rw [List.flatten_cons, List.mem_append] at he
        rcases he with he | he
        · obtain ⟨e0, he0, rfl⟩ := List.mem_map.1 he
          exact ⟨p.1, by simp, e0.1, k2 e0 he0, rfl⟩
        · obtain ⟨i, hi, h⟩ := i3 e he
          exact ⟨i, by simp only [List.map_cons, List.mem_cons]; exact Or.inr hi, h⟩
  have hfold : ∀ ls : List (List (List Char × QState)), (ls.flatten.map Prod.fst).Nodup →
      ls.flatten.foldl (fun (out : Coll) e => out.set e.1 e.2) [] = ls.flatten := by
    intro ls hn
    have := Dict.foldl_set_of_nodup ls.flatten ([] : Coll) (by simpa [Dict.keys] using hn)
    simpa using this
  constructor
  · intro coll hn
    cases hm : coll.mapM (fun p => (one p.2).map (fun l => l.map (fun e => (p.1 ++ e.1, e.2)))) with
    | some ls =>
      have hf := (forall₂_mapM _ _ _).1 hm
      obtain ⟨k1, k2, -⟩ := key coll ls hn hf
      rw [(foldlM_entries (fun p : List Char × QState => (one p.2).map (fun l => l.map (fun e => (p.1 ++ e.1, e.2)))) coll ls.flatten []).2
        ⟨ls, hf, (hfold ls k1).symm⟩, k2, Option.map_some, Option.map_some]
      congr 1
      unfold statesOf
      rw [List.map_flatten]
    | none =>
      have e1 : coll.foldlM (fun (out : Coll) p =>
          ((one p.2).map (fun l => l.map (fun e => (p.1 ++ e.1, e.2)))).map (fun l => l.foldl (fun (out : Coll) e => out.set e.1 e.2) out)) [] = none := by
        cases hc : coll.foldlM (fun (out : Coll) p =>
          ((one p.2).map (fun l => l.map (fun e => (p.1 ++ e.1, e.2)))).map (fun l => l.foldl (fun (out : Coll) e => out.set e.1 e.2) out)) [] with
        | none => rfl
        | some out =>
          obtain ⟨ls, hf, -⟩ := (foldlM_entries (fun p : List Char × QState => (one p.2).map (fun l => l.map (fun e => (p.1 ++ e.1, e.2)))) coll out []).1 hc
          rw [(forall₂_mapM _ _ _).2 hf] at hm
          cases hm
      rw [e1]
      cases hc : (statesOf coll).mapM (fun q => (one q).map (fun l => l.map Prod.snd)) with
      | none => rfl
      | some ls =>
        exfalso
        have hall : ∀ p ∈ coll, ∃ l, one p.2 = some l := by
          intro p hp
          obtain ⟨b, _, hb⟩ := forall₂_mem_left' ((forall₂_mapM _ _ _).1 hc) (show p.2 ∈ statesOf coll from List.mem_map_of_mem (f := Prod.snd) hp)
          obtain ⟨l, hl, -⟩ := Option.map_eq_some_iff.1 hb
          exact ⟨l, hl⟩
        rw [mapM_some_of_all (z := fun p => ((one p.2).getD []).map (fun e => (p.1 ++ e.1, e.2)))] at hm
        · cases hm
        · intro p hp
          obtain ⟨l, hl⟩ := hall p hp
          rw [hl]; rfl
  · intro coll out hn h
    obtain ⟨ls, hf, rfl⟩ := (foldlM_entries (fun p : List Char × QState => (one p.2).map (fun l => l.map (fun e => (p.1 ++ e.1, e.2)))) coll out []).1 h
    rw [hfold ls (key coll ls hn hf).1]
    exact (key coll ls hn hf).1

theorem groupTraced_keys {g : Cfg} {keep : List ℕ} {c : Comps} {d : Dict (List Char) Comps} (h : groupTraced g keep c = some d) :
    (d.map Prod.fst).Nodup ∧ ∀ e ∈ d, ∃ v, Valid g v ∧ e.1 = dropName g keep v := by
  unfold groupTraced at h
  have key : ∀ (c : Comps) (acc d : Dict (List Char) Comps), ((acc.map Prod.fst).Nodup ∧ ∀ e ∈ acc, ∃ v, Valid g v ∧ e.1 = dropName g keep v) →
      c.foldlM (fun (d : Dict (List Char) Comps) p => do
        let v ← g.parse p.1
        if g.containsVals v then
          let s ← (⟨g.L, keep.length, g.left⟩ : Cfg).render (keepVals keep v)
          some (d.set (dropName g keep v) (((d.get? (dropName g keep v)).getD []).set s p.2))
        else none) acc = some d → ((d.map Prod.fst).Nodup ∧ ∀ e ∈ d, ∃ v, Valid g v ∧ e.1 = dropName g keep v) := by
    intro c
    induction c with
    | nil =>
      intro acc d ha h
      obtain rfl := Option.some.inj h
      exact ha
    | cons p c ih =>
      intro acc d ha h
      rw [List.foldlM_cons] at h
      simp only [Option.bind_eq_bind] at h
      obtain ⟨d1, h1, h⟩ := Option.bind_eq_some_iff.1 h
      refine ih d1 d ?_ h
      obtain ⟨v, hv, h1⟩ := Option.bind_eq_some_iff.1 h1
      split at h1
      · rename_i hc
        obtain ⟨s, _, h1⟩ := Option.bind_eq_some_iff.1 h1
        obtain rfl := Option.some.inj h1
        refine ⟨Dict.nodup_keys_set ha.1 _ _, ?_⟩
        intro e he
        rcases Dict.mem_set he with he | rfl
        · exact ha.2 e he
        · refine ⟨v, ?_, rfl⟩
          unfold Cfg.containsVals at hc
          simpa [Valid] using hc
      · cases h1
  exact key c [] d (by simp) h

/-- the states `reduce` makes from one state, with the parts added to the identifier -/
noncomputable def reduceOne (g : Cfg) (thr : ℝ) (keep ckeep : List ℕ) (q : QState) : Option (List (List Char × QState)) := reduceState g thr keep ckeep [] q

theorem reduceOne_spec (g : Cfg) (thr : ℝ) (keep ckeep : List ℕ) (i : List Char) (q : QState) :
    reduceState g thr keep ckeep i q = (reduceOne g thr keep ckeep q).map (fun l => l.map (fun e => (i ++ e.1, e.2))) := by
  unfold reduceOne reduceState
  cases groupTraced g keep q.comps with
  | none => rfl
  | some d =>
    simp only [Option.bind_eq_bind, Option.bind_some]
    induction d with
    | nil => rfl
    | cons e d ih =>
      rw [mapM_cons_opt, mapM_cons_opt, ih]
      cases reducedState thr ckeep.length ckeep q e.2 with
      | none => rfl
      | some q' =>
        simp only [Option.map_some, Option.bind_some, List.nil_append, Option.map_map]
        congr 1

theorem reduceOne_keys {g : Cfg} {thr : ℝ} {keep ckeep : List ℕ} {q : QState} {l : List (List Char × QState)} (h : reduceOne g thr keep ckeep q = some l) :
    (l.map Prod.fst).Nodup ∧ ∀ e ∈ l, ∃ v, Valid g v ∧ e.1 = dropName g keep v := by
  unfold reduceOne reduceState at h
  simp only [Option.bind_eq_bind] at h
  obtain ⟨d, hd, hl⟩ := Option.bind_eq_some_iff.1 h
  obtain ⟨h1, h2⟩ := groupTraced_keys hd
  have e1 : l.map Prod.fst = d.map Prod.fst := by
    have := (forall₂_mapM _ _ _).1 hl
    clear h h1 h2 hd hl
    induction this with
    | nil => rfl
    | cons ha _ ih =>
      obtain ⟨q', _, rfl⟩ := Option.map_eq_some_iff.1 ha
      rw [List.map_cons, List.map_cons, ih]
      rfl
  rw [e1]
  refine ⟨h1, ?_⟩
  intro e he
  have : e.1 ∈ d.map Prod.fst := by rw [← e1]; exact List.mem_map_of_mem he
  obtain ⟨e', he', e2⟩ := List.mem_map.1 this
  rw [← e2]
  exact h2 e' he'

theorem reduceOne_label {g : Cfg} {thr : ℝ} {keep ckeep : List ℕ} : KeepsLabel (fun q => (reduceOne g thr keep ckeep q).map (fun l => l.map Prod.snd)) := by
  intro q qs h q' hq'
  obtain ⟨l, hl, rfl⟩ := Option.map_eq_some_iff.1 h
  obtain ⟨e, he, rfl⟩ := List.mem_map.1 hq'
  unfold reduceOne reduceState at hl
  simp only [Option.bind_eq_bind] at hl
  obtain ⟨d, hd, hl⟩ := Option.bind_eq_some_iff.1 hl
  obtain ⟨t, _, ht⟩ := forall₂_mem_left' ((forall₂_mapM _ _ _).1 hl).flip he
  obtain ⟨q1, hq1, rfl⟩ := Option.map_eq_some_iff.1 ht
  unfold reducedState at hq1
  simp only [Option.bind_eq_bind] at hq1
  split at hq1
  · cases hq1
  · obtain ⟨cl, _, hq1⟩ := Option.bind_eq_some_iff.1 hq1
    unfold newState at hq1
    split at hq1
    · obtain rfl := Option.some.inj hq1; rfl
    · cases hq1

theorem actsPerState_reduce {g : Cfg} {m : ℕ} {thr : ℝ} {keep ckeep : List ℕ} (h1 : ∀ c ∈ orAll g.C keep, c < g.C) (h2 : ∀ c ∈ orAll m ckeep, c < m)
    (h3 : (keptCfg g (orAll g.C keep)).Ok) :
    ActsPerState (fun st => (reduceColl ⟨g, m, thr, st⟩ keep ckeep).map Collection.states)
      (fun q => (reduceOne g thr (orAll g.C keep) (orAll m ckeep) q).map (fun l => l.map Prod.snd)) := by
  have hv : Valid g (List.replicate g.C 0) ∨ ¬ ∃ v, Valid g v := by
    by_cases hh : ∃ v, Valid g v
    · left
      obtain ⟨v, hv⟩ := hh
      refine ⟨by simp, ?_⟩
      intro x hx
      have hx' := List.eq_of_mem_replicate hx
      rw [hx']
      have hC : g.C ≠ 0 := by rintro h; rw [h] at hx; simp at hx
      cases v with
      | nil => exact absurd hv.1.symm hC
      | cons a v => exact lt_of_le_of_lt (Nat.zero_le _) (hv.2 a (by simp))
    · exact Or.inr hh
  have hkeys : ∀ q l, reduceOne g thr (orAll g.C keep) (orAll m ckeep) q = some l →
      (l.map Prod.fst).Nodup ∧ ∀ e ∈ l, e.1.length = (dropName g (orAll g.C keep) (List.replicate g.C 0)).length := by
    intro q l hl
    obtain ⟨k1, k2⟩ := reduceOne_keys hl
    refine ⟨k1, ?_⟩
    intro e he
    obtain ⟨v, hv', e1⟩ := k2 e he
    rw [e1]
    rcases hv with hv | hv
    · exact dropName_length hv' hv
    · exact absurd ⟨v, hv'⟩ hv
  refine (actsPerState_entries hkeys).congr ?_
  intro coll _
  have e0 : reduceColl ⟨g, m, thr, coll⟩ keep ckeep = (do
    if ¬ (orAll g.C keep).all (· < g.C) ∨ ¬ (orAll m ckeep).all (· < m) then none
    if ¬ (keptCfg g (orAll g.C keep)).Ok then none
    let out ← coll.foldlM (fun (out : Coll) p =>
      (reduceState g thr (orAll g.C keep) (orAll m ckeep) p.1 p.2).map (fun l => l.foldl (fun (out : Coll) e => out.set e.1 e.2) out)) []
    if coll = [] then some ⟨g, m, thr, coll⟩ else some ⟨keptCfg g (orAll g.C keep), (orAll m ckeep).length, thr, out⟩) := rfl
  rw [e0, if_neg (by simpa using ⟨h1, h2⟩), if_neg (by simpa using h3)]
  simp only [Option.bind_eq_bind, reduceOne_spec]
  by_cases hc : coll = []
  · subst hc; rfl
  simp only [if_neg hc]
  generalize coll.foldlM (fun (out : Coll) p => ((reduceOne g thr (orAll g.C keep) (orAll m ckeep) p.2).map (fun l => l.map (fun e => (p.1 ++ e.1, e.2)))).map
    (fun l => l.foldl (fun (out : Coll) e => out.set e.1 e.2) out)) [] = x
  cases x <;> rfl

/-! ### another length of the Fock state -/

noncomputable def adjustOne (g : Cfg) (m : ℕ) (thr : ℝ) (newL : ℕ) (q : QState) : Option QState :=
  (q.comps.foldlM (fun (d : Comps) (c : Name × Comp) => do
      let v ← g.parse c.1
      let s ← (⟨newL, g.C, g.left⟩ : Cfg).render (v.map (· % newL))
      some (d.set s c.2)) ([] : Comps)).bind (fun comps => newState thr m { q with comps := comps })

theorem actsPerState_adjust {g : Cfg} {m : ℕ} {thr : ℝ} {newL : ℕ} (hL : 1 ≤ newL) (hC : 2 ≤ g.C) :
    ActsPerState (fun st => (adjustLength ⟨g, m, thr, st⟩ newL).map Collection.states) (fun q => (adjustOne g m thr newL q).map (fun q' => [q'])) := by
  refine (actsPerState_map (adjustOne g m thr newL)).congr ?_
  intro coll hn
  have e0 : adjustLength ⟨g, m, thr, coll⟩ newL = (do
      if ¬ (⟨if newL = 0 then g.L else newL, g.C, g.left⟩ : Cfg).Ok then none
      let out ← coll.foldlM (fun (out : Coll) p => do
        let comps ← p.2.comps.foldlM (fun (d : Comps) c => do
          let v ← g.parse c.1
          let s ← (⟨if newL = 0 then g.L else newL, g.C, g.left⟩ : Cfg).render (v.map (· % (if newL = 0 then g.L else newL)))
          some (d.set s c.2)) ([] : Comps)
        let q ← newState thr m { p.2 with comps := comps }
        some (out.set p.1 q)) []
      some ⟨⟨if newL = 0 then g.L else newL, g.C, g.left⟩, m, thr, out⟩) := rfl
  rw [e0, if_neg (show newL ≠ 0 by omega), if_neg (not_not.2 (show (⟨newL, g.C, g.left⟩ : Cfg).Ok from ⟨hL, hC⟩))]
  simp only [Option.bind_eq_bind]
  have key : ∀ (coll acc : Coll), ((acc ++ coll).map Prod.fst).Nodup →
      coll.foldlM (fun (out : Coll) p => (p.2.comps.foldlM (fun (d : Comps) c => (g.parse c.1).bind (fun v =>
          ((⟨newL, g.C, g.left⟩ : Cfg).render (v.map (· % newL))).bind (fun s => some (d.set s c.2)))) ([] : Comps)).bind (fun comps =>
            (newState thr m { p.2 with comps := comps }).bind (fun q => some (out.set p.1 q)))) acc
        = (coll.mapM (fun p => (adjustOne g m thr newL p.2).map (fun q => (p.1, q)))).map (fun l => acc ++ l) := by
    intro coll
    induction coll with
    | nil => intro acc _; simp
    | cons p coll ih =>
      intro acc hn
      rw [List.foldlM_cons, mapM_cons_opt]
      simp only [Option.bind_eq_bind]
      have e1 : ∀ out : Coll, ((p.2.comps.foldlM (fun (d : Comps) c => (g.parse c.1).bind (fun v =>
          ((⟨newL, g.C, g.left⟩ : Cfg).render (v.map (· % newL))).bind (fun s => some (d.set s c.2)))) ([] : Comps)).bind (fun comps =>
            (newState thr m { p.2 with comps := comps }).bind (fun q => some (out.set p.1 q)))) = (adjustOne g m thr newL p.2).bind (fun q => some (out.set p.1 q)) := by
        intro out
        unfold adjustOne
        rw [Option.bind_assoc]
        rfl
      rw [e1]
      cases adjustOne g m thr newL p.2 with
      | none => rfl
      | some q =>
        simp only [Option.bind_some, Option.map_some]
        have hnot : p.1 ∉ Dict.keys acc := by
          rw [List.map_append, List.map_cons, List.nodup_append] at hn
          intro hm
          exact hn.2.2 p.1 hm p.1 (by simp) rfl
        rw [Dict.set_of_not_mem _ hnot, ih]
        · rw [Option.map_map]
          congr 1
          funext l
          simp
        · simpa using hn
  rw [key coll [] (by simpa using hn)]
  cases coll.mapM (fun p => (adjustOne g m thr newL p.2).map (fun q => (p.1, q))) <;> rfl

theorem keepsLabel_adjust (g : Cfg) (m : ℕ) (thr : ℝ) (newL : ℕ) : KeepsLabel (fun q => (adjustOne g m thr newL q).map (fun q' => [q'])) := by
  apply keepsLabel_single
  intro q q' h
  unfold adjustOne at h
  obtain ⟨comps, _, h⟩ := Option.bind_eq_some_iff.1 h
  unfold newState at h
  split at h
  · obtain rfl := Option.some.inj h; rfl
  · cases h

end Verif
