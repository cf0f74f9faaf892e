/-
Helper lemmas: what `reduce` produces for a whole collection.
-/
import Verif.Lemmas.Reduce
import Verif.Spec.Reshape

namespace Verif

open Spec

theorem sameOutside_iff {g : Cfg} {keep : List ℕ} {v w : Vals} (hv : Valid g v) (hw : Valid g w) :
    SameOutside g keep v w ↔ dropName g keep v = dropName g keep w := (dropName_inj hv hw).symm

theorem outsideProb_enc {g : Cfg} {keep : List ℕ} {l : VComps} (hl : VOk g l) {v : Vals} (hv : Valid g v) :
    outsideProb g keep (enc g l) v = tracedProb g keep l (dropName g keep v) := by
  classical
  rw [outsideProb, enc, List.map_map, tracedProb, tracedItems]

  induction l with
  | nil => rfl
  | cons p l ih =>
    obtain ⟨-, hp, hl'⟩ := VOk.cons.1 hl
    rw [List.map_cons, List.sum_cons, ih hl', List.filter_cons]
    have e : (∃ w, Valid g w ∧ IsName g w (g.stdName p.1) ∧ SameOutside g keep v w) ↔ dropName g keep p.1 = dropName g keep v := by
      constructor
      · rintro ⟨w, hw, hn, hs⟩
        rw [isName_iff hw] at hn
        obtain rfl := g.stdName_inj hp.2 hw.2 hn
        exact ((sameOutside_iff hv hp).1 hs).symm
      · intro h
        exact ⟨p.1, hp, (isName_iff hp).2 rfl, (sameOutside_iff hv hp).2 h.symm⟩
    simp only [Function.comp_def, e]
    by_cases h : dropName g keep p.1 = dropName g keep v
    · simp [h]
    · simp [h]

/-- what one state turns into -/
def ReducedTo (g : Cfg) (thr : ℝ) (keep ckeep : List ℕ) (p : List Char × QState) (ls : List (List Char × QState)) : Prop :=
  ∃ l classical, VOk g l ∧ p.2.comps = enc g l ∧ (l ≠ [] → ckeep.mapM (fun n => p.2.classical[n]?) = some classical) ∧
    (∀ t ∈ tracedKeys g keep l, tracedProb g keep l t ≠ 0 ∧ CheckValid thr ckeep.length (tracedState g keep classical p.2 l t)) ∧
    ls = (tracedKeys g keep l).map (fun t => (p.1 ++ t, tracedState g keep classical p.2 l t))

theorem reduceState_iff {g : Cfg} {thr : ℝ} {keep ckeep : List ℕ} (hk : ∀ c ∈ keep, c < g.C) {p : List Char × QState}
    (hw : WellFormed g p.2.comps) {ls : List (List Char × QState)} :
    reduceState g thr keep ckeep p.1 p.2 = some ls ↔ ReducedTo g thr keep ckeep p ls := by
  constructor
  · intro h
    obtain ⟨l, hl, e⟩ := exists_enc hw
    by_cases hne : l = []
    · subst hne
      refine ⟨[], [], hl, e, by simp, by simp [tracedKeys, groupBy, Dict.keys], ?_⟩
      rw [reduceState, e] at h
      exact (Option.some.inj h).symm
    · obtain ⟨cl, h1, h2, h3⟩ := (reduceState_enc hk hl e hne).1 h
      exact ⟨l, cl, hl, e, fun _ => h1, h2, h3⟩
  · rintro ⟨l, cl, hl, e, h1, h2, rfl⟩
    by_cases hne : l = []
    · subst hne
      rw [reduceState, e]; rfl
    · exact (reduceState_enc hk hl e hne).2 ⟨cl, h1 hne, h2, rfl⟩

theorem ReducedTo.keys {g : Cfg} {thr : ℝ} {keep ckeep : List ℕ} {p : List Char × QState} {ls : List (List Char × QState)}
    (h : ReducedTo g thr keep ckeep p ls) :
    (ls.map Prod.fst).Nodup ∧ ∀ e ∈ ls, ∃ v, Valid g v ∧ e.1 = p.1 ++ dropName g keep v := by
  obtain ⟨l, cl, hl, -, -, -, rfl⟩ := h
  constructor
  · rw [List.map_map]
    exact (tracedKeys_nodup g keep l).map_on (fun a _ b _ e => List.append_cancel_left e)
  · intro e he
    obtain ⟨t, ht, rfl⟩ := List.mem_map.1 he
    obtain ⟨q, hq, rfl⟩ := mem_tracedKeys.1 ht
    exact ⟨q.1, hl.valid q hq, rfl⟩

theorem reduced_keys_nodup {g : Cfg} {thr : ℝ} {keep ckeep : List ℕ} {states : Coll} {lss : List (List (List Char × QState))}
    (hn : (states.map Prod.fst).Nodup) (h : List.Forall₂ (ReducedTo g thr keep ckeep) states lss) :
    (lss.flatten.map Prod.fst).Nodup := by
  induction h with
  | nil => simp
  | @cons p ls states lss h1 h2 ih =>
    rw [List.map_cons, List.nodup_cons] at hn
    rw [List.flatten_cons, List.map_append, List.nodup_append]
    refine ⟨h1.keys.1, ih hn.2, ?_⟩
    intro a ha b hb hab
    subst hab
    obtain ⟨e, he, rfl⟩ := List.mem_map.1 ha
    obtain ⟨e', he', hee⟩ := List.mem_map.1 hb
    obtain ⟨ls', hls', hm⟩ := List.mem_flatten.1 he'
    obtain ⟨p', hp', hr⟩ := forall₂_mem_right h2 hls'
    obtain ⟨v, hv, e1⟩ := h1.keys.2 e he
    obtain ⟨v', hv', e2⟩ := hr.keys.2 e' hm
    rw [e1, e2] at hee
    have := (List.append_inj' hee (dropName_length hv' hv)).1
    exact hn.1 (this ▸ List.mem_map.2 ⟨p', hp', rfl⟩)

theorem reduceColl_iff {cl out : Collection} {keep ckeep : List ℕ} (hne : cl.states ≠ [])
    (hn : (cl.states.map Prod.fst).Nodup) (hw : ∀ p ∈ cl.states, WellFormed cl.g p.2.comps) :
    reduceColl cl keep ckeep = some out ↔
      (∀ c ∈ orAll cl.g.C keep, c < cl.g.C) ∧ (∀ c ∈ orAll cl.m ckeep, c < cl.m) ∧ (keptCfg cl.g (orAll cl.g.C keep)).Ok ∧
      ∃ lss, List.Forall₂ (ReducedTo cl.g cl.thr (orAll cl.g.C keep) (orAll cl.m ckeep)) cl.states lss ∧
        out = ⟨keptCfg cl.g (orAll cl.g.C keep), (orAll cl.m ckeep).length, cl.thr, lss.flatten⟩ := by
  have e0 : reduceColl cl keep ckeep = (do
    if ¬ (orAll cl.g.C keep).all (· < cl.g.C) ∨ ¬ (orAll cl.m ckeep).all (· < cl.m) then none
    if ¬ (keptCfg cl.g (orAll cl.g.C keep)).Ok then none
    let out ← cl.states.foldlM (fun (out : Coll) p =>
      (reduceState cl.g cl.thr (orAll cl.g.C keep) (orAll cl.m ckeep) p.1 p.2).map (fun l => l.foldl (fun (out : Coll) e => out.set e.1 e.2) out)) []
    if cl.states = [] then some cl else some ⟨keptCfg cl.g (orAll cl.g.C keep), (orAll cl.m ckeep).length, cl.thr, out⟩) := rfl
  rw [e0]
  set K := orAll cl.g.C keep
  set CK := orAll cl.m ckeep
  by_cases h1 : ∀ c ∈ K, c < cl.g.C
  swap
  · rw [if_pos (Or.inl (by simpa using h1))]
    simp [h1]
  by_cases h2 : ∀ c ∈ CK, c < cl.m
  swap
  · rw [if_pos (Or.inr (by simpa using h2))]
    simp [h2]
  rw [if_neg (by simpa using ⟨h1, h2⟩)]
  by_cases h3 : (keptCfg cl.g K).Ok
  swap
  · rw [if_pos h3]
    simp [h3]
  rw [if_neg (by simpa using h3)]
  simp only [Option.bind_eq_bind, if_neg hne]
  have hconv : ∀ lss, List.Forall₂ (fun p l => reduceState cl.g cl.thr K CK p.1 p.2 = some l) cl.states lss ↔
      List.Forall₂ (ReducedTo cl.g cl.thr K CK) cl.states lss := by
    intro lss
    have key : ∀ states : Coll, (∀ p ∈ states, WellFormed cl.g p.2.comps) → ∀ lss,
        (List.Forall₂ (fun p l => reduceState cl.g cl.thr K CK p.1 p.2 = some l) states lss ↔
        List.Forall₂ (ReducedTo cl.g cl.thr K CK) states lss) := by
      intro states
      induction states with
      | nil => intro _ lss; simp
      | cons p states ih =>
        intro hw lss
        cases lss with
        | nil => simp
        | cons ls lss =>
          rw [List.forall₂_cons, List.forall₂_cons, reduceState_iff h1 (hw p (by simp)), ih (fun p hp => hw p (by simp [hp]))]
    exact key _ hw lss
  constructor
  · intro h
    obtain ⟨o, ho, e⟩ := Option.bind_eq_some_iff.1 h
    obtain ⟨lss, hf, rfl⟩ := (foldlM_entries _ _ _ _).1 ho
    obtain rfl := Option.some.inj e
    rw [hconv] at hf
    refine ⟨h1, h2, h3, lss, hf, ?_⟩
    have := Dict.foldl_set_of_nodup (α := List Char) (β := QState) lss.flatten [] (by simpa [Dict.keys] using reduced_keys_nodup hn hf)
    rw [this]; rfl
  · rintro ⟨-, -, -, lss, hf, rfl⟩
    have hk := reduced_keys_nodup hn hf
    rw [← hconv] at hf
    have := (foldlM_entries (fun p : List Char × QState => reduceState cl.g cl.thr K CK p.1 p.2) cl.states _ ([] : Coll)).2 ⟨lss, hf, rfl⟩
    rw [this]
    have e2 := Dict.foldl_set_of_nodup (α := List Char) (β := QState) lss.flatten [] (by simpa [Dict.keys] using hk)
    rw [e2]; rfl

end Verif
