/- Helper lemmas about tracing out optical channels. -/
import Verif.Model.Reshape
import Verif.Lemmas.Collection

namespace Verif
open Spec

/-- configuration after keeping the given channels -/
def keptCfg (g : Cfg) (keep : List ℕ) : Cfg := ⟨g.L, keep.length, g.left⟩

theorem getD_lt {g : Cfg} {v : Vals} (hv : Valid g v) {c : ℕ} (hc : c < g.C) : v.getD c 0 < g.L := by
  have : c < v.length := by rw [hv.1]; exact hc
  rw [List.getD_eq_getElem?_getD, List.getElem?_eq_getElem this, Option.getD_some]
  exact hv.2 _ (List.getElem_mem this)

theorem keep_valid {g : Cfg} {keep : List ℕ} (hk : ∀ c ∈ keep, c < g.C) {v : Vals} (hv : Valid g v) :
    Valid (keptCfg g keep) (keepVals keep v) := by
  refine ⟨by simp [keepVals, keptCfg], ?_⟩
  intro x hx
  obtain ⟨c, hc, rfl⟩ := List.mem_map.1 hx
  exact getD_lt hv (hk c hc)

theorem drop_lt {g : Cfg} {keep : List ℕ} {v : Vals} (hv : Valid g v) : ∀ x ∈ dropVals g keep v, x < g.L := by
  intro x hx
  obtain ⟨c, hc, rfl⟩ := List.mem_map.1 hx
  exact getD_lt hv (List.mem_range.1 (List.mem_filter.1 hc).1)

theorem dropName_eq (g : Cfg) (keep : List ℕ) (v : Vals) :
    dropName g keep v = (⟨g.L, 0, true⟩ : Cfg).stdName (dropVals g keep v) := rfl

theorem dropName_inj {g : Cfg} {keep : List ℕ} {v w : Vals} (hv : Valid g v) (hw : Valid g w) :
    dropName g keep v = dropName g keep w ↔ ∀ c < g.C, c ∉ keep → v.getD c 0 = w.getD c 0 := by
  rw [dropName_eq, dropName_eq]
  constructor
  · intro h
    have := Cfg.stdName_inj (⟨g.L, 0, true⟩ : Cfg) (drop_lt (g := g) hv) (drop_lt (g := g) hw) h
    intro c hc hk
    exact (List.map_inj_left.1 this) c (List.mem_filter.2 ⟨List.mem_range.2 hc, by simpa using hk⟩)
  · intro h
    congr 1
    apply List.map_congr_left
    intro c hc
    obtain ⟨h1, h2⟩ := List.mem_filter.1 hc
    exact h c (List.mem_range.1 h1) (by simpa using h2)

theorem dropName_length {g : Cfg} {keep : List ℕ} {v w : Vals} (hv : Valid g v) (hw : Valid g w) :
    (dropName g keep v).length = (dropName g keep w).length := by
  rw [dropName_eq, dropName_eq, Cfg.length_stdName (⟨g.L, 0, true⟩ : Cfg) (drop_lt (g := g) hv), Cfg.length_stdName (⟨g.L, 0, true⟩ : Cfg) (drop_lt (g := g) hw)]
  simp [dropVals]

theorem keep_drop_inj {g : Cfg} {keep : List ℕ} {v w : Vals} (hv : Valid g v) (hw : Valid g w)
    (h1 : keepVals keep v = keepVals keep w) (h2 : dropName g keep v = dropName g keep w) : v = w := by
  rw [dropName_inj hv hw] at h2
  have h1' := List.map_inj_left.1 h1
  apply List.ext_getElem (by rw [hv.1, hw.1])
  intro c hc hc'
  have : v.getD c 0 = w.getD c 0 := by
    by_cases hk : c ∈ keep
    · exact h1' c hk
    · exact h2 c (by rw [← hv.1]; exact hc) hk
  rwa [List.getD_eq_getElem?_getD, List.getD_eq_getElem?_getD, List.getElem?_eq_getElem hc, List.getElem?_eq_getElem hc'] at this

/-- components of one traced-out value -/
def tracedItems (g : Cfg) (keep : List ℕ) (l : VComps) (t : List Char) : VComps :=
  l.filter (fun p => dropName g keep p.1 = t)

/-- ... with the dropped channels removed -/
def tracedComps (g : Cfg) (keep : List ℕ) (l : VComps) (t : List Char) : VComps :=
  (tracedItems g keep l t).map (fun p => (keepVals keep p.1, p.2))

/-- the traced-out values, in order of appearance -/
def tracedKeys (g : Cfg) (keep : List ℕ) (l : VComps) : List (List Char) := Dict.keys (groupBy (fun p : Vals × Comp => dropName g keep p.1) l)

theorem mem_tracedKeys {g : Cfg} {keep : List ℕ} {l : VComps} {t : List Char} :
    t ∈ tracedKeys g keep l ↔ ∃ p ∈ l, dropName g keep p.1 = t := by
  rw [tracedKeys, groupBy_mem_keys]; simp

theorem tracedKeys_nodup (g : Cfg) (keep : List ℕ) (l : VComps) : (tracedKeys g keep l).Nodup := groupBy_nodup _ _

theorem tracedComps_ok {g : Cfg} {keep : List ℕ} (hk : ∀ c ∈ keep, c < g.C) {l : VComps} (hl : VOk g l) (t : List Char) :
    VOk (keptCfg g keep) (tracedComps g keep l t) := by
  constructor
  · rw [tracedComps, List.map_map]
    have hn : (tracedItems g keep l t).Nodup := by
      have : l.Nodup := List.Nodup.of_map _ hl.nodup
      exact this.filter _
    refine hn.map_on ?_
    intro p hp p' hp' e
    obtain ⟨h1, h2⟩ := List.mem_filter.1 hp
    obtain ⟨h1', h2'⟩ := List.mem_filter.1 hp'
    have hv := keep_drop_inj (hl.valid p h1) (hl.valid p' h1') e (by simp at h2 h2'; rw [h2, h2'])
    have e1 := Dict.get?_of_mem hl.nodup (show (p.1, p.2) ∈ l from h1)
    have e2 := Dict.get?_of_mem hl.nodup (show (p'.1, p'.2) ∈ l from h1')
    rw [hv, e2] at e1
    exact Prod.ext hv (Option.some.inj e1).symm
  · intro p hp
    obtain ⟨r, hr, rfl⟩ := List.mem_map.1 hp
    exact keep_valid hk (hl.valid r (List.mem_filter.1 hr).1)

theorem VOk.append_left {g : Cfg} {l l' : VComps} (h : VOk g (l ++ l')) : VOk g l :=
  ⟨by have := h.nodup; rw [List.map_append] at this; exact (List.nodup_append.1 this).1, fun p hp => h.valid p (by simp [hp])⟩

theorem Dict.map_set {α β γ : Type*} [DecidableEq α] (f : α → β → γ) (d : Dict α β) (k : α) (v : β) :
    (d.set k v).map (fun p => (p.1, f p.1 p.2)) = Dict.set (d.map (fun p => (p.1, f p.1 p.2))) k (f k v) := by
  induction d with
  | nil => rfl
  | cons p d ih =>
    obtain ⟨a, b⟩ := p
    rw [Dict.set, List.map_cons, Dict.set]
    split
    · rename_i h; subst h; rfl
    · rw [List.map_cons, ih]

theorem Dict.get?_map {α β γ : Type*} [DecidableEq α] (f : α → β → γ) (d : Dict α β) (k : α) :
    Dict.get? (d.map (fun p => (p.1, f p.1 p.2))) k = (Dict.get? d k).map (f k) := by
  induction d with
  | nil => rfl
  | cons p d ih =>
    obtain ⟨a, b⟩ := p
    rw [List.map_cons, Dict.get?_cons, Dict.get?_cons]
    split
    · rename_i h; subst h; rfl
    · exact ih

theorem groupTraced_enc {g : Cfg} {keep : List ℕ} (hk : ∀ c ∈ keep, c < g.C) {l : VComps} (hl : VOk g l) :
    groupTraced g keep (enc g l) = some ((tracedKeys g keep l).map (fun t => (t, enc (keptCfg g keep) (tracedComps g keep l t)))) := by
  have hmain : groupTraced g keep (enc g l) = some ((groupBy (fun p : Vals × Comp => dropName g keep p.1) l).map
      (fun tp => (tp.1, enc (keptCfg g keep) (tp.2.map (fun p => (keepVals keep p.1, p.2)))))) := by
    induction l using List.reverseRecOn with
    | nil => rfl
    | append_singleton l a ih =>
      have ih := ih hl.append_left
      have ha : Valid g a.1 := hl.valid a (by simp)
      have e : groupTraced g keep (enc g (l ++ [a])) = (groupTraced g keep (enc g l)).bind (fun d =>
          some (d.set (dropName g keep a.1) (((d.get? (dropName g keep a.1)).getD []).set
            ((keptCfg g keep).stdName (keepVals keep a.1)) a.2))) := by
        unfold groupTraced
        rw [enc_append, List.foldlM_append]
        simp only [Option.bind_eq_bind]
        congr 1
        funext d
        simp only [enc, List.map_cons, List.map_nil, List.foldlM_cons, List.foldlM_nil, Option.bind_eq_bind]
        rw [g.parse_stdName ha.2]
        simp only [Option.bind_some, (Cfg.containsVals_iff g a.1).2 ha, if_true]
        have := (keptCfg g keep).render_of_valid (keep_valid hk ha)
        unfold keptCfg at this
        rw [this]
        rfl
      rw [e, ih, Option.bind_some]
      congr 1
      rw [groupBy_append]
      rw [show (fun tp : List Char × List (Vals × Comp) => (tp.1, enc (keptCfg g keep) (tp.2.map (fun p => (keepVals keep p.1, p.2)))))
        = (fun tp => (tp.1, (fun (_ : List Char) (x : List (Vals × Comp)) => enc (keptCfg g keep) (x.map (fun p => (keepVals keep p.1, p.2)))) tp.1 tp.2)) from rfl]
      rw [Dict.map_set (fun (_ : List Char) (x : List (Vals × Comp)) => enc (keptCfg g keep) (x.map (fun p => (keepVals keep p.1, p.2)))),
        Dict.get?_map (fun (_ : List Char) (x : List (Vals × Comp)) => enc (keptCfg g keep) (x.map (fun p => (keepVals keep p.1, p.2))))]
      congr 1
      set old := ((groupBy (fun p : Vals × Comp => dropName g keep p.1) l).get? (dropName g keep a.1)).getD [] with hold
      have hgd : (Option.map (fun (x : List (Vals × Comp)) => enc (keptCfg g keep) (x.map (fun p => (keepVals keep p.1, p.2))))
          ((groupBy (fun p : Vals × Comp => dropName g keep p.1) l).get? (dropName g keep a.1))).getD []
          = enc (keptCfg g keep) (old.map (fun p => (keepVals keep p.1, p.2))) := by
        rw [hold]
        cases (groupBy (fun p : Vals × Comp => dropName g keep p.1) l).get? (dropName g keep a.1) <;> rfl
      rw [hgd, List.map_append, enc_append]
      have hmem : ∀ p ∈ old, p ∈ l ∧ dropName g keep p.1 = dropName g keep a.1 := by
        intro p hp
        rw [hold, groupBy_get?] at hp
        split at hp
        · have := List.mem_filter.1 hp
          exact ⟨this.1, by simpa using this.2⟩
        · simp at hp
      rw [set_enc]
      · rw [Dict.set_of_not_mem]
        · simp [enc]
        · intro hm
          simp only [Dict.keys, List.map_map] at hm
          obtain ⟨p, hp, e⟩ := List.mem_map.1 hm
          obtain ⟨h1, h2⟩ := hmem p hp
          have hpv := keep_drop_inj (hl.valid p (by simp [h1])) ha e h2
          have hn := hl.nodup
          rw [List.map_append, List.nodup_append] at hn
          exact hn.2.2 _ (List.mem_map.2 ⟨p, h1, rfl⟩) _ (by simp) hpv
      · intro p hp
        obtain ⟨r, hr, rfl⟩ := List.mem_map.1 hp
        exact keep_valid hk (hl.valid r (by simp [(hmem r hr).1]))
      · exact keep_valid hk ha
  rw [hmain]
  congr 1
  rw [groupBy_eq, List.map_map]
  rfl

/-- total probability of a traced-out value -/
noncomputable def tracedProb (g : Cfg) (keep : List ℕ) (l : VComps) (t : List Char) : ℝ :=
  ((tracedItems g keep l t).map (fun p => ‖p.2.amp‖ ^ 2)).sum

theorem tracedProb_nonneg (g : Cfg) (keep : List ℕ) (l : VComps) (t : List Char) : 0 ≤ tracedProb g keep l t := by
  apply List.sum_nonneg
  intro x hx
  obtain ⟨p, _, rfl⟩ := List.mem_map.1 hx
  positivity

theorem sum_tracedProb (g : Cfg) (keep : List ℕ) (l : VComps) :
    ((tracedKeys g keep l).map (tracedProb g keep l)).sum = (l.map (fun p => ‖p.2.amp‖ ^ 2)).sum :=
  sum_groups (fun p : Vals × Comp => dropName g keep p.1) (fun p => ‖p.2.amp‖ ^ 2) l _ (tracedKeys_nodup g keep l)
    (fun a ha => mem_tracedKeys.2 ⟨a, ha, rfl⟩)

theorem tracedProb_le (g : Cfg) (keep : List ℕ) (l : VComps) (t : List Char) :
    tracedProb g keep l t ≤ (l.map (fun p => ‖p.2.amp‖ ^ 2)).sum := by
  apply List.Sublist.sum_le_sum
  · exact List.Sublist.map _ List.filter_sublist
  · intro x hx
    obtain ⟨p, _, rfl⟩ := List.mem_map.1 hx
    positivity

/-- scale a component -/
noncomputable def scaleComp (P : ℝ) (p : Vals × Comp) : Vals × Comp :=
  (p.1, ⟨p.2.amp * ((Real.sqrt (1 / P) : ℝ) : ℂ), ‖p.2.amp * ((Real.sqrt (1 / P) : ℝ) : ℂ)‖ ^ 2⟩)

/-- the state for one traced-out value -/
noncomputable def tracedState (g : Cfg) (keep : List ℕ) (classical : List ℝ) (q : QState) (l : VComps) (t : List Char) : QState :=
  ⟨q.initial, q.cum * tracedProb g keep l t,
    enc (keptCfg g keep) ((tracedComps g keep l t).map (scaleComp (tracedProb g keep l t))), classical, q.results⟩

theorem scaleComp_ok {g : Cfg} {l : VComps} (hl : VOk g l) (P : ℝ) : VOk g (l.map (scaleComp P)) := by
  constructor
  · rw [List.map_map]; exact hl.nodup
  · intro p hp
    obtain ⟨r, hr, rfl⟩ := List.mem_map.1 hp
    exact hl.valid r hr

theorem reducedState_enc {g : Cfg} {thr : ℝ} {m' : ℕ} {keep ckeep : List ℕ} {q q' : QState} {l : VComps} {t : List Char} :
    reducedState thr m' ckeep q (enc (keptCfg g keep) (tracedComps g keep l t)) = some q' ↔
      tracedProb g keep l t ≠ 0 ∧ ∃ classical, ckeep.mapM (fun n => q.classical[n]?) = some classical ∧
        q' = tracedState g keep classical q l t ∧ CheckValid thr m' q' := by
  have hP : ((enc (keptCfg g keep) (tracedComps g keep l t)).map (fun p => ‖p.2.amp‖ ^ 2)).sum = tracedProb g keep l t := by
    rw [tracedProb, enc, tracedComps, List.map_map, List.map_map]; rfl
  unfold reducedState
  simp only [hP]
  by_cases h0 : tracedProb g keep l t = 0
  · simp [h0]
  · simp only [h0, if_false]
    cases hc : ckeep.mapM (fun n => q.classical[n]?) with
    | none => simp
    | some cl =>
      have e : (enc (keptCfg g keep) (tracedComps g keep l t)).map (fun p => (p.1, (⟨p.2.amp * ((Real.sqrt (1 / tracedProb g keep l t) : ℝ) : ℂ),
          ‖p.2.amp * ((Real.sqrt (1 / tracedProb g keep l t) : ℝ) : ℂ)‖ ^ 2⟩ : Comp)))
          = enc (keptCfg g keep) ((tracedComps g keep l t).map (scaleComp (tracedProb g keep l t))) := by
        simp only [enc, List.map_map]; rfl
      have ets : tracedState g keep cl q l t = ⟨q.initial, q.cum * tracedProb g keep l t,
          (enc (keptCfg g keep) (tracedComps g keep l t)).map (fun p => (p.1, (⟨p.2.amp * ((Real.sqrt (1 / tracedProb g keep l t) : ℝ) : ℂ),
          ‖p.2.amp * ((Real.sqrt (1 / tracedProb g keep l t) : ℝ) : ℂ)‖ ^ 2⟩ : Comp))), cl, q.results⟩ := by
        rw [tracedState, ← e]
      simp only [Option.bind_eq_bind, Option.bind_some, newState]
      constructor
      · intro h
        split at h
        · rename_i hv
          obtain rfl := Option.some.inj h
          exact ⟨h0, cl, rfl, ets.symm, hv⟩
        · cases h
      · rintro ⟨-, cl', e1, rfl, hv⟩
        obtain rfl := Option.some.inj e1
        rw [ets] at hv ⊢
        rw [if_pos]
        exact hv

theorem reduceState_enc {g : Cfg} {thr : ℝ} {keep ckeep : List ℕ} (hk : ∀ c ∈ keep, c < g.C) {i : List Char} {q : QState} {l : VComps}
    (hl : VOk g l) (hq : q.comps = enc g l) (hne : l ≠ []) {out : List (List Char × QState)} :
    reduceState g thr keep ckeep i q = some out ↔ ∃ classical, ckeep.mapM (fun n => q.classical[n]?) = some classical ∧
      (∀ t ∈ tracedKeys g keep l, tracedProb g keep l t ≠ 0 ∧ CheckValid thr ckeep.length (tracedState g keep classical q l t)) ∧
      out = (tracedKeys g keep l).map (fun t => (i ++ t, tracedState g keep classical q l t)) := by
  unfold reduceState
  rw [hq, groupTraced_enc hk hl]
  simp only [Option.bind_eq_bind, Option.bind_some]
  rw [List.mapM_map]
  constructor
  · intro h
    rw [mapM_some_iff] at h
    have hcl : ∃ cl, ckeep.mapM (fun n => q.classical[n]?) = some cl := by
      obtain ⟨p, l', rfl⟩ := List.exists_cons_of_ne_nil hne
      have hm : dropName g keep p.1 ∈ tracedKeys g keep (p :: l') := mem_tracedKeys.2 ⟨p, by simp, rfl⟩
      obtain ⟨k, hk'⟩ := List.mem_iff_getElem?.1 hm
      cases ho : tracedKeys g keep (p :: l') with
      | nil => rw [ho] at hm; cases hm
      | cons t ts =>
        rw [ho] at h
        cases h with
        | cons h1 _ =>
          obtain ⟨q', hq', -⟩ := Option.map_eq_some_iff.1 h1
          obtain ⟨-, cl, hcl, -⟩ := reducedState_enc.1 hq'
          exact ⟨cl, hcl⟩
    obtain ⟨cl, hcl⟩ := hcl
    refine ⟨cl, hcl, ?_⟩
    generalize tracedKeys g keep l = ks at h
    induction h with
    | nil => simp
    | cons h1 _ ih =>
      obtain ⟨q', hq', rfl⟩ := Option.map_eq_some_iff.1 h1
      obtain ⟨h0, cl', hcl', rfl, hv⟩ := reducedState_enc.1 hq'
      rw [hcl] at hcl'
      obtain rfl := Option.some.inj hcl'
      obtain ⟨ih1, rfl⟩ := ih
      refine ⟨?_, rfl⟩
      intro t ht
      rcases List.mem_cons.1 ht with rfl | ht
      · exact ⟨h0, hv⟩
      · exact ih1 t ht
  · rintro ⟨cl, hcl, hall, rfl⟩
    rw [mapM_some_of (g := fun t => (i ++ t, tracedState g keep cl q l t))]
    intro t ht
    obtain ⟨h0, hv⟩ := hall t ht
    simp only [Function.comp_def]
    rw [reducedState_enc.2 ⟨h0, cl, hcl, rfl, hv⟩]
    rfl

/-- states processed one after the other, their entries written into one dictionary -/
theorem foldlM_entries {α β : Type*} [DecidableEq β] {γ : Type*} (f : α → Option (List (β × γ))) (xs : List α) (out : Dict β γ) (acc : Dict β γ) :
    xs.foldlM (fun (out : Dict β γ) p => (f p).map (fun l => l.foldl (fun (out : Dict β γ) e => out.set e.1 e.2) out)) acc = some out ↔
      ∃ ls, List.Forall₂ (fun p l => f p = some l) xs ls ∧ out = ls.flatten.foldl (fun (out : Dict β γ) e => out.set e.1 e.2) acc := by
  induction xs generalizing acc with
  | nil =>
    rw [List.foldlM_nil]
    constructor
    · intro h; obtain rfl := Option.some.inj h; exact ⟨[], List.Forall₂.nil, rfl⟩
    · rintro ⟨ls, hf, rfl⟩; cases hf; rfl
  | cons x xs ih =>
    rw [List.foldlM_cons]
    cases hx : f x with
    | none =>
      constructor
      · intro h; cases h
      · rintro ⟨ls, hf, -⟩
        cases hf with
        | cons h _ => rw [hx] at h; cases h
    | some l =>
      simp only [Option.map_some, Option.bind_eq_bind, Option.bind_some]
      rw [ih]
      constructor
      · rintro ⟨ls, hf, rfl⟩
        exact ⟨l :: ls, List.Forall₂.cons hx hf, by simp⟩
      · rintro ⟨ls, hf, rfl⟩
        cases hf with
        | cons h1 h2 =>
          rw [hx] at h1
          obtain rfl := Option.some.inj h1
          exact ⟨_, h2, by simp⟩

/-- sums over the basis as sums over the listed components -/
theorem sum_vec_enc {g : Cfg} (hL : 1 ≤ g.L) {M : Type*} [AddCommMonoid M] (F : ℕ → ℂ → M) (hF : ∀ i, F i 0 = 0) {l : VComps} (hl : VOk g l) :
    ∑ i ∈ Finset.range g.size, F i (vec g (enc g l) i) = (l.map (fun p => F (g.indexOf p.1) p.2.amp)).sum := by
  have h := sum_comps hL (fun s a => F (g.indexOf ((g.parse s).getD [])) a) (fun s => hF _) (wf_enc hl)
  rw [show (enc g l).map (fun p => F (g.indexOf ((g.parse p.1).getD [])) p.2.amp) = l.map (fun p => F (g.indexOf p.1) p.2.amp) by
    rw [enc, List.map_map]
    apply List.map_congr_left
    intro p hp
    simp only [Function.comp_def]
    rw [parse_enc hl.valid p hp]; rfl] at h
  rw [h]
  apply Finset.sum_congr rfl
  intro i hi
  have hv := g.valid_valuesFromIndex hL i
  rw [Cfg.nm, g.parse_stdName hv.2]
  simp only [Option.getD_some]
  rw [g.indexOf_valuesFromIndex (Finset.mem_range.1 hi)]

theorem ampV_eq_sum {l : VComps} (hn : (l.map Prod.fst).Nodup) (v : Vals) :
    ampV l v = (l.map (fun p => if p.1 = v then p.2.amp else 0)).sum := by
  induction l with
  | nil => rfl
  | cons p l ih =>
    rw [List.map_cons, List.nodup_cons] at hn
    rw [ampV_cons, List.map_cons, List.sum_cons, ih hn.2]
    split
    · rename_i h
      subst h
      have : (l.map (fun q => if q.1 = p.1 then q.2.amp else 0)).sum = 0 := by
        apply List.sum_eq_zero
        intro x hx
        obtain ⟨r, hr, rfl⟩ := List.mem_map.1 hx
        rw [if_neg]
        intro e
        exact hn.1 (e ▸ List.mem_map.2 ⟨r, hr, rfl⟩)
      rw [this, add_zero]
    · simp

/-- amplitudes of the state for one traced-out value -/
theorem ampV_traced {g : Cfg} {keep : List ℕ} (hk : ∀ c ∈ keep, c < g.C) {l : VComps} (hl : VOk g l) (t : List Char) (P : ℝ) (a : Vals) :
    ampV ((tracedComps g keep l t).map (scaleComp P)) a
      = ((tracedItems g keep l t).map (fun p => if keepVals keep p.1 = a then p.2.amp else 0)).sum * ((Real.sqrt (1 / P) : ℝ) : ℂ) := by
  rw [ampV_eq_sum (scaleComp_ok (tracedComps_ok hk hl t) P).nodup, tracedComps, List.map_map, List.map_map, ← List.sum_map_mul_right]
  congr 1
  apply List.map_congr_left
  intro p _
  show (if keepVals keep p.1 = a then p.2.amp * ((Real.sqrt (1 / P) : ℝ) : ℂ) else 0) = _
  by_cases h : keepVals keep p.1 = a
  · rw [if_pos h, if_pos h]
  · rw [if_neg h, if_neg h, zero_mul]

theorem sq_sqrt_inv {P : ℝ} (h0 : 0 ≤ P) (hP : P ≠ 0) : (P : ℂ) * (((Real.sqrt (1 / P) : ℝ) : ℂ) * ((Real.sqrt (1 / P) : ℝ) : ℂ)) = 1 := by
  rw [← Complex.ofReal_mul, Real.mul_self_sqrt (by positivity), ← Complex.ofReal_mul, mul_one_div_cancel hP, Complex.ofReal_one]

/-- the contribution of one state to the density matrix after tracing out -/
theorem traced_density {g : Cfg} {keep : List ℕ} (hk : ∀ c ∈ keep, c < g.C) {l : VComps} (hl : VOk g l) (cum : ℝ)
    (h0 : ∀ t ∈ tracedKeys g keep l, tracedProb g keep l t ≠ 0) (a b : Vals) :
    ((tracedKeys g keep l).map (fun t => ((cum * tracedProb g keep l t : ℝ) : ℂ) *
      (star (ampV ((tracedComps g keep l t).map (scaleComp (tracedProb g keep l t))) a) *
        ampV ((tracedComps g keep l t).map (scaleComp (tracedProb g keep l t))) b))).sum
    = (cum : ℂ) * (l.map (fun p => (l.map (fun p' =>
        if keepVals keep p.1 = a ∧ keepVals keep p'.1 = b ∧ dropName g keep p.1 = dropName g keep p'.1
        then star p.2.amp * p'.2.amp else 0)).sum)).sum := by
  set S : List Char → Vals → ℂ := fun t a => ((tracedItems g keep l t).map (fun p => if keepVals keep p.1 = a then p.2.amp else 0)).sum with hS
  have e1 : (tracedKeys g keep l).map (fun t => ((cum * tracedProb g keep l t : ℝ) : ℂ) *
      (star (ampV ((tracedComps g keep l t).map (scaleComp (tracedProb g keep l t))) a) *
        ampV ((tracedComps g keep l t).map (scaleComp (tracedProb g keep l t))) b))
      = (tracedKeys g keep l).map (fun t => (cum : ℂ) * (star (S t a) * S t b)) := by
    apply List.map_congr_left
    intro t ht
    rw [ampV_traced hk hl, ampV_traced hk hl, star_mul']
    rw [show star ((Real.sqrt (1 / tracedProb g keep l t) : ℝ) : ℂ) = ((Real.sqrt (1 / tracedProb g keep l t) : ℝ) : ℂ) from Complex.conj_ofReal _]
    have := sq_sqrt_inv (tracedProb_nonneg g keep l t) (h0 t ht)
    push_cast
    calc (cum : ℂ) * (tracedProb g keep l t : ℂ) * (star (S t a) * ((Real.sqrt (1 / tracedProb g keep l t) : ℝ) : ℂ) * (S t b * ((Real.sqrt (1 / tracedProb g keep l t) : ℝ) : ℂ)))
        = (cum : ℂ) * (star (S t a) * S t b) * ((tracedProb g keep l t : ℂ) * (((Real.sqrt (1 / tracedProb g keep l t) : ℝ) : ℂ) * ((Real.sqrt (1 / tracedProb g keep l t) : ℝ) : ℂ))) := by ring
      _ = _ := by rw [this, mul_one]
  rw [e1, List.sum_map_mul_left]
  congr 1
  have hg := sum_groups (fun p : Vals × Comp => dropName g keep p.1) (fun p => (l.map (fun p' =>
        if keepVals keep p.1 = a ∧ keepVals keep p'.1 = b ∧ dropName g keep p.1 = dropName g keep p'.1
        then star p.2.amp * p'.2.amp else 0)).sum) l _ (tracedKeys_nodup g keep l) (fun a ha => mem_tracedKeys.2 ⟨a, ha, rfl⟩)
  rw [← hg]
  congr 1
  apply List.map_congr_left
  intro t htk
  clear htk
  have hinner : ∀ p ∈ l.filter (fun p => dropName g keep p.1 = t), (l.map (fun p' =>
        if keepVals keep p.1 = a ∧ keepVals keep p'.1 = b ∧ dropName g keep p.1 = dropName g keep p'.1
        then star p.2.amp * p'.2.amp else 0)).sum = star (if keepVals keep p.1 = a then p.2.amp else 0) * S t b := by
    intro p hp
    have hpt : dropName g keep p.1 = t := by simpa using (List.mem_filter.1 hp).2
    rw [hS]
    simp only [tracedItems]
    rw [← List.sum_map_mul_left]
    clear hg e1 h0 hl hp hS S
    induction l with
    | nil => simp
    | cons p' l ih =>
      rw [List.map_cons, List.sum_cons, ih, List.filter_cons]
      by_cases hd : dropName g keep p'.1 = t
      · rw [show decide (dropName g keep p'.1 = t) = true by simpa using hd]
        simp only [if_true]
        rw [List.map_cons, List.sum_cons]
        congr 1
        by_cases h1 : keepVals keep p.1 = a <;> by_cases h2 : keepVals keep p'.1 = b <;> simp [h1, h2, hpt, hd]
      · rw [show decide (dropName g keep p'.1 = t) = false by simpa using hd, if_neg, zero_add]
        · simp
        rintro ⟨-, -, h⟩
        exact hd (h ▸ hpt)
  rw [List.map_congr_left hinner, List.sum_map_mul_right]
  congr 1
  rw [hS]
  simp only [tracedItems]
  have : ∀ m : List (Vals × Comp), star ((m.map (fun p => if keepVals keep p.1 = a then p.2.amp else 0)).sum)
      = (m.map (fun p => star (if keepVals keep p.1 = a then p.2.amp else 0))).sum := by
    intro m
    induction m with
    | nil => simp
    | cons x m ih => simp [ih]
  exact this _

end Verif
