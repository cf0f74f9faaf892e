/-
Property C41: `clean_up` removes small components and merges duplicate states.
-/
import Verif.Lemmas.CleanUp
import Verif.Props.Reduce

namespace Verif.Props

open Spec

/-- what `cleanUp` does for one label -/
noncomputable def cleanOne (thr : ℝ) (states : Coll) (label : List Char) : Option Coll := do
  let sg ← cleanGroups thr label states
  mergeGroups thr sg.2 sg.1

theorem cleanUp_eq (cl : Collection) (labels : List (List Char)) :
    cleanUp cl labels = (labels.foldlM (cleanOne cl.thr) cl.states).bind (fun states => some { cl with states := states }) := rfl

theorem cleanUp_single {cl out : Collection} {label : List Char} (h : cleanUp cl [label] = some out) :
    ∃ S, cleanOne cl.thr cl.states label = some S ∧ out = { cl with states := S } := by
  rw [cleanUp_eq, List.foldlM_cons] at h
  obtain ⟨S, h1, h2⟩ := Option.bind_eq_some_iff.1 h
  obtain ⟨S', h4, h3⟩ := Option.bind_eq_some_iff.1 h1
  rw [List.foldlM_nil] at h3
  obtain rfl := Option.some.inj h3
  exact ⟨S', h4, (Option.some.inj h2).symm⟩

theorem rescaled_initial (thr : ℝ) (label : List Char) (p : List Char × QState) : (rescaled thr label p).2.initial = p.2.initial := by
  unfold rescaled; split <;> rfl

theorem rescaled_cum (thr : ℝ) (label : List Char) (p : List Char × QState) : (rescaled thr label p).2.cum = p.2.cum := by
  unfold rescaled; split <;> rfl

theorem get?_rescaled (thr : ℝ) (label : List Char) (S : Coll) (i : List Char) :
    Dict.get? (S.map (rescaled thr label)) i = (Dict.get? S i).map (fun q => (rescaled thr label (i, q)).2) := by
  induction S with
  | nil => rfl
  | cons p S ih =>
    obtain ⟨a, b⟩ := p
    rw [List.map_cons, show rescaled thr label (a, b) = ((rescaled thr label (a, b)).1, (rescaled thr label (a, b)).2) from rfl,
      Dict.get?_cons, Dict.get?_cons, rescaled_fst, ih]
    by_cases ha : a = i
    · subst ha; rw [if_pos rfl, if_pos rfl]; rfl
    · rw [if_neg ha, if_neg ha]

theorem cumAt_rescaled (thr : ℝ) (label : List Char) (S : Coll) (i : List Char) : cumAt (S.map (rescaled thr label)) i = cumOf S i := by
  rw [cumAt, cumOf, get?_rescaled]
  cases Dict.get? S i with
  | none => rfl
  | some q => simp [rescaled_cum]

theorem groupCum_rescaled (thr : ℝ) (label : List Char) (S : Coll) (g : List Char × List (List Char)) :
    groupCum (S.map (rescaled thr label)) g = ((g.1 :: g.2).map (cumOf S)).sum := by
  rw [groupCum, List.map_cons, List.sum_cons, cumAt_rescaled]
  congr 2
  apply List.map_congr_left
  intro j _
  exact cumAt_rescaled thr label S j

theorem resembles_of_identical {thr : ℝ} {a b : Comps} (h : identicalComps thr a b) : Resembles thr a b := by
  intro s x hx
  exact h (s, x) (Dict.get?_mem hx)

theorem identical_of_resembles {thr : ℝ} {a b : Comps} (hn : (a.map Prod.fst).Nodup) (h : Resembles thr a b) : identicalComps thr a b := by
  rintro ⟨s, x⟩ hp
  exact h s x (Dict.get?_of_mem hn hp)

theorem labelled_mem {label : List Char} {S : Coll} (hn : (S.map Prod.fst).Nodup) {i : List Char} {q : QState} (h : (i, q) ∈ S) :
    i ∈ labelled label S ↔ q.initial = label := by
  constructor
  · intro hi
    obtain ⟨⟨j, q'⟩, hp, rfl⟩ := List.mem_map.1 hi
    rw [List.mem_filter] at hp
    have : q = q' := Option.some.inj ((Dict.get?_of_mem hn h).symm.trans (Dict.get?_of_mem hn hp.1))
    rw [this]
    simpa using hp.2
  · intro hq
    exact List.mem_map.2 ⟨(i, q), List.mem_filter.2 ⟨h, by simpa using hq⟩, rfl⟩

theorem labelled_sub {label : List Char} {S : Coll} {i : List Char} (h : i ∈ labelled label S) : i ∈ S.map Prod.fst := by
  obtain ⟨p, hp, rfl⟩ := List.mem_map.1 h
  exact List.mem_map.2 ⟨p, (List.mem_filter.1 hp).1, rfl⟩

theorem cleanOne_spec {thr : ℝ} {label : List Char} {S out : Coll} (hn : (S.map Prod.fst).Nodup) (h : cleanOne thr S label = some out) :
    ∃ groups : Dict (List Char) (List (List Char)), GroupsOk thr (S.map (rescaled thr label)) (labelled label S) groups ∧
      (∀ p ∈ S, p.2.initial = label → (rescale thr p.2.comps).isSome) ∧
      (∀ g ∈ groups, thr ≤ ((g.1 :: g.2).map (cumOf S)).sum → 0 ≤ ((g.1 :: g.2).map (cumOf S)).sum ∧ ((g.1 :: g.2).map (cumOf S)).sum ≤ 1) ∧
      out = (S.map (rescaled thr label)).filterMap (mergeFate thr (S.map (rescaled thr label)) groups) := by
  obtain ⟨sg, h1, h2⟩ := Option.bind_eq_some_iff.1 h
  obtain ⟨e, hok, hr⟩ := cleanGroups_spec hn h1
  have hgn : (groupIds sg.2).Nodup := by
    rw [hok.perm.nodup_iff]
    exact hn.sublist (List.Sublist.map _ List.filter_sublist)
  have hn' : (sg.1.map Prod.fst).Nodup := by rw [e, keys_rescaled]; exact hn
  obtain ⟨k1, k2⟩ := (mergeGroups_spec (S₀ := sg.1) hgn sg.1 hn' (by
    intro j hj
    rw [e, keys_rescaled]
    exact labelled_sub (hok.perm.mem_iff.1 hj)) (fun _ _ => rfl) out).1 h2
  refine ⟨sg.2, hok, hr, ?_, by rw [k2, e]⟩
  intro g hg ht
  have := k1 g hg
  rw [e, groupCum_rescaled] at this
  exact this ht

theorem cleanOne_some {thr : ℝ} {label : List Char} {S : Coll} (hn : (S.map Prod.fst).Nodup)
    (hr : ∀ p ∈ S, p.2.initial = label → (rescale thr p.2.comps).isSome)
    (hb : ∀ ids : List (List Char), ids.Subperm (labelled label S) → 0 ≤ (ids.map (cumOf S)).sum ∧ (ids.map (cumOf S)).sum ≤ 1) :
    ∃ out, cleanOne thr S label = some out := by
  obtain ⟨sg, h1⟩ := cleanGroups_some hn hr
  obtain ⟨e, hok, -⟩ := cleanGroups_spec hn h1
  have hgn : (groupIds sg.2).Nodup := by
    rw [hok.perm.nodup_iff]
    exact hn.sublist (List.Sublist.map _ List.filter_sublist)
  have hn' : (sg.1.map Prod.fst).Nodup := by rw [e, keys_rescaled]; exact hn
  have hall : ∃ out, mergeGroups thr sg.2 sg.1 = some out := by
    refine ⟨_, (mergeGroups_spec (S₀ := sg.1) hgn sg.1 hn' (by
      intro j hj
      rw [e, keys_rescaled]
      exact labelled_sub (hok.perm.mem_iff.1 hj)) (fun _ _ => rfl) _).2 ⟨?_, rfl⟩⟩
    intro g hg _
    rw [e, groupCum_rescaled]
    apply hb
    have hs : (g.1 :: g.2).Sublist (groupIds sg.2) := by
      obtain ⟨pre, post, e'⟩ := List.append_of_mem hg
      rw [e', groupIds, List.flatMap_append, List.flatMap_cons]
      exact ((List.sublist_append_left _ _)).trans (List.sublist_append_right _ _)
    exact hs.subperm.trans hok.perm.subperm
  obtain ⟨out, ho⟩ := hall
  refine ⟨out, ?_⟩
  unfold cleanOne
  simp only [Option.bind_eq_bind, h1, Option.bind_some, ho]

/-- **C41** What `clean_up` for one initial state does: the identifiers with that label are divided into groups, each member resembling the
first of its group and no first one resembling the first one of an earlier group; states with another label are not touched; with the
label, exactly the first states of groups with total probability at or above the threshold are left, with that total as cumulative
probability and rescaled components. -/
theorem C41_merge (cl : Collection) (label : List Char) (out : Collection) (hn : (cl.states.map Prod.fst).Nodup)
    (h : cleanUp cl [label] = some out) :
    ∃ groups : List (List Char × List (List Char)),
      (groups.flatMap (fun g => g.1 :: g.2)).Perm ((cl.states.filter (fun p => p.2.initial = label)).map Prod.fst) ∧
      (∀ g ∈ groups, ∀ j ∈ g.2, ∀ qj qg, (j, qj) ∈ cl.states → (g.1, qg) ∈ cl.states →
        ∃ cj cg, rescale cl.thr qj.comps = some cj ∧ rescale cl.thr qg.comps = some cg ∧ Resembles cl.thr cj cg) ∧
      groups.Pairwise (fun g g' => ∀ q q' c c', (g.1, q) ∈ cl.states → (g'.1, q') ∈ cl.states → rescale cl.thr q.comps = some c →
        rescale cl.thr q'.comps = some c' → ¬ identicalComps cl.thr c' c) ∧
      out.g = cl.g ∧ out.m = cl.m ∧ out.thr = cl.thr ∧ (out.states.map Prod.fst).Sublist (cl.states.map Prod.fst) ∧
      out.states.filter (fun p => p.2.initial ≠ label) = cl.states.filter (fun p => p.2.initial ≠ label) ∧
      ∀ i q, (i, q) ∈ out.states ∧ q.initial = label ↔
        ∃ g ∈ groups, g.1 = i ∧ cl.thr ≤ ((g.1 :: g.2).map (cumOf cl.states)).sum ∧ ∃ q₀ c, (i, q₀) ∈ cl.states ∧
          rescale cl.thr q₀.comps = some c ∧ q = { q₀ with comps := c, cum := ((g.1 :: g.2).map (cumOf cl.states)).sum } := by
  obtain ⟨S', h1, rfl⟩ := cleanUp_single h
  obtain ⟨groups, hok, hr, hb, e⟩ := cleanOne_spec hn h1
  have hgn : (groupIds groups).Nodup := by
    rw [hok.perm.nodup_iff]
    exact hn.sublist (List.Sublist.map _ List.filter_sublist)
  have hmem : ∀ g ∈ groups, ∀ j ∈ g.1 :: g.2, j ∈ labelled label cl.states := fun g hg j hj =>
    hok.perm.mem_iff.1 (List.mem_flatMap.2 ⟨g, hg, hj⟩)
  have hres : ∀ j ∈ labelled label cl.states, ∀ q, (j, q) ∈ cl.states → ∃ c, rescale cl.thr q.comps = some c ∧
      Dict.get? (cl.states.map (rescaled cl.thr label)) j = some { q with comps := c } := by
    intro j hj q hq
    have hl := (labelled_mem hn hq).1 hj
    obtain ⟨c, hc⟩ := Option.isSome_iff_exists.1 (hr (j, q) hq hl)
    refine ⟨c, hc, ?_⟩
    rw [get?_rescaled, Dict.get?_of_mem hn hq, Option.map_some]
    simp only [rescaled, if_pos hl, hc, Option.getD_some]
  have hfate : ∀ p p', mergeFate cl.thr (cl.states.map (rescaled cl.thr label)) groups p = some p' → p'.1 = p.1 ∧ p'.2.initial = p.2.initial := by
    intro p p' hp
    by_cases hm : p.1 ∈ groupIds groups
    · obtain ⟨g, hg, hj⟩ := List.mem_flatMap.1 hm
      rcases List.mem_cons.1 hj with hj | hj
      · rw [mergeFate_leader hgn hg hj] at hp
        split at hp
        · rw [← Option.some.inj hp]; exact ⟨rfl, rfl⟩
        · cases hp
      · rw [mergeFate_member hgn hg hj] at hp; cases hp
    · rw [mergeFate_other hm] at hp
      rw [Option.some.inj hp]; exact ⟨rfl, rfl⟩
  refine ⟨groups, hok.perm, ?_, ?_, rfl, rfl, rfl, ?_, ?_, ?_⟩
  · intro g hg j hj qj qg hqj hqg
    obtain ⟨cj, hcj, gj⟩ := hres j (hmem g hg j (by simp [hj])) qj hqj
    obtain ⟨cg, hcg, gg⟩ := hres g.1 (hmem g hg g.1 (by simp)) qg hqg
    obtain ⟨kj, kg, e1, e2, hsim⟩ := hok.similar g hg j hj
    rw [gj] at e1; rw [gg] at e2
    obtain rfl := Option.some.inj e1
    obtain rfl := Option.some.inj e2
    exact ⟨cj, cg, hcj, hcg, resembles_of_identical hsim⟩
  · refine hok.apart.imp_of_mem ?_
    intro g g' hg hg' hap q q' c c' hq hq' hc hc'
    obtain ⟨c1, hc1, g1⟩ := hres g.1 (hmem g hg g.1 (by simp)) q hq
    obtain ⟨c2, hc2, g2⟩ := hres g'.1 (hmem g' hg' g'.1 (by simp)) q' hq'
    rw [hc] at hc1; rw [hc'] at hc2
    obtain rfl := Option.some.inj hc1
    obtain rfl := Option.some.inj hc2
    exact hap _ _ g1 g2
  · simp only
    rw [e, ← keys_rescaled cl.thr label cl.states]
    exact filterMap_keys_sublist (fun p p' hp => (hfate p p' hp).1) _
  · simp only
    rw [e]
    have gen : ∀ T : Coll, (∀ p ∈ T, p ∈ cl.states) →
        ((T.map (rescaled cl.thr label)).filterMap (mergeFate cl.thr (cl.states.map (rescaled cl.thr label)) groups)).filter (fun p => p.2.initial ≠ label)
          = T.filter (fun p => p.2.initial ≠ label) := by
      intro T
      induction T with
      | nil => intro _; rfl
      | cons p T ih =>
        intro hT
        have ih := ih (fun q hq => hT q (by simp [hq]))
        rw [List.map_cons]
        by_cases hl : p.2.initial = label
        · rw [List.filter_cons_of_neg (by simpa using hl)]
          cases hf : mergeFate cl.thr (cl.states.map (rescaled cl.thr label)) groups (rescaled cl.thr label p) with
          | none => rw [List.filterMap_cons_none hf, ih]
          | some p' =>
            rw [List.filterMap_cons_some hf, List.filter_cons_of_neg, ih]
            have := (hfate _ _ hf).2
            rw [rescaled_initial, hl] at this
            simpa using this
        · rw [List.filter_cons_of_pos (by simpa using hl)]
          have hre : rescaled cl.thr label p = p := by rw [rescaled, if_neg hl]
          have hno : p.1 ∉ groupIds groups := by
            intro hm
            exact hl ((labelled_mem hn (hT p (by simp))).1 (hok.perm.mem_iff.1 hm))
          rw [hre, List.filterMap_cons_some (mergeFate_other hno), List.filter_cons_of_pos (by simpa using hl), ih]
    exact gen cl.states (fun _ h => h)
  · intro i q
    simp only
    rw [e]
    constructor
    · rintro ⟨hi, hl⟩
      obtain ⟨p', hp', hf⟩ := List.mem_filterMap.1 hi
      obtain ⟨⟨j, q₀⟩, hp, rfl⟩ := List.mem_map.1 hp'
      have hj : (rescaled cl.thr label (j, q₀)).1 = j := rescaled_fst _ _ _
      have hi' := (hfate _ _ hf)
      rw [rescaled_initial, hj] at hi'
      simp only at hi'
      obtain ⟨rfl, hi2⟩ := hi'
      rw [hl] at hi2
      have hlab : i ∈ labelled label cl.states := (labelled_mem hn hp).2 hi2.symm
      obtain ⟨g, hg, hig⟩ := List.mem_flatMap.1 (hok.perm.mem_iff.2 hlab : i ∈ groupIds groups)
      obtain ⟨c, hc, hget⟩ := hres i hlab q₀ hp
      have hre : rescaled cl.thr label (i, q₀) = (i, { q₀ with comps := c }) := by
        rw [rescaled, if_pos hi2.symm, hc]; rfl
      rcases List.mem_cons.1 hig with hig | hig
      · rw [mergeFate_leader hgn hg (by rw [hj]; exact hig), groupCum_rescaled] at hf
        split at hf
        · rename_i ht
          refine ⟨g, hg, hig.symm, ht, q₀, c, hp, hc, ?_⟩
          rw [hre] at hf
          exact ((Prod.mk.inj (Option.some.inj hf)).2).symm
        · cases hf
      · rw [mergeFate_member hgn hg (by rw [hj]; exact hig)] at hf; cases hf
    · rintro ⟨g, hg, rfl, ht, q₀, c, hq₀, hc, rfl⟩
      have hlab : g.1 ∈ labelled label cl.states := hmem g hg g.1 (by simp)
      have hl := (labelled_mem hn hq₀).1 hlab
      refine ⟨List.mem_filterMap.2 ⟨rescaled cl.thr label (g.1, q₀), List.mem_map.2 ⟨_, hq₀, rfl⟩, ?_⟩, hl⟩
      rw [mergeFate_leader hgn hg (rescaled_fst _ _ _), groupCum_rescaled, if_pos ht, rescaled, if_pos hl, hc]
      rfl

theorem labelTotal_eq {label : List Char} {S : Coll} (hn : (S.map Prod.fst).Nodup) :
    labelTotal label S = ((labelled label S).map (cumOf S)).sum := by
  rw [labelTotal, labelled, List.map_map]
  congr 1
  apply List.map_congr_left
  intro p hp
  rw [Function.comp, cumOf, Dict.get?_of_mem hn (show (p.1, p.2) ∈ S from (List.mem_filter.1 hp).1)]
  rfl

/-- contribution of an identifier to the total afterwards -/
noncomputable def fateCum (thr : ℝ) (S : Coll) (groups : List (List Char × List (List Char))) (i : List Char) : ℝ :=
  (Dict.get? S i).elim 0 (fun q => (mergeFate thr S groups (i, q)).elim 0 (fun p => p.2.cum))

open Classical in
theorem cleanOne_total {thr : ℝ} {label : List Char} {S out : Coll} (hn : (S.map Prod.fst).Nodup) (h : cleanOne thr S label = some out) :
    ∃ groups : Dict (List Char) (List (List Char)), (groupIds groups).Perm (labelled label S) ∧
      labelTotal label S = (groups.map (fun g => ((g.1 :: g.2).map (cumOf S)).sum)).sum ∧
      labelTotal label out = (groups.map (fun g => if thr ≤ ((g.1 :: g.2).map (cumOf S)).sum then ((g.1 :: g.2).map (cumOf S)).sum else 0)).sum := by
  obtain ⟨groups, hok, hr, hb, e⟩ := cleanOne_spec hn h
  have hgn : (groupIds groups).Nodup := by
    rw [hok.perm.nodup_iff]
    exact hn.sublist (List.Sublist.map _ List.filter_sublist)
  have hflat : ∀ F : List Char → ℝ, ((labelled label S).map F).sum = (groups.map (fun g => ((g.1 :: g.2).map F).sum)).sum := by
    intro F
    rw [← (hok.perm.map F).sum_eq, groupIds]
    induction groups with
    | nil => rfl
    | cons g gs _ =>
      generalize (g :: gs) = G
      induction G with
      | nil => rfl
      | cons g gs ih => simp only [List.flatMap_cons, List.map_append, List.sum_append, ih, List.map_cons, List.sum_cons]
  refine ⟨groups, hok.perm, by rw [labelTotal_eq hn, hflat], ?_⟩
  have h1 : labelTotal label out = ((labelled label S).map (fateCum thr (S.map (rescaled thr label)) groups)).sum := by
    rw [e, labelTotal, labelled, List.map_map]
    have gen : ∀ T : Coll, (∀ p ∈ T, p ∈ S) →
        ((((T.map (rescaled thr label)).filterMap (mergeFate thr (S.map (rescaled thr label)) groups)).filter (fun p => p.2.initial = label)).map
          (fun p => p.2.cum)).sum
        = ((T.filter (fun p => p.2.initial = label)).map (fateCum thr (S.map (rescaled thr label)) groups ∘ Prod.fst)).sum := by
      intro T
      induction T with
      | nil => intro _; rfl
      | cons p T ih =>
        intro hT
        have ih := ih (fun q hq => hT q (by simp [hq]))
        have hpS := hT p (by simp)
        rw [List.map_cons]
        by_cases hl : p.2.initial = label
        · rw [List.filter_cons_of_pos (a := p) (by simpa using hl), List.map_cons, List.sum_cons, ← ih]
          have hF : (fateCum thr (S.map (rescaled thr label)) groups ∘ Prod.fst) p
              = (mergeFate thr (S.map (rescaled thr label)) groups (rescaled thr label p)).elim 0 (fun p => p.2.cum) := by
            rw [Function.comp, fateCum, get?_rescaled, Dict.get?_of_mem hn (show (p.1, p.2) ∈ S from hpS)]
            simp only [Option.map_some, Option.elim_some]
            congr 2
            exact Prod.ext (rescaled_fst thr label p).symm rfl
          rw [hF]
          cases hf : mergeFate thr (S.map (rescaled thr label)) groups (rescaled thr label p) with
          | none => rw [List.filterMap_cons_none hf]; simp
          | some p' =>
            rw [List.filterMap_cons_some hf, List.filter_cons_of_pos, List.map_cons, List.sum_cons]
            · rfl
            · have hm : (rescaled thr label p).1 ∈ groupIds groups := by
                rw [rescaled_fst]
                exact hok.perm.mem_iff.2 ((labelled_mem hn (show (p.1, p.2) ∈ S from hpS)).2 hl)
              obtain ⟨g, hg, hj⟩ := List.mem_flatMap.1 hm
              rcases List.mem_cons.1 hj with hj | hj
              · rw [mergeFate_leader hgn hg hj] at hf
                split at hf
                · rw [← Option.some.inj hf]
                  simp [rescaled_initial, hl]
                · cases hf
              · rw [mergeFate_member hgn hg hj] at hf; cases hf
        · rw [List.filter_cons_of_neg (a := p) (by simpa using hl), ← ih]
          have hre : rescaled thr label p = p := by rw [rescaled, if_neg hl]
          have hno : p.1 ∉ groupIds groups := by
            intro hm
            exact hl ((labelled_mem hn (show (p.1, p.2) ∈ S from hpS)).1 (hok.perm.mem_iff.1 hm))
          rw [hre, List.filterMap_cons_some (mergeFate_other hno), List.filter_cons_of_neg (by simpa using hl)]
    exact gen S (fun _ h => h)
  rw [h1, hflat]
  congr 1
  apply List.map_congr_left
  intro g hg
  have hlab : ∀ j ∈ g.1 :: g.2, j ∈ labelled label S := fun j hj => hok.perm.mem_iff.1 (List.mem_flatMap.2 ⟨g, hg, hj⟩)
  have hget : ∀ j ∈ g.1 :: g.2, ∃ q, Dict.get? (S.map (rescaled thr label)) j = some q := by
    intro j hj
    apply Dict.mem_keys_iff.1
    rw [Dict.keys, keys_rescaled]
    exact labelled_sub (hlab j hj)
  rw [List.map_cons, List.sum_cons]
  have hz : (g.2.map (fateCum thr (S.map (rescaled thr label)) groups)).sum = 0 := by
    apply List.sum_eq_zero
    intro x hx
    obtain ⟨j, hj, rfl⟩ := List.mem_map.1 hx
    obtain ⟨q, hq⟩ := hget j (by simp [hj])
    rw [fateCum, hq, Option.elim_some, mergeFate_member hgn hg hj]; rfl
  obtain ⟨q, hq⟩ := hget g.1 (by simp)
  rw [hz, add_zero, fateCum, hq, Option.elim_some, mergeFate_leader hgn hg rfl, groupCum_rescaled]
  split <;> rfl

/-- **C41** With the label, the total cumulative probability before is the total afterwards plus the totals of the groups that were
dropped, and each of those is below the threshold. -/
theorem C41_total (cl : Collection) (label : List Char) (out : Collection) (hn : (cl.states.map Prod.fst).Nodup)
    (h : cleanUp cl [label] = some out) :
    ∃ dropped : List ℝ, dropped.length ≤ (cl.states.filter (fun p => p.2.initial = label)).length ∧ (∀ x ∈ dropped, x < cl.thr) ∧
      ((∀ p ∈ cl.states, 0 ≤ p.2.cum) → ∀ x ∈ dropped, 0 ≤ x) ∧
      labelTotal label cl.states = labelTotal label out.states + dropped.sum := by
  classical
  obtain ⟨S', h1, rfl⟩ := cleanUp_single h
  obtain ⟨groups, hp, ht, ho⟩ := cleanOne_total hn h1
  refine ⟨(groups.filter (fun g => ¬ cl.thr ≤ ((g.1 :: g.2).map (cumOf cl.states)).sum)).map (fun g => ((g.1 :: g.2).map (cumOf cl.states)).sum),
    ?_, ?_, ?_, ?_⟩
  · rw [List.length_map]
    refine (List.length_filter_le _ _).trans ?_
    have h1 : groups.length ≤ (groupIds groups).length := by
      clear h1 hp ht ho h
      induction groups with
      | nil => simp
      | cons g gs ih => simp only [groupIds, List.flatMap_cons, List.length_append, List.length_cons] at ih ⊢; omega
    refine h1.trans ?_
    rw [hp.length_eq, labelled, List.length_map]
  · intro x hx
    obtain ⟨g, hg, rfl⟩ := List.mem_map.1 hx
    have := (List.mem_filter.1 hg).2
    simpa using this
  · intro hc x hx
    obtain ⟨g, hg, rfl⟩ := List.mem_map.1 hx
    apply List.sum_nonneg
    intro y hy
    obtain ⟨j, -, rfl⟩ := List.mem_map.1 hy
    rw [cumOf]
    cases hq : Dict.get? cl.states j with
    | none => exact le_rfl
    | some q => exact hc (j, q) (Dict.get?_mem hq)
  · simp only
    rw [ht, ho]
    clear ht ho hp h h1
    generalize hX : (fun g : List Char × List (List Char) => ((g.1 :: g.2).map (cumOf cl.states)).sum) = X
    have hX' : ∀ g, ((g.1 :: g.2).map (cumOf cl.states)).sum = X g := fun g => by rw [← hX]
    simp only [hX']
    induction groups with
    | nil => simp
    | cons g gs ih =>
      rw [List.map_cons, List.sum_cons, ih, List.map_cons, List.sum_cons]
      by_cases hg : cl.thr ≤ X g
      · rw [if_pos hg, List.filter_cons_of_neg (by simpa using hg)]; ring
      · rw [if_neg hg, List.filter_cons_of_pos (by simpa using hg), List.map_cons, List.sum_cons]; ring

/-- the states with another label -/
theorem cleanOne_other {thr : ℝ} {label l' : List Char} {S out : Coll} (hn : (S.map Prod.fst).Nodup) (h : cleanOne thr S label = some out)
    (hl : l' ≠ label) : out.filter (fun p => p.2.initial = l') = S.filter (fun p => p.2.initial = l') := by
  have h' : cleanUp ⟨⟨0, 0, true⟩, 0, thr, S⟩ [label] = some ⟨⟨0, 0, true⟩, 0, thr, out⟩ := by
    rw [cleanUp_eq, List.foldlM_cons]
    simp only [Option.bind_eq_bind, h, Option.bind_some, List.foldlM_nil]
    rfl
  obtain ⟨groups, -, -, -, -, -, -, -, e, -⟩ := C41_merge _ label _ hn h'
  simp only at e
  have k : ∀ T : Coll, T.filter (fun p => p.2.initial = l') = (T.filter (fun p => p.2.initial ≠ label)).filter (fun p => p.2.initial = l') := by
    intro T
    rw [List.filter_filter]
    apply List.filter_congr
    intro p _
    by_cases h1 : p.2.initial = l'
    · simp [h1, hl]
    · simp [h1]
  rw [k out, e, ← k S]

theorem cleanOne_keys {thr : ℝ} {label : List Char} {S out : Coll} (hn : (S.map Prod.fst).Nodup) (h : cleanOne thr S label = some out) :
    (out.map Prod.fst).Sublist (S.map Prod.fst) := by
  have h' : cleanUp ⟨⟨0, 0, true⟩, 0, thr, S⟩ [label] = some ⟨⟨0, 0, true⟩, 0, thr, out⟩ := by
    rw [cleanUp_eq, List.foldlM_cons]
    simp only [Option.bind_eq_bind, h, Option.bind_some, List.foldlM_nil]
    rfl
  obtain ⟨groups, -, -, -, -, -, -, e, -, -⟩ := C41_merge _ label _ hn h'
  exact e

/-- **C41** `clean_up` for several initial states (or all of them), in any order: for every label the total cumulative probability drops
by at most the threshold times the number of its states, and never rises. -/
theorem C41_bound (cl : Collection) (labels : List (List Char)) (hl : labels.Nodup) (out : Collection) (hn : (cl.states.map Prod.fst).Nodup)
    (hc : ∀ p ∈ cl.states, 0 ≤ p.2.cum) (hthr : 0 ≤ cl.thr) (h : cleanUp cl labels = some out) (label : List Char) :
    labelTotal label cl.states - cl.thr * (cl.states.filter (fun p => p.2.initial = label)).length ≤ labelTotal label out.states ∧
      labelTotal label out.states ≤ labelTotal label cl.states ∧
      (label ∉ labels → out.states.filter (fun p => p.2.initial = label) = cl.states.filter (fun p => p.2.initial = label)) := by
  rw [cleanUp_eq] at h
  obtain ⟨S, h1, h2⟩ := Option.bind_eq_some_iff.1 h
  obtain rfl := Option.some.inj h2
  simp only
  clear h h2
  have step : ∀ (T T' : Coll) (l : List Char), (T.map Prod.fst).Nodup → (∀ p ∈ T, 0 ≤ p.2.cum) → cleanOne cl.thr T l = some T' →
      labelTotal l T - cl.thr * (T.filter (fun p => p.2.initial = l)).length ≤ labelTotal l T' ∧ labelTotal l T' ≤ labelTotal l T ∧
      ∀ p ∈ T', 0 ≤ p.2.cum := by
    intro T T' l hT hTc hTT
    have h' : cleanUp ⟨⟨0, 0, true⟩, 0, cl.thr, T⟩ [l] = some ⟨⟨0, 0, true⟩, 0, cl.thr, T'⟩ := by
      rw [cleanUp_eq, List.foldlM_cons]
      simp only [Option.bind_eq_bind, hTT, Option.bind_some, List.foldlM_nil]
      rfl
    obtain ⟨dropped, d1, d2, d3, d4⟩ := C41_total _ l _ hT h'
    simp only at d1 d2 d3 d4
    have hs0 : 0 ≤ dropped.sum := List.sum_nonneg (d3 hTc)
    have hs1 : dropped.sum ≤ cl.thr * dropped.length := by
      clear d1 d3 d4 hs0
      induction dropped with
      | nil => simp
      | cons x xs ih =>
        have := ih (fun y hy => d2 y (by simp [hy]))
        have hx := d2 x (by simp)
        rw [List.sum_cons, List.length_cons]; push_cast; linarith
    have hs2 : cl.thr * dropped.length ≤ cl.thr * (T.filter (fun p => p.2.initial = l)).length :=
      mul_le_mul_of_nonneg_left (by exact_mod_cast d1) hthr
    refine ⟨by linarith, by linarith, ?_⟩
    obtain ⟨groups, -, -, -, -, -, -, -, e, e'⟩ := C41_merge _ l _ hT h'
    simp only at e e'
    rintro ⟨i, q⟩ hp
    by_cases hq : q.initial = l
    · obtain ⟨g, -, -, -, q₀, c, -, -, rfl⟩ := (e' i q).1 ⟨hp, hq⟩
      apply List.sum_nonneg
      intro y hy
      obtain ⟨j, -, rfl⟩ := List.mem_map.1 hy
      rw [cumOf]
      cases hq : Dict.get? T j with
      | none => exact le_rfl
      | some q => exact hTc (j, q) (Dict.get?_mem hq)
    · have : (i, q) ∈ T'.filter (fun p => p.2.initial ≠ l) := List.mem_filter.2 ⟨hp, by simpa using hq⟩
      rw [e] at this
      exact hTc _ (List.mem_filter.1 this).1
  generalize cl.states = T at *
  induction labels generalizing T with
  | nil =>
    rw [List.foldlM_nil] at h1
    obtain rfl := Option.some.inj h1
    refine ⟨?_, le_rfl, fun _ => rfl⟩
    have : 0 ≤ cl.thr * ((T.filter (fun p => p.2.initial = label)).length : ℝ) := mul_nonneg hthr (Nat.cast_nonneg _)
    linarith
  | cons l labels ih =>
    rw [List.nodup_cons] at hl
    rw [List.foldlM_cons] at h1
    obtain ⟨T', hT', h1⟩ := Option.bind_eq_some_iff.1 h1
    obtain ⟨s1, s2, s3⟩ := step T T' l hn hc hT'
    obtain ⟨i1, i2, i3⟩ := ih hl.2 T' (hn.sublist (cleanOne_keys hn hT')) s3 h1
    by_cases hll : label = l
    · subst hll
      have hsame := i3 hl.1
      refine ⟨?_, ?_, fun h => absurd (by simp) h⟩
      · rw [show labelTotal label S = labelTotal label T' by rw [labelTotal, hsame, labelTotal]]; exact s1
      · rw [show labelTotal label S = labelTotal label T' by rw [labelTotal, hsame, labelTotal]]; exact s2
    · have ho := cleanOne_other hn hT' hll
      have hto : labelTotal label T' = labelTotal label T := by rw [labelTotal, ho, labelTotal]
      rw [ho, hto] at i1
      rw [hto] at i2
      refine ⟨i1, i2, ?_⟩
      intro hnl
      rw [i3 (fun h => hnl (by simp [h])), ho]

/-- **C41** `clean_up` for one initial state succeeds when its cumulative probabilities are not negative and add up to at most 1 and no
state is emptied by the threshold. -/
theorem C41_success (cl : Collection) (label : List Char) (hn : (cl.states.map Prod.fst).Nodup)
    (hc : ∀ p ∈ cl.states, p.2.initial = label → 0 ≤ p.2.cum) (ht : labelTotal label cl.states ≤ 1)
    (hr : ∀ p ∈ cl.states, p.2.initial = label → rescale cl.thr p.2.comps ≠ none) : ∃ out, cleanUp cl [label] = some out := by
  have hcum : ∀ j ∈ labelled label cl.states, 0 ≤ cumOf cl.states j := by
    intro j hj
    obtain ⟨p, hp, rfl⟩ := List.mem_map.1 hj
    rw [List.mem_filter] at hp
    rw [cumOf, Dict.get?_of_mem hn (show (p.1, p.2) ∈ cl.states from hp.1)]
    exact hc p hp.1 (by simpa using hp.2)
  obtain ⟨S, hS⟩ := cleanOne_some (thr := cl.thr) (label := label) hn
    (fun p hp hl => Option.isSome_iff_ne_none.2 (hr p hp hl)) (by
      intro ids hids
      obtain ⟨l, hperm, hsub⟩ := hids
      have h0 : ∀ x ∈ ids.map (cumOf cl.states), 0 ≤ x := by
        intro x hx
        obtain ⟨j, hj, rfl⟩ := List.mem_map.1 hx
        exact hcum j (hsub.subset (hperm.mem_iff.2 hj))
      refine ⟨List.sum_nonneg h0, ?_⟩
      refine le_trans ?_ ht
      rw [labelTotal_eq hn, ← (hperm.map (cumOf cl.states)).sum_eq]
      have gen : ∀ l l' : List (List Char), l.Sublist l' → (∀ j ∈ l', 0 ≤ cumOf cl.states j) →
          (l.map (cumOf cl.states)).sum ≤ (l'.map (cumOf cl.states)).sum := by
        intro l l' h
        induction h with
        | slnil => intro _; exact le_rfl
        | cons a _ ih =>
          intro hp
          have := ih (fun j hj => hp j (by simp [hj]))
          have := hp a (by simp)
          rw [List.map_cons, List.sum_cons]; linarith
        | cons_cons a _ ih =>
          intro hp
          have := ih (fun j hj => hp j (by simp [hj]))
          rw [List.map_cons, List.sum_cons, List.map_cons, List.sum_cons]; linarith
      exact gen l _ hsub hcum)
  refine ⟨{ cl with states := S }, ?_⟩
  rw [cleanUp_eq, List.foldlM_cons]
  simp only [Option.bind_eq_bind, hS, Option.bind_some, List.foldlM_nil]
  rfl

/-! ### what rescaling does to the components -/

/-- components below the threshold set to zero -/
noncomputable def zeroSmall (thr : ℝ) (c : Comps) : Comps := c.map (fun p => if p.2.prob < thr then (p.1, (⟨0, 0⟩ : Comp)) else p)

theorem zeroSmall_keys (thr : ℝ) (c : Comps) : (zeroSmall thr c).map Prod.fst = c.map Prod.fst := by
  rw [zeroSmall, List.map_map]
  apply List.map_congr_left
  intro p _
  simp only [Function.comp]
  split <;> rfl

theorem kept_eq {thr : ℝ} {c : Comps} (hp : ProbsAgree c) :
    (c.map (fun p => if p.2.prob < thr then 0 else ‖p.2.amp‖ ^ 2)).sum = keptProb thr c := by
  rw [keptProb]
  congr 1
  apply List.map_congr_left
  intro p h
  rw [hp p h]
  by_cases ht : ‖p.2.amp‖ ^ 2 < thr
  · rw [if_pos ht, if_neg (not_le.2 ht)]
  · rw [if_neg ht, if_pos (not_lt.1 ht)]

theorem foldl_if_set (P : Name × Comp → Prop) [DecidablePred P] (F : Name × Comp → Comp) (l : Comps) (hn : (l.map Prod.fst).Nodup) :
    l.foldl (fun (d : Comps) p => if P p then d.set p.1 (F p) else d) [] = (l.filter (fun p => P p)).map (fun p => (p.1, F p)) := by
  have h1 : l.foldl (fun (d : Comps) p => if P p then d.set p.1 (F p) else d) []
      = ((l.filter (fun p => P p)).map (fun p => (p.1, F p))).foldl (fun (d : Comps) p => d.set p.1 p.2) [] := by
    rw [List.foldl_map, List.foldl_filter]
    simp only [decide_eq_true_eq]
  rw [h1, Dict.foldl_set_of_nodup]
  · simp
  · simp only [Dict.keys, List.map_nil, List.nil_append, List.map_map]
    exact hn.sublist (List.Sublist.map _ List.filter_sublist)

theorem rescale_eq {thr : ℝ} {c : Comps} (hn : (c.map Prod.fst).Nodup) (hp : ProbsAgree c) :
    rescale thr c = if thr ≤ |keptProb thr c - 1| then
      (if Real.sqrt (keptProb thr c) = 0 then none else
        some (((zeroSmall thr c).filter (fun p => thr ≤ ‖((1 / Real.sqrt (keptProb thr c) : ℝ) : ℂ) * p.2.amp‖ ^ 2)).map
          (fun p => (p.1, ⟨((1 / Real.sqrt (keptProb thr c) : ℝ) : ℂ) * p.2.amp, ‖((1 / Real.sqrt (keptProb thr c) : ℝ) : ℂ) * p.2.amp‖ ^ 2⟩))))
      else some (zeroSmall thr c) := by
  unfold rescale
  simp only [kept_eq hp]
  have := foldl_if_set (fun p => thr ≤ ‖((1 / Real.sqrt (keptProb thr c) : ℝ) : ℂ) * p.2.amp‖ ^ 2)
    (fun p => ⟨((1 / Real.sqrt (keptProb thr c) : ℝ) : ℂ) * p.2.amp, ‖((1 / Real.sqrt (keptProb thr c) : ℝ) : ℂ) * p.2.amp‖ ^ 2⟩)
    (zeroSmall thr c) (by rw [zeroSmall_keys]; exact hn)
  rw [← this]
  rfl

theorem ampOf_not_mem {l : Comps} {s : Name} (h : s ∉ l.map Prod.fst) : ampOf l s = 0 := by
  rw [ampOf, Dict.get?_eq_none.2 h]; rfl

open Classical in
theorem ampOf_zeroSmall {thr : ℝ} (hthr : 0 < thr) {c : Comps} (hp : ProbsAgree c) (s : Name) :
    ampOf (zeroSmall thr c) s = if thr ≤ ‖ampOf c s‖ ^ 2 then ampOf c s else 0 := by
  induction c with
  | nil =>
    have : ¬ thr ≤ ‖ampOf [] s‖ ^ 2 := by simp [ampOf, hthr]
    rw [if_neg this]; rfl
  | cons p c ih =>
    have ih := ih (fun q hq => hp q (by simp [hq]))
    obtain ⟨a, b⟩ := p
    have hb := hp (a, b) (by simp)
    simp only at hb
    rw [zeroSmall, List.map_cons, ← zeroSmall, ampOf_cons]
    by_cases ht : b.prob < thr
    · simp only [if_pos ht]
      rw [ampOf_cons]
      by_cases h : a = s
      · rw [if_pos h, if_pos h, if_neg (by rw [← hb]; exact not_le.2 ht)]
      · rw [if_neg h, if_neg h, ih]
    · simp only [if_neg ht]
      rw [ampOf_cons]
      by_cases h : a = s
      · rw [if_pos h, if_pos h, if_pos (by rw [← hb]; exact not_lt.1 ht)]
      · rw [if_neg h, if_neg h, ih]

open Classical in
theorem ampOf_filter_scale {thr : ℝ} (hthr : 0 < thr) (f : ℂ) (l : Comps) (hn : (l.map Prod.fst).Nodup) (s : Name) :
    ampOf ((l.filter (fun p => thr ≤ ‖f * p.2.amp‖ ^ 2)).map (fun p => (p.1, ⟨f * p.2.amp, ‖f * p.2.amp‖ ^ 2⟩))) s
      = if thr ≤ ‖f * ampOf l s‖ ^ 2 then f * ampOf l s else 0 := by
  induction l with
  | nil =>
    have : ¬ thr ≤ ‖f * ampOf [] s‖ ^ 2 := by simp [ampOf, hthr]
    rw [if_neg this]; rfl
  | cons p l ih =>
    obtain ⟨a, b⟩ := p
    rw [List.map_cons, List.nodup_cons] at hn
    have ih := ih hn.2
    rw [ampOf_cons]
    by_cases ht : thr ≤ ‖f * b.amp‖ ^ 2
    · rw [List.filter_cons_of_pos (by simpa using ht), List.map_cons, ampOf_cons]
      by_cases h : a = s
      · rw [if_pos h, if_pos h, if_pos ht]
      · rw [if_neg h, if_neg h, ih]
    · rw [List.filter_cons_of_neg (by simpa using ht)]
      by_cases h : a = s
      · rw [if_pos h, if_neg ht]
        apply ampOf_not_mem
        rw [List.map_map]
        intro hm
        obtain ⟨q, hq, e⟩ := List.mem_map.1 hm
        exact hn.1 (h ▸ List.mem_map.2 ⟨q, (List.mem_filter.1 hq).1, e⟩)
      · rw [if_neg h, ih]

theorem keptProb_nonneg (thr : ℝ) (c : Comps) : 0 ≤ keptProb thr c := by
  rw [keptProb]
  apply List.sum_nonneg
  intro x hx
  obtain ⟨p, -, rfl⟩ := List.mem_map.1 hx
  split
  · positivity
  · exact le_rfl

theorem totalProb_zeroSmall {thr : ℝ} {c : Comps} (hp : ProbsAgree c) : totalProb (zeroSmall thr c) = keptProb thr c := by
  rw [← kept_eq hp, totalProb, zeroSmall, List.map_map]
  congr 1
  apply List.map_congr_left
  intro p _
  simp only [Function.comp]
  split <;> simp

/-- **C41** Rescaling: the components whose probability reaches the threshold are multiplied by one positive factor (those that then fall
below the threshold are dropped), all others become zero; the factor is 1 if what is left is already normalised up to the threshold, and
otherwise one over the square root of what is left; if what is left is at most 1, the result is normalised up to the threshold. -/
theorem C41_rescale (thr : ℝ) (hthr : 0 < thr) (c : Comps) (hn : (c.map Prod.fst).Nodup) (hp : ProbsAgree c) (c' : Comps)
    (h : rescale thr c = some c') :
    (c'.map Prod.fst).Sublist (c.map Prod.fst) ∧ ProbsAgree c' ∧
    (∃ f : ℝ, 0 < f ∧ (|keptProb thr c - 1| < thr ∧ f = 1 ∨ thr ≤ |keptProb thr c - 1| ∧ f ^ 2 * keptProb thr c = 1) ∧
      ∀ s, ampOf c' s = if thr ≤ ‖ampOf c s‖ ^ 2 ∧ thr ≤ ‖f * ampOf c s‖ ^ 2 then f * ampOf c s else 0) ∧
    (keptProb thr c ≤ 1 → |totalProb c' - 1| < thr) := by
  classical
  rw [rescale_eq hn hp] at h
  by_cases ht : thr ≤ |keptProb thr c - 1|
  · rw [if_pos ht] at h
    by_cases hs : Real.sqrt (keptProb thr c) = 0
    · rw [if_pos hs] at h; cases h
    · rw [if_neg hs] at h
      have hk0 := keptProb_nonneg thr c
      have hpos : 0 < Real.sqrt (keptProb thr c) := lt_of_le_of_ne (Real.sqrt_nonneg _) (Ne.symm hs)
      have hkpos : 0 < keptProb thr c := Real.sqrt_pos.1 hpos
      have hff : (1 / Real.sqrt (keptProb thr c)) ^ 2 * keptProb thr c = 1 := by
        rw [div_pow, Real.sq_sqrt hk0]; field_simp
      have hfpos : 0 < 1 / Real.sqrt (keptProb thr c) := by positivity
      generalize (1 / Real.sqrt (keptProb thr c)) = f at h hff hfpos
      obtain rfl := Option.some.inj h
      have hzn : ((zeroSmall thr c).map Prod.fst).Nodup := by rw [zeroSmall_keys]; exact hn
      refine ⟨?_, ?_, ⟨f, hfpos, Or.inr ⟨ht, hff⟩, ?_⟩, ?_⟩
      · rw [List.map_map, ← zeroSmall_keys thr c]
        exact List.Sublist.map _ List.filter_sublist
      · intro p hp
        obtain ⟨q, -, rfl⟩ := List.mem_map.1 hp
        rfl
      · intro s
        rw [ampOf_filter_scale hthr _ _ hzn, ampOf_zeroSmall hthr hp]
        by_cases h1 : thr ≤ ‖ampOf c s‖ ^ 2
        · simp [h1]
        · simp [h1]
      · intro hk1
        have hf1 : 1 ≤ f ^ 2 := by nlinarith
        have htot : totalProb (((zeroSmall thr c).filter (fun p => thr ≤ ‖(f : ℂ) * p.2.amp‖ ^ 2)).map
            (fun p => (p.1, (⟨(f : ℂ) * p.2.amp, ‖(f : ℂ) * p.2.amp‖ ^ 2⟩ : Comp)))) = f ^ 2 * keptProb thr c := by
          rw [← totalProb_zeroSmall hp, totalProb, totalProb, List.map_map]
          have hsm : ∀ p ∈ zeroSmall thr c, ¬ thr ≤ ‖(f : ℂ) * p.2.amp‖ ^ 2 → ‖p.2.amp‖ ^ 2 = 0 := by
            intro p hpz hno
            obtain ⟨q, hq, rfl⟩ := List.mem_map.1 hpz
            by_cases hqt : q.2.prob < thr
            · simp [if_pos hqt]
            · exfalso
              apply hno
              simp only [if_neg hqt]
              rw [norm_mul, mul_pow, Complex.norm_real, Real.norm_eq_abs, sq_abs, ← hp q hq]
              have : thr ≤ q.2.prob := not_lt.1 hqt
              nlinarith
          generalize zeroSmall thr c = l at hsm
          induction l with
          | nil => simp
          | cons p l ih =>
            have ih := ih (fun q hq => hsm q (by simp [hq]))
            by_cases hpt : thr ≤ ‖(f : ℂ) * p.2.amp‖ ^ 2
            · rw [List.filter_cons_of_pos (by simpa using hpt), List.map_cons, List.sum_cons, ih, List.map_cons, List.sum_cons]
              simp only [Function.comp]
              rw [norm_mul, mul_pow, Complex.norm_real, Real.norm_eq_abs, sq_abs]; ring
            · rw [List.filter_cons_of_neg (by simpa using hpt), ih, List.map_cons, List.sum_cons, hsm p (by simp) hpt]; ring
        rw [htot, hff]
        simpa using hthr
  · rw [if_neg ht] at h
    obtain rfl := Option.some.inj h
    push Not at ht
    refine ⟨by rw [zeroSmall_keys], ?_, ⟨1, one_pos, Or.inl ⟨ht, rfl⟩, ?_⟩, ?_⟩
    · intro p hpz
      obtain ⟨q, hq, rfl⟩ := List.mem_map.1 hpz
      by_cases hqt : q.2.prob < thr
      · simp [if_pos hqt]
      · simp only [if_neg hqt]; exact hp q hq
    · intro s
      rw [ampOf_zeroSmall hthr hp]
      simp
    · intro _
      rw [totalProb_zeroSmall hp]; exact ht

/-- **C41** Rescaling fails (division by zero) exactly when every component is below the threshold (which then must not exceed 1). -/
theorem C41_rescale_fails (thr : ℝ) (c : Comps) (hn : (c.map Prod.fst).Nodup) (hp : ProbsAgree c) :
    rescale thr c = none ↔ keptProb thr c = 0 ∧ thr ≤ 1 := by
  rw [rescale_eq hn hp]
  have hk0 := keptProb_nonneg thr c
  have hsq := Real.sqrt_eq_zero hk0
  by_cases h0 : keptProb thr c = 0
  · rw [h0]
    by_cases h1 : thr ≤ 1
    · simp [h1]
    · simp [h1]
  · by_cases ht : thr ≤ |keptProb thr c - 1|
    · simp [ht, h0, hsq]
    · simp [ht, h0]

/-- **C41** The resemblance used for merging is not symmetric, but for normalised states the components that are only in the second
state have little weight: at most `(n + 2)` thresholds for `n` components in the first. -/
theorem C41_resembles_close (thr : ℝ) (a b : Comps) (hna : (a.map Prod.fst).Nodup) (hnb : (b.map Prod.fst).Nodup)
    (ha : ProbsAgree a) (hb : ProbsAgree b) (hta : |totalProb a - 1| ≤ thr) (htb : |totalProb b - 1| ≤ thr) (h : Resembles thr a b) :
    ((b.filter (fun p => p.1 ∉ a.map Prod.fst)).map (fun p => ‖p.2.amp‖ ^ 2)).sum ≤ (a.length + 2) * thr := by
  have key : ∀ (a b : Comps), (a.map Prod.fst).Nodup → (b.map Prod.fst).Nodup → ProbsAgree a → ProbsAgree b → Resembles thr a b →
      totalProb a + ((b.filter (fun p => p.1 ∉ a.map Prod.fst)).map (fun p => ‖p.2.amp‖ ^ 2)).sum ≤ totalProb b + a.length * thr := by
    intro a
    induction a with
    | nil =>
      intro b _ _ _ _ _
      simp [totalProb]
    | cons p a ih =>
      intro b hna hnb ha hb h
      obtain ⟨s, x⟩ := p
      rw [List.map_cons, List.nodup_cons] at hna
      obtain ⟨y, hy, hp1, -⟩ := h s x (by rw [Dict.get?_cons, if_pos rfl])
      have hymem := Dict.get?_mem hy
      have ih := ih b hna.2 hnb (fun q hq => ha q (by simp [hq])) hb (by
        intro t z hz
        apply h
        rw [Dict.get?_cons, if_neg, hz]
        rintro rfl
        exact hna.1 (List.mem_map.2 ⟨_, Dict.get?_mem hz, rfl⟩))
      have hx := ha (s, x) (by simp)
      have hyp := hb (s, y) hymem
      simp only at hx hyp
      rw [hx, hyp] at hp1
      have hsplit : ((b.filter (fun p => p.1 ∉ a.map Prod.fst)).map (fun p => ‖p.2.amp‖ ^ 2)).sum
          = ‖y.amp‖ ^ 2 + ((b.filter (fun p => p.1 ∉ (s :: a.map Prod.fst))).map (fun p => ‖p.2.amp‖ ^ 2)).sum := by
        clear ih h hb
        have hsa : s ∉ a.map Prod.fst := hna.1
        induction b with
        | nil => cases hymem
        | cons q b ihb =>
          rw [List.map_cons, List.nodup_cons] at hnb
          rcases List.mem_cons.1 hymem with rfl | hm
          · rw [List.filter_cons_of_pos (by simpa using hsa), List.filter_cons_of_neg (by simp), List.map_cons, List.sum_cons]
            congr 3
            apply List.filter_congr
            intro q hq
            have : q.1 ≠ s := by
              rintro rfl
              exact hnb.1 (List.mem_map.2 ⟨q, hq, rfl⟩)
            simp [this]
          · have hqs : q.1 ≠ s := by
              rintro rfl
              exact hnb.1 (List.mem_map.2 ⟨_, hm, rfl⟩)
            have ihb := ihb hnb.2 (Dict.get?_of_mem hnb.2 hm) hm
            by_cases hqa : q.1 ∈ a.map Prod.fst
            · rw [List.filter_cons_of_neg (by simpa using hqa), List.filter_cons_of_neg (by intro h; exact (by simpa [hqs] using h : q.1 ∉ a.map Prod.fst) hqa), ihb]
            · rw [List.filter_cons_of_pos (by simpa using hqa), List.filter_cons_of_pos (by simpa [hqs] using hqa), List.map_cons,
                List.sum_cons, ihb, List.map_cons, List.sum_cons]
              ring
      rw [List.map_cons, totalProb, List.map_cons, List.sum_cons, List.length_cons]
      rw [hsplit] at ih
      have := (abs_lt.1 hp1).2
      rw [totalProb] at ih
      push_cast
      linarith
  have := key a b hna hnb ha hb h
  have h1 := (abs_le.1 hta).1
  have h2 := (abs_le.1 htb).2
  linarith

/-! ### a concrete case -/

/-- two equal states with the same label, and one with another label -/
noncomputable def twoEqual : Collection := ⟨g₃, 2, 1/10,
  [("a".toList, { ent with cum := 1/4 }), ("b".toList, { ent with cum := 1/2 }), ("c".toList, { ent with cum := 1/20, initial := "y".toList })]⟩

theorem ent_probs : ProbsAgree ent.comps := by
  intro p hp
  simp only [ent, List.mem_cons, List.not_mem_nil, or_false] at hp
  rcases hp with rfl | rfl <;> norm_num

theorem ent_kept : keptProb (1/10) ent.comps = 1 := by
  have h1 : (1/10 : ℝ) ≤ ‖(3/5 : ℂ)‖ ^ 2 := by norm_num
  have h2 : (1/10 : ℝ) ≤ ‖(4/5 : ℂ)‖ ^ 2 := by norm_num
  simp only [keptProb, ent, List.map_cons, List.map_nil, List.sum_cons, List.sum_nil, if_pos h1, if_pos h2]
  norm_num

/-- `clean_up` of that collection succeeds, does not touch the state with the other label (although it is below the threshold) and loses
at most 0.2 of the probability 0.75 -/
example : ∃ out, cleanUp twoEqual ["x".toList] = some out ∧ 11/20 ≤ labelTotal "x".toList out.states ∧
    labelTotal "x".toList out.states ≤ 3/4 ∧ labelTotal "y".toList out.states = 1/20 := by
  have hn : (twoEqual.states.map Prod.fst).Nodup := by simp [twoEqual]
  have hc : ∀ p ∈ twoEqual.states, 0 ≤ p.2.cum := by
    intro p hp
    simp only [twoEqual, List.mem_cons, List.not_mem_nil, or_false] at hp
    rcases hp with rfl | rfl | rfl <;> norm_num
  have hx : labelTotal "x".toList twoEqual.states = 3/4 := by
    simp only [labelTotal, twoEqual, ent]
    simp
    norm_num
  have hy : labelTotal "y".toList twoEqual.states = 1/20 := by
    simp only [labelTotal, twoEqual, ent]
    simp
  have hr : ∀ p ∈ twoEqual.states, p.2.initial = "x".toList → rescale twoEqual.thr p.2.comps ≠ none := by
    intro p hp _
    have hpc : p.2.comps = ent.comps := by
      simp only [twoEqual, List.mem_cons, List.not_mem_nil, or_false] at hp
      rcases hp with rfl | rfl | rfl <;> rfl
    rw [hpc, Ne, C41_rescale_fails _ _ ent_wf.nodup ent_probs]
    rw [show twoEqual.thr = 1/10 from rfl, ent_kept]
    norm_num
  obtain ⟨out, h⟩ := C41_success twoEqual "x".toList hn (fun p hp _ => hc p hp) (by rw [hx]; norm_num) hr
  obtain ⟨b1, b2, -⟩ := C41_bound twoEqual ["x".toList] (by simp) out hn hc (by norm_num [twoEqual]) h "x".toList
  obtain ⟨-, -, b3⟩ := C41_bound twoEqual ["x".toList] (by simp) out hn hc (by norm_num [twoEqual]) h "y".toList
  refine ⟨out, h, ?_, by rw [← hx]; exact b2, ?_⟩
  · rw [hx] at b1
    have : (twoEqual.states.filter (fun p => p.2.initial = "x".toList)).length = 2 := by
      simp [twoEqual, ent]
    rw [this, show twoEqual.thr = 1/10 from rfl] at b1
    norm_num at b1 ⊢
    linarith
  · rw [labelTotal, b3 (by simp), ← labelTotal, hy]

/-- **C41** (finding) Resemblance is not symmetric: a component missing from the first state is not looked at. -/
theorem C41_resembles_asymmetric : ∃ a b : Comps, Resembles (1/2) a b ∧ ¬ Resembles (1/2) b a := by
  refine ⟨[("0".toList, ⟨1, 1⟩)], [("0".toList, ⟨1, 1⟩), ("1".toList, ⟨0, 0⟩)], ?_, ?_⟩
  · intro s x hx
    rw [Dict.get?_cons] at hx
    by_cases h : "0".toList = s
    · rw [if_pos h] at hx
      obtain rfl := Option.some.inj hx
      exact ⟨⟨1, 1⟩, by rw [Dict.get?_cons, if_pos h], by norm_num, by norm_num⟩
    · rw [if_neg h] at hx; cases hx
  · intro h
    obtain ⟨y, hy, -⟩ := h "1".toList ⟨0, 0⟩ (by rw [Dict.get?_cons, if_neg (by decide), Dict.get?_cons, if_pos rfl])
    rw [Dict.get?_cons, if_neg (by decide)] at hy
    cases hy

end Verif.Props
