/- Helper lemmas about merging duplicate states. -/
import Verif.Lemmas.ReduceColl

namespace Verif
open Spec

/-- a state with its components rescaled, if it has the label -/
noncomputable def rescaled (thr : ℝ) (label : List Char) (p : List Char × QState) : List Char × QState :=
  if p.2.initial = label then (p.1, { p.2 with comps := (rescale thr p.2.comps).getD [] }) else p

/-- identifiers of the states with the label -/
def labelled (label : List Char) (states : Coll) : List (List Char) := (states.filter (fun p => p.2.initial = label)).map Prod.fst

/-- all identifiers in the groups -/
def groupIds (groups : Dict (List Char) (List (List Char))) : List (List Char) := groups.flatMap (fun g => g.1 :: g.2)

theorem get?_append_left {α β : Type*} [DecidableEq α] {d e : Dict α β} {k : α} (h : k ∈ Dict.keys d) : Dict.get? (d ++ e) k = Dict.get? d k := by
  induction d with
  | nil => simp [Dict.keys] at h
  | cons p d ih =>
    obtain ⟨a, b⟩ := p
    rw [List.cons_append, Dict.get?_cons, Dict.get?_cons]
    by_cases hk : a = k
    · rw [if_pos hk, if_pos hk]
    · rw [if_neg hk, if_neg hk]
      apply ih
      simp only [Dict.keys, List.map_cons, List.mem_cons] at h
      rcases h with h | h
      · exact absurd h.symm hk
      · exact h

theorem get?_append_right {α β : Type*} [DecidableEq α] {d e : Dict α β} {k : α} (h : k ∉ Dict.keys d) : Dict.get? (d ++ e) k = Dict.get? e k := by
  induction d with
  | nil => rfl
  | cons p d ih =>
    obtain ⟨a, b⟩ := p
    simp only [Dict.keys, List.map_cons, List.mem_cons, not_or] at h
    rw [List.cons_append, Dict.get?_cons, if_neg (fun e => h.1 e.symm)]
    exact ih h.2

theorem set_append_cons {α β : Type*} [DecidableEq α] {d e : Dict α β} {k : α} {v w : β} (h : k ∉ Dict.keys d) :
    Dict.set (d ++ (k, v) :: e) k w = d ++ (k, w) :: e := by
  induction d with
  | nil => simp [Dict.set]
  | cons p d ih =>
    obtain ⟨a, b⟩ := p
    simp only [Dict.keys, List.map_cons, List.mem_cons, not_or] at h
    rw [List.cons_append, Dict.set, if_neg (fun e => h.1 e.symm), ih h.2]
    rfl

/-- the groups are what they should be: they contain the given identifiers, members resemble the first of their group, and no first one
resembles the first one of an earlier group -/
structure GroupsOk (thr : ℝ) (F : Coll) (ids : List (List Char)) (groups : Dict (List Char) (List (List Char))) : Prop where
  perm : (groupIds groups).Perm ids
  similar : ∀ g ∈ groups, ∀ j ∈ g.2, ∃ kj kg, F.get? j = some kj ∧ F.get? g.1 = some kg ∧ identicalComps thr kj.comps kg.comps
  apart : groups.Pairwise (fun g h => ∀ kg kh, F.get? g.1 = some kg → F.get? h.1 = some kh → ¬ identicalComps thr kh.comps kg.comps)

theorem groupIds_set_member {groups : Dict (List Char) (List (List Char))} (hn : (Dict.keys groups).Nodup) {o : List Char × List (List Char)}
    (ho : o ∈ groups) (i : List Char) : (groupIds (groups.set o.1 (o.2 ++ [i]))).Perm (groupIds groups ++ [i]) := by
  induction groups with
  | nil => cases ho
  | cons g groups ih =>
    obtain ⟨a, b⟩ := g
    simp only [Dict.keys, List.map_cons, List.nodup_cons] at hn
    rw [Dict.set]
    rcases List.mem_cons.1 ho with rfl | ho
    · rw [if_pos rfl]
      simp only [groupIds, List.flatMap_cons, List.cons_append, List.append_assoc]
      refine List.Perm.cons _ ?_
      refine List.Perm.append_left _ ?_
      rw [List.nil_append]
      exact (List.perm_append_singleton _ _).symm
    · rw [if_neg]
      · simp only [groupIds, List.flatMap_cons, List.cons_append, List.append_assoc]
        refine List.Perm.cons _ ?_
        refine List.Perm.append_left _ ?_
        exact ih hn.2 ho
      · intro e
        exact hn.1 (List.mem_map.2 ⟨o, by assumption, e.symm⟩)

theorem set_member_forms {groups : Dict (List Char) (List (List Char))} (hn : (Dict.keys groups).Nodup) {o : List Char × List (List Char)}
    (ho : o ∈ groups) (x : List (List Char)) : ∃ pre post, groups = pre ++ o :: post ∧ groups.set o.1 x = pre ++ (o.1, x) :: post := by
  obtain ⟨pre, post, e⟩ := List.append_of_mem ho
  refine ⟨pre, post, e, ?_⟩
  rw [e]
  have : o.1 ∉ Dict.keys pre := by
    rw [e, Dict.keys, List.map_append, List.nodup_append] at hn
    intro h
    exact hn.2.2 _ h o.1 (by simp) rfl
  exact set_append_cons this

theorem keys_sub_groupIds {groups : Dict (List Char) (List (List Char))} {g : List Char × List (List Char)} (hg : g ∈ groups) :
    g.1 ∈ groupIds groups := List.mem_flatMap.2 ⟨g, hg, by simp⟩

theorem keys_nodup_of_groupIds {groups : Dict (List Char) (List (List Char))} (h : (groupIds groups).Nodup) : (Dict.keys groups).Nodup := by
  have hs : (Dict.keys groups).Sublist (groupIds groups) := by
    clear h
    induction groups with
    | nil => exact List.Sublist.refl _
    | cons g groups ih =>
      simp only [Dict.keys, groupIds, List.map_cons, List.flatMap_cons, List.cons_append]
      refine List.Sublist.cons_cons _ ?_
      exact List.Sublist.trans ih (List.sublist_append_right _ _)
  exact h.sublist hs

open Classical in
/-- one step of `cleanGroups` -/
noncomputable def cleanStep (thr : ℝ) (label : List Char) (sg : Coll × Dict (List Char) (List (List Char))) (i : List Char) :
    Option (Coll × Dict (List Char) (List (List Char))) := do
    let q ← sg.1.get? i
    if q.initial = label then
      let comps ← rescale thr q.comps
      let q' : QState := { q with comps := comps }
      let states' := sg.1.set i q'
      match sg.2.find? (fun o => decide (∃ k, states'.get? o.1 = some k ∧ identicalComps thr q'.comps k.comps)) with
      | some o => some (states', sg.2.set o.1 (o.2 ++ [i]))
      | none => some (states', sg.2.set i [])
    else some sg

theorem cleanGroups_eq (thr : ℝ) (label : List Char) (states : Coll) :
    cleanGroups thr label states = (states.map Prod.fst).foldlM (cleanStep thr label) (states, []) := rfl

theorem rescaled_fst (thr : ℝ) (label : List Char) (p : List Char × QState) : (rescaled thr label p).1 = p.1 := by
  unfold rescaled; split <;> rfl

theorem keys_rescaled (thr : ℝ) (label : List Char) (states : Coll) : (states.map (rescaled thr label)).map Prod.fst = states.map Prod.fst := by
  rw [List.map_map]
  apply List.map_congr_left
  intro p _
  exact rescaled_fst thr label p

theorem cleanGroups_fold {thr : ℝ} {label : List Char} (all : Coll) (hn : (all.map Prod.fst).Nodup) (pre post : Coll) (hall : all = pre ++ post)
    (groups : Dict (List Char) (List (List Char))) (hg : GroupsOk thr (all.map (rescaled thr label)) (labelled label pre) groups)
    (sg : Coll × Dict (List Char) (List (List Char)))
    (h : (post.map Prod.fst).foldlM (cleanStep thr label) (pre.map (rescaled thr label) ++ post, groups) = some sg) :
    sg.1 = all.map (rescaled thr label) ∧ GroupsOk thr (all.map (rescaled thr label)) (labelled label all) sg.2 ∧
      ∀ p ∈ post, p.2.initial = label → (rescale thr p.2.comps).isSome := by
  induction post generalizing pre groups with
  | nil =>
    rw [List.map_nil, List.foldlM_nil] at h
    obtain rfl := Option.some.inj h
    rw [List.append_nil] at hall
    subst hall
    exact ⟨by simp, hg, by simp⟩
  | cons p post ih =>
    rw [List.map_cons, List.foldlM_cons] at h
    have hkeys : p.1 ∉ Dict.keys (pre.map (rescaled thr label)) := by
      rw [Dict.keys, keys_rescaled]
      rw [hall, List.map_append, List.nodup_append] at hn
      intro hm
      exact hn.2.2 _ hm p.1 (by simp) rfl
    have hget : Dict.get? (pre.map (rescaled thr label) ++ p :: post) p.1 = some p.2 := by
      rw [get?_append_right hkeys, show p = (p.1, p.2) from rfl, Dict.get?_cons, if_pos rfl]
    have hall' : all = (pre ++ [p]) ++ post := by rw [hall]; simp
    have hgetF : Dict.get? (all.map (rescaled thr label)) p.1 = some (rescaled thr label p).2 := by
      rw [hall, List.map_append, get?_append_right hkeys, List.map_cons,
        show rescaled thr label p = ((rescaled thr label p).1, (rescaled thr label p).2) from rfl, Dict.get?_cons, if_pos (rescaled_fst _ _ _)]
    have hgetpre : ∀ k ∈ labelled label pre, ∀ tail : Coll, Dict.get? (pre.map (rescaled thr label) ++ tail) k
        = Dict.get? (all.map (rescaled thr label)) k := by
      intro k hk tail
      have hk' : k ∈ Dict.keys (pre.map (rescaled thr label)) := by
        rw [Dict.keys, keys_rescaled]
        obtain ⟨q, hq, rfl⟩ := List.mem_map.1 hk
        exact List.mem_map.2 ⟨q, (List.mem_filter.1 hq).1, rfl⟩
      rw [hall, List.map_append, get?_append_left hk', get?_append_left hk']
    have hidn : (labelled label all).Nodup := hn.sublist (List.Sublist.map _ List.filter_sublist)
    unfold cleanStep at h
    simp only [Option.bind_eq_bind, hget, Option.bind_some] at h
    by_cases hl : p.2.initial = label
    · rw [if_pos hl] at h
      cases hr : rescale thr p.2.comps with
      | none => rw [hr] at h; simp at h
      | some comps =>
        rw [hr] at h
        simp only [Option.bind_some] at h
        have hre : rescaled thr label p = (p.1, { p.2 with comps := comps }) := by
          rw [rescaled, if_pos hl, hr]; rfl
        have hset : Dict.set (pre.map (rescaled thr label) ++ p :: post) p.1 { p.2 with comps := comps }
            = (pre ++ [p]).map (rescaled thr label) ++ post := by
          rw [show p :: post = (p.1, p.2) :: post from rfl, set_append_cons hkeys, List.map_append, List.map_cons, List.map_nil, hre]
          simp
        rw [hset] at h
        have hlab : labelled label (pre ++ [p]) = labelled label pre ++ [p.1] := by
          simp [labelled, List.filter_append, hl]
        have hlp : ∀ o ∈ groups, ∀ k, Dict.get? ((pre ++ [p]).map (rescaled thr label) ++ post) o.1 = some k ↔
            Dict.get? (all.map (rescaled thr label)) o.1 = some k := by
          intro o ho k
          have hm : o.1 ∈ labelled label pre := hg.perm.mem_iff.1 (keys_sub_groupIds ho)
          rw [List.map_append, List.append_assoc, hgetpre o.1 hm]
        have hgn : (Dict.keys groups).Nodup := by
          apply keys_nodup_of_groupIds
          rw [hg.perm.nodup_iff]
          rw [hall, labelled, List.filter_append, List.map_append, List.nodup_append] at hidn
          exact hidn.1
        cases hf : groups.find? (fun o => @decide (∃ k, Dict.get? ((pre ++ [p]).map (rescaled thr label) ++ post) o.1 = some k ∧
            identicalComps thr comps k.comps) (Classical.propDecidable _)) with
        | some o =>
          rw [hf] at h
          simp only [Option.bind_some] at h
          have ho := List.mem_of_find?_eq_some hf
          have hsim : ∃ k, Dict.get? ((pre ++ [p]).map (rescaled thr label) ++ post) o.1 = some k ∧ identicalComps thr comps k.comps := by
            simpa using List.find?_some hf
          obtain ⟨k, hk, hsim⟩ := hsim
          rw [hlp o ho] at hk
          have hg' : GroupsOk thr (all.map (rescaled thr label)) (labelled label (pre ++ [p])) (groups.set o.1 (o.2 ++ [p.1])) := by
            obtain ⟨gpre, gpost, e1, e2⟩ := set_member_forms hgn ho (o.2 ++ [p.1])
            refine ⟨?_, ?_, ?_⟩
            · rw [hlab]
              exact (groupIds_set_member hgn ho p.1).trans (hg.perm.append_right _)
            · intro g hg1 j hj
              rw [e2] at hg1
              rcases List.mem_append.1 hg1 with hg1 | hg1
              · exact hg.similar g (by rw [e1]; simp [hg1]) j hj
              · rcases List.mem_cons.1 hg1 with rfl | hg1
                · simp only at hj ⊢
                  rcases List.mem_append.1 hj with hj | hj
                  · exact hg.similar o ho j hj
                  · simp only [List.mem_singleton] at hj
                    subst hj
                    refine ⟨_, k, hgetF, hk, ?_⟩
                    rw [hre]; exact hsim
                · exact hg.similar g (by rw [e1]; simp [hg1]) j hj
            · have := hg.apart
              rw [e1] at this
              rw [e2]
              rw [List.pairwise_append, List.pairwise_cons] at this ⊢
              refine ⟨this.1, ⟨fun g hg => this.2.1.1 g hg, this.2.1.2⟩, ?_⟩
              intro a ha b hb
              rcases List.mem_cons.1 hb with rfl | hb
              · exact this.2.2 a ha o (by simp)
              · exact this.2.2 a ha b (by simp [hb])
          obtain ⟨r1, r2, r3⟩ := ih (pre ++ [p]) hall' _ hg' h
          refine ⟨r1, r2, ?_⟩
          intro x hx
          rcases List.mem_cons.1 hx with rfl | hx
          · intro _; rw [hr]; rfl
          · exact r3 x hx
        | none =>
          rw [hf] at h
          simp only [Option.bind_some] at h
          have hnone := List.find?_eq_none.1 hf
          have hpn : p.1 ∉ Dict.keys groups := by
            intro hm
            obtain ⟨g, hg1, hg2⟩ := List.mem_map.1 hm
            have hm' : p.1 ∈ labelled label pre := hg.perm.mem_iff.1 (hg2 ▸ keys_sub_groupIds hg1)
            apply hkeys
            rw [Dict.keys, keys_rescaled]
            obtain ⟨q, hq, e⟩ := List.mem_map.1 hm'
            exact List.mem_map.2 ⟨q, (List.mem_filter.1 hq).1, e⟩
          rw [Dict.set_of_not_mem _ hpn] at h
          have hg' : GroupsOk thr (all.map (rescaled thr label)) (labelled label (pre ++ [p])) (groups ++ [(p.1, [])]) := by
            refine ⟨?_, ?_, ?_⟩
            · rw [hlab, groupIds, List.flatMap_append]
              exact hg.perm.append_right _
            · intro g hg1 j hj
              rcases List.mem_append.1 hg1 with hg1 | hg1
              · exact hg.similar g hg1 j hj
              · simp only [List.mem_singleton] at hg1
                subst hg1
                simp at hj
            · rw [List.pairwise_append]
              refine ⟨hg.apart, by simp, ?_⟩
              intro g hg1 b hb
              simp only [List.mem_singleton] at hb
              subst hb
              intro kg kh hkg hkh hsim
              rw [hgetF] at hkh
              obtain rfl := Option.some.inj hkh
              have := hnone g hg1
              simp only [decide_eq_true_eq, not_exists, not_and] at this
              refine this kg ((hlp g hg1 kg).2 hkg) ?_
              rw [hre] at hsim
              exact hsim
          obtain ⟨r1, r2, r3⟩ := ih (pre ++ [p]) hall' _ hg' h
          refine ⟨r1, r2, ?_⟩
          intro x hx
          rcases List.mem_cons.1 hx with rfl | hx
          · intro _; rw [hr]; rfl
          · exact r3 x hx
    · rw [if_neg hl] at h
      simp only [Option.bind_some] at h
      have hre : rescaled thr label p = p := by rw [rescaled, if_neg hl]
      have hlab : labelled label (pre ++ [p]) = labelled label pre := by
        simp [labelled, List.filter_append, hl]
      obtain ⟨r1, r2, r3⟩ := ih (pre ++ [p]) hall' groups (by rw [hlab]; exact hg) (by
        rw [List.map_append, List.map_cons, List.map_nil, hre, List.append_assoc]
        exact h)
      refine ⟨r1, r2, ?_⟩
      intro x hx hxl
      rcases List.mem_cons.1 hx with rfl | hx
      · exact absurd hxl hl
      · exact r3 x hx hxl

theorem cleanGroups_spec {thr : ℝ} {label : List Char} {states : Coll} (hn : (states.map Prod.fst).Nodup)
    {sg : Coll × Dict (List Char) (List (List Char))} (h : cleanGroups thr label states = some sg) :
    sg.1 = states.map (rescaled thr label) ∧ GroupsOk thr (states.map (rescaled thr label)) (labelled label states) sg.2 ∧
      ∀ p ∈ states, p.2.initial = label → (rescale thr p.2.comps).isSome := by
  rw [cleanGroups_eq] at h
  refine cleanGroups_fold states hn [] states rfl [] ⟨List.Perm.refl _, by simp, List.Pairwise.nil⟩ sg h

theorem cleanGroups_some {thr : ℝ} {label : List Char} {states : Coll} (hn : (states.map Prod.fst).Nodup)
    (hr : ∀ p ∈ states, p.2.initial = label → (rescale thr p.2.comps).isSome) : ∃ sg, cleanGroups thr label states = some sg := by
  rw [cleanGroups_eq]
  have gen : ∀ (post pre : Coll) (groups : Dict (List Char) (List (List Char))), ((pre ++ post).map Prod.fst).Nodup →
      (∀ p ∈ post, p.2.initial = label → (rescale thr p.2.comps).isSome) →
      ∃ sg, (post.map Prod.fst).foldlM (cleanStep thr label) (pre ++ post, groups) = some sg := by
    intro post
    induction post with
    | nil => intro pre groups _ _; exact ⟨_, rfl⟩
    | cons p post ih =>
      intro pre groups hn hr
      have hkeys : p.1 ∉ Dict.keys pre := by
        rw [List.map_append, List.nodup_append] at hn
        intro hm
        exact hn.2.2 _ hm p.1 (by simp) rfl
      have hget : Dict.get? (pre ++ p :: post) p.1 = some p.2 := by
        rw [get?_append_right hkeys, show p = (p.1, p.2) from rfl, Dict.get?_cons, if_pos rfl]
      rw [List.map_cons, List.foldlM_cons, cleanStep]
      simp only [hget, Option.bind_eq_bind, Option.bind_some]
      by_cases hl : p.2.initial = label
      · rw [if_pos hl]
        obtain ⟨comps, hc⟩ := Option.isSome_iff_exists.1 (hr p (by simp) hl)
        rw [hc]
        simp only [Option.bind_some]
        rw [show p :: post = (p.1, p.2) :: post from rfl, set_append_cons hkeys]
        have hn' : (((pre ++ [(p.1, { p.2 with comps := comps })]) ++ post).map Prod.fst).Nodup := by
          simpa [List.map_append] using hn
        have key : ∀ gr, ∃ sg, (post.map Prod.fst).foldlM (cleanStep thr label) (pre ++ (p.1, { p.2 with comps := comps }) :: post, gr) = some sg := by
          intro gr
          have := ih (pre ++ [(p.1, { p.2 with comps := comps })]) gr hn' (fun q hq => hr q (by simp [hq]))
          simpa using this
        split
        · exact key _
        · exact key _
      · rw [if_neg hl]
        simp only [Option.bind_some]
        have := ih (pre ++ [p]) groups (by simpa using hn) (fun q hq => hr q (by simp [hq]))
        simpa using this
  exact gen states [] [] (by simpa using hn) hr

/-- cumulative probability stored under an identifier -/
noncomputable def cumAt (S : Coll) (i : List Char) : ℝ := (S.get? i).elim 0 QState.cum

/-- total of a group -/
noncomputable def groupCum (S : Coll) (g : List Char × List (List Char)) : ℝ := cumAt S g.1 + (g.2.map (cumAt S)).sum

open Classical in
/-- what happens to an entry when a group with total `c` is merged -/
noncomputable def mergeAct (thr c : ℝ) (g : List Char × List (List Char)) (p : List Char × QState) : Option (List Char × QState) :=
  if p.1 ∈ g.2 then none else if p.1 = g.1 then (if thr ≤ c then some (p.1, { p.2 with cum := c }) else none) else some p

/-- ... and when all groups are -/
noncomputable def mergeFate (thr : ℝ) (S : Coll) : List (List Char × List (List Char)) → List Char × QState → Option (List Char × QState)
  | [], p => some p
  | g :: gs, p => (mergeAct thr (groupCum S g) g p).bind (mergeFate thr S gs)

theorem get?_filter_ne {S : Coll} {ms : List (List Char)} {j : List Char} (hj : j ∉ ms) :
    Dict.get? (S.filter (fun p => p.1 ∉ ms)) j = Dict.get? S j := by
  induction S with
  | nil => rfl
  | cons p S ih =>
    obtain ⟨a, b⟩ := p
    rw [List.filter_cons]
    by_cases h : a ∈ ms
    · rw [if_neg (by simpa using h), ih, Dict.get?_cons, if_neg (by rintro rfl; exact hj h)]
    · rw [if_pos (by simpa using h), Dict.get?_cons, Dict.get?_cons, ih]

theorem merge_inner {S : Coll} (hn : (S.map Prod.fst).Nodup) {ms : List (List Char)} (hms : ms.Nodup) (hsub : ∀ j ∈ ms, j ∈ S.map Prod.fst)
    (c : ℝ) : ms.foldlM (fun (sc : Coll × ℝ) j => do
      let k ← sc.1.get? j
      some (sc.1.erase j, sc.2 + k.cum)) (S, c) = some (S.filter (fun p => p.1 ∉ ms), c + (ms.map (cumAt S)).sum) := by
  induction ms generalizing S c with
  | nil => simp
  | cons j ms ih =>
    rw [List.nodup_cons] at hms
    obtain ⟨k, hk⟩ := Dict.mem_keys_iff.1 (show j ∈ Dict.keys S from hsub j (by simp))
    rw [List.foldlM_cons, hk]
    simp only [Option.bind_eq_bind, Option.bind_some]
    rw [erase_eq_filter hn]
    have hn' : ((S.filter (fun p => p.1 ≠ j)).map Prod.fst).Nodup := hn.sublist (List.Sublist.map _ List.filter_sublist)
    have hget : ∀ i ∈ ms, Dict.get? (S.filter (fun p => p.1 ≠ j)) i = Dict.get? S i := by
      intro i hi
      have := get?_filter_ne (S := S) (ms := [j]) (j := i) (by simp; rintro rfl; exact hms.1 hi)
      simpa using this
    have ih := ih hn' hms.2 (by
      intro i hi
      have h1 := hget i hi
      obtain ⟨q, hq⟩ := Dict.mem_keys_iff.1 (show i ∈ Dict.keys S from hsub i (by simp [hi]))
      exact Dict.mem_keys_iff.2 ⟨q, by rw [h1, hq]⟩) (c + k.cum)
    simp only [Option.bind_eq_bind] at ih
    rw [ih, List.filter_filter]
    congr 1
    refine Prod.ext ?_ ?_
    · simp only
      apply List.filter_congr
      intro p _
      by_cases h1 : p.1 = j <;> by_cases h2 : p.1 ∈ ms <;> simp [h1, h2]
    · simp only [List.map_cons, List.sum_cons]
      have : cumAt S j = k.cum := by rw [cumAt, hk]; rfl
      rw [this, add_assoc]
      congr 2
      apply congrArg
      apply List.map_congr_left
      intro i hi
      rw [cumAt, cumAt, hget i hi]

theorem set_eq_map {S : Coll} (hn : (S.map Prod.fst).Nodup) {i : List Char} {q : QState} (h : Dict.get? S i = some q) (f : QState → QState) :
    Dict.set S i (f q) = S.map (fun p => if p.1 = i then (p.1, f p.2) else p) := by
  induction S with
  | nil => simp at h
  | cons p S ih =>
    obtain ⟨a, b⟩ := p
    rw [List.map_cons, List.nodup_cons] at hn
    rw [Dict.get?_cons] at h
    rw [Dict.set, List.map_cons]
    by_cases ha : a = i
    · rw [if_pos ha] at h
      obtain rfl := Option.some.inj h
      rw [if_pos ha, if_pos ha]
      subst ha
      congr 1
      conv_lhs => rw [← List.map_id S]
      apply List.map_congr_left
      intro p hp
      rw [if_neg]
      · rfl
      · intro e; exact hn.1 (e ▸ List.mem_map.2 ⟨p, hp, rfl⟩)
    · rw [if_neg ha] at h
      rw [if_neg ha, if_neg ha, ih hn.2 h]

/-- one step of `mergeGroups` -/
noncomputable def mergeStep (thr : ℝ) (states : Coll) (ig : List Char × List (List Char)) : Option Coll := do
    let q ← states.get? ig.1
    let sc ← ig.2.foldlM (fun (sc : Coll × ℝ) j => do
      let k ← sc.1.get? j
      some (sc.1.erase j, sc.2 + k.cum)) (states, q.cum)
    if sc.2 ≥ thr then
      let cum ← setCum sc.2
      let q' ← sc.1.get? ig.1
      some (sc.1.set ig.1 { q' with cum := cum })
    else some (sc.1.erase ig.1)

theorem mergeGroups_eq (thr : ℝ) (groups : Dict (List Char) (List (List Char))) (states : Coll) :
    mergeGroups thr groups states = groups.foldlM (mergeStep thr) states := rfl

theorem mergeStep_spec {thr : ℝ} {S : Coll} (hn : (S.map Prod.fst).Nodup) {g : List Char × List (List Char)} (hg : (g.1 :: g.2).Nodup)
    (hsub : ∀ j ∈ g.1 :: g.2, j ∈ S.map Prod.fst) (out : Coll) :
    mergeStep thr S g = some out ↔ (thr ≤ groupCum S g → 0 ≤ groupCum S g ∧ groupCum S g ≤ 1) ∧ out = S.filterMap (mergeAct thr (groupCum S g) g) := by
  classical
  rw [List.nodup_cons] at hg
  obtain ⟨q, hq⟩ := Dict.mem_keys_iff.1 (show g.1 ∈ Dict.keys S from hsub g.1 (by simp))
  have hc : q.cum = cumAt S g.1 := by rw [cumAt, hq]; rfl
  have hin := merge_inner hn hg.2 (fun j hj => hsub j (by simp [hj])) q.cum
  unfold mergeStep
  simp only [Option.bind_eq_bind] at hin ⊢
  rw [hq]
  simp only [Option.bind_some]
  rw [hin]
  simp only [Option.bind_some]
  have hsum : q.cum + (g.2.map (cumAt S)).sum = groupCum S g := by rw [groupCum, hc]
  rw [hsum]
  have hn' : ((S.filter (fun p => p.1 ∉ g.2)).map Prod.fst).Nodup := hn.sublist (List.Sublist.map _ List.filter_sublist)
  have hq' : Dict.get? (S.filter (fun p => p.1 ∉ g.2)) g.1 = some q := by rw [get?_filter_ne hg.1, hq]
  by_cases ht : thr ≤ groupCum S g
  · rw [if_pos ht, setCum]
    by_cases hb : 0 ≤ groupCum S g ∧ groupCum S g ≤ 1
    · rw [if_pos hb]
      simp only [Option.bind_some]
      rw [hq']
      simp only [Option.bind_some]
      rw [set_eq_map hn' hq' (fun q => { q with cum := groupCum S g })]
      have e : (S.filter (fun p => p.1 ∉ g.2)).map (fun p => if p.1 = g.1 then (p.1, { p.2 with cum := groupCum S g }) else p)
          = S.filterMap (mergeAct thr (groupCum S g) g) := by
        rw [← List.filterMap_eq_map, List.filterMap_filter]
        apply List.filterMap_congr
        intro p _
        rw [mergeAct]
        by_cases h1 : p.1 ∈ g.2
        · simp [h1]
        · by_cases h2 : p.1 = g.1
          · have : g.1 ∉ g.2 := hg.1
            simp [h2, this, ht]
          · simp [h1, h2]
      rw [e]
      constructor
      · intro h; exact ⟨fun _ => hb, (Option.some.inj h).symm⟩
      · rintro ⟨_, rfl⟩; rfl
    · rw [if_neg hb]
      constructor
      · intro h; cases h
      · rintro ⟨h, _⟩; exact absurd (h ht) hb
  · rw [if_neg ht, erase_eq_filter hn', List.filter_filter]
    have e : S.filter (fun a => decide (a.1 ≠ g.1) && decide (a.1 ∉ g.2)) = S.filterMap (mergeAct thr (groupCum S g) g) := by
      rw [← List.filterMap_eq_filter]
      apply List.filterMap_congr
      intro p _
      rw [mergeAct]
      by_cases h1 : p.1 ∈ g.2
      · simp [h1]
      · by_cases h2 : p.1 = g.1
        · have : g.1 ∉ g.2 := hg.1
          simp [h2, this, ht]
        · simp [h1, h2]
    rw [e]
    constructor
    · intro h; exact ⟨fun h => absurd h ht, (Option.some.inj h).symm⟩
    · rintro ⟨_, rfl⟩; rfl

theorem mergeAct_fst {thr c : ℝ} {g : List Char × List (List Char)} {p p' : List Char × QState} (h : mergeAct thr c g p = some p') : p'.1 = p.1 := by
  unfold mergeAct at h
  split at h
  · cases h
  · split at h
    · split at h
      · rw [← Option.some.inj h]
      · cases h
    · rw [← Option.some.inj h]

theorem filterMap_keys_sublist {f : List Char × QState → Option (List Char × QState)} (hf : ∀ p p', f p = some p' → p'.1 = p.1) (S : Coll) :
    ((S.filterMap f).map Prod.fst).Sublist (S.map Prod.fst) := by
  induction S with
  | nil => simp
  | cons p S ih =>
    cases h : f p with
    | none => rw [List.filterMap_cons_none h, List.map_cons]; exact ih.cons _
    | some p' => rw [List.filterMap_cons_some h, List.map_cons, List.map_cons, hf p p' h]; exact ih.cons_cons _

theorem get?_filterMap_other {thr c : ℝ} {g : List Char × List (List Char)} {j : List Char} (hj : j ∉ g.1 :: g.2) (S : Coll) :
    Dict.get? (S.filterMap (mergeAct thr c g)) j = Dict.get? S j := by
  rw [List.mem_cons, not_or] at hj
  induction S with
  | nil => rfl
  | cons p S ih =>
    obtain ⟨a, b⟩ := p
    rw [Dict.get?_cons]
    cases h : mergeAct thr c g (a, b) with
    | none =>
      rw [List.filterMap_cons_none h, ih, if_neg]
      rintro rfl
      rw [mergeAct, if_neg hj.2, if_neg hj.1] at h
      cases h
    | some p' =>
      rw [List.filterMap_cons_some h]
      have h1 := mergeAct_fst h
      obtain ⟨a', b'⟩ := p'
      simp only at h1
      subst h1
      rw [Dict.get?_cons, ih]
      by_cases ha : a' = j
      · rw [if_pos ha, if_pos ha]
        subst ha
        rw [mergeAct, if_neg hj.2, if_neg hj.1] at h
        rw [(Prod.mk.inj (Option.some.inj h)).2]
      · rw [if_neg ha, if_neg ha]

theorem mergeGroups_spec {thr : ℝ} {S₀ : Coll} {groups : Dict (List Char) (List (List Char))} (hg : (groupIds groups).Nodup)
    (S : Coll) (hn : (S.map Prod.fst).Nodup) (hsub : ∀ j ∈ groupIds groups, j ∈ S.map Prod.fst)
    (hsame : ∀ j ∈ groupIds groups, Dict.get? S j = Dict.get? S₀ j) (out : Coll) :
    mergeGroups thr groups S = some out ↔ (∀ g ∈ groups, thr ≤ groupCum S₀ g → 0 ≤ groupCum S₀ g ∧ groupCum S₀ g ≤ 1) ∧
      out = S.filterMap (mergeFate thr S₀ groups) := by
  rw [mergeGroups_eq]
  induction groups generalizing S with
  | nil =>
    rw [List.foldlM_nil]
    constructor
    · intro h
      refine ⟨by simp, ?_⟩
      rw [← Option.some.inj h]
      have : mergeFate thr S₀ [] = some := by funext p; rfl
      rw [this, List.filterMap_some]
    · rintro ⟨-, rfl⟩
      have : mergeFate thr S₀ [] = some := by funext p; rfl
      rw [this, List.filterMap_some]; rfl
  | cons g gs ih =>
    have hgi : groupIds (g :: gs) = (g.1 :: g.2) ++ groupIds gs := by simp [groupIds]
    rw [hgi, List.nodup_append] at hg
    have hc : groupCum S g = groupCum S₀ g := by
      rw [groupCum, groupCum, cumAt, cumAt, hsame g.1 (by rw [hgi]; simp)]
      congr 2
      apply List.map_congr_left
      intro j hj
      rw [cumAt, cumAt, hsame j (by rw [hgi]; simp [hj])]
    have hother : ∀ j ∈ groupIds gs, j ∉ g.1 :: g.2 := fun j hj hj' => hg.2.2 j hj' j hj rfl
    have hfate : ∀ T : Coll, T.filterMap (mergeFate thr S₀ (g :: gs)) = (T.filterMap (mergeAct thr (groupCum S₀ g) g)).filterMap (mergeFate thr S₀ gs) := by
      intro T
      rw [List.filterMap_filterMap]
      rfl
    have ih' := ih hg.2.1 (S.filterMap (mergeAct thr (groupCum S₀ g) g)) (hn.sublist (filterMap_keys_sublist (fun _ _ h => mergeAct_fst h) S)) (by
        intro j hj
        have hjS := hsub j (by rw [hgi]; simp [hj])
        obtain ⟨q, hq⟩ := Dict.mem_keys_iff.1 (show j ∈ Dict.keys S from hjS)
        exact Dict.mem_keys_iff.2 ⟨q, by rw [get?_filterMap_other (hother j hj), hq]⟩) (by
        intro j hj
        rw [get?_filterMap_other (hother j hj), hsame j (by rw [hgi]; simp [hj])])
    rw [List.foldlM_cons]
    constructor
    · intro h
      obtain ⟨S1, h1, h2⟩ := Option.bind_eq_some_iff.1 h
      obtain ⟨hb, rfl⟩ := (mergeStep_spec hn hg.1 (fun j hj => hsub j (by rw [hgi]; exact List.mem_append_left _ hj)) S1).1 h1
      rw [hc] at h2 hb
      obtain ⟨k1, k2⟩ := ih'.1 h2
      refine ⟨?_, by rw [k2, hfate]⟩
      intro g' hg'
      rcases List.mem_cons.1 hg' with rfl | hg'
      · exact hb
      · exact k1 g' hg'
    · rintro ⟨k1, k2⟩
      rw [(mergeStep_spec hn hg.1 (fun j hj => hsub j (by rw [hgi]; exact List.mem_append_left _ hj)) _).2
        ⟨by rw [hc]; exact k1 g (by simp), rfl⟩]
      simp only [Option.bind_eq_bind, Option.bind_some]
      rw [hc]
      exact ih'.2 ⟨fun g' hg' => k1 g' (by simp [hg']), by rw [k2, hfate]⟩

theorem mergeFate_other {thr : ℝ} {S : Coll} {gs : List (List Char × List (List Char))} {p : List Char × QState} (h : p.1 ∉ groupIds gs) :
    mergeFate thr S gs p = some p := by
  induction gs with
  | nil => rfl
  | cons g gs ih =>
    have hgi : groupIds (g :: gs) = (g.1 :: g.2) ++ groupIds gs := by simp [groupIds]
    rw [hgi, List.mem_append, not_or, List.mem_cons, not_or] at h
    rw [mergeFate, mergeAct, if_neg h.1.2, if_neg h.1.1]
    exact ih h.2

theorem mergeFate_member {thr : ℝ} {S : Coll} {gs : List (List Char × List (List Char))} (hn : (groupIds gs).Nodup) {g : List Char × List (List Char)}
    (hg : g ∈ gs) {p : List Char × QState} (h : p.1 ∈ g.2) : mergeFate thr S gs p = none := by
  induction gs with
  | nil => cases hg
  | cons g' gs ih =>
    have hgi : groupIds (g' :: gs) = (g'.1 :: g'.2) ++ groupIds gs := by simp [groupIds]
    rw [hgi, List.nodup_append] at hn
    rcases List.mem_cons.1 hg with rfl | hg
    · rw [mergeFate, mergeAct, if_pos h]; rfl
    · have hm : p.1 ∈ groupIds gs := List.mem_flatMap.2 ⟨g, hg, by simp [h]⟩
      have hno : p.1 ∉ g'.1 :: g'.2 := fun h' => hn.2.2 _ h' _ hm rfl
      rw [List.mem_cons, not_or] at hno
      rw [mergeFate, mergeAct, if_neg hno.2, if_neg hno.1]
      exact ih hn.2.1 hg

open Classical in
theorem mergeFate_leader {thr : ℝ} {S : Coll} {gs : List (List Char × List (List Char))} (hn : (groupIds gs).Nodup) {g : List Char × List (List Char)}
    (hg : g ∈ gs) {p : List Char × QState} (h : p.1 = g.1) :
    mergeFate thr S gs p = if thr ≤ groupCum S g then some (p.1, { p.2 with cum := groupCum S g }) else none := by
  induction gs with
  | nil => cases hg
  | cons g' gs ih =>
    have hgi : groupIds (g' :: gs) = (g'.1 :: g'.2) ++ groupIds gs := by simp [groupIds]
    rw [hgi, List.nodup_append] at hn
    rcases List.mem_cons.1 hg with rfl | hg
    · rw [List.nodup_cons] at hn
      rw [mergeFate, mergeAct, if_neg (by rw [h]; exact hn.1.1), if_pos h]
      by_cases ht : thr ≤ groupCum S g
      · rw [if_pos ht]
        simp only [Option.bind_some]
        apply mergeFate_other
        intro hm
        exact hn.2.2 g.1 (by simp) p.1 hm h.symm
      · rw [if_neg ht]; rfl
    · have hm : p.1 ∈ groupIds gs := by rw [h]; exact keys_sub_groupIds hg
      have hno : p.1 ∉ g'.1 :: g'.2 := fun h' => hn.2.2 _ h' _ hm rfl
      rw [List.mem_cons, not_or] at hno
      rw [mergeFate, mergeAct, if_neg hno.2, if_neg hno.1]
      exact ih hn.2.1 hg

end Verif
