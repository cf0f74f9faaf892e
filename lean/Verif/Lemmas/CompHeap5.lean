/- `clean_up` on the heap of component dictionaries, continued. -/
import Verif.Lemmas.CompHeap4

namespace Verif
open Spec

theorem nodup_erase {α β : Type*} [DecidableEq α] {γ : Type*} {f : α × β → γ} {d : Dict α β} (hn : (d.map f).Nodup) (k : α) : ((d.erase k).map f).Nodup := by
  induction d with
  | nil => exact hn
  | cons a d ih =>
    rw [List.map_cons, List.nodup_cons] at hn
    rw [Dict.erase]
    split
    · exact hn.2
    · rw [List.map_cons, List.nodup_cons]
      refine ⟨fun h => hn.1 ?_, ih hn.2⟩
      obtain ⟨x, hx, e⟩ := List.mem_map.1 h
      exact List.mem_map.2 ⟨x, mem_erase_of hx, e⟩

theorem unshared_erase {h : EHeap} {coll : HColl} (hu : Unshared h coll) (k : List Char) : Unshared h (coll.erase k) :=
  ⟨fun p hp => hu.live p (mem_erase_of hp), nodup_erase hu.ids k, nodup_erase hu.objs k, fun p hp => hu.names p (mem_erase_of hp),
    fun p hp p' hp' => hu.recs p (mem_erase_of hp) p' (mem_erase_of hp')⟩

theorem view_erase {h : EHeap} {coll : HColl} {C : Coll} (hv : h.view coll = some C) (k : List Char) :
    h.view (coll.erase k) = some (C.erase k) := by
  unfold EHeap.view at *
  rw [mapM_some_iff] at *
  induction hv with
  | nil => exact .nil
  | cons h1 h2 ih =>
    rename_i p P l L
    obtain ⟨x, hx, rfl⟩ := Option.map_eq_some_iff.1 h1
    rw [Dict.erase, Dict.erase]
    by_cases e : p.1 = k
    · rw [if_pos e, if_pos e]
      exact h2
    · rw [if_neg e, if_neg e]
      exact .cons h1 ih

/-- sorting into groups on the heap -/
theorem eCleanGroups_sim {thr : ℝ} {label : List Char} {h : EHeap} {coll : HColl} {C : Coll} (hu : Unshared h coll) (hv : h.view coll = some C) :
    Agree (fun (a : EHeap × Dict (List Char) (List (List Char))) (b : Coll × Dict (List Char) (List (List Char))) =>
      a.2 = b.2 ∧ a.1.view coll = some b.1 ∧ Unshared a.1 coll) (eCleanGroups thr label h coll) (cleanGroups thr label C) := by
  classical
  unfold eCleanGroups cleanGroups
  rw [show C.map Prod.fst = coll.map Prod.fst from (view_keys hv).1.symm]
  suffices key : ∀ (l : HColl) (gr : Dict (List Char) (List (List Char))) (h : EHeap) (C : Coll), (∀ p ∈ l, p ∈ coll) → Unshared h coll →
      h.view coll = some C → Agree (fun (a : EHeap × Dict (List Char) (List (List Char))) (b : Coll × Dict (List Char) (List (List Char))) =>
      a.2 = b.2 ∧ a.1.view coll = some b.1 ∧ Unshared a.1 coll) (l.foldlM _ (h, gr)) ((l.map Prod.fst).foldlM _ (C, gr)) from
    key coll [] h C (fun _ hp => hp) hu hv
  intro l
  induction l with
  | nil => intro gr h C _ hu hv; exact ⟨rfl, hv, hu⟩
  | cons p l ih =>
    intro gr h C hl hu hv
    rw [List.foldlM_cons, List.map_cons, List.foldlM_cons]
    simp only [Option.bind_eq_bind]
    have hp : p ∈ coll := hl p (by simp)
    have hl' : ∀ q ∈ l, q ∈ coll := fun q hq => hl q (by simp [hq])
    obtain ⟨o, ho, hlv⟩ := hu.live p hp
    have hget : h.get p.2 = some (h.val o) := by unfold EHeap.get; rw [ho]; rfl
    have hgc : Dict.get? coll p.1 = some p.2 := Dict.get?_of_mem hu.ids hp
    have hgC : Dict.get? C p.1 = some (h.val o) := by rw [view_get? hv, hgc, Option.bind_some, hget]
    rw [hget, hgC]
    simp only [Option.bind_some]
    by_cases hlab : (h.val o).initial = label
    · rw [if_pos hlab, if_pos hlab]
      have hsim := eRescale_sim (thr := thr) ho (unshared_nodup hu hp ho) hlv
      cases hr : eRescale thr h p.2 with
      | none =>
        cases hr' : rescale thr (h.val o).comps with
        | none => trivial
        | some c => rw [hr, hr'] at hsim; exact hsim.elim
      | some h' =>
        cases hr' : rescale thr (h.val o).comps with
        | none => rw [hr, hr'] at hsim; exact hsim.elim
        | some c =>
          rw [hr, hr'] at hsim
          obtain ⟨o', ho', hval, -⟩ := hsim
          obtain ⟨hu', hoth⟩ := eRescale_unshared hp hu hr
          have hget' : h'.get p.2 = some { h.val o with comps := c } := by unfold EHeap.get; rw [ho', ← hval]; rfl
          have hv' := view_update hu.ids hv hp hget' hoth
          simp only [Option.bind_some]
          rw [hget']
          simp only [Option.bind_some]
          have hfind : gr.find? (fun o => decide (∃ a k, coll.get? o.1 = some a ∧ h'.get a = some k ∧ identicalComps thr c k.comps)) =
              gr.find? (fun x => decide (∃ k, (C.set p.1 { h.val o with comps := c }).get? x.1 = some k ∧ identicalComps thr c k.comps)) := by
            congr 1
            funext x
            rw [view_get? hv' x.1]
            apply decide_eq_decide.2
            constructor
            · rintro ⟨a, k, h1, h2, h3⟩
              exact ⟨k, by rw [h1, Option.bind_some, h2], h3⟩
            · rintro ⟨k, h1, h3⟩
              obtain ⟨a, h2, h4⟩ := Option.bind_eq_some_iff.1 h1
              exact ⟨a, k, h2, h4, h3⟩
          rw [hfind]
          cases gr.find? (fun x => decide (∃ k, (C.set p.1 { h.val o with comps := c }).get? x.1 = some k ∧ identicalComps thr c k.comps)) with
          | none => exact ih _ _ _ hl' hu' hv'
          | some x => exact ih _ _ _ hl' hu' hv'
    · rw [if_neg hlab, if_neg hlab]
      exact ih _ _ _ hl' hu hv

/-- merging the groups on the heap -/
theorem eMergeGroups_sim {thr : ℝ} {gr : Dict (List Char) (List (List Char))} {h : EHeap} {coll : HColl} {C : Coll} (hu : Unshared h coll)
    (hv : h.view coll = some C) :
    Agree (fun (a : EHeap × HColl) (b : Coll) => a.1.view a.2 = some b ∧ Unshared a.1 a.2) (eMergeGroups thr gr h coll) (mergeGroups thr gr C) := by
  unfold eMergeGroups mergeGroups
  induction gr generalizing h coll C with
  | nil => exact ⟨hv, hu⟩
  | cons ig gr ih =>
    rw [List.foldlM_cons, List.foldlM_cons]
    simp only [Option.bind_eq_bind]
    refine agree_bind (R := fun (a : EHeap × HColl) (b : Coll) => a.1.view a.2 = some b ∧ Unshared a.1 a.2) ?_ (fun a b _ _ hab => ih hab.2 hab.1)
    rw [view_get? hv ig.1]
    cases Dict.get? coll ig.1 with
    | none => trivial
    | some a =>
      simp only [Option.bind_some]
      cases h.get a with
      | none => trivial
      | some q =>
        simp only [Option.bind_some]
        refine agree_bind (R := fun (x : HColl × ℝ) (y : Coll × ℝ) => x.2 = y.2 ∧ h.view x.1 = some y.1 ∧ Unshared h x.1) ?_ ?_
        · suffices key : ∀ (l : List (List Char)) (coll : HColl) (C : Coll) (t : ℝ), Unshared h coll → h.view coll = some C →
              Agree (fun (x : HColl × ℝ) (y : Coll × ℝ) => x.2 = y.2 ∧ h.view x.1 = some y.1 ∧ Unshared h x.1)
              (l.foldlM (fun (sc : HColl × ℝ) j => (sc.1.get? j).bind (fun b => (h.get b).bind (fun k => some (sc.1.erase j, sc.2 + k.cum)))) (coll, t))
              (l.foldlM (fun (sc : Coll × ℝ) j => (sc.1.get? j).bind (fun k => some (sc.1.erase j, sc.2 + k.cum))) (C, t)) from
            key ig.2 coll C q.cum hu hv
          intro l
          induction l with
          | nil => intro coll C t hu hv; exact ⟨rfl, hv, hu⟩
          | cons j l ih =>
            intro coll C t hu hv
            rw [List.foldlM_cons, List.foldlM_cons]
            simp only [Option.bind_eq_bind]
            rw [view_get? hv j]
            cases Dict.get? coll j with
            | none => trivial
            | some b =>
              simp only [Option.bind_some]
              cases h.get b with
              | none => trivial
              | some k =>
                simp only [Option.bind_some]
                exact ih _ _ _ (unshared_erase hu j) (view_erase hv j)
        · rintro ⟨x, t⟩ ⟨X, t'⟩ - - ⟨rfl, hxv, hxu⟩
          simp only at hxv hxu ⊢
          split
          · cases setCum t with
            | none => trivial
            | some cum =>
              simp only [Option.bind_some]
              rw [view_get? hxv ig.1]
              cases hx : Dict.get? x ig.1 with
              | none => trivial
              | some a' =>
                simp only [Option.bind_some]
                have hmem := Dict.get?_mem hx
                obtain ⟨o, ho, hlo⟩ := hxu.live _ hmem
                simp only at ho
                have hg : h.get a' = some (h.val o) := by unfold EHeap.get; rw [ho]; rfl
                rw [hg]
                simp only [Option.bind_some]
                have hobj : ∀ b, (h.objs.modify a' (fun s => { s with cum := cum }))[b]? =
                    (h.objs[b]?).map (fun s => if b = a' then { s with cum := cum } else s) := by
                  intro b
                  rw [List.getElem?_modify]
                  congr 1
                  funext s
                  by_cases e : a' = b
                  · rw [if_pos e, if_pos e.symm]
                  · rw [if_neg e, if_neg (fun c => e c.symm)]
                refine ⟨?_, ?_⟩
                · refine view_update (p := (ig.1, a')) hxu.ids hxv hmem ?_ ?_
                  · unfold EHeap.get
                    show Option.map _ ((h.objs.modify a' (fun s => { s with cum := cum }))[a']?) = _
                    rw [hobj, ho, Option.map_some, Option.map_some, if_pos rfl]
                    rfl
                  · intro y hy hne
                    unfold EHeap.get
                    show Option.map _ ((h.objs.modify a' (fun s => { s with cum := cum }))[y.2]?) = _
                    rw [hobj]
                    have : y.2 ≠ a' := fun e => hne (unshared_inj hxu hy hmem e)
                    simp only [if_neg this, Option.map_id']
                    rfl
                · have hof : ∀ (b : ℕ) (o' : EState), (h.objs.modify a' (fun s => { s with cum := cum }))[b]? = some o' → ∃ o1 : EState, h.objs[b]? = some o1 ∧ o1.comps = o'.comps := by
                    intro b o' hb
                    rw [hobj] at hb
                    obtain ⟨o1, ho1, rfl⟩ := Option.map_eq_some_iff.1 hb
                    refine ⟨o1, ho1, ?_⟩
                    split <;> rfl
                  refine ⟨?_, hxu.ids, hxu.objs, ?_, ?_⟩
                  · intro p hp
                    obtain ⟨op, hop, hlp⟩ := hxu.live p hp
                    refine ⟨_, by show (h.objs.modify a' (fun s => { s with cum := cum }))[p.2]? = _; rw [hobj, hop]; rfl, ?_⟩
                    intro e he
                    apply hlp e
                    revert he
                    split <;> exact id
                  · intro p hp o' ho'
                    obtain ⟨o1, ho1, hc⟩ := hof _ _ ho'
                    rw [← hc]
                    exact hxu.names p hp o1 ho1
                  · intro p hp p' hp' o1 o2 h1 h2 e he e' he' hee
                    obtain ⟨o1', ho1', hc1⟩ := hof _ _ h1
                    obtain ⟨o2', ho2', hc2⟩ := hof _ _ h2
                    rw [← hc1] at he
                    rw [← hc2] at he'
                    exact hxu.recs p hp p' hp' o1' o2' ho1' ho2' e he e' he' hee
          · exact ⟨view_erase hxv _, unshared_erase hxu _⟩

/-- `clean_up` on the heap -/
theorem eCleanUp_sim {thr : ℝ} {labels : List (List Char)} {h : EHeap} {coll : HColl} {C : Coll} (hu : Unshared h coll)
    (hv : h.view coll = some C) :
    Agree (fun (a : EHeap × HColl) (b : Coll) => a.1.view a.2 = some b ∧ Unshared a.1 a.2) (eCleanUp thr labels h coll)
      (labels.foldlM (fun states label => (cleanGroups thr label states).bind (fun sg => mergeGroups thr sg.2 sg.1)) C) := by
  unfold eCleanUp
  induction labels generalizing h coll C with
  | nil => exact ⟨hv, hu⟩
  | cons label labels ih =>
    rw [List.foldlM_cons, List.foldlM_cons]
    simp only [Option.bind_eq_bind]
    refine agree_bind (R := fun (a : EHeap × HColl) (b : Coll) => a.1.view a.2 = some b ∧ Unshared a.1 a.2) ?_ (fun a b _ _ hab => ih hab.2 hab.1)
    refine agree_bind (eCleanGroups_sim hu hv) ?_
    rintro ⟨h', gr⟩ ⟨C', gr'⟩ - - ⟨rfl, h1, h2⟩
    exact eMergeGroups_sim h2 h1

end Verif
