/- Helper lemmas about the evaluation of circuits. -/
import Verif.Model.Evaluate
import Verif.Lemmas.Collection
import Verif.Lemmas.CleanUp
import Mathlib.Data.List.TakeWhile

namespace Verif
open Spec

theorem copyColl_iff {thr : ℝ} {m : ℕ} {coll out : Coll} (hn : (coll.map Prod.fst).Nodup) :
    copyColl thr m coll = some out ↔ (∀ p ∈ coll, CheckValid thr m p.2) ∧ out = coll := by
  rw [copyColl, selectStates_eq (f := fun _ => true) hn (fun _ _ => rfl)]
  simp

theorem foldlM_flat {α β γ : Type*} (f : γ → α → β → Option γ) (l : List (α × List β)) (s : γ) :
    l.foldlM (fun s ab => ab.2.foldlM (fun s b => f s ab.1 b) s) s
      = (l.flatMap (fun ab => ab.2.map (fun b => (ab.1, b)))).foldlM (fun s ab => f s ab.1 ab.2) s := by
  induction l generalizing s with
  | nil => rfl
  | cons a l ih =>
    rw [List.foldlM_cons, List.flatMap_cons, List.foldlM_append, List.foldlM_map]
    congr 1
    funext s
    exact ih s

theorem forall₂_mem_congr {α β : Type*} {R S : α → β → Prop} {l : List α} {m : List β}
    (hi : ∀ a b, a ∈ l → (R a b ↔ S a b)) : List.Forall₂ R l m ↔ List.Forall₂ S l m := by
  induction l generalizing m with
  | nil => cases m <;> simp
  | cons a l ih =>
    cases m with
    | nil => simp
    | cons b m =>
      rw [List.forall₂_cons, List.forall₂_cons, hi a b (by simp), ih (fun a b h => hi a b (by simp [h]))]

theorem forall₂_mem_left' {α β : Type*} {R : α → β → Prop} {l : List α} {m : List β} (h : List.Forall₂ R l m) {a : α} (ha : a ∈ l) :
    ∃ b, b ∈ m ∧ R a b := by
  induction h with
  | nil => cases ha
  | cons h1 _ ih =>
    rcases List.mem_cons.1 ha with rfl | ha
    · exact ⟨_, by simp, h1⟩
    · obtain ⟨b, hb, hr⟩ := ih ha
      exact ⟨b, by simp [hb], hr⟩

/-- update each of the listed states once -/
theorem updates_iff {α : Type*} (f : α → QState → Option QState) (L : List (α × List Char)) (hL : (L.map Prod.snd).Nodup) (coll : Coll)
    (hn : (coll.map Prod.fst).Nodup) (hsub : ∀ i ∈ L.map Prod.snd, i ∈ coll.map Prod.fst) (out : Coll) :
    L.foldlM (fun (coll : Coll) (ai : α × List Char) => (coll.get? ai.2).bind (fun q => (f ai.1 q).bind (fun q' => some (coll.set ai.2 q')))) coll
      = some out ↔
    List.Forall₂ (fun p p' => (∃ a, (a, p.1) ∈ L ∧ ∃ q', f a p.2 = some q' ∧ p' = (p.1, q')) ∨ (p.1 ∉ L.map Prod.snd ∧ p' = p)) coll out := by
  induction L generalizing coll with
  | nil =>
    rw [List.foldlM_nil]
    simp only [List.not_mem_nil, false_and, exists_false, List.map_nil, not_false_eq_true, true_and, false_or]
    constructor
    · intro h
      obtain rfl := Option.some.inj h
      exact List.forall₂_same.2 (fun _ _ => rfl)
    · intro h
      have : out = coll := by
        clear hL hn hsub
        induction h with
        | nil => rfl
        | cons h _ ih => rw [h, ih]
      rw [this]; rfl
  | cons ai L ih =>
    obtain ⟨a, i⟩ := ai
    rw [List.map_cons, List.nodup_cons] at hL
    obtain ⟨q, hq⟩ := Dict.mem_keys_iff.1 (show i ∈ Dict.keys coll from hsub i (by simp))
    rw [List.foldlM_cons]
    simp only [Option.bind_eq_bind, hq, Option.bind_some]
    cases hf : f a q with
    | none =>
      simp only [Option.bind_none]
      constructor
      · intro h; cases h
      · intro h
        exfalso
        obtain ⟨p', _, hp'⟩ := forall₂_mem_left' h (Dict.get?_mem hq)
        rcases hp' with ⟨b, hb, q', hq', -⟩ | ⟨hno, -⟩
        · rcases List.mem_cons.1 hb with e | hb
          · rw [Prod.mk.injEq] at e
            rw [e.1, hf] at hq'; cases hq'
          · exact hL.1 (List.mem_map.2 ⟨_, hb, rfl⟩)
        · exact hno (by simp)
    | some q' =>
      simp only [Option.bind_some]
      have hset := set_eq_map hn hq (fun _ => q')
      have hn' : ((coll.set i q').map Prod.fst).Nodup := Dict.nodup_keys_set hn i q'
      rw [ih hL.2 (coll.set i q') hn' (by
        intro j hj
        exact Dict.mem_keys_set.2 (Or.inr (hsub j (by simp only [List.map_cons, List.mem_cons]; exact Or.inr hj)))), hset,
        List.forall₂_map_left_iff]
      apply forall₂_mem_congr
      rintro ⟨j, x⟩ p' hp
      by_cases hj : j = i
      · subst hj
        have hx : x = q := Option.some.inj ((Dict.get?_of_mem hn hp).symm.trans hq)
        subst hx
        rw [if_pos rfl]
        simp only
        constructor
        · rintro (⟨b, hb, -⟩ | ⟨-, rfl⟩)
          · exact absurd (List.mem_map.2 ⟨_, hb, rfl⟩) hL.1
          · exact Or.inl ⟨a, by simp, q', hf, rfl⟩
        · rintro (⟨b, hb, q'', hq'', rfl⟩ | ⟨hno, -⟩)
          · rcases List.mem_cons.1 hb with e | hb
            · rw [Prod.mk.injEq] at e
              rw [e.1, hf] at hq''
              obtain rfl := Option.some.inj hq''
              exact Or.inr ⟨hL.1, rfl⟩
            · exact absurd (List.mem_map.2 ⟨_, hb, rfl⟩) hL.1
          · exact absurd (by simp) hno
      · rw [if_neg (by exact hj)]
        simp only [List.mem_cons, Prod.mk.injEq, hj, and_false, false_or, List.map_cons]

/-- the pairs (key, identifier) in a grouping -/
def flatGroups {κ : Type*} (d : Dict κ (List (List Char))) : List (κ × List Char) := d.flatMap (fun e => e.2.map (fun i => (e.1, i)))

theorem flatGroups_set {κ : Type*} [DecidableEq κ] (d : Dict κ (List (List Char))) (k : κ) (i : List Char) :
    (flatGroups (d.set k (((d.get? k).getD []) ++ [i]))).Perm (flatGroups d ++ [(k, i)]) := by
  induction d with
  | nil => simp [Dict.set, flatGroups]
  | cons e d ih =>
    obtain ⟨k', l⟩ := e
    rw [Dict.get?_cons, Dict.set]
    by_cases h : k' = k
    · subst h
      rw [if_pos rfl, if_pos rfl]
      simp only [Option.getD_some, flatGroups, List.flatMap_cons, List.map_append, List.map_cons, List.map_nil, List.append_assoc]
      refine List.Perm.append_left _ ?_
      exact (List.perm_append_comm)
    · rw [if_neg h, if_neg h]
      simp only [flatGroups, List.flatMap_cons, List.append_assoc] at ih ⊢
      exact List.Perm.append_left _ ih

theorem groupByPhotons_spec {g : Cfg} {coll : Coll} {d : Dict (ℕ × Bool) (List (List Char))} (h : groupByPhotons g coll = some d) :
    ∃ f : List Char × QState → ℕ × Bool, (∀ p ∈ coll, photonNumber g p.2.comps = some (f p)) ∧
      (flatGroups d).Perm (coll.map (fun p => (f p, p.1))) := by
  have gen : ∀ (coll : Coll) (d₀ d : Dict (ℕ × Bool) (List (List Char))),
      coll.foldlM (fun (d : Dict (ℕ × Bool) (List (List Char))) p =>
        (photonNumber g p.2.comps).map (fun key => d.set key (((d.get? key).getD []) ++ [p.1]))) d₀ = some d →
      (∀ p ∈ coll, (photonNumber g p.2.comps).isSome) ∧
      (flatGroups d).Perm (flatGroups d₀ ++ coll.map (fun p => ((photonNumber g p.2.comps).getD (0, true), p.1))) := by
    intro coll
    induction coll with
    | nil =>
      intro d₀ d h
      rw [List.foldlM_nil] at h
      obtain rfl := Option.some.inj h
      exact ⟨by simp, by simp⟩
    | cons p coll ih =>
      intro d₀ d h
      rw [List.foldlM_cons] at h
      obtain ⟨d1, h1, h2⟩ := Option.bind_eq_some_iff.1 h
      obtain ⟨key, hk, rfl⟩ := Option.map_eq_some_iff.1 h1
      obtain ⟨i1, i2⟩ := ih _ _ h2
      refine ⟨?_, ?_⟩
      · intro q hq
        rcases List.mem_cons.1 hq with rfl | hq
        · rw [hk]; rfl
        · exact i1 q hq
      · refine i2.trans ?_
        have := (flatGroups_set d₀ key p.1).append_right (coll.map (fun p => ((photonNumber g p.2.comps).getD (0, true), p.1)))
        rw [List.map_cons, hk, Option.getD_some]
        simpa [List.append_assoc] using this
  obtain ⟨h1, h2⟩ := gen coll [] d h
  refine ⟨fun p => (photonNumber g p.2.comps).getD (0, true), ?_, by simpa [flatGroups] using h2⟩
  intro p hp
  obtain ⟨x, hx⟩ := Option.isSome_iff_exists.1 (h1 p hp)
  simp [hx]

theorem groupByPhotons_some {g : Cfg} {coll : Coll} (h : ∀ p ∈ coll, (photonNumber g p.2.comps).isSome) :
    ∃ d, groupByPhotons g coll = some d := by
  have gen : ∀ (coll : Coll) (d₀ : Dict (ℕ × Bool) (List (List Char))), (∀ p ∈ coll, (photonNumber g p.2.comps).isSome) → ∃ d,
      coll.foldlM (fun (d : Dict (ℕ × Bool) (List (List Char))) p =>
        (photonNumber g p.2.comps).map (fun key => d.set key (((d.get? key).getD []) ++ [p.1]))) d₀ = some d := by
    intro coll
    induction coll with
    | nil => intro d₀ _; exact ⟨d₀, rfl⟩
    | cons p coll ih =>
      intro d₀ h
      obtain ⟨x, hx⟩ := Option.isSome_iff_exists.1 (h p (by simp))
      rw [List.foldlM_cons, hx]
      exact ih _ (fun q hq => h q (by simp [hq]))
  exact gen coll [] h

/-- one state in `opticalColl` -/
noncomputable def opticalState (c : Circ) (n : Opt × List ℕ) (l : List (Opt × List ℕ)) (sel : Sel) (q : QState) : Option QState :=
  (toVector c.g q.comps).bind (fun x => (fromVector c.g c.thr (applyReduced (fockNodes c.g (basisKeys c.g) sel n l) x)).bind
    (fun comps => some { q with comps := comps }))

theorem opticalColl_iff (c : Circ) (n : Opt × List ℕ) (l : List (Opt × List ℕ)) (coll : Coll) (hn : (coll.map Prod.fst).Nodup) (out : Coll) :
    opticalColl c n l coll = some out ↔ (∀ p ∈ coll, CheckValid c.thr c.m p.2) ∧
      List.Forall₂ (fun p p' => ∃ comps, applyOptical c.g c.thr c.full (basisKeys c.g) n l p.2.comps = some comps ∧
        p' = (p.1, { p.2 with comps := comps })) coll out := by
  have e0 : opticalColl c n l coll = (copyColl c.thr c.m coll).bind (fun coll =>
      (if c.full then some [(Sel.all, coll.keys)] else
        (groupByPhotons c.g coll).map (fun d => d.map (fun p => (if p.1.2 then Sel.eq p.1.1 else Sel.le p.1.1, p.2)))).bind (fun groups =>
      groups.foldlM (fun (coll : Coll) gr => gr.2.foldlM (fun (coll : Coll) i => (coll.get? i).bind (fun q =>
        (toVector c.g q.comps).bind (fun x => (fromVector c.g c.thr (applyReduced (fockNodes c.g (basisKeys c.g) gr.1 n l) x)).bind
          (fun comps => some (coll.set i { q with comps := comps }))))) coll) coll)) := by
    unfold opticalColl opticalGroups; rfl
  have step : ∀ groups : List (Sel × List (List Char)), groups.foldlM (fun (coll : Coll) gr => gr.2.foldlM (fun (coll : Coll) i => (coll.get? i).bind (fun q =>
        (toVector c.g q.comps).bind (fun x => (fromVector c.g c.thr (applyReduced (fockNodes c.g (basisKeys c.g) gr.1 n l) x)).bind
          (fun comps => some (coll.set i { q with comps := comps }))))) coll) coll
      = (groups.flatMap (fun ab => ab.2.map (fun b => (ab.1, b)))).foldlM (fun (coll : Coll) (ai : Sel × List Char) =>
        (coll.get? ai.2).bind (fun q => (opticalState c n l ai.1 q).bind (fun q' => some (coll.set ai.2 q')))) coll := by
    intro groups
    rw [← foldlM_flat (fun (coll : Coll) (a : Sel) (i : List Char) =>
      (coll.get? i).bind (fun q => (opticalState c n l a q).bind (fun q' => some (coll.set i q'))))]
    congr 1
    funext coll gr
    congr 1
    funext coll i
    congr 1
    funext q
    rw [opticalState, Option.bind_assoc]
    congr 1
    funext x
    rw [Option.bind_assoc]
    congr 1
  rw [e0]
  by_cases hv : ∀ p ∈ coll, CheckValid c.thr c.m p.2
  · rw [(copyColl_iff hn).2 ⟨hv, rfl⟩, Option.bind_some]
    rw [and_iff_right hv]
    have key : ∀ (sel : List Char × QState → Sel) (groups : List (Sel × List (List Char))),
        (groups.flatMap (fun ab => ab.2.map (fun b => (ab.1, b)))).Perm (coll.map (fun p => (sel p, p.1))) →
        (∀ p ∈ coll, applyOptical c.g c.thr c.full (basisKeys c.g) n l p.2.comps =
          (toVector c.g p.2.comps).bind (fun x => fromVector c.g c.thr (applyReduced (fockNodes c.g (basisKeys c.g) (sel p) n l) x))) →
        ((groups.flatMap (fun ab => ab.2.map (fun b => (ab.1, b)))).foldlM (fun (coll : Coll) (ai : Sel × List Char) =>
          (coll.get? ai.2).bind (fun q => (opticalState c n l ai.1 q).bind (fun q' => some (coll.set ai.2 q')))) coll = some out ↔
        List.Forall₂ (fun p p' => ∃ comps, applyOptical c.g c.thr c.full (basisKeys c.g) n l p.2.comps = some comps ∧
          p' = (p.1, { p.2 with comps := comps })) coll out) := by
      intro sel groups hperm happ
      have hids : ((groups.flatMap (fun ab => ab.2.map (fun b => (ab.1, b)))).map Prod.snd).Perm (coll.map Prod.fst) := by
        have := hperm.map Prod.snd
        rwa [List.map_map] at this
      rw [updates_iff (opticalState c n l) _ (hids.nodup_iff.2 hn) coll hn (fun i hi => hids.mem_iff.1 hi)]
      apply forall₂_mem_congr
      intro p p' hp
      have hst : ∀ q', opticalState c n l (sel p) p.2 = some q' ↔
          ∃ comps, applyOptical c.g c.thr c.full (basisKeys c.g) n l p.2.comps = some comps ∧ q' = { p.2 with comps := comps } := by
        intro q'
        rw [happ p hp, opticalState]
        constructor
        · intro h
          obtain ⟨x, hx, h⟩ := Option.bind_eq_some_iff.1 h
          obtain ⟨comps, hc, h⟩ := Option.bind_eq_some_iff.1 h
          exact ⟨comps, by rw [hx]; exact hc, (Option.some.inj h).symm⟩
        · rintro ⟨comps, h, rfl⟩
          obtain ⟨x, hx, h⟩ := Option.bind_eq_some_iff.1 h
          rw [hx, Option.bind_some, h]; rfl
      constructor
      · rintro (⟨a, ha, q', hq', rfl⟩ | ⟨hno, -⟩)
        · have ha' := hperm.mem_iff.1 ha
          obtain ⟨p₁, hp₁, e⟩ := List.mem_map.1 ha'
          rw [Prod.mk.injEq] at e
          have : p₁ = p := by
            have h1 := Dict.get?_of_mem hn (show (p₁.1, p₁.2) ∈ coll from hp₁)
            have h2 := Dict.get?_of_mem hn (show (p.1, p.2) ∈ coll from hp)
            rw [e.2] at h1
            exact Prod.ext e.2 (Option.some.inj (h1.symm.trans h2))
          subst this
          rw [← e.1] at hq'
          obtain ⟨comps, hc, rfl⟩ := (hst q').1 hq'
          exact ⟨comps, hc, rfl⟩
        · exact absurd (hids.mem_iff.2 (List.mem_map.2 ⟨p, hp, rfl⟩)) hno
      · rintro ⟨comps, hc, rfl⟩
        exact Or.inl ⟨sel p, hperm.mem_iff.2 (List.mem_map.2 ⟨p, hp, rfl⟩), _, (hst _).2 ⟨comps, hc, rfl⟩, rfl⟩
    by_cases hfull : c.full = true
    · rw [if_pos hfull, Option.bind_some, step]
      refine key (fun _ => Sel.all) _ ?_ ?_
      · simp only [List.flatMap_cons, List.flatMap_nil, List.append_nil, Dict.keys, List.map_map]
        exact List.Perm.refl _
      · intro p _
        rw [hfull]; rfl
    · have hff : c.full = false := by simpa using hfull
      rw [if_neg hfull]
      by_cases hph : ∀ p ∈ coll, (photonNumber c.g p.2.comps).isSome
      · obtain ⟨d, hd⟩ := groupByPhotons_some hph
        obtain ⟨f, hf, hperm⟩ := groupByPhotons_spec hd
        rw [hd, Option.map_some, Option.bind_some, step]
        refine key (fun p => if (f p).2 then Sel.eq (f p).1 else Sel.le (f p).1) _ ?_ ?_
        · have e1 : (d.map (fun p => (if p.1.2 then Sel.eq p.1.1 else Sel.le p.1.1, p.2))).flatMap (fun ab => ab.2.map (fun b => (ab.1, b)))
              = (flatGroups d).map (fun p => (if p.1.2 then Sel.eq p.1.1 else Sel.le p.1.1, p.2)) := by
            rw [flatGroups, List.map_flatMap, List.flatMap_map]
            simp [Function.comp_def]
          rw [e1]
          have := hperm.map (fun p : (ℕ × Bool) × List Char => ((if p.1.2 then Sel.eq p.1.1 else Sel.le p.1.1 : Sel), p.2))
          rwa [List.map_map] at this
        · intro p hp
          rw [hff, applyOptical, if_neg (by simp), hf p hp]
          rfl
      · push Not at hph
        obtain ⟨p, hp, hpn⟩ := hph
        have hpn : photonNumber c.g p.2.comps = none := by simpa using hpn
        constructor
        · intro h
          exfalso
          cases hd : groupByPhotons c.g coll with
          | none => rw [hd] at h; cases h
          | some d =>
            obtain ⟨f, hf, -⟩ := groupByPhotons_spec hd
            rw [hf p hp] at hpn; cases hpn
        · intro h
          exfalso
          obtain ⟨p', -, comps, hc, -⟩ := forall₂_mem_left' h hp
          rw [hff, applyOptical, if_neg (by simp), hpn] at hc
          cases hc
  · constructor
    · intro h
      exfalso
      cases hcp : copyColl c.thr c.m coll with
      | none => rw [hcp] at h; cases h
      | some coll' => exact hv ((copyColl_iff hn).1 hcp).1
    · rintro ⟨h, -⟩; exact absurd h hv


/-! ### lists of nodes -/

/-- no listed node is a bridge -/
def NoBridge (c : Circ) (l : List ℕ) : Prop := ∀ i ∈ l, ∀ k, c.nodes[i]? ≠ some (.bridge k)

/-- is node `i` an optical node? -/
def isOpt (c : Circ) (i : ℕ) : Bool := ((c.nodes[i]?).map Node.isOptical).getD false

/-- effect of a node that is not optical and not a bridge -/
noncomputable def nodeEff (env : ℕ → Circ) (rnd : ℕ → ℕ → Bool → ℕ → ℕ → ℕ) (k i : ℕ) (coll : Coll) : Option Coll :=
  match (env k).nodes[i]? with
  | some (.fockMatrix F) => customColl (env k) F (rnd k i true) coll
  | some (.classical f v a) => classicalColl (env k) f v a coll
  | some (.measurement opt cls) =>
    measureColl (env k).g (env k).thr (env k).m (measurementId ((env k).nodes.map Node.isMeasurement) i) opt cls coll
  | some (.controlled vars channels defaults tl) => controlledColl (env k) vars channels defaults tl coll
  | some (.generic f) => f coll
  | _ => none

/-- effect of a run of optical nodes -/
noncomputable def runEff (c : Circ) (run : List ℕ) (coll : Coll) : Option Coll :=
  match opticalNodes c run with
  | [] => none
  | n :: l => opticalColl c n l coll

variable {env : ℕ → Circ} {rnd : ℕ → ℕ → Bool → ℕ → ℕ → ℕ}

theorem opticalRun_eq (c : Circ) (l : List ℕ) : opticalRun c l = l.takeWhile (isOpt c) := rfl

theorem evalNodes_nil (fuel k : ℕ) (coll : Coll) : evalNodes env rnd (fuel + 1) k [] coll = some coll := rfl

theorem evalNodes_invalid {fuel k : ℕ} {l : List ℕ} {coll : Coll} (h : ∃ i ∈ l, (env k).nodes.length ≤ i) :
    evalNodes env rnd fuel k l coll = none := by
  obtain ⟨j, hj, hle⟩ := h
  cases fuel with
  | zero => rfl
  | succ fuel =>
    cases l with
    | nil => cases hj
    | cons i rest =>
      rw [evalNodes, if_pos]
      intro hall
      have := List.all_eq_true.1 hall j hj
      simp at this; omega

theorem evalNodes_node {fuel k i : ℕ} {rest : List ℕ} {coll : Coll} (hv : ∀ j ∈ i :: rest, j < (env k).nodes.length)
    (hb : ∀ n, (env k).nodes[i]? ≠ some (.bridge n)) (ho : isOpt (env k) i = false) :
    evalNodes env rnd (fuel + 1) k (i :: rest) coll
      = (nodeEff env rnd k i coll).bind (evalNodes env rnd fuel k (remaining [i] (i :: rest))) := by
  rw [evalNodes, if_neg (by simpa using hv)]
  have hi := hv i (by simp)
  unfold nodeEff
  cases hn : (env k).nodes[i]? with
  | none => rw [List.getElem?_eq_none_iff] at hn; omega
  | some n =>
    cases n with
    | optical M tl => simp [isOpt, hn, Node.isOptical] at ho
    | bridge n => exact absurd hn (hb n)
    | _ => rfl

theorem evalNodes_run {fuel k i : ℕ} {rest : List ℕ} {coll : Coll} (hv : ∀ j ∈ i :: rest, j < (env k).nodes.length)
    (ho : isOpt (env k) i = true) :
    evalNodes env rnd (fuel + 1) k (i :: rest) coll
      = (runEff (env k) ((i :: rest).takeWhile (isOpt (env k))) coll).bind
        (evalNodes env rnd fuel k (remaining ((i :: rest).takeWhile (isOpt (env k))) (i :: rest))) := by
  rw [evalNodes, if_neg (by simpa using hv)]
  have hi := hv i (by simp)
  cases hn : (env k).nodes[i]? with
  | none => rw [List.getElem?_eq_none_iff] at hn; omega
  | some n =>
    cases n with
    | optical M tl =>
      simp only [opticalRun_eq, runEff]
      cases opticalNodes (env k) ((i :: rest).takeWhile (isOpt (env k))) <;> rfl
    | _ => simp [isOpt, hn, Node.isOptical] at ho

theorem remaining_length (done nodes : List ℕ) (hd : done ≠ []) (hn : nodes ≠ []) : (remaining done nodes).length < nodes.length := by
  unfold remaining
  split
  · exact List.length_pos_of_ne_nil hn
  · rw [List.length_drop]
    have := List.length_pos_of_ne_nil hd
    have := List.length_pos_of_ne_nil hn
    omega

theorem remaining_subset (done nodes : List ℕ) : remaining done nodes ⊆ nodes := by
  unfold remaining
  split
  · simp
  · exact List.drop_subset _ _

theorem evalNodes_fuel {k : ℕ} (n : ℕ) : ∀ (l : List ℕ), l.length ≤ n → NoBridge (env k) l → ∀ (f f' : ℕ), l.length < f → l.length < f' →
    ∀ coll, evalNodes env rnd f k l coll = evalNodes env rnd f' k l coll := by
  induction n with
  | zero =>
    intro l hl _ f f' hf hf' coll
    obtain rfl : l = [] := List.length_eq_zero_iff.1 (by omega)
    obtain ⟨f, rfl⟩ : ∃ g, f = g + 1 := ⟨f - 1, by simp at hf; omega⟩
    obtain ⟨f', rfl⟩ : ∃ g, f' = g + 1 := ⟨f' - 1, by simp at hf'; omega⟩
    rfl
  | succ n ih =>
    intro l hl hb f f' hf hf' coll
    obtain ⟨f, rfl⟩ : ∃ g, f = g + 1 := ⟨f - 1, by omega⟩
    obtain ⟨f', rfl⟩ : ∃ g, f' = g + 1 := ⟨f' - 1, by omega⟩
    cases l with
    | nil => rfl
    | cons i rest =>
      by_cases hv : ∀ j ∈ i :: rest, j < (env k).nodes.length
      · have key : ∀ done : List ℕ, done ≠ [] → evalNodes env rnd f k (remaining done (i :: rest))
            = evalNodes env rnd f' k (remaining done (i :: rest)) := by
          intro done hd
          funext coll
          have := remaining_length done (i :: rest) hd (by simp)
          exact ih _ (by omega) (fun j hj => hb j (remaining_subset _ _ hj)) f f' (by omega) (by omega) coll
        cases ho : isOpt (env k) i with
        | true =>
          rw [evalNodes_run hv ho, evalNodes_run hv ho, key _ (by simp [ho])]
        | false =>
          rw [evalNodes_node hv (hb i (by simp)) ho, evalNodes_node hv (hb i (by simp)) ho, key _ (by simp)]
      · push Not at hv
        rw [evalNodes_invalid hv, evalNodes_invalid hv]

theorem foldr_max_le {l : List ℕ} {b : ℕ} : l.foldr max 0 ≤ b ↔ ∀ i ∈ l, i ≤ b := by
  induction l with
  | nil => simp
  | cons a l ih => simp [ih]

theorem le_foldr_max {l : List ℕ} {i : ℕ} (h : i ∈ l) : i ≤ l.foldr max 0 := foldr_max_le.1 le_rfl i h

/-- for increasing lists the remaining nodes are the rest of the list -/
theorem remaining_sorted {l₁ l₂ : List ℕ} (h1 : l₁ ≠ []) (h : (l₁ ++ l₂).Pairwise (· < ·)) : remaining l₁ (l₁ ++ l₂) = l₂ := by
  unfold remaining
  rw [List.pairwise_append] at h
  cases l₂ with
  | nil => simp
  | cons j l₂ =>
    rw [if_neg, List.drop_left]
    rw [not_le]
    have hj : j ≤ (l₁ ++ j :: l₂).foldr max 0 := le_foldr_max (by simp)
    have : ∀ b, (∀ i ∈ l₁, i < b) → l₁.foldr max 0 < b := by
      intro b hb
      obtain ⟨i, hi⟩ := List.exists_mem_of_ne_nil _ h1
      have h0 : 0 < b := by have := hb i hi; omega
      have : l₁.foldr max 0 ≤ b - 1 := foldr_max_le.2 (fun i hi => by have := hb i hi; omega)
      omega
    exact lt_of_lt_of_le (this j (fun i hi => h.2.2 i hi j (by simp))) hj

/-- the step for increasing lists, on the first block -/
theorem evalNodes_sorted_node {fuel k i : ℕ} {rest : List ℕ} {coll : Coll} (hs : (i :: rest).Pairwise (· < ·))
    (hv : ∀ j ∈ i :: rest, j < (env k).nodes.length)
    (hb : ∀ n, (env k).nodes[i]? ≠ some (.bridge n)) (ho : isOpt (env k) i = false) :
    evalNodes env rnd (fuel + 1) k (i :: rest) coll = (nodeEff env rnd k i coll).bind (evalNodes env rnd fuel k rest) := by
  rw [evalNodes_node hv hb ho, show remaining [i] (i :: rest) = rest from remaining_sorted (l₁ := [i]) (by simp) hs]

theorem evalNodes_sorted_run {fuel k i : ℕ} {rest : List ℕ} {coll : Coll} (hs : (i :: rest).Pairwise (· < ·))
    (hv : ∀ j ∈ i :: rest, j < (env k).nodes.length) (ho : isOpt (env k) i = true) :
    evalNodes env rnd (fuel + 1) k (i :: rest) coll
      = (runEff (env k) ((i :: rest).takeWhile (isOpt (env k))) coll).bind
        (evalNodes env rnd fuel k ((i :: rest).dropWhile (isOpt (env k)))) := by
  rw [evalNodes_run hv ho]
  have e : (i :: rest).takeWhile (isOpt (env k)) ++ (i :: rest).dropWhile (isOpt (env k)) = i :: rest := List.takeWhile_append_dropWhile
  have := remaining_sorted (l₁ := (i :: rest).takeWhile (isOpt (env k))) (l₂ := (i :: rest).dropWhile (isOpt (env k)))
    (by simp [ho]) (by rw [e]; exact hs)
  rw [e] at this
  rw [this]

theorem evalNodes_append' {k : ℕ} (F : ℕ) (G : Coll → Option Coll) (n : ℕ) : ∀ (l₁ l₂ : List ℕ), l₁.length ≤ n → (l₁ ++ l₂).Pairwise (· < ·) →
    (∀ j ∈ l₁ ++ l₂, j < (env k).nodes.length) → NoBridge (env k) l₁ →
    (∀ i ∈ l₁.getLast?, ∀ j ∈ l₂.head?, ¬ (isOpt (env k) i = true ∧ isOpt (env k) j = true)) →
    (∀ f, F ≤ f → ∀ coll, evalNodes env rnd f k l₂ coll = G coll) →
    ∀ (f f₁ : ℕ), l₁.length + F ≤ f → l₁.length < f₁ →
    ∀ coll, evalNodes env rnd f k (l₁ ++ l₂) coll = (evalNodes env rnd f₁ k l₁ coll).bind G := by
  induction n with
  | zero =>
    intro l₁ l₂ hl _ _ hb _ hG f f₁ hf hf₁ coll
    obtain rfl : l₁ = [] := List.length_eq_zero_iff.1 (by omega)
    obtain ⟨f₁, rfl⟩ : ∃ g, f₁ = g + 1 := ⟨f₁ - 1, by omega⟩
    rw [evalNodes_nil, Option.bind_some, List.nil_append]
    exact hG f (by simpa using hf) coll
  | succ n ih =>
    intro l₁ l₂ hl hs hv hb hj hG f f₁ hf hf₁ coll
    obtain ⟨f₁, rfl⟩ : ∃ g, f₁ = g + 1 := ⟨f₁ - 1, by omega⟩
    cases l₁ with
    | nil =>
      rw [evalNodes_nil, Option.bind_some, List.nil_append]
      exact hG f (by simpa using hf) coll
    | cons i r =>
      have hs₁ : (i :: r).Pairwise (· < ·) := (List.pairwise_append.1 hs).1
      have hv₁ : ∀ j ∈ i :: r, j < (env k).nodes.length := fun j hj => hv j (List.mem_append_left _ hj)
      simp only [List.length_cons] at hl hf hf₁
      obtain ⟨f, rfl⟩ : ∃ g, f = g + 1 := ⟨f - 1, by omega⟩
      cases ho : isOpt (env k) i with
      | false =>
        have hbi : ∀ n, (env k).nodes[i]? ≠ some (.bridge n) := fun n => hb i (by simp) n
        rw [evalNodes_sorted_node hs₁ hv₁ hbi ho, List.cons_append, evalNodes_sorted_node (rest := r ++ l₂) hs hv hbi ho, Option.bind_assoc]
        congr 1
        funext coll
        refine ih r l₂ (by omega) ?_ ?_ ?_ ?_ hG f f₁ (by omega) (by omega) coll
        · exact (List.pairwise_cons.1 hs).2
        · exact fun j hj => hv j (by simp only [List.cons_append, List.mem_cons]; exact Or.inr hj)
        · exact fun j hj => hb j (by simp [hj])
        · intro a ha b hb'
          apply hj a _ b hb'
          cases r with
          | nil => simp at ha
          | cons x r => simpa [List.getLast?_cons_cons] using ha
      | true =>
        rw [evalNodes_sorted_run hs₁ hv₁ ho]
        have hs' : (i :: (r ++ l₂)).Pairwise (· < ·) := by simpa using hs
        rw [List.cons_append, evalNodes_sorted_run hs' (by simpa using hv) ho, ← List.cons_append]
        have htake : (i :: r ++ l₂).takeWhile (isOpt (env k)) = (i :: r).takeWhile (isOpt (env k)) := by
          rw [List.takeWhile_append]
          split
          · rename_i hlen
            have hall : ∀ x ∈ i :: r, isOpt (env k) x = true := by
              have : (i :: r).takeWhile (isOpt (env k)) = i :: r := (List.takeWhile_prefix _).eq_of_length hlen
              intro x hx
              rw [← this] at hx
              exact List.mem_takeWhile_imp hx
            have h2 : l₂.takeWhile (isOpt (env k)) = [] := by
              cases l₂ with
              | nil => rfl
              | cons j l₂ =>
                have := hj ((i :: r).getLast (by simp)) (by rw [List.getLast?_eq_getLast_of_ne_nil (by simp)]; simp) j (by simp)
                rw [List.takeWhile_cons, if_neg]
                intro hjo
                exact this ⟨hall _ (List.getLast_mem _), hjo⟩
            have : (i :: r).takeWhile (isOpt (env k)) = i :: r := (List.takeWhile_prefix _).eq_of_length hlen
            rw [h2, List.append_nil, this]
          · rfl
        have hdrop : (i :: r ++ l₂).dropWhile (isOpt (env k)) = (i :: r).dropWhile (isOpt (env k)) ++ l₂ := by
          have e1 : (i :: r ++ l₂).takeWhile (isOpt (env k)) ++ (i :: r ++ l₂).dropWhile (isOpt (env k)) = i :: r ++ l₂ :=
            List.takeWhile_append_dropWhile
          have e2 : (i :: r).takeWhile (isOpt (env k)) ++ (i :: r).dropWhile (isOpt (env k)) = i :: r := List.takeWhile_append_dropWhile
          rw [htake] at e1
          apply List.append_cancel_left (as := (i :: r).takeWhile (isOpt (env k)))
          rw [e1, ← List.append_assoc, e2]
        rw [htake, hdrop, Option.bind_assoc]
        congr 1
        funext coll
        have hlen : ((i :: r).dropWhile (isOpt (env k))).length ≤ r.length := by
          rw [List.dropWhile_cons, if_pos ho]
          exact (List.dropWhile_suffix _).length_le
        have hsuf : (i :: r).dropWhile (isOpt (env k)) ++ l₂ <:+ i :: r ++ l₂ := by
          obtain ⟨t, ht⟩ := List.dropWhile_suffix (l := i :: r) (isOpt (env k))
          exact ⟨t, by rw [← List.append_assoc, ht]⟩
        refine ih _ l₂ (by omega) (hs.sublist hsuf.sublist) (fun j hj => hv j (hsuf.subset hj)) (fun j hj => hb j ((List.dropWhile_suffix _).subset hj)) ?_
          hG f f₁ (by omega) (by omega) coll
        intro a ha b hb'
        refine hj a ?_ b hb'
        obtain ⟨t, ht⟩ := List.dropWhile_suffix (l := i :: r) (isOpt (env k))
        rw [← ht, List.getLast?_append]
        rw [Option.mem_def] at ha
        rw [ha]; simp


theorem evalNodes_append {k : ℕ} (l₁ l₂ : List ℕ) (hs : (l₁ ++ l₂).Pairwise (· < ·))
    (hv : ∀ j ∈ l₁ ++ l₂, j < (env k).nodes.length) (hb : NoBridge (env k) (l₁ ++ l₂))
    (hj : ∀ i ∈ l₁.getLast?, ∀ j ∈ l₂.head?, ¬ (isOpt (env k) i = true ∧ isOpt (env k) j = true))
    (f f₁ f₂ : ℕ) (hf : l₁.length + l₂.length < f) (hf₁ : l₁.length < f₁) (hf₂ : l₂.length < f₂) (coll : Coll) :
    evalNodes env rnd f k (l₁ ++ l₂) coll = (evalNodes env rnd f₁ k l₁ coll).bind (evalNodes env rnd f₂ k l₂) :=
  evalNodes_append' (l₂.length + 1) _ _ l₁ l₂ le_rfl hs hv (fun i hi => hb i (by simp [hi])) hj
    (fun f hf coll => evalNodes_fuel _ _ le_rfl (fun i hi => hb i (by simp [hi])) _ _ (by omega) hf₂ coll) f f₁ (by omega) hf₁ coll

/-- a bridge: the following nodes are ignored -/
theorem evalNodes_bridge {fuel k i n : ℕ} {rest : List ℕ} {coll : Coll} (hv : ∀ j ∈ i :: rest, j < (env k).nodes.length)
    (hb : (env k).nodes[i]? = some (.bridge n)) :
    evalNodes env rnd (fuel + 1) k (i :: rest) coll = (reshape (env k) (env n) (rnd k i true) (rnd k i false) coll).bind
          (fun d => evalNodes env rnd fuel n (List.range (env n).nodes.length) d.states) := by
  rw [evalNodes, if_neg (by simpa using hv), hb]

theorem evalNodes_after_bridge {k b n : ℕ} (hb : (env k).nodes[b]? = some (.bridge n)) (fuel : ℕ) : ∀ (l₁ l₂ : List ℕ),
    (l₁ ++ b :: l₂).Pairwise (· < ·) → (∀ j ∈ l₁ ++ b :: l₂, j < (env k).nodes.length) → ∀ coll,
    evalNodes env rnd fuel k (l₁ ++ b :: l₂) coll = evalNodes env rnd fuel k (l₁ ++ [b]) coll := by
  have hbo : isOpt (env k) b = false := by simp [isOpt, hb, Node.isOptical]
  induction fuel with
  | zero => intros; rfl
  | succ fuel ih =>
    intro l₁ l₂ hs hv coll
    have hsub : ∀ j ∈ l₁ ++ [b], j ∈ l₁ ++ b :: l₂ := by
      intro j hj
      rcases List.mem_append.1 hj with h | h
      · simp [h]
      · simp at h; simp [h]
    have hs2 : (l₁ ++ [b]).Pairwise (· < ·) := by
      rw [List.append_cons] at hs
      exact (List.pairwise_append.1 hs).1
    cases l₁ with
    | nil =>
      rw [List.nil_append, List.nil_append, evalNodes_bridge hv hb, evalNodes_bridge (fun j hj => hv j (hsub j hj)) hb]
    | cons i r =>
      by_cases hbi : ∃ n', (env k).nodes[i]? = some (.bridge n')
      · obtain ⟨n', hn'⟩ := hbi
        rw [List.cons_append, List.cons_append, evalNodes_bridge (rest := r ++ b :: l₂) hv hn',
          evalNodes_bridge (rest := r ++ [b]) (fun j hj => hv j (hsub j hj)) hn']
      · push Not at hbi
        cases ho : isOpt (env k) i with
        | false =>
          rw [List.cons_append, List.cons_append, evalNodes_sorted_node (rest := r ++ b :: l₂) hs hv hbi ho,
            evalNodes_sorted_node (rest := r ++ [b]) hs2 (fun j hj => hv j (hsub j hj)) hbi ho]
          congr 1
          funext coll
          exact ih r l₂ (List.pairwise_cons.1 hs).2 (fun j hj => hv j (by simp only [List.cons_append, List.mem_cons]; exact Or.inr hj)) coll
        | true =>
          rw [List.cons_append, List.cons_append, evalNodes_sorted_run (rest := r ++ b :: l₂) hs hv ho,
            evalNodes_sorted_run (rest := r ++ [b]) hs2 (fun j hj => hv j (hsub j hj)) ho]
          have hT : ∀ (l : List ℕ) (x : List ℕ), (l ++ b :: x).takeWhile (isOpt (env k)) = l.takeWhile (isOpt (env k)) := by
            intro l x
            induction l with
            | nil => simp [hbo]
            | cons a l ih => rw [List.cons_append, List.takeWhile_cons, List.takeWhile_cons, ih]
          have hD : ∀ (l : List ℕ) (x : List ℕ), (l ++ b :: x).dropWhile (isOpt (env k)) = l.dropWhile (isOpt (env k)) ++ b :: x := by
            intro l x
            induction l with
            | nil => simp [hbo]
            | cons a l ih =>
              rw [List.cons_append, List.dropWhile_cons, List.dropWhile_cons, ih]
              split <;> rfl
          rw [← List.cons_append, ← List.cons_append, hT, hD, hT, hD]
          congr 1
          funext coll
          have hsuf : (i :: r).dropWhile (isOpt (env k)) ++ b :: l₂ <:+ i :: r ++ b :: l₂ := by
            obtain ⟨t, ht⟩ := List.dropWhile_suffix (l := i :: r) (isOpt (env k))
            exact ⟨t, by rw [← List.append_assoc, ht]⟩
          exact ih _ l₂ (hs.sublist hsuf.sublist) (fun j hj => hv j (hsuf.subset hj)) coll

/-- adding a bridge at the end of the list of nodes does not change what the other nodes do -/
theorem evalNodes_congr {env' : ℕ → Circ} {k k' : ℕ} {extra : List Node} (hx : ∀ n ∈ extra, n.isMeasurement = false)
    (he : env' k = { env k' with nodes := (env k').nodes ++ extra }) (fuel : ℕ) : ∀ l : List ℕ,
    (∀ j ∈ l, j < (env k').nodes.length) → NoBridge (env k') l → ∀ rnd' : ℕ → ℕ → Bool → ℕ → ℕ → ℕ, rnd' k' = rnd k → ∀ coll,
    evalNodes env' rnd fuel k l coll = evalNodes env rnd' fuel k' l coll := by
  have hid : ∀ i < (env k').nodes.length, measurementId ((env' k).nodes.map Node.isMeasurement) i
      = measurementId ((env k').nodes.map Node.isMeasurement) i := by
    intro i hi
    rw [he]
    have h0 : (extra.map Node.isMeasurement).count true = 0 := by
      rw [List.count_eq_zero]
      intro h
      obtain ⟨n, hn, e⟩ := List.mem_map.1 h
      rw [hx n hn] at e; cases e
    simp only [measurementId, List.map_append, List.count_append, h0, Nat.add_zero]
    rw [List.take_append_of_le_length (by simpa using hi)]
  have hget : ∀ i < (env k').nodes.length, (env' k).nodes[i]? = (env k').nodes[i]? := by
    intro i hi
    rw [he]
    exact List.getElem?_append_left hi
  have hopt : ∀ i < (env k').nodes.length, isOpt (env' k) i = isOpt (env k') i := by
    intro i hi
    rw [isOpt, hget i hi]; rfl
  induction fuel with
  | zero => intros; rfl
  | succ fuel ih =>
    intro l hv hb rnd' hr coll
    have hv' : ∀ j ∈ l, j < (env' k).nodes.length := by
      intro j hj
      rw [he]
      have := hv j hj
      simp; omega
    cases l with
    | nil => rfl
    | cons i rest =>
      have hi := hv i (by simp)
      have hrem : ∀ done, evalNodes env' rnd fuel k (remaining done (i :: rest)) = evalNodes env rnd' fuel k' (remaining done (i :: rest)) := by
        intro done
        funext coll
        exact ih _ (fun j hj => hv j (remaining_subset _ _ hj)) (fun j hj => hb j (remaining_subset _ _ hj)) rnd' hr coll
      cases ho : isOpt (env k') i with
      | true =>
        rw [evalNodes_run hv' (by rw [hopt i hi, ho]), evalNodes_run hv ho, hrem]
        have e1 : ∀ l : List ℕ, (∀ j ∈ l, j < (env k').nodes.length) → l.takeWhile (isOpt (env' k)) = l.takeWhile (isOpt (env k')) := by
          intro l hl
          induction l with
          | nil => rfl
          | cons a l ih => rw [List.takeWhile_cons, List.takeWhile_cons, hopt a (hl a (by simp)), ih (fun j hj => hl j (by simp [hj]))]
        have e2 : ∀ l : List ℕ, (∀ j ∈ l, j < (env k').nodes.length) → opticalNodes (env' k) l = opticalNodes (env k') l := by
          intro l hl
          induction l with
          | nil => rfl
          | cons a l ih =>
            have := ih (fun j hj => hl j (by simp [hj]))
            unfold opticalNodes at this ⊢
            rw [List.filterMap_cons, List.filterMap_cons, hget a (hl a (by simp)), this]
        have e3 : ∀ n l coll, opticalColl (env' k) n l coll = opticalColl (env k') n l coll := by
          intro n l coll
          rw [he]; rfl
        rw [e1 _ hv]
        congr 1
        unfold runEff
        rw [e2 _ (fun j hj => hv j ((List.takeWhile_prefix _).subset hj))]
        simp only [e3]
      | false =>
        have hbi := hb i (by simp)
        rw [evalNodes_node hv' (by rw [hget i hi]; exact hbi) (by rw [hopt i hi, ho]), evalNodes_node hv hbi ho, hrem]
        congr 1
        unfold nodeEff
        rw [hget i hi, hid i hi, hr, he]
        rfl

end Verif
