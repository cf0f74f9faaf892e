/- Computations under the two naming conventions, step by step. -/
import Verif.Spec.Convention
import Verif.Lemmas.State
import Verif.Lemmas.Names

namespace Verif
open Spec Props

/-! ### related computations -/

section rel
variable {α β γ δ : Type*}

theorem Both.none {R : α → β → Prop} : Both R none none := trivial

theorem Both.some {R : α → β → Prop} {a : α} {b : β} (h : R a b) : Both R (some a) (some b) := h

theorem Both.mono {R S : α → β → Prop} (h : ∀ a b, R a b → S a b) {x : Option α} {y : Option β} (hx : Both R x y) : Both S x y := by
  cases x <;> cases y <;> first | trivial | exact hx.elim | exact h _ _ hx

theorem Both.eq {x y : Option α} (h : x = y) : Both (fun a b => a = b) x y := by
  subst h; cases x <;> trivial

theorem Both.bind {R : α → β → Prop} {S : γ → δ → Prop} {x : Option α} {y : Option β} {f : α → Option γ} {f' : β → Option δ}
    (h : Both R x y) (hf : ∀ a b, x = Option.some a → y = Option.some b → R a b → Both S (f a) (f' b)) : Both S (x.bind f) (y.bind f') := by
  cases x <;> cases y <;> first | trivial | exact h.elim | exact hf _ _ rfl rfl h

theorem Both.map {R : α → β → Prop} {S : γ → δ → Prop} {x : Option α} {y : Option β} {f : α → γ} {f' : β → δ}
    (h : Both R x y) (hf : ∀ a b, R a b → S (f a) (f' b)) : Both S (x.map f) (y.map f') := by
  cases x <;> cases y <;> first | trivial | exact h.elim | exact hf _ _ h

theorem Both.foldlM {P : α → β → Prop} {R : γ → δ → Prop} {f : γ → α → Option γ} {f' : δ → β → Option δ} {l : List α} {l' : List β}
    (hl : List.Forall₂ P l l') (hf : ∀ s s' a a', R s s' → P a a' → Both R (f s a) (f' s' a')) :
    ∀ {s : γ} {s' : δ}, R s s' → Both R (l.foldlM f s) (l'.foldlM f' s') := by
  induction hl with
  | nil => intro s s' h; exact h
  | cons h _ ih =>
    intro s s' hs
    rw [List.foldlM_cons, List.foldlM_cons]
    exact Both.bind (hf _ _ _ _ hs h) (fun a b _ _ hab => ih hab)

theorem rel_foldl {P : α → β → Prop} {R : γ → δ → Prop} {f : γ → α → γ} {f' : δ → β → δ} {l : List α} {l' : List β}
    (hl : List.Forall₂ P l l') (hf : ∀ s s' a a', R s s' → P a a' → R (f s a) (f' s' a')) :
    ∀ {s : γ} {s' : δ}, R s s' → R (l.foldl f s) (l'.foldl f' s') := by
  induction hl with
  | nil => intro s s' h; exact h
  | cons h _ ih => intro s s' hs; exact ih (hf _ _ _ _ hs h)

theorem Both.mapM {P : α → β → Prop} {R : γ → δ → Prop} {f : α → Option γ} {f' : β → Option δ} {l : List α} {l' : List β}
    (hl : List.Forall₂ P l l') (hf : ∀ a a', P a a' → Both R (f a) (f' a')) :
    Both (List.Forall₂ R) (l.mapM f) (l'.mapM f') := by
  induction hl with
  | nil => exact List.Forall₂.nil
  | cons h _ ih =>
    rw [List.mapM_cons, List.mapM_cons]
    exact Both.bind (hf _ _ h) (fun a b _ _ hab => Both.bind ih (fun t t' _ _ ht => List.Forall₂.cons hab ht))

theorem forall₂_refl_of {P : α → Prop} {l : List α} (h : ∀ a ∈ l, P a) : List.Forall₂ (fun a b => a = b ∧ P a) l l := by
  induction l with
  | nil => exact .nil
  | cons a l ih => exact .cons ⟨rfl, h a (by simp)⟩ (ih (fun b hb => h b (by simp [hb])))

theorem forall₂_eq {l : List α} : List.Forall₂ (fun a b => a = b) l l := by
  induction l with
  | nil => exact .nil
  | cons a l ih => exact .cons rfl ih

end rel

/-! ### dictionaries with related keys -/

section dict
variable {α β γ δ : Type*} [DecidableEq α] [DecidableEq β]

/-- related dictionaries -/
def DRel (K : α → β → Prop) (V : γ → δ → Prop) (d : Dict α γ) (d' : Dict β δ) : Prop :=
  List.Forall₂ (fun p p' => K p.1 p'.1 ∧ V p.2 p'.2) d d'

/-- related keys determine each other -/
def BiUniq (K : α → β → Prop) : Prop := ∀ a a' b b', K a b → K a' b' → (a = a' ↔ b = b')

omit [DecidableEq α] in
theorem biUniq_eq : BiUniq (fun a b : α => a = b) := by
  rintro a a' b b' rfl rfl; rfl

theorem DRel.set {K : α → β → Prop} {V : γ → δ → Prop} (hK : BiUniq K) {d : Dict α γ} {d' : Dict β δ} (h : DRel K V d d')
    {k : α} {k' : β} (hk : K k k') {v : γ} {v' : δ} (hv : V v v') : DRel K V (d.set k v) (d'.set k' v') := by
  induction h with
  | nil => exact .cons ⟨hk, hv⟩ .nil
  | @cons p p' l l' hp _ ih =>
    obtain ⟨a, x⟩ := p
    obtain ⟨b, y⟩ := p'
    rw [Dict.set, Dict.set]
    by_cases e : a = k
    · rw [if_pos e, if_pos ((hK _ _ _ _ hp.1 hk).1 e)]
      exact .cons ⟨hp.1, hv⟩ ‹_›
    · rw [if_neg e, if_neg (fun e' => e ((hK _ _ _ _ hp.1 hk).2 e'))]
      exact .cons hp ih

theorem DRel.get? {K : α → β → Prop} {V : γ → δ → Prop} (hK : BiUniq K) {d : Dict α γ} {d' : Dict β δ} (h : DRel K V d d')
    {k : α} {k' : β} (hk : K k k') : Both V (d.get? k) (d'.get? k') := by
  induction h with
  | nil => trivial
  | @cons p p' l l' hp _ ih =>
    obtain ⟨a, x⟩ := p
    obtain ⟨b, y⟩ := p'
    rw [Dict.get?_cons, Dict.get?_cons]
    by_cases e : a = k
    · rw [if_pos e, if_pos ((hK _ _ _ _ hp.1 hk).1 e)]
      exact hp.2
    · rw [if_neg e, if_neg (fun e' => e ((hK _ _ _ _ hp.1 hk).2 e'))]
      exact ih

theorem DRel.ofList {K : α → β → Prop} {V : γ → δ → Prop} (hK : BiUniq K) {l : List (α × γ)} {l' : List (β × δ)}
    (h : List.Forall₂ (fun p p' => K p.1 p'.1 ∧ V p.2 p'.2) l l') : DRel K V (Dict.ofList l) (Dict.ofList l') :=
  rel_foldl (P := fun p p' => K p.1 p'.1 ∧ V p.2 p'.2) (R := DRel K V) h (fun _ _ _ _ hs hp => DRel.set hK hs hp.1 hp.2)
    (show DRel K V [] [] from List.Forall₂.nil)

omit [DecidableEq α] in
theorem DRel.keys_eq {V : γ → δ → Prop} {d : Dict α γ} {d' : Dict α δ} (h : DRel (fun a b => a = b) V d d') : d.keys = d'.keys := by
  induction h with
  | nil => rfl
  | cons hp _ ih => show _ :: _ = _ :: _; rw [hp.1]; exact congrArg _ ih

end dict

/-! ### names -/

theorem stdName_otherWay (g : Cfg) (v : Vals) : (otherWay g).stdName v = g.stdName v.reverse := by
  obtain ⟨L, C, b⟩ := g
  cases b <;> simp [Cfg.stdName, otherWay, Cfg.digits]

theorem otherWay_otherWay (g : Cfg) : otherWay (otherWay g) = g := by
  obtain ⟨L, C, b⟩ := g; cases b <;> rfl

theorem valid_otherWay {g : Cfg} {v : Vals} : Valid (otherWay g) v ↔ Valid g v := Iff.rfl

theorem valid_reverse {g : Cfg} {v : Vals} (h : Valid g v) : Valid g v.reverse := ⟨by rw [List.length_reverse]; exact h.1, by simpa using h.2⟩

theorem sameName_iff {g : Cfg} {s s' : Name} : SameName g s s' ↔ ∃ v, Valid g v ∧ s = g.stdName v ∧ s' = (otherWay g).stdName v := by
  constructor
  · rintro ⟨v, hv, h, h'⟩
    exact ⟨v, hv, (isName_iff hv).1 h, (isName_iff (valid_otherWay.2 hv)).1 h'⟩
  · rintro ⟨v, hv, h, h'⟩
    exact ⟨v, hv, (isName_iff hv).2 h, (isName_iff (valid_otherWay.2 hv)).2 h'⟩

/-- only the sizes matter -/
theorem sameName_congr {g h : Cfg} (hL : g.L = h.L) (hC : g.C = h.C) {s s' : Name} (hs : SameName g s s') : SameName h s s' := by
  obtain ⟨v, hv, rfl, rfl⟩ := sameName_iff.1 hs
  obtain ⟨L, C, b⟩ := g
  obtain ⟨L', C', b'⟩ := h
  dsimp at hL hC
  subst hL hC
  by_cases e : b = b'
  · subst e; exact hs
  · refine sameName_iff.2 ⟨v.reverse, valid_reverse hv, ?_, ?_⟩
    · rw [show (⟨L, C, b'⟩ : Cfg) = otherWay ⟨L, C, b⟩ by cases b <;> cases b' <;> simp_all [otherWay], stdName_otherWay, List.reverse_reverse]
    · rw [show (⟨L, C, b'⟩ : Cfg) = otherWay ⟨L, C, b⟩ by cases b <;> cases b' <;> simp_all [otherWay], otherWay_otherWay, stdName_otherWay]

theorem sameName_biUniq (g : Cfg) : BiUniq (SameName g) := by
  intro a a' b b' h h'
  obtain ⟨v, hv, rfl, rfl⟩ := sameName_iff.1 h
  obtain ⟨w, hw, rfl, rfl⟩ := sameName_iff.1 h'
  constructor
  · intro e; rw [g.stdName_inj hv.2 hw.2 e]
  · intro e; rw [(otherWay g).stdName_inj hv.2 hw.2 e]

theorem SameName.parse {g : Cfg} {s s' : Name} (h : SameName g s s') :
    ∃ v, Valid g v ∧ g.parse s = some v ∧ (otherWay g).parse s' = some v := by
  obtain ⟨v, hv, rfl, rfl⟩ := sameName_iff.1 h
  exact ⟨v, hv, g.parse_stdName hv.2, (otherWay g).parse_stdName hv.2⟩

theorem both_parse {g : Cfg} {s s' : Name} (h : SameName g s s') :
    Both (fun v w => v = w ∧ Valid g v) (g.parse s) ((otherWay g).parse s') := by
  obtain ⟨v, hv, h1, h2⟩ := SameName.parse h
  rw [h1, h2]; exact ⟨rfl, hv⟩

theorem both_render {g : Cfg} {v : Vals} (hv : Valid g v) : Both (SameName g) (g.render v) ((otherWay g).render v) := by
  rw [g.render_of_valid hv, (otherWay g).render_of_valid (valid_otherWay.2 hv)]
  exact sameName_iff.2 ⟨v, hv, rfl, rfl⟩

theorem both_nameAt {g : Cfg} (hL : 1 ≤ g.L) (i : ℕ) : Both (SameName g) (g.nameAt i) ((otherWay g).nameAt i) :=
  both_render (g.valid_valuesFromIndex hL i)

theorem index_same {g : Cfg} {s s' : Name} (h : SameName g s s') : (otherWay g).indexOfName s' = g.indexOfName s := by
  obtain ⟨v, hv, h1, h2⟩ := SameName.parse h
  rw [Cfg.indexOfName, Cfg.indexOfName, h1, h2]; rfl

theorem contains_same {g : Cfg} {s s' : Name} (h : SameName g s s') : g.containsName s = some true ∧ (otherWay g).containsName s' = some true := by
  obtain ⟨v, hv, h1, h2⟩ := SameName.parse h
  rw [Cfg.containsName, Cfg.containsName, h1, h2]
  exact ⟨congrArg some ((g.containsVals_iff v).2 hv), congrArg some (((otherWay g).containsVals_iff v).2 hv)⟩

/-! ### components -/

/-- the same components -/
abbrev SameComps (g : Cfg) (c c' : Comps) : Prop := DRel (SameName g) (fun a b => a = b) c c'

theorem SameComps.congr {g h : Cfg} (hL : g.L = h.L) (hC : g.C = h.C) {c c' : Comps} (hc : SameComps g c c') : SameComps h c c' :=
  List.Forall₂.imp (fun _ _ hp => ⟨sameName_congr hL hC hp.1, hp.2⟩) hc

theorem toVector_same {g : Cfg} {c c' : Comps} (h : SameComps g c c') : toVector (otherWay g) c' = toVector g c := by
  have : Both (fun x y : ℕ → ℂ => x = y) (toVector g c) (toVector (otherWay g) c') := by
    refine Both.foldlM h ?_ rfl
    rintro s s' p p' rfl ⟨h1, h2⟩
    rw [index_same h1, h2]
    exact Both.eq rfl
  revert this
  cases toVector g c <;> cases toVector (otherWay g) c' <;> intro h' <;> first | rfl | exact h'.elim | exact congrArg some h'.symm

theorem fromVector_same {g : Cfg} (hL : 1 ≤ g.L) (thr : ℝ) (x : ℕ → ℂ) :
    Both (SameComps g) (fromVector g thr x) (fromVector (otherWay g) thr x) := by
  refine Both.foldlM (P := fun i j : ℕ => i = j) forall₂_eq ?_ List.Forall₂.nil
  rintro d d' i _ hd rfl
  by_cases hi : ‖x i‖ ^ 2 < thr
  · rw [if_pos hi, if_pos hi]; exact hd
  · rw [if_neg hi, if_neg hi]
    exact Both.bind (both_nameAt hL i) (fun s s' _ _ hs => DRel.set (sameName_biUniq g) hd hs rfl)

theorem photonNumber_same {g : Cfg} {c c' : Comps} (h : SameComps g c c') : photonNumber (otherWay g) c' = photonNumber g c := by
  have : c.keys.mapM (fun s => (g.parse s).map List.sum) = c'.keys.mapM (fun s => ((otherWay g).parse s).map List.sum) := by
    induction h with
    | nil => rfl
    | cons hp _ ih =>
      obtain ⟨v, hv, h1, h2⟩ := SameName.parse hp.1
      show List.mapM _ (_ :: _) = List.mapM _ (_ :: _)
      rw [List.mapM_cons, List.mapM_cons, h1, h2]
      have ih' : List.mapM (fun s => (g.parse s).map List.sum) (List.map Prod.fst _) = List.mapM (fun s => ((otherWay g).parse s).map List.sum) (List.map Prod.fst _) := ih
      rw [ih']
  unfold photonNumber
  rw [this]

theorem setFromDict_same {g : Cfg} {c c' : Comps} (h : SameComps g c c') : Both (SameComps g) (setFromDict g c) (setFromDict (otherWay g) c') := by
  have key : c.all (fun p => g.containsName p.1 == some true) = true ∧ c'.all (fun p => (otherWay g).containsName p.1 == some true) = true := by
    induction h with
    | nil => exact ⟨rfl, rfl⟩
    | cons hp _ ih =>
      obtain ⟨h1, h2⟩ := contains_same hp.1
      simp only [List.all_cons, h1, h2, ih.1, ih.2]
      exact ⟨rfl, rfl⟩
  rw [setFromDict, setFromDict, key.1, key.2]
  exact h

/-! ### states and collections -/

section states
variable {g : Cfg} {R : List Char → List Char → Prop}

theorem SameState.congr {h : Cfg} (hL : g.L = h.L) (hC : g.C = h.C) {q q' : QState} (hq : SameState g R q q') : SameState h R q q' :=
  ⟨hq.label, hq.cum, SameComps.congr hL hC hq.comps, hq.classical, hq.results⟩

theorem SameColl.congr {h : Cfg} (hL : g.L = h.L) (hC : g.C = h.C) {coll coll' : Coll} (hc : SameColl g R coll coll') : SameColl h R coll coll' :=
  List.Forall₂.imp (fun _ _ hp => ⟨hp.1, SameState.congr hL hC hp.2⟩) hc

theorem SameState.check {thr : ℝ} {m : ℕ} {q q' : QState} (h : SameState g R q q') : CheckValid thr m q ↔ CheckValid thr m q' := by
  have key : (∀ p ∈ q.comps, -thr ≤ p.2.prob ∧ p.2.prob ≤ 1 + thr) ↔ ∀ p ∈ q'.comps, -thr ≤ p.2.prob ∧ p.2.prob ≤ 1 + thr := by
    have := h.comps
    generalize q.comps = c at this ⊢
    generalize q'.comps = c' at this ⊢
    induction this with
    | nil => simp
    | cons hp _ ih =>
      rw [List.forall_mem_cons, List.forall_mem_cons, hp.2]
      exact and_congr Iff.rfl ih
  unfold CheckValid
  rw [h.cum, h.classical, key]

theorem copyState_same {thr : ℝ} {m : ℕ} {q q' : QState} (h : SameState g R q q') : Both (SameState g R) (copyState thr m q) (copyState thr m q') := by
  unfold copyState
  by_cases hc : CheckValid thr m q
  · rw [if_pos hc, if_pos (SameState.check h |>.1 hc)]; exact h
  · rw [if_neg hc, if_neg (fun h' => hc (SameState.check h |>.2 h'))]; trivial

theorem SameColl.set {coll coll' : Coll} (h : SameColl g R coll coll') (i : List Char) {q q' : QState} (hq : SameState g R q q') :
    SameColl g R (coll.set i q) (coll'.set i q') :=
  DRel.set biUniq_eq h rfl hq

theorem copyColl_same {thr : ℝ} {m : ℕ} {coll coll' : Coll} (h : SameColl g R coll coll') :
    Both (SameColl g R) (copyColl thr m coll) (copyColl thr m coll') := by
  refine Both.foldlM h ?_ List.Forall₂.nil
  rintro s s' p p' hs ⟨h1, h2⟩
  show Both _ ((copyState thr m p.2).bind _) ((copyState thr m p'.2).bind _)
  refine Both.bind (copyState_same h2) (fun q q' _ _ hq => ?_)
  rw [h1]
  exact SameColl.set hs _ hq

theorem groupByPhotons_same {coll coll' : Coll} (h : SameColl g R coll coll') : groupByPhotons (otherWay g) coll' = groupByPhotons g coll := by
  have : Both (fun x y : Dict (ℕ × Bool) (List (List Char)) => x = y) (groupByPhotons g coll) (groupByPhotons (otherWay g) coll') := by
    refine Both.foldlM h ?_ rfl
    rintro s s' p p' rfl ⟨h1, h2⟩
    rw [photonNumber_same h2.comps, h1]
    exact Both.eq rfl
  revert this
  cases groupByPhotons g coll <;> cases groupByPhotons (otherWay g) coll' <;> intro h' <;> first | rfl | exact h'.elim | exact congrArg some h'.symm

theorem SameState.withComps {q q' : QState} (h : SameState g R q q') {c c' : Comps} (hc : SameComps g c c') :
    SameState g R { q with comps := c } { q' with comps := c' } := ⟨h.label, h.cum, hc, h.classical, h.results⟩

theorem addState_same {coll coll' : Coll} (h : SameColl g R coll coll') {q q' : QState} (hq : SameState g R q q') (i : Option (List Char)) (r : ℕ → ℕ) :
    SameColl g R (addState coll q i r) (addState coll' q' i r) := by
  unfold addState
  rw [show coll'.keys = coll.keys from (DRel.keys_eq h).symm]
  exact SameColl.set h _ hq

end states

end Verif
