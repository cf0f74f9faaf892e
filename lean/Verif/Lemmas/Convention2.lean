/- Nodes and bridges under the two naming conventions. -/
import Verif.Lemmas.Convention
import Verif.Lemmas.Compound

namespace Verif
open Spec Props

/-- settings with the other convention -/
def Settings.other (s : Settings) : Settings := { s with g := otherWay s.g }

section nodes
variable {R : List Char → List Char → Prop}

theorem heldGroups_same {c c' : Circ} (hf : c'.full = c.full) {own : Settings} {coll coll' : Coll} (h : SameColl own.g R coll coll') :
    heldGroups c' own.other coll' = heldGroups c own coll := by
  unfold heldGroups
  rw [hf, show coll'.keys = coll.keys from (DRel.keys_eq h).symm]
  show (if _ then _ else Option.map _ (groupByPhotons (otherWay own.g) coll')) = _
  rw [groupByPhotons_same h]

theorem opticalHeld_same {c c' : Circ} (hg : c'.g = otherWay c.g) (hf : c'.full = c.full) {own : Settings} (hL : 1 ≤ own.g.L) (n : Opt × List ℕ)
    (l : List (Opt × List ℕ)) {coll coll' : Coll} (h : SameColl own.g R coll coll') :
    Both (SameColl own.g R) (opticalHeld c own n l coll) (opticalHeld c' own.other n l coll') := by
  refine Both.bind (copyColl_same h) (fun a a' _ _ ha => ?_)
  rw [heldGroups_same hf ha]
  refine Both.bind (Both.eq rfl) (fun gs gs' _ _ hgs => ?_)
  subst hgs
  refine Both.foldlM (P := fun x y => x = y) forall₂_eq ?_ ha
  rintro s s' gr _ hs rfl
  refine Both.foldlM (P := fun x y => x = y) forall₂_eq ?_ hs
  rintro s s' i _ hs rfl
  refine Both.bind (DRel.get? biUniq_eq hs rfl) (fun q q' _ _ hq => ?_)
  rw [show toVector own.other.g q'.comps = toVector own.g q.comps from toVector_same hq.comps]
  refine Both.bind (Both.eq rfl) (fun x x' _ _ hx => ?_)
  subst hx
  rw [hg, show fockNodes (otherWay c.g) (basisKeys (otherWay c.g)) gr.1 n l = fockNodes c.g (basisKeys c.g) gr.1 n l from rfl]
  refine Both.bind (fromVector_same hL own.thr _) (fun k k' _ _ hk => ?_)
  exact SameColl.set hs i (SameState.withComps hq hk)

theorem customHeld_same {own : Settings} (hL : 1 ≤ own.g.L) (F : SqArr) (r : ℕ → ℕ → ℕ) {coll coll' : Coll} (h : SameColl own.g R coll coll') :
    Both (SameColl own.g R) (customHeld own F r coll) (customHeld own.other F r coll') := by
  refine Both.foldlM h ?_ (show SameColl own.g R [] [] from List.Forall₂.nil)
  rintro s s' p p' hs ⟨h1, h2⟩
  refine Both.bind (copyState_same h2) (fun q q' _ _ hq => ?_)
  show Both _ (if F.size ≠ own.g.size then none else _) (if F.size ≠ own.g.size then none else _)
  by_cases hF : F.size ≠ own.g.size
  · rw [if_pos hF, if_pos hF]; trivial
  · rw [if_neg hF, if_neg hF]
    have : Both (SameComps own.g) (applyCustom own.g own.thr F p.2.comps) (applyCustom own.other.g own.thr F p'.2.comps) := by
      unfold applyCustom
      rw [show toVector own.other.g p'.2.comps = toVector own.g p.2.comps from toVector_same h2.comps]
      refine Both.bind (Both.eq rfl) (fun x x' _ _ hx => ?_)
      subst hx
      exact fromVector_same hL own.thr _
    refine Both.bind this (fun k k' _ _ hk => ?_)
    have hlen : s'.length = s.length := (List.Forall₂.length_eq hs).symm
    rw [hlen]
    exact addState_same hs (SameState.withComps hq hk) none _

theorem classicalHeld_same {own : Settings} (f : List ℝ → List ℝ → List ℤ → Option (List ℝ)) (v : List ℝ) (a : List ℤ) {coll coll' : Coll}
    (h : SameColl own.g R coll coll') :
    Both (SameColl own.g R) (classicalHeld own f v a coll) (classicalHeld own.other f v a coll') := by
  refine Both.mapM h ?_
  rintro p p' ⟨h1, h2⟩
  rw [h2.classical]
  refine Both.bind (Both.eq rfl) (fun x x' _ _ hx => ?_)
  subst hx
  show Both _ (if x.length = own.m then _ else none) (if x.length = own.m then _ else none)
  by_cases hm : x.length = own.m
  · rw [if_pos hm, if_pos hm]
    exact ⟨h1, h2.label, h2.cum, h2.comps, rfl, h2.results⟩
  · rw [if_neg hm, if_neg hm]; trivial

theorem groupBy_valid {α κ : Type*} [DecidableEq κ] (f : α → κ) {P : α → Prop} {l : List α} (h : ∀ a ∈ l, P a) :
    ∀ og ∈ groupBy f l, ∀ a ∈ og.2, P a := by
  have key : ∀ (l : List α) (d : Dict κ (List α)), (∀ a ∈ l, P a) → (∀ og ∈ d, ∀ a ∈ og.2, P a) →
      ∀ og ∈ l.foldl (fun d a => Dict.set d (f a) (((Dict.get? d (f a)).getD []) ++ [a])) d, ∀ a ∈ og.2, P a := by
    intro l
    induction l with
    | nil => intro d _ hd; exact hd
    | cons b l ih =>
      intro d hl hd
      refine ih _ (fun a ha => hl a (by simp [ha])) ?_
      intro og hog a ha
      rcases Dict.mem_set hog with h' | rfl
      · exact hd og h' a ha
      · rcases List.mem_append.1 ha with h' | h'
        · cases hq : Dict.get? d (f b) with
          | none => rw [hq] at h'; cases h'
          | some t => rw [hq] at h'; exact hd _ (Dict.get?_mem hq) a h'
        · rw [List.mem_singleton.1 h']; exact hl b (by simp)
  exact key l [] h (by simp)

theorem collapseHeld_same {g : Cfg} {own : Settings} (hL : own.g.L = g.L) (hC : own.g.C = g.C) {q q' : QState} (hq : SameState own.g R q q')
    (cls o : List ℕ) {items : List (Vals × ℂ)} (hi : ∀ p ∈ items, Valid g p.1) :
    Both (SameState own.g R) (collapseHeld g own q cls o items) (collapseHeld (otherWay g) own.other q' cls o items) := by
  unfold collapseHeld
  dsimp only
  by_cases ht : (items.map (fun p => p.2.re ^ 2 + p.2.im ^ 2)).sum = 0
  · rw [if_pos ht, if_pos ht]; trivial
  · rw [if_neg ht, if_neg ht]
    refine Both.bind (copyState_same hq) (fun a a' _ _ ha => ?_)
    rw [ha.cum, ha.classical]
    refine Both.bind (Both.eq rfl) (fun cum _ _ _ e => ?_)
    subst e
    refine Both.bind (Both.eq rfl) (fun cl _ _ _ e => ?_)
    subst e
    refine Both.bind (R := List.Forall₂ (fun p p' : Name × Comp => SameName own.g p.1 p'.1 ∧ p.2 = p'.2)) (Both.mapM (forall₂_refl_of hi) ?_) ?_
    · rintro p _ ⟨rfl, hp⟩
      refine Both.bind (both_render hp) (fun s s' _ _ hs => ?_)
      exact ⟨sameName_congr hL.symm hC.symm hs, rfl⟩
    · intro n n' _ _ hn
      refine Both.bind (setFromDict_same (DRel.ofList (sameName_biUniq own.g) hn)) (fun k k' _ _ hk => ?_)
      exact ⟨ha.label, rfl, hk, rfl, by rw [ha.results]⟩

theorem measureHeld_same {g : Cfg} {own : Settings} (hL : own.g.L = g.L) (hC : own.g.C = g.C) {q q' : QState} (hq : SameState own.g R q q')
    (opt cls : List ℕ) :
    Both (List.Forall₂ (SameState own.g R)) (measureHeld g own q opt cls) (measureHeld (otherWay g) own.other q' opt cls) := by
  unfold measureHeld
  dsimp only
  refine Both.bind (R := fun x y => x = y ∧ ∀ p ∈ x, Valid g p.1) ?_ ?_
  · refine Both.mono (R := List.Forall₂ (fun a b : Vals × ℂ => a = b ∧ Valid g a.1)) ?_ (Both.mapM hq.comps ?_)
    · intro a b h
      induction h with
      | nil => exact ⟨rfl, by simp⟩
      | cons hp _ ih => exact ⟨by rw [hp.1, ih.1], List.forall_mem_cons.2 ⟨hp.2, ih.2⟩⟩
    · rintro p p' ⟨h1, h2⟩
      refine Both.map (both_parse (sameName_congr hL hC h1)) ?_
      rintro v _ ⟨rfl, hv⟩
      exact ⟨by rw [h2], hv⟩
  · rintro items _ _ _ ⟨rfl, hv⟩
    refine Both.mapM (forall₂_refl_of (groupBy_valid (fun p => outcomeOf opt p.1) hv)) ?_
    rintro og _ ⟨rfl, hog⟩
    exact collapseHeld_same hL hC hq _ _ hog

theorem forall₂_zipIdx {α β : Type*} {P : α → β → Prop} {l : List α} {l' : List β} (h : List.Forall₂ P l l') (k : ℕ) :
    List.Forall₂ (fun a b => P a.1 b.1 ∧ a.2 = b.2) (l.zipIdx k) (l'.zipIdx k) := by
  induction h generalizing k with
  | nil => exact .nil
  | cons hp _ ih => exact .cons ⟨hp, rfl⟩ (ih (k + 1))

theorem measureCollHeld_same {g : Cfg} {own : Settings} (mid : List Char) (opt cls : List ℕ) {coll coll' : Coll}
    (hs : (own.g.L = g.L ∧ own.g.C = g.C) ∨ coll = []) (h : SameColl own.g R coll coll') :
    Both (SameColl own.g R) (measureCollHeld g own mid opt cls coll) (measureCollHeld (otherWay g) own.other mid opt cls coll') := by
  rcases hs with ⟨hL, hC⟩ | rfl
  · refine Both.foldlM h ?_ (show SameColl own.g R [] [] from List.Forall₂.nil)
    rintro s s' p p' hs ⟨h1, h2⟩
    refine Both.bind (measureHeld_same hL hC h2 opt cls) (fun qs qs' _ _ hqs => ?_)
    refine rel_foldl (forall₂_zipIdx hqs 0) ?_ hs
    rintro s s' a b hs ⟨hab, e⟩
    rw [h1, e]
    exact SameColl.set hs _ hab
  · cases h; exact List.Forall₂.nil

theorem controlledHeld_same {c c' : Circ} (hg : c'.g = otherWay c.g) (hf : c'.full = c.full) {own : Settings} (hL : 1 ≤ own.g.L)
    (vars : List Angle) (channels : List ℤ) (defaults : List (Angle × ℝ)) (tl : List ℕ) {coll coll' : Coll} (h : SameColl own.g R coll coll') :
    Both (SameColl own.g R) (controlledHeld c own vars channels defaults tl coll) (controlledHeld c' own.other vars channels defaults tl coll') := by
  unfold controlledHeld
  by_cases hv : vars.length ≠ channels.length
  · rw [if_pos hv, if_pos hv]; trivial
  · rw [if_neg hv, if_neg hv]
    refine Both.bind (R := fun a b : Coll × (Option ℝ × Option ℝ) => SameColl own.g R a.1 b.1 ∧ a.2 = b.2) (Both.foldlM h ?_ ?_) ?_
    · rintro s s' p p' ⟨hs, e⟩ ⟨h1, h2⟩
      rw [h2.classical, e]
      refine Both.bind (Both.eq rfl) (fun rd _ _ _ e => ?_)
      subst e
      refine Both.bind (Both.eq rfl) (fun th _ _ _ e => ?_)
      subst e
      refine Both.bind (Both.eq rfl) (fun ph _ _ _ e => ?_)
      subst e
      refine Both.bind (opticalHeld_same hg hf hL (genericMatrix th ph, tl) [] (coll := [p]) (coll' := [p']) (.cons ⟨h1, h2⟩ .nil))
        (fun t t' _ _ ht => ?_)
      refine ⟨rel_foldl ht ?_ hs, rfl⟩
      rintro s s' a b hs ⟨hab, e⟩
      rw [hab]
      exact SameColl.set hs _ e
    · exact ⟨List.Forall₂.nil, rfl⟩
    · rintro a b _ _ ⟨hab, -⟩
      exact hab

end nodes

/-! ### reshaping -/

section reshape
variable {R : List Char → List Char → Prop}

theorem newState_same {g : Cfg} {thr : ℝ} {m : ℕ} {q q' : QState} (h : SameState g R q q') : Both (SameState g R) (newState thr m q) (newState thr m q') :=
  copyState_same h

/-- the same collection, with its settings -/
structure SameCln (R : List Char → List Char → Prop) (a a' : Collection) : Prop where
  g : a'.g = otherWay a.g
  m : a'.m = a.m
  thr : a'.thr = a.thr
  states : SameColl a.g R a.states a'.states

theorem keepVals_valid {g : Cfg} {keep : List ℕ} (hk : ∀ c ∈ keep, c < g.C) {v : Vals} (hv : Valid g v) (b : Bool) :
    Valid ⟨g.L, keep.length, b⟩ (keepVals keep v) := by
  refine ⟨by simp [keepVals], ?_⟩
  intro x hx
  obtain ⟨c, hc, rfl⟩ := List.mem_map.1 hx
  have : c < v.length := by rw [hv.1]; exact hk c hc
  rw [List.getD_eq_getElem _ _ this]
  exact hv.2 _ (List.getElem_mem this)

theorem groupTraced_same {g : Cfg} {keep : List ℕ} (hk : ∀ c ∈ keep, c < g.C) {c c' : Comps} (h : SameComps g c c') :
    Both (DRel (fun a b : List Char => a = b) (SameComps ⟨g.L, keep.length, g.left⟩)) (groupTraced g keep c) (groupTraced (otherWay g) keep c') := by
  refine Both.foldlM h ?_ (show DRel _ _ [] [] from List.Forall₂.nil)
  rintro d d' p p' hd ⟨h1, h2⟩
  refine Both.bind (both_parse h1) ?_
  rintro v _ _ _ ⟨rfl, hv⟩
  have c1 : g.containsVals v = true := (g.containsVals_iff v).2 hv
  have c2 : (otherWay g).containsVals v = true := ((otherWay g).containsVals_iff v).2 hv
  rw [if_pos c1, if_pos c2]
  refine Both.bind (both_render (g := ⟨g.L, keep.length, g.left⟩) (keepVals_valid hk hv _)) (fun s s' _ _ hs => ?_)
  rw [show dropName (otherWay g) keep v = dropName g keep v from rfl]
  refine DRel.set biUniq_eq hd rfl ?_
  refine DRel.set (sameName_biUniq _) ?_ hs h2
  have := DRel.get? biUniq_eq hd (show dropName g keep v = dropName g keep v from rfl)
  revert this
  cases Dict.get? d (dropName g keep v) <;> cases Dict.get? d' (dropName g keep v) <;> intro h' <;>
    first | exact h'.elim | exact List.Forall₂.nil | exact h'

theorem amp_list_same {g : Cfg} {c c' : Comps} (h : SameComps g c c') (f : Comp → ℝ) : c'.map (fun p => f p.2) = c.map (fun p => f p.2) := by
  induction h with
  | nil => rfl
  | cons hp _ ih => rw [List.map_cons, List.map_cons, ih, hp.2]

theorem reducedState_same {g g' : Cfg} {thr : ℝ} {m' : ℕ} {ckeep : List ℕ} {q q' : QState} (hq : SameState g R q q') {c c' : Comps} (h : SameComps g' c c') :
    Both (SameState g' R) (reducedState thr m' ckeep q c) (reducedState thr m' ckeep q' c') := by
  unfold reducedState
  dsimp only
  rw [amp_list_same h (fun k => ‖k.amp‖ ^ 2), hq.classical]
  by_cases hp : (c.map (fun p => ‖p.2.amp‖ ^ 2)).sum = 0
  · rw [if_pos hp, if_pos hp]; trivial
  · rw [if_neg hp, if_neg hp]
    refine Both.bind (Both.eq rfl) (fun cl _ _ _ e => ?_)
    subst e
    refine newState_same ⟨hq.label, by rw [hq.cum], ?_, rfl, hq.results⟩
    show List.Forall₂ _ (c.map _) (c'.map _)
    rw [List.forall₂_map_left_iff, List.forall₂_map_right_iff]
    exact List.Forall₂.imp (fun _ _ hab => ⟨hab.1, by rw [hab.2]⟩) h

theorem reduceState_same {g : Cfg} {thr : ℝ} {keep ckeep : List ℕ} (hk : ∀ c ∈ keep, c < g.C) (i : List Char) {q q' : QState} (hq : SameState g R q q') :
    Both (SameColl ⟨g.L, keep.length, g.left⟩ R) (reduceState g thr keep ckeep i q) (reduceState (otherWay g) thr keep ckeep i q') := by
  refine Both.bind (groupTraced_same hk hq.comps) (fun d d' _ _ hd => ?_)
  refine Both.mapM hd ?_
  rintro a b ⟨h1, h2⟩
  refine Both.map (reducedState_same hq h2) (fun s s' hs => ⟨by rw [h1], hs⟩)

theorem reduceColl_same {a a' : Collection} (h : SameCln R a a') (keep ckeep : List ℕ) :
    Both (SameCln R) (reduceColl a keep ckeep) (reduceColl a' keep ckeep) := by
  obtain ⟨g, m, thr, st⟩ := a
  obtain ⟨g', m', thr', st'⟩ := a'
  obtain ⟨e1, e2, e3, hs⟩ := h
  dsimp only at e1 e2 e3 hs
  subst e1 e2 e3
  unfold reduceColl
  dsimp only
  rw [show (otherWay g).C = g.C from rfl]
  generalize (if keep = [] then List.range g.C else keep) = keep
  generalize (if ckeep = [] then List.range m' else ckeep) = ckeep
  by_cases h1 : ¬ keep.all (· < g.C) ∨ ¬ ckeep.all (· < m')
  · rw [if_pos h1, if_pos h1]; trivial
  · rw [if_neg h1, if_neg h1]
    have hk : ∀ c ∈ keep, c < g.C := by
      push Not at h1
      simpa using h1.1
    by_cases h2 : ¬ (⟨g.L, keep.length, g.left⟩ : Cfg).Ok
    · rw [if_pos h2, if_pos (show ¬ (⟨(otherWay g).L, keep.length, (otherWay g).left⟩ : Cfg).Ok from h2)]; trivial
    · rw [if_neg h2, if_neg (show ¬ ¬ (⟨(otherWay g).L, keep.length, (otherWay g).left⟩ : Cfg).Ok from h2)]
      refine Both.bind (R := SameColl ⟨g.L, keep.length, g.left⟩ R) (Both.foldlM hs ?_ List.Forall₂.nil) ?_
      · rintro s s' p p' hs ⟨e, hq⟩
        rw [e]
        refine Both.map (reduceState_same hk p'.1 hq) (fun t t' ht => ?_)
        refine rel_foldl ht ?_ hs
        rintro s s' a b hs ⟨hab, hq⟩
        rw [hab]
        exact SameColl.set hs _ hq
      · intro o o' _ _ ho
        by_cases h3 : st = []
        · subst h3
          cases hs
          rw [if_pos rfl, if_pos rfl]
          exact ⟨rfl, rfl, rfl, List.Forall₂.nil⟩
        · rw [if_neg h3, if_neg (fun e => h3 (by rw [e] at hs; cases hs; rfl))]
          exact ⟨rfl, rfl, rfl, ho⟩

theorem adjustLength_same {a a' : Collection} (h : SameCln R a a') (n : ℕ) : Both (SameCln R) (adjustLength a n) (adjustLength a' n) := by
  obtain ⟨g, m, thr, st⟩ := a
  obtain ⟨g', m', thr', st'⟩ := a'
  obtain ⟨e1, e2, e3, hs⟩ := h
  dsimp only at e1 e2 e3 hs
  subst e1 e2 e3
  unfold adjustLength
  dsimp only
  rw [show (otherWay g).L = g.L from rfl]
  generalize (if n = 0 then g.L else n) = n
  by_cases h2 : ¬ (⟨n, g.C, g.left⟩ : Cfg).Ok
  · rw [if_pos h2, if_pos (show ¬ (⟨n, (otherWay g).C, (otherWay g).left⟩ : Cfg).Ok from h2)]; trivial
  · rw [if_neg h2, if_neg (show ¬ ¬ (⟨n, (otherWay g).C, (otherWay g).left⟩ : Cfg).Ok from h2)]
    push Not at h2
    refine Both.bind (R := SameColl ⟨n, g.C, g.left⟩ R) (Both.foldlM hs ?_ List.Forall₂.nil) (fun o o' _ _ ho => ⟨rfl, rfl, rfl, ho⟩)
    rintro s s' p p' hs ⟨e, hq⟩
    refine Both.bind (R := SameComps ⟨n, g.C, g.left⟩) (Both.foldlM hq.comps ?_ (show SameComps _ [] [] from List.Forall₂.nil)) ?_
    · rintro d d' k k' hd ⟨hk1, hk2⟩
      refine Both.bind (both_parse hk1) ?_
      rintro v _ _ _ ⟨rfl, hv⟩
      refine Both.bind (both_render (g := ⟨n, g.C, g.left⟩) (v := v.map (· % n)) ⟨by simpa using hv.1, ?_⟩) (fun s s' _ _ hs => ?_)
      · intro x hx
        obtain ⟨y, -, rfl⟩ := List.mem_map.1 hx
        exact Nat.mod_lt _ h2.1
      · exact DRel.set (sameName_biUniq _) hd hs hk2
    · intro k k' _ _ hk
      refine Both.bind (newState_same (g := ⟨n, g.C, g.left⟩) (R := R) ⟨hq.label, hq.cum, hk, hq.classical, hq.results⟩) (fun x x' _ _ hx => ?_)
      rw [e]
      exact SameColl.set hs _ hx

theorem extraValues_same {g : Cfg} (dist : List ℝ) (n : ℕ) :
    Both (List.Forall₂ (fun p p' : Name × (ℝ × Vals) => p.2 = p'.2 ∧ Valid ⟨g.L, n, g.left⟩ p.2.2)) (extraValues g dist n) (extraValues (otherWay g) dist n) := by
  induction n with
  | zero => exact .cons ⟨rfl, rfl, by simp⟩ .nil
  | succ n ih =>
    unfold extraValues
    refine Both.bind ih (fun old old' _ _ ho => ?_)
    refine Both.mono (R := DRel (SameName ⟨g.L, n + 1, g.left⟩) (fun a b : ℝ × Vals => a = b ∧ Valid ⟨g.L, n + 1, g.left⟩ a.2)) ?_
      (Both.foldlM ho ?_ (show DRel _ _ [] [] from List.Forall₂.nil))
    · exact fun _ _ h => List.Forall₂.imp (fun _ _ hp => hp.2) h
    · rintro d d' p p' hd ⟨e, hv⟩
      rw [show (otherWay g).L = g.L from rfl, e] at *
      refine Both.foldlM (forall₂_refl_of (P := fun x => x < g.L) (fun a ha => List.mem_range.1 ha)) ?_ hd
      rintro d d' x _ hd ⟨rfl, hx⟩
      have hlen : (p'.2.2 ++ [x]).length = n + 1 := by
        rw [List.length_append, hv.1]; rfl
      have hval : Valid ⟨g.L, n + 1, g.left⟩ (p'.2.2 ++ [x]) := ⟨hlen, by
        intro y hy
        rcases List.mem_append.1 hy with h | h
        · exact hv.2 y h
        · rw [List.mem_singleton.1 h]; exact hx⟩
      rw [hlen]
      refine Both.bind (both_render hval) (fun s s' _ _ hs => ?_)
      refine Both.bind (Both.eq rfl) (fun y _ _ _ ey => ?_)
      subst ey
      exact DRel.set (sameName_biUniq _) hd hs ⟨rfl, hval⟩

theorem extendedState_same {g : Cfg} {eo ec : ℕ} {q q' : QState} (hq : SameState g R q q') (prob : ℝ) {vals : Vals}
    (hv : Valid ⟨g.L, eo, g.left⟩ vals) :
    Both (SameState ⟨g.L, g.C + eo, g.left⟩ R) (extendedState g ⟨g.L, g.C + eo, g.left⟩ ec q prob vals)
      (extendedState (otherWay g) (otherWay ⟨g.L, g.C + eo, g.left⟩) ec q' prob vals) := by
  refine Both.bind (R := SameComps ⟨g.L, g.C + eo, g.left⟩) (Both.foldlM hq.comps ?_ (show SameComps _ [] [] from List.Forall₂.nil)) ?_
  · rintro d d' k k' hd ⟨hk1, hk2⟩
    refine Both.bind (both_parse hk1) ?_
    rintro v _ _ _ ⟨rfl, hv'⟩
    refine Both.bind (both_render (g := ⟨g.L, g.C + eo, g.left⟩) (v := v ++ vals) ⟨by rw [List.length_append, hv'.1, hv.1], ?_⟩) (fun s s' _ _ hs => ?_)
    · intro x hx
      rcases List.mem_append.1 hx with h | h
      · exact hv'.2 x h
      · exact hv.2 x h
    · exact DRel.set (sameName_biUniq _) hd hs hk2
  · intro k k' _ _ hk
    exact ⟨hq.label, by rw [hq.cum], hk, by rw [hq.classical], hq.results⟩

theorem extendColl_same {a a' : Collection} (h : SameCln R a a') (eo ec : ℕ) (dist : List ℝ) (r : ℕ → ℕ → ℕ) :
    Both (SameCln R) (extendColl a eo ec dist r) (extendColl a' eo ec dist r) := by
  obtain ⟨g, m, thr, st⟩ := a
  obtain ⟨g', m', thr', st'⟩ := a'
  obtain ⟨e1, e2, e3, hs⟩ := h
  dsimp only at e1 e2 e3 hs
  subst e1 e2 e3
  unfold extendColl
  dsimp only
  rw [show (otherWay g).L = g.L from rfl]
  generalize (if dist = [] then (1 : ℝ) :: List.replicate (g.L - 1) 0 else dist) = dist
  by_cases h1 : dist.length ≠ g.L
  · rw [if_pos h1, if_pos h1]; trivial
  · rw [if_neg h1, if_neg h1]
    by_cases h2 : eo = 0 ∧ ec = 0
    · rw [if_pos h2, if_pos h2]; exact ⟨rfl, rfl, rfl, hs⟩
    · rw [if_neg h2, if_neg h2]
      by_cases h3 : ¬ (⟨g.L, g.C + eo, g.left⟩ : Cfg).Ok
      · rw [if_pos h3, if_pos (show ¬ (⟨g.L, (otherWay g).C + eo, (otherWay g).left⟩ : Cfg).Ok from h3)]; trivial
      · rw [if_neg h3, if_neg (show ¬ ¬ (⟨g.L, (otherWay g).C + eo, (otherWay g).left⟩ : Cfg).Ok from h3)]
        refine Both.bind (extraValues_same dist eo) (fun ex ex' _ _ hex => ?_)
        refine Both.bind (R := SameColl ⟨g.L, g.C + eo, g.left⟩ R) (Both.foldlM hex ?_ List.Forall₂.nil) (fun o o' _ _ ho => ⟨rfl, rfl, rfl, ho⟩)
        rintro s s' x x' hs1 ⟨ex1, hv⟩
        rw [← ex1]
        refine Both.foldlM hs ?_ hs1
        rintro s s' p p' hs2 ⟨e, hq⟩
        refine Both.bind (extendedState_same hq x.2.1 hv) (fun y y' _ _ hy => ?_)
        rw [← hy.cum]
        by_cases h4 : y.cum ≥ thr'
        · rw [if_pos h4, if_pos h4]
          refine Both.bind (newState_same hy) (fun z z' _ _ hz => ?_)
          rw [← List.Forall₂.length_eq hs2]
          exact addState_same hs2 hz none _
        · rw [if_neg h4, if_neg h4]; exact hs2

end reshape

/-! ### evaluation -/

section eval
variable {R : List Char → List Char → Prop}

/-- the same collection with its settings, and the sizes fit the circuit or there are no states -/
structure SameHeld (R : List Char → List Char → Prop) (c : Circ) (h h' : Held) : Prop where
  circ : h'.circ = h.circ.other
  own : h'.own = h.own.other
  states : SameColl h.own.g R h.states h'.states
  pos : 1 ≤ h.own.g.L
  fits : (h.own.g.L = c.g.L ∧ h.own.g.C = c.g.C ∧ h.circ.g.L = c.g.L ∧ h.circ.g.C = c.g.C) ∨ h.states = []

theorem sameColl_nil {g : Cfg} {coll : Coll} (h : SameColl g R [] coll) : coll = [] := by cases h; rfl

theorem both_right {α β : Type*} {P : α → β → Prop} {x : Option α} {y : Option β} (h : Both P x y) {a : α} (hx : x = some a) : ∃ b, y = some b ∧ P a b := by
  subst hx
  cases y with
  | none => exact h.elim
  | some b => exact ⟨b, rfl, h⟩

theorem _root_.Verif.Spec.SameCircuit.settings {c c' : Circ} (h : SameCircuit R c c') : c'.settings = c.settings.other := by
  unfold Circ.settings Settings.other
  rw [h.g, h.m, h.thr]

theorem reshape_chain_same {a a' : Collection} (h : SameCln R a a') (c next c' next' : Circ) (hc : SameCircuit R c c') (hn : SameCircuit R next next')
    (r r' : ℕ → ℕ → ℕ) :
    Both (SameCln R)
      ((if next.g.C > c.g.C then extendColl a (next.g.C - c.g.C) 0 [] r
        else if next.g.C < c.g.C then reduceColl a (List.range next.g.C) [] else some a).bind (fun b =>
        (if next.m > c.m then extendColl b 0 (next.m - c.m) [] r'
          else if next.m < c.m then reduceColl b [] (List.range next.m) else some b).bind (fun d => adjustLength d next.g.L)))
      ((if next'.g.C > c'.g.C then extendColl a' (next'.g.C - c'.g.C) 0 [] r
        else if next'.g.C < c'.g.C then reduceColl a' (List.range next'.g.C) [] else some a').bind (fun b =>
        (if next'.m > c'.m then extendColl b 0 (next'.m - c'.m) [] r'
          else if next'.m < c'.m then reduceColl b [] (List.range next'.m) else some b).bind (fun d => adjustLength d next'.g.L))) := by
  rw [hc.m, hn.m, hc.g, hn.g]
  refine Both.bind (R := SameCln R) ?_ (fun b b' _ _ hb => Both.bind (R := SameCln R) ?_ (fun d d' _ _ hd => adjustLength_same hd _))
  · show Both _ (if next.g.C > c.g.C then _ else _) (if next.g.C > c.g.C then _ else _)
    split
    · exact extendColl_same h _ _ _ _
    · show Both _ (if next.g.C < c.g.C then _ else _) (if next.g.C < c.g.C then _ else _)
      split
      · exact reduceColl_same h _ _
      · exact h
  · split
    · exact extendColl_same hb _ _ _ _
    · split
      · exact reduceColl_same hb _ _
      · exact hb

theorem reshapeHeld_chain (c next : Circ) (r r' : ℕ → ℕ → ℕ) (h : Held) :
    reshapeHeld c next r r' h = (copyColl h.own.thr h.own.m h.states).bind (fun states =>
      ((if next.g.C > c.g.C then extendColl ⟨h.circ.g, h.circ.m, h.circ.thr, states⟩ (next.g.C - c.g.C) 0 [] r
        else if next.g.C < c.g.C then reduceColl ⟨h.circ.g, h.circ.m, h.circ.thr, states⟩ (List.range next.g.C) []
          else some ⟨h.circ.g, h.circ.m, h.circ.thr, states⟩).bind (fun b =>
        (if next.m > c.m then extendColl b 0 (next.m - c.m) [] r'
          else if next.m < c.m then reduceColl b [] (List.range next.m) else some b).bind (fun d => adjustLength d next.g.L))).map
        (fun e => ⟨⟨e.g, e.m, defaultThr⟩, ⟨e.g, e.m, e.thr⟩, e.states⟩)) := by
  unfold reshapeHeld
  simp only [Option.bind_eq_bind]
  congr 1
  funext states
  split_ifs <;> simp only [Option.bind_some, Option.map_eq_bind, Option.bind_assoc, Function.comp_def]

theorem reshapeHeld_fits {c next : Circ} {r r' : ℕ → ℕ → ℕ} {h out : Held} (hg' : next.g.Ok) (hC : h.circ.g.C = c.g.C)
    (he : reshapeHeld c next r r' h = some out) (hne : out.states ≠ []) :
    out.own.g.L = next.g.L ∧ out.own.g.C = next.g.C ∧ out.circ.g.L = next.g.L ∧ out.circ.g.C = next.g.C := by
  have hL0 : next.g.L ≠ 0 := by have := hg'.1; omega
  have hC0 : next.g.C ≠ 0 := by have := hg'.2; omega
  obtain ⟨states, b, d, e, h1, h2, h3, h4, rfl⟩ := reshapeHeld_parts.1 he
  obtain ⟨a1, a2, a3, a4⟩ := adjustLength_shape hL0 h4
  have hd : d.states ≠ [] := fun he => hne (a4 he)
  have hb : b.states ≠ [] ∧ d.g = b.g := by
    split at h3
    · obtain ⟨e1, e2, e3, e4⟩ := extendColl_shape h3
      exact ⟨fun he => hd (e4 he), e1.trans rfl⟩
    · split at h3
      · obtain ⟨e1, e2, e3⟩ := reduceColl_shape h3
        have hbn : b.states ≠ [] := fun he => hd (by rw [e2 he]; exact he)
        obtain ⟨e4, e5⟩ := e3 hbn
        exact ⟨hbn, by rw [e4]; simp⟩
      · obtain rfl := Option.some.inj h3
        exact ⟨hd, rfl⟩
  have hs : b.g.C = next.g.C := by
    split at h2
    · obtain ⟨e1, e2, e3, e4⟩ := extendColl_shape h2
      rw [e1]
      show h.circ.g.C + (next.g.C - c.g.C) = _
      omega
    · split at h2
      · obtain ⟨e1, e2, e3⟩ := reduceColl_shape h2
        have hsn : states ≠ [] := by
          rintro rfl
          exact hb.1 (by rw [e2 rfl])
        obtain ⟨e4, e5⟩ := e3 hsn
        rw [e4, if_neg (by simp; omega), List.length_range]
      · obtain rfl := Option.some.inj h2
        show h.circ.g.C = _
        omega
  have : e.g.L = next.g.L ∧ e.g.C = next.g.C := by
    rw [a1, hb.2]
    exact ⟨rfl, hs⟩
  exact ⟨this.1, this.2, this.1, this.2⟩

theorem reshapeHeld_same {c next c' next' : Circ} (hc : SameCircuit R c c') (hn : SameCircuit R next next') (hg' : next.g.Ok) (r r' : ℕ → ℕ → ℕ) {h h' : Held}
    (hh : SameHeld R c h h') : Both (SameHeld R next) (reshapeHeld c next r r' h) (reshapeHeld c' next' r r' h') := by
  have key : Both (fun o o' : Held => o'.circ = o.circ.other ∧ o'.own = o.own.other ∧ SameColl o.own.g R o.states o'.states ∧ 1 ≤ o.own.g.L)
      (reshapeHeld c next r r' h) (reshapeHeld c' next' r r' h') := by
    rw [reshapeHeld_chain, reshapeHeld_chain, hh.own, hh.circ]
    refine Both.bind (copyColl_same hh.states) (fun s s' e1 e2 hs => ?_)
    have hs' : SameColl h.circ.g R s s' := by
      rcases hh.fits with ⟨f1, f2, f3, f4⟩ | f
      · exact SameColl.congr (f1.trans f3.symm) (f2.trans f4.symm) hs
      · rw [f] at e1
        obtain rfl := copyColl_empty e1
        cases hs
        exact List.Forall₂.nil
    have hL0 : next.g.L ≠ 0 := by have := hg'.1; omega
    have hcln := reshape_chain_same (R := R) (a := ⟨h.circ.g, h.circ.m, h.circ.thr, s⟩) (a' := ⟨h.circ.other.g, h.circ.other.m, h.circ.other.thr, s'⟩)
      ⟨rfl, rfl, rfl, hs'⟩ c next c' next' hc hn r r'
    have hcln' := hcln
    generalize hx : (Option.bind (if next.g.C > c.g.C then extendColl ⟨h.circ.g, h.circ.m, h.circ.thr, s⟩ (next.g.C - c.g.C) 0 [] r else _) _) = X at hcln ⊢
    have hXL : ∀ e, X = some e → e.g.L = next.g.L := by
      intro e he
      rw [he] at hx
      obtain ⟨b, -, hb⟩ := Option.bind_eq_some_iff.1 hx
      obtain ⟨d, -, hd⟩ := Option.bind_eq_some_iff.1 hb
      rw [(adjustLength_shape hL0 hd).1]
    clear hx hcln'
    cases X with
    | none =>
      revert hcln
      generalize (Option.bind (if next'.g.C > c'.g.C then _ else _) _) = Y
      intro hcln
      cases Y with
      | none => trivial
      | some _ => exact hcln.elim
    | some e =>
      obtain ⟨e', hY, hee⟩ := both_right hcln rfl
      rw [hY]
      refine ⟨?_, ?_, hee.states, ?_⟩
      · show Settings.mk e'.g e'.m defaultThr = Settings.mk (otherWay e.g) e.m defaultThr
        rw [hee.g, hee.m]
      · show Settings.mk e'.g e'.m e'.thr = Settings.mk (otherWay e.g) e.m e.thr
        rw [hee.g, hee.m, hee.thr]
      · show 1 ≤ e.g.L
        rw [hXL e rfl]; exact hg'.1
  revert key
  cases ho : reshapeHeld c next r r' h with
  | none => cases reshapeHeld c' next' r r' h' <;> exact fun h => h
  | some o =>
    cases reshapeHeld c' next' r r' h' with
    | none => exact fun h => h
    | some o' =>
      rintro ⟨k1, k2, k3, k4⟩
      refine ⟨k1, k2, k3, k4, ?_⟩
      by_cases hne : o.states = []
      · exact Or.inr hne
      · rcases hh.fits with ⟨f1, f2, f3, f4⟩ | f
        · exact Or.inl (reshapeHeld_fits hg' f4 ho hne)
        · obtain ⟨circ, own, states⟩ := h
          dsimp only at f
          subst f
          exact absurd (reshapeHeld_empty (by have := hg'.1; omega) ho) hne

/-- the result of a node that keeps the settings of the states -/
theorem sameHeld_of {c : Circ} {h h' : Held} (hh : SameHeld R c h h') {circ circ' : Settings} (hcirc : circ' = circ.other)
    (hfit : circ = c.settings ∨ circ = h.circ) {x x' : Option Coll} (hx : Both (SameColl h.own.g R) x x')
    (hempty : h.states = [] → ∀ out, x = some out → out = []) :
    Both (SameHeld R c) (x.map (fun out => ⟨circ, h.own, out⟩)) (x'.map (fun out => ⟨circ', h'.own, out⟩)) := by
  cases x with
  | none =>
    cases x' with
    | none => trivial
    | some _ => exact hx.elim
  | some o =>
    obtain ⟨o', rfl, ho⟩ := both_right hx rfl
    refine ⟨hcirc, hh.own, ho, hh.pos, ?_⟩
    rcases hh.fits with ⟨f1, f2, f3, f4⟩ | f
    · rcases hfit with rfl | rfl
      · exact Or.inl ⟨f1, f2, rfl, rfl⟩
      · exact Or.inl ⟨f1, f2, f3, f4⟩
    · exact Or.inr (hempty f o rfl)

theorem sameNode_eq {g : Cfg} {n n' : Node} (h : SameNode g R n n') : (∃ f f', n = .generic f ∧ n' = .generic f') ∨ n = n' := by
  cases n <;> cases n' <;> first | exact Or.inr h | exact Or.inl ⟨_, _, rfl, rfl⟩ | exact h.elim

theorem sameNode_optical {g : Cfg} {n n' : Node} (h : SameNode g R n n') : n'.isOptical = n.isOptical := by
  rcases sameNode_eq h with ⟨f, f', rfl, rfl⟩ | rfl <;> rfl

theorem sameNode_measurement {g : Cfg} {n n' : Node} (h : SameNode g R n n') : n'.isMeasurement = n.isMeasurement := by
  rcases sameNode_eq h with ⟨f, f', rfl, rfl⟩ | rfl <;> rfl

theorem _root_.Verif.Spec.SameCircuit.kinds {c c' : Circ} (h : SameCircuit R c c') : c'.nodes.map Node.isMeasurement = c.nodes.map Node.isMeasurement := by
  have := h.nodes
  generalize c.nodes = l at this ⊢
  generalize c'.nodes = l' at this ⊢
  induction this with
  | nil => rfl
  | cons hp _ ih => rw [List.map_cons, List.map_cons, ih, sameNode_measurement hp]

theorem nodeHeld_same {c c' : Circ} (hc : SameCircuit R c c') (i : ℕ) (r : ℕ → ℕ → ℕ) {h h' : Held} (hh : SameHeld R c h h') {n n' : Node}
    (hn : SameNode c.g R n n') : Both (SameHeld R c) (nodeHeld c i r h n) (nodeHeld c' i r h' n') := by
  have hemp : ∀ (x : Option Coll) (F : Coll → Held), (∀ o, (F o).states = o) → x.map F = nodeHeld c i r h n → h.states = [] → ∀ out, x = some out → out = [] := by
    intro x F hF hx he out ho
    subst ho
    obtain ⟨circ, own, states⟩ := h
    dsimp only at he
    subst he
    have := nodeHeld_empty (c := c) (i := i) (r := r) (n := n) (by
      rintro f rfl
      cases n' with
      | generic f' => exact hn.2
      | _ => exact hn.elim) hx.symm
    rw [hF] at this
    exact this
  rcases sameNode_eq hn with ⟨f, f', rfl, rfl⟩ | rfl
  · refine sameHeld_of hh hh.circ (Or.inr rfl) ?_ (hemp _ _ (fun _ => rfl) rfl)
    rcases hh.fits with ⟨f1, f2, -, -⟩ | e
    · exact Both.mono (fun _ _ => SameColl.congr f1.symm f2.symm) (hn.1 _ _ (SameColl.congr f1 f2 hh.states))
    · have hs := hh.states
      rw [e] at hs ⊢
      have he' : h'.states = [] := (sameColl_nil hs)
      rw [he']
      have := hn.1 [] [] List.Forall₂.nil
      cases hf : f [] with
      | none =>
        rw [hf] at this
        cases hf' : f' [] with
        | none => trivial
        | some _ => rw [hf'] at this; exact this.elim
      | some o =>
        rw [hf] at this
        obtain ⟨o', ho', hoo⟩ := both_right this rfl
        rw [ho']
        obtain rfl := hn.2 o hf
        cases hoo
        exact List.Forall₂.nil
  · cases n with
    | optical M tl => trivial
    | bridge k => trivial
    | generic f =>
      refine sameHeld_of hh hh.circ (Or.inr rfl) ?_ (hemp _ _ (fun _ => rfl) rfl)
      rcases hh.fits with ⟨f1, f2, -, -⟩ | e
      · exact Both.mono (fun _ _ => SameColl.congr f1.symm f2.symm) (hn.1 _ _ (SameColl.congr f1 f2 hh.states))
      · have hs := hh.states
        rw [e] at hs ⊢
        have he' : h'.states = [] := (sameColl_nil hs)
        rw [he']
        cases hf : f [] with
        | none => trivial
        | some o => obtain rfl := hn.2 o hf; exact List.Forall₂.nil
    | fockMatrix F =>
      refine sameHeld_of hh hc.settings (Or.inl rfl) ?_ (hemp _ _ (fun _ => rfl) rfl)
      rw [hh.own]
      exact customHeld_same hh.pos F r hh.states
    | classical f v a =>
      refine sameHeld_of hh hh.circ (Or.inr rfl) ?_ (hemp _ _ (fun _ => rfl) rfl)
      rw [hh.own]
      exact classicalHeld_same f v a hh.states
    | measurement opt cls =>
      refine sameHeld_of hh hc.settings (Or.inl rfl) ?_ (hemp _ _ (fun _ => rfl) rfl)
      rw [hh.own, hc.g, hc.kinds]
      refine measureCollHeld_same _ opt cls ?_ hh.states
      rcases hh.fits with ⟨f1, f2, -, -⟩ | e
      · exact Or.inl ⟨f1, f2⟩
      · exact Or.inr e
    | controlled vars ch df tl =>
      refine sameHeld_of hh hc.settings (Or.inl rfl) ?_ (hemp _ _ (fun _ => rfl) rfl)
      rw [hh.own]
      exact controlledHeld_same hc.g hc.full hh.pos vars ch df tl hh.states

theorem _root_.Verif.Spec.SameCircuit.length {c c' : Circ} (h : SameCircuit R c c') : c'.nodes.length = c.nodes.length := (List.Forall₂.length_eq h.nodes).symm

theorem _root_.Verif.Spec.SameCircuit.get {c c' : Circ} (h : SameCircuit R c c') (i : ℕ) : Both (SameNode c.g R) c.nodes[i]? c'.nodes[i]? := by
  have := h.nodes
  generalize c.nodes = l at this ⊢
  generalize c'.nodes = l' at this ⊢
  induction this generalizing i with
  | nil => trivial
  | cons hp _ ih =>
    cases i with
    | zero => exact hp
    | succ i => exact ih i

theorem _root_.Verif.Spec.SameCircuit.isOpt {c c' : Circ} (h : SameCircuit R c c') : isOpt c' = isOpt c := by
  funext i
  have := h.get i
  unfold Verif.isOpt
  revert this
  cases c.nodes[i]? <;> cases c'.nodes[i]? <;> intro h' <;> first | rfl | exact h'.elim | exact sameNode_optical h'

theorem _root_.Verif.Spec.SameCircuit.opticalNodes {c c' : Circ} (h : SameCircuit R c c') (is : List ℕ) : opticalNodes c' is = opticalNodes c is := by
  unfold Verif.opticalNodes
  congr 1
  funext i
  have := h.get i
  revert this
  cases c.nodes[i]? with
  | none => cases c'.nodes[i]? <;> intro h' <;> first | rfl | exact h'.elim
  | some n =>
    cases c'.nodes[i]? with
    | none => intro h'; exact h'.elim
    | some n' =>
      intro h'
      rcases sameNode_eq h' with ⟨f, f', rfl, rfl⟩ | rfl <;> rfl

theorem runHeld_same {c c' : Circ} (hc : SameCircuit R c c') (run : List ℕ) {h h' : Held} (hh : SameHeld R c h h') :
    Both (SameHeld R c) (runHeld c run h) (runHeld c' run h') := by
  unfold runHeld
  rw [hc.opticalNodes run]
  cases Verif.opticalNodes c run with
  | nil => trivial
  | cons n l =>
    refine sameHeld_of hh hc.settings (Or.inl rfl) ?_ ?_
    · rw [hh.own]
      exact opticalHeld_same hc.g hc.full hh.pos n l hh.states
    · intro he out ho
      rw [he] at ho
      exact opticalHeld_empty ho

theorem evalHeld_same {env env' : ℕ → Circ} {rnd : ℕ → ℕ → Bool → ℕ → ℕ → ℕ} (hc : ∀ k, SameCircuit R (env k) (env' k)) (hg : ∀ k, (env k).g.Ok)
    (fuel : ℕ) : ∀ (k : ℕ) (l : List ℕ) (h h' : Held), SameHeld R (env k) h h' →
      Both (fun o o' => ∃ j, SameHeld R (env j) o o') (evalHeld env rnd fuel k l h) (evalHeld env' rnd fuel k l h') := by
  induction fuel with
  | zero => intro k l h h' _; trivial
  | succ fuel ih =>
    intro k l h h' hh
    cases l with
    | nil => exact ⟨k, hh⟩
    | cons i rest =>
      by_cases hv : ∀ j ∈ i :: rest, j < (env k).nodes.length
      swap
      · rw [evalHeld_invalid (by push Not at hv; exact hv), evalHeld_invalid (by push Not at hv; rw [(hc k).length]; exact hv)]
        trivial
      have hv' : ∀ j ∈ i :: rest, j < (env' k).nodes.length := by rw [(hc k).length]; exact hv
      by_cases ho : isOpt (env k) i = true
      · rw [evalHeld_run hv ho, evalHeld_run hv' (by rw [(hc k).isOpt]; exact ho), (hc k).isOpt]
        exact Both.bind (runHeld_same (hc k) _ hh) (fun a b _ _ hab => ih _ _ _ _ hab)
      · have ho : isOpt (env k) i = false := by simpa using ho
        have hi := hv i (by simp)
        have hn : (env k).nodes[i]? = some ((env k).nodes[i]) := List.getElem?_eq_getElem hi
        obtain ⟨n', hn', hnn⟩ := both_right ((hc k).get i) hn
        by_cases hb : ∃ n, (env k).nodes[i] = .bridge n
        · obtain ⟨n, hb⟩ := hb
          rw [hb] at hn hnn
          obtain rfl : n' = .bridge n := by
            rcases sameNode_eq hnn with ⟨f, f', e, -⟩ | e
            · cases e
            · exact e.symm
          rw [evalHeld_bridge hv hn, evalHeld_bridge hv' hn', (hc n).length]
          exact Both.bind (reshapeHeld_same (hc k) (hc n) (hg n) _ _ hh) (fun a b _ _ hab => ih _ _ _ _ hab)
        · push Not at hb
          have hb' : ∀ j, n' ≠ .bridge j := by
            rintro j rfl
            rcases sameNode_eq hnn with ⟨f, f', -, e⟩ | e
            · cases e
            · exact hb j e
          have ho1 : ((env k).nodes[i]).isOptical = false := by simpa [isOpt, hn] using ho
          rw [evalHeld_node hv hn ho1 hb, evalHeld_node hv' hn' (by rw [sameNode_optical hnn]; exact ho1) hb']
          exact Both.bind (nodeHeld_same (hc k) i _ hh hnn) (fun a b _ _ hab => ih _ _ _ _ hab)

end eval

end Verif
