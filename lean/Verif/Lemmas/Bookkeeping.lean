/-
Lemmas for C134: no step of the evaluation reads labels or earlier measurement results.
-/
import Verif.Lemmas.GlobalPhase
import Verif.Spec.Bookkeeping

namespace Verif
open Spec

section Records
variable {R : List Char → List Char → Prop} {H : List MRes → List MRes → Prop}

/-! ### States -/

theorem records_with {q q' : QState} (h : SameButRecords R H q q') (c : Comps) : SameButRecords R H { q with comps := c } { q' with comps := c } :=
  ⟨h.initial, h.cum, rfl, h.classical, h.results⟩

theorem checkValid_records {thr : ℝ} {m : ℕ} {q q' : QState} (h : SameButRecords R H q q') : CheckValid thr m q' ↔ CheckValid thr m q := by
  unfold CheckValid
  rw [h.cum, h.classical, h.comps]

theorem copyState_records {thr : ℝ} {m : ℕ} {q q' : QState} (h : SameButRecords R H q q') : Option.Rel (SameButRecords R H) (copyState thr m q) (copyState thr m q') := by
  unfold copyState
  by_cases hv : CheckValid thr m q
  · rw [if_pos hv, if_pos ((checkValid_records h).2 hv)]; exact Option.Rel.some h
  · rw [if_neg hv, if_neg (fun h' => hv ((checkValid_records h).1 h'))]; exact Option.Rel.none

theorem newState_records {thr : ℝ} {m : ℕ} {q q' : QState} (h : SameButRecords R H q q') : Option.Rel (SameButRecords R H) (newState thr m q) (newState thr m q') := copyState_records h

/-- two entries of collections -/
abbrev PairRecords (R : List Char → List Char → Prop) (H : List MRes → List MRes → Prop) (p p' : List Char × QState) : Prop := p'.1 = p.1 ∧ SameButRecords R H p.2 p'.2

theorem copyColl_records {thr : ℝ} {m : ℕ} {A B : Coll} (h : CollSameButRecords R H A B) : Option.Rel (CollSameButRecords R H) (copyColl thr m A) (copyColl thr m B) := by
  unfold copyColl selectStates
  refine phase_foldlM (R := CollSameButRecords R H) (Q := PairRecords R H) ?_ .nil h
  rintro s t p p' hs ⟨hk, hp⟩
  simp only [Option.bind_eq_bind, Option.bind_some, if_true]
  rw [hk]
  exact phase_bind (copyState_records hp) (fun x y hxy => Option.Rel.some (dictRel_set hs _ hxy))

/-! ### Nodes -/

theorem groupByPhotons_records (g : Cfg) {A B : Coll} (h : CollSameButRecords R H A B) : groupByPhotons g B = groupByPhotons g A := by
  unfold groupByPhotons
  refine (phase_eq_iff (phase_foldlM (R := Eq) (Q := PairRecords R H) ?_ rfl h)).symm
  rintro s _ p p' rfl ⟨hk, hp⟩
  rw [hk, hp.comps]
  exact phase_of_eq rfl (fun _ => rfl)

theorem opticalColl_records (c : Circ) (n : Opt × List ℕ) (l : List (Opt × List ℕ)) {A B : Coll} (h : CollSameButRecords R H A B) :
    Option.Rel (CollSameButRecords R H) (opticalColl c n l A) (opticalColl c n l B) := by
  unfold opticalColl
  refine phase_bind (copyColl_records h) (fun A B h => ?_)
  have hg : opticalGroups c B = opticalGroups c A := by
    unfold opticalGroups
    rw [groupByPhotons_records c.g h, dictRel_keys h]
  rw [hg]
  refine phase_bind (phase_of_eq (R := Eq) rfl (fun _ => rfl)) ?_
  rintro groups _ rfl
  refine phase_foldlM (R := CollSameButRecords R H) (Q := Eq) ?_ h (forall₂_self _)
  rintro s t gr _ hs rfl
  refine phase_foldlM (R := CollSameButRecords R H) (Q := Eq) ?_ hs (forall₂_self _)
  rintro s t i _ hs rfl
  refine phase_bind (dictRel_get hs i) (fun q q' hq => ?_)
  rw [hq.comps]
  refine phase_bind (phase_of_eq (R := Eq) rfl (fun _ => rfl)) ?_
  rintro x _ rfl
  refine phase_bind (phase_of_eq (R := Eq) rfl (fun _ => rfl)) ?_
  rintro d _ rfl
  exact Option.Rel.some (dictRel_set hs i (records_with hq d))

theorem addState_records {A B : Coll} (h : CollSameButRecords R H A B) {q q' : QState} (hq : SameButRecords R H q q') (i : Option (List Char)) (r : ℕ → ℕ) :
    CollSameButRecords R H (addState A q i r) (addState B q' i r) := by
  unfold addState
  rw [dictRel_keys h]
  exact dictRel_set h _ hq

theorem customColl_records (c : Circ) (F : SqArr) (r : ℕ → ℕ → ℕ) {A B : Coll} (h : CollSameButRecords R H A B) : Option.Rel (CollSameButRecords R H) (customColl c F r A) (customColl c F r B) := by
  unfold customColl
  refine phase_foldlM (R := CollSameButRecords R H) (Q := PairRecords R H) ?_ .nil h
  rintro s t p p' hs ⟨hk, hp⟩
  refine phase_bind (copyState_records hp) (fun q q' hq => ?_)
  split
  · exact Option.Rel.none
  · rw [hp.comps]
    refine phase_bind (phase_of_eq (R := Eq) rfl (fun _ => rfl)) ?_
    rintro d _ rfl
    rw [dictRel_length hs]
    exact Option.Rel.some (addState_records hs (records_with hq d) none _)

theorem classicalColl_records (c : Circ) (f : List ℝ → List ℝ → List ℤ → Option (List ℝ)) (v : List ℝ) (a : List ℤ) {A B : Coll} (h : CollSameButRecords R H A B) :
    Option.Rel (CollSameButRecords R H) (classicalColl c f v a A) (classicalColl c f v a B) := by
  unfold classicalColl
  refine phase_mapM (Q := PairRecords R H) ?_ h
  rintro p p' ⟨hk, hp⟩
  rw [hk, hp.classical]
  refine phase_bind (phase_of_eq (R := Eq) rfl (fun _ => rfl)) ?_
  rintro vals _ rfl
  split
  · exact Option.Rel.some ⟨rfl, hp.initial, hp.cum, hp.comps, rfl, hp.results⟩
  · exact Option.Rel.none

theorem controlledColl_records (c : Circ) (vars : List Angle) (channels : List ℤ) (defaults : List (Angle × ℝ)) (tl : List ℕ) {A B : Coll} (h : CollSameButRecords R H A B) :
    Option.Rel (CollSameButRecords R H) (controlledColl c vars channels defaults tl A) (controlledColl c vars channels defaults tl B) := by
  unfold controlledColl
  split
  · exact Option.Rel.none
  · refine phase_bind (R := fun s t : Coll × (Option ℝ × Option ℝ) => CollSameButRecords R H s.1 t.1 ∧ t.2 = s.2) ?_ (fun s t hst => Option.Rel.some hst.1)
    refine phase_foldlM (R := fun s t : Coll × (Option ℝ × Option ℝ) => CollSameButRecords R H s.1 t.1 ∧ t.2 = s.2) (Q := PairRecords R H) ?_ ⟨.nil, rfl⟩ h
    rintro s t p p' ⟨hs, ht⟩ ⟨hk, hp⟩
    rw [hp.classical, ht]
    refine phase_bind (phase_of_eq (R := Eq) rfl (fun _ => rfl)) ?_
    rintro read _ rfl
    refine phase_bind (phase_of_eq (R := Eq) rfl (fun _ => rfl)) ?_
    rintro th _ rfl
    refine phase_bind (phase_of_eq (R := Eq) rfl (fun _ => rfl)) ?_
    rintro ph _ rfl
    refine phase_bind (opticalColl_records c _ [] (A := [p]) (B := [p']) (.cons ⟨hk, hp⟩ .nil)) (fun X Y hXY => Option.Rel.some ⟨dictRel_update hXY hs, rfl⟩)

/-! ### Measurement -/

theorem collapse_records (g : Cfg) (thr : ℝ) (m : ℕ) (cls o : List ℕ) {q q' : QState} (hq : SameButRecords R H q q') (l : List (Vals × ℂ)) :
    Option.Rel (SameButRecords R H) (collapse g thr m q cls o l) (collapse g thr m q' cls o l) := by
  unfold collapse
  simp only
  split
  · exact Option.Rel.none
  · refine phase_bind (copyState_records hq) (fun x y hxy => ?_)
    rw [hxy.cum, hxy.classical]
    refine phase_bind (phase_of_eq (R := Eq) rfl (fun _ => rfl)) ?_
    rintro cum _ rfl
    refine phase_bind (phase_of_eq (R := Eq) rfl (fun _ => rfl)) ?_
    rintro classical _ rfl
    refine phase_bind (phase_of_eq (R := Eq) rfl (fun _ => rfl)) ?_
    rintro named _ rfl
    refine phase_bind (phase_of_eq (R := Eq) rfl (fun _ => rfl)) ?_
    rintro comps _ rfl
    refine Option.Rel.some ⟨hxy.initial, rfl, rfl, rfl, ?_⟩
    obtain ⟨old, old', new, hH, e, e'⟩ := hxy.results
    exact ⟨old, old', new ++ _, hH, by simp only [e, List.append_assoc]; rfl, by simp only [e', List.append_assoc]⟩

theorem measure_records (g : Cfg) (thr : ℝ) (m : ℕ) (opt cls : List ℕ) {q q' : QState} (hq : SameButRecords R H q q') :
    Option.Rel (List.Forall₂ (SameButRecords R H)) (measure g thr m q opt cls) (measure g thr m q' opt cls) := by
  unfold measure
  rw [hq.comps]
  refine phase_bind (phase_of_eq (R := Eq) rfl (fun _ => rfl)) ?_
  rintro l _ rfl
  refine phase_mapM (Q := Eq) ?_ (forall₂_self _)
  rintro a _ rfl
  exact collapse_records g thr m _ _ hq _

theorem measureColl_records (g : Cfg) (thr : ℝ) (m : ℕ) (mid : List Char) (opt cls : List ℕ) {A B : Coll} (h : CollSameButRecords R H A B) :
    Option.Rel (CollSameButRecords R H) (measureColl g thr m mid opt cls A) (measureColl g thr m mid opt cls B) := by
  unfold measureColl
  refine phase_foldlM (R := CollSameButRecords R H) (Q := PairRecords R H) ?_ .nil h
  rintro s t p p' hs ⟨hk, hp⟩
  refine phase_bind (measure_records g thr m opt cls hp) (fun qs qs' hqs => Option.Rel.some ?_)
  rw [hk]
  have hz : List.Forall₂ (fun a b : QState × ℕ => b.2 = a.2 ∧ SameButRecords R H a.1 b.1) qs.zipIdx qs'.zipIdx := by
    have : ∀ (n : ℕ), List.Forall₂ (fun a b : QState × ℕ => b.2 = a.2 ∧ SameButRecords R H a.1 b.1) (qs.zipIdx n) (qs'.zipIdx n) := by
      induction hqs with
      | nil => intro n; exact .nil
      | cons h1 _ ih => intro n; rw [List.zipIdx_cons, List.zipIdx_cons]; exact .cons ⟨rfl, h1⟩ (ih (n + 1))
    exact this 0
  refine phase_foldl (R := CollSameButRecords R H) (Q := fun a b : QState × ℕ => b.2 = a.2 ∧ SameButRecords R H a.1 b.1) ?_ hs hz
  rintro s t a b hs ⟨e, hab⟩
  rw [e]
  exact dictRel_set hs _ hab

/-! ### Bridges -/

/-- collections with settings -/
structure CollectionRecords (R : List Char → List Char → Prop) (H : List MRes → List MRes → Prop) (a b : Collection) : Prop where
  g : b.g = a.g
  m : b.m = a.m
  thr : b.thr = a.thr
  states : CollSameButRecords R H a.states b.states

theorem reducedState_records (thr : ℝ) (m' : ℕ) (ckeep : List ℕ) {q q' : QState} (hq : SameButRecords R H q q') (c : Comps) :
    Option.Rel (SameButRecords R H) (reducedState thr m' ckeep q c) (reducedState thr m' ckeep q' c) := by
  unfold reducedState
  simp only
  split
  · exact Option.Rel.none
  · rw [hq.classical]
    refine phase_bind (phase_of_eq (R := Eq) rfl (fun _ => rfl)) ?_
    rintro cl _ rfl
    exact newState_records ⟨hq.initial, by simp only [hq.cum], rfl, rfl, hq.results⟩

theorem reduceState_records (g : Cfg) (thr : ℝ) (keep ckeep : List ℕ) (i : List Char) {q q' : QState} (hq : SameButRecords R H q q') :
    Option.Rel (List.Forall₂ (PairRecords R H)) (reduceState g thr keep ckeep i q) (reduceState g thr keep ckeep i q') := by
  unfold reduceState
  rw [hq.comps]
  refine phase_bind (phase_of_eq (R := Eq) rfl (fun _ => rfl)) ?_
  rintro d _ rfl
  refine phase_mapM (Q := Eq) ?_ (forall₂_self _)
  rintro a _ rfl
  exact phase_map (reducedState_records thr _ ckeep hq _) (fun x y hxy => ⟨rfl, hxy⟩)

theorem reduceColl_records (keep ckeep : List ℕ) {a b : Collection} (h : CollectionRecords R H a b) : Option.Rel (CollectionRecords R H) (reduceColl a keep ckeep) (reduceColl b keep ckeep) := by
  obtain ⟨ga, ma, ta, sa⟩ := a
  obtain ⟨gb, mb, tb, sb⟩ := b
  obtain ⟨rfl, rfl, rfl, hs⟩ := h
  have hs : CollSameButRecords R H sa sb := hs
  unfold reduceColl
  simp only
  generalize (if keep = [] then List.range gb.C else keep) = keep
  generalize (if ckeep = [] then List.range mb else ckeep) = ckeep
  split
  · exact Option.Rel.none
  split
  · exact Option.Rel.none
  refine phase_bind (R := CollSameButRecords R H) ?_ (fun x y hxy => ?_)
  · refine phase_foldlM (R := CollSameButRecords R H) (Q := PairRecords R H) ?_ .nil hs
    rintro s t p p' hst ⟨hk, hp⟩
    rw [hk]
    exact phase_map (reduceState_records _ _ _ _ _ hp) (fun l l' hl => dictRel_update hl hst)
  · have he : sb = [] ↔ sa = [] := by
      rw [← List.length_eq_zero_iff, ← List.length_eq_zero_iff, dictRel_length hs]
    by_cases h0 : sa = []
    · rw [if_pos h0, if_pos (he.2 h0)]; exact Option.Rel.some ⟨rfl, rfl, rfl, hs⟩
    · rw [if_neg h0, if_neg (fun h1 => h0 (he.1 h1))]; exact Option.Rel.some ⟨rfl, rfl, rfl, hxy⟩

theorem adjustLength_records (newL : ℕ) {a b : Collection} (h : CollectionRecords R H a b) : Option.Rel (CollectionRecords R H) (adjustLength a newL) (adjustLength b newL) := by
  obtain ⟨ga, ma, ta, sa⟩ := a
  obtain ⟨gb, mb, tb, sb⟩ := b
  obtain ⟨rfl, rfl, rfl, hs⟩ := h
  have hs : CollSameButRecords R H sa sb := hs
  unfold adjustLength
  simp only
  generalize (if newL = 0 then gb.L else newL) = newL
  split
  · exact Option.Rel.none
  refine phase_bind (R := CollSameButRecords R H) ?_ (fun x y hxy => Option.Rel.some ⟨rfl, rfl, rfl, hxy⟩)
  refine phase_foldlM (R := CollSameButRecords R H) (Q := PairRecords R H) ?_ .nil hs
  rintro s t p p' hst ⟨hk, hp⟩
  rw [hk, hp.comps]
  refine phase_bind (phase_of_eq (R := Eq) rfl (fun _ => rfl)) ?_
  rintro d _ rfl
  exact phase_bind (newState_records (records_with hp d)) (fun x y hxy => Option.Rel.some (dictRel_set hst _ hxy))

theorem extendColl_records (eo ec : ℕ) (dist : List ℝ) (r : ℕ → ℕ → ℕ) {a b : Collection} (h : CollectionRecords R H a b) :
    Option.Rel (CollectionRecords R H) (extendColl a eo ec dist r) (extendColl b eo ec dist r) := by
  obtain ⟨ga, ma, ta, sa⟩ := a
  obtain ⟨gb, mb, tb, sb⟩ := b
  obtain ⟨rfl, rfl, rfl, hs⟩ := h
  have hs : CollSameButRecords R H sa sb := hs
  unfold extendColl
  simp only
  generalize (if dist = [] then (1 : ℝ) :: List.replicate (gb.L - 1) 0 else dist) = dist
  split
  · exact Option.Rel.none
  split
  · exact Option.Rel.some ⟨rfl, rfl, rfl, hs⟩
  split
  · exact Option.Rel.none
  refine phase_bind (phase_of_eq (R := Eq) rfl (fun _ => rfl)) ?_
  rintro extra _ rfl
  refine phase_bind (R := CollSameButRecords R H) ?_ (fun x y hxy => Option.Rel.some ⟨rfl, rfl, rfl, hxy⟩)
  refine phase_foldlM (R := CollSameButRecords R H) (Q := Eq) ?_ .nil (forall₂_self _)
  rintro s t e _ hst rfl
  refine phase_foldlM (R := CollSameButRecords R H) (Q := PairRecords R H) ?_ hst hs
  rintro s t p p' hst ⟨hk, hp⟩
  refine phase_bind (R := SameButRecords R H) ?_ (fun q q' hq => ?_)
  · unfold extendedState
    rw [hp.comps]
    refine phase_bind (phase_of_eq (R := Eq) rfl (fun _ => rfl)) ?_
    rintro d _ rfl
    exact Option.Rel.some ⟨hp.initial, by simp only [hp.cum], rfl, by simp only [hp.classical], hp.results⟩
  · rw [hq.cum]
    split
    · refine phase_bind (newState_records hq) (fun x y hxy => ?_)
      rw [dictRel_length hst]
      exact Option.Rel.some (addState_records hst hxy none _)
    · exact Option.Rel.some hst

theorem reshape_records (c next : Circ) (r r' : ℕ → ℕ → ℕ) {A B : Coll} (h : CollSameButRecords R H A B) : Option.Rel (CollectionRecords R H) (reshape c next r r' A) (reshape c next r r' B) := by
  unfold reshape
  refine phase_bind (copyColl_records h) (fun A B h => ?_)
  have h2 : ∀ a b : Collection, CollectionRecords R H a b → Option.Rel (CollectionRecords R H)
      (if next.m > c.m then (extendColl a 0 (next.m - c.m) [] r').bind (fun d => adjustLength d next.g.L)
        else if next.m < c.m then (reduceColl a [] (List.range next.m)).bind (fun d => adjustLength d next.g.L) else adjustLength a next.g.L)
      (if next.m > c.m then (extendColl b 0 (next.m - c.m) [] r').bind (fun d => adjustLength d next.g.L)
        else if next.m < c.m then (reduceColl b [] (List.range next.m)).bind (fun d => adjustLength d next.g.L) else adjustLength b next.g.L) := by
    intro a b hab
    split
    · exact phase_bind (extendColl_records _ _ _ _ hab) (fun a b hab => adjustLength_records _ hab)
    split
    · exact phase_bind (reduceColl_records _ _ hab) (fun a b hab => adjustLength_records _ hab)
    · exact adjustLength_records _ hab
  simp only [Option.bind_eq_bind, Option.bind_some]
  split
  · exact phase_bind (extendColl_records _ _ _ _ ⟨rfl, rfl, rfl, h⟩) h2
  split
  · exact phase_bind (reduceColl_records _ _ ⟨rfl, rfl, rfl, h⟩) h2
  · exact h2 _ _ ⟨rfl, rfl, rfl, h⟩

/-! ### Evaluation -/

theorem evalNodes_records (env : ℕ → Circ) (rnd : ℕ → ℕ → Bool → ℕ → ℕ → ℕ)
    (hgen : ∀ (k i : ℕ) (f : Coll → Option Coll), (env k).nodes[i]? = some (Node.generic f) → ∀ A B, CollSameButRecords R H A B → Option.Rel (CollSameButRecords R H) (f A) (f B)) :
    ∀ (fuel k : ℕ) (nodes : List ℕ) {A B : Coll}, CollSameButRecords R H A B → Option.Rel (CollSameButRecords R H) (evalNodes env rnd fuel k nodes A) (evalNodes env rnd fuel k nodes B)
  | 0, _, _, _, _, _ => Option.Rel.none
  | fuel + 1, k, [], _, _, h => Option.Rel.some h
  | fuel + 1, k, i :: rest, A, B, h => by
    have ih := fun (k : ℕ) (nodes : List ℕ) (A B : Coll) (h : CollSameButRecords R H A B) => evalNodes_records env rnd hgen fuel k nodes h
    unfold evalNodes
    simp only
    split
    · exact Option.Rel.none
    cases hn : (env k).nodes[i]? with
    | none => exact Option.Rel.none
    | some n =>
      cases n with
      | optical M tl =>
        simp only
        cases hl : opticalNodes (env k) (opticalRun (env k) (i :: rest)) with
        | nil => exact Option.Rel.none
        | cons n l => exact phase_bind (opticalColl_records (env k) n l h) (fun x y hxy => ih _ _ _ _ hxy)
      | fockMatrix F => exact phase_bind (customColl_records (env k) F _ h) (fun x y hxy => ih _ _ _ _ hxy)
      | classical f v a => exact phase_bind (classicalColl_records (env k) f v a h) (fun x y hxy => ih _ _ _ _ hxy)
      | measurement opt cls => exact phase_bind (measureColl_records _ _ _ _ opt cls h) (fun x y hxy => ih _ _ _ _ hxy)
      | controlled vars channels defaults tl => exact phase_bind (controlledColl_records (env k) vars channels defaults tl h) (fun x y hxy => ih _ _ _ _ hxy)
      | generic f => exact phase_bind (hgen k i f hn A B h) (fun x y hxy => ih _ _ _ _ hxy)
      | bridge next => exact phase_bind (reshape_records (env k) (env next) _ _ h) (fun x y hxy => ih _ _ _ _ hxy.states)

end Records

end Verif
