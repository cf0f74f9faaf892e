/-
Lemmas for C133: every step of the evaluation commutes with phase factors.
-/
import Verif.Lemmas.Evaluate
import Verif.Spec.GlobalPhase

namespace Verif
open Spec

/-! ### Relations and folds -/

theorem phase_bind {α β γ δ : Type*} {R : α → β → Prop} {S : γ → δ → Prop} {a : Option α} {b : Option β} {f : α → Option γ} {f' : β → Option δ} (h : Option.Rel R a b)
    (hf : ∀ x y, R x y → Option.Rel S (f x) (f' y)) : Option.Rel S (a.bind f) (b.bind f') := by
  cases h with
  | some h => exact hf _ _ h
  | none => exact Option.Rel.none

theorem phase_map {α β γ δ : Type*} {R : α → β → Prop} {S : γ → δ → Prop} {a : Option α} {b : Option β} {f : α → γ} {f' : β → δ} (h : Option.Rel R a b)
    (hf : ∀ x y, R x y → S (f x) (f' y)) : Option.Rel S (a.map f) (b.map f') := by
  cases h with
  | some h => exact Option.Rel.some (hf _ _ h)
  | none => exact Option.Rel.none

theorem phase_of_eq {α : Type*} {R : α → α → Prop} {a b : Option α} (h : a = b) (hr : ∀ x, R x x) : Option.Rel R a b := by
  subst h
  cases a with
  | none => exact Option.Rel.none
  | some x => exact Option.Rel.some (hr x)

theorem phase_eq_iff {α : Type*} {a b : Option α} (h : Option.Rel Eq a b) : a = b := by
  cases h with
  | some h => rw [h]
  | none => rfl

theorem phase_foldlM {α β σ τ : Type*} {Q : α → β → Prop} {R : σ → τ → Prop} {f : σ → α → Option σ} {f' : τ → β → Option τ} (hf : ∀ s t a b, R s t → Q a b → Option.Rel R (f s a) (f' t b)) :
    ∀ {l : List α} {l' : List β} {s : σ} {t : τ}, R s t → List.Forall₂ Q l l' → Option.Rel R (l.foldlM f s) (l'.foldlM f' t)
  | _, _, s, t, hs, .nil => Option.Rel.some hs
  | _, _, s, t, hs, .cons h1 h2 => by
    rw [List.foldlM_cons, List.foldlM_cons]
    exact phase_bind (hf s t _ _ hs h1) (fun x y hxy => phase_foldlM hf hxy h2)

theorem phase_foldl {α β σ τ : Type*} {Q : α → β → Prop} {R : σ → τ → Prop} {f : σ → α → σ} {f' : τ → β → τ} (hf : ∀ s t a b, R s t → Q a b → R (f s a) (f' t b)) :
    ∀ {l : List α} {l' : List β} {s : σ} {t : τ}, R s t → List.Forall₂ Q l l' → R (l.foldl f s) (l'.foldl f' t)
  | _, _, s, t, hs, .nil => hs
  | _, _, s, t, hs, .cons h1 h2 => by
    rw [List.foldl_cons, List.foldl_cons]
    exact phase_foldl hf (hf s t _ _ hs h1) h2

theorem phase_mapM {α β γ δ : Type*} {Q : α → β → Prop} {R : γ → δ → Prop} {f : α → Option γ} {f' : β → Option δ} (hf : ∀ a b, Q a b → Option.Rel R (f a) (f' b)) :
    ∀ {l : List α} {l' : List β}, List.Forall₂ Q l l' → Option.Rel (List.Forall₂ R) (l.mapM f) (l'.mapM f')
  | _, _, .nil => Option.Rel.some .nil
  | _, _, .cons h1 h2 => by
    rw [List.mapM_cons, List.mapM_cons]
    exact phase_bind (hf _ _ h1) (fun x y hxy => phase_bind (phase_mapM hf h2) (fun xs ys hs => Option.Rel.some (.cons hxy hs)))

theorem forall₂_self {α : Type*} (l : List α) : List.Forall₂ Eq l l := List.forall₂_same.2 (fun _ _ => rfl)

/-- dictionaries with the same keys and related values -/
abbrev DictRel {κ α β : Type*} (R : α → β → Prop) (d : Dict κ α) (d' : Dict κ β) : Prop := List.Forall₂ (fun p p' => p'.1 = p.1 ∧ R p.2 p'.2) d d'

theorem dictRel_get {κ α β : Type*} [DecidableEq κ] {R : α → β → Prop} {d : Dict κ α} {d' : Dict κ β} (h : DictRel R d d') (k : κ) : Option.Rel R (Dict.get? d k) (Dict.get? d' k) := by
  induction h with
  | nil => exact Option.Rel.none
  | @cons p p' _ _ h1 _ ih =>
    obtain ⟨k1, v1⟩ := p
    obtain ⟨k2, v2⟩ := p'
    obtain ⟨rfl, h2⟩ := h1
    unfold Dict.get?
    split
    · exact Option.Rel.some h2
    · exact ih

theorem dictRel_set {κ α β : Type*} [DecidableEq κ] {R : α → β → Prop} {d : Dict κ α} {d' : Dict κ β} (h : DictRel R d d') (k : κ) {v : α} {v' : β} (hv : R v v') :
    DictRel R (Dict.set d k v) (Dict.set d' k v') := by
  induction h with
  | nil => exact .cons ⟨rfl, hv⟩ .nil
  | @cons p p' _ _ h1 h2 ih =>
    obtain ⟨k1, v1⟩ := p
    obtain ⟨k2, v2⟩ := p'
    obtain ⟨rfl, h3⟩ := h1
    unfold Dict.set
    split
    · exact .cons ⟨rfl, hv⟩ h2
    · exact .cons ⟨rfl, h3⟩ ih

theorem dictRel_keys {κ α β : Type*} {R : α → β → Prop} {d : Dict κ α} {d' : Dict κ β} (h : DictRel R d d') : Dict.keys d' = Dict.keys d := by
  induction h with
  | nil => rfl
  | cons h1 _ ih => unfold Dict.keys at *; rw [List.map_cons, List.map_cons, ih, h1.1]

theorem dictRel_length {κ α β : Type*} {R : α → β → Prop} {d : Dict κ α} {d' : Dict κ β} (h : DictRel R d d') : d'.length = d.length := h.length_eq.symm

theorem dictRel_update {κ α β : Type*} [DecidableEq κ] {R : α → β → Prop} {e : Dict κ α} {e' : Dict κ β} (he : DictRel R e e') :
    ∀ {d : Dict κ α} {d' : Dict κ β}, DictRel R d d' → DictRel R (e.foldl (fun d p => Dict.set d p.1 p.2) d) (e'.foldl (fun d p => Dict.set d p.1 p.2) d') := by
  intro d d' hd
  exact phase_foldl (R := DictRel R) (Q := fun p p' => p'.1 = p.1 ∧ R p.2 p'.2) (fun s t a b hs hab => by rw [hab.1]; exact dictRel_set hs _ hab.2) hd he

/-! ### Components -/

/-- one component multiplied -/
def CompRel (u : ℂ) (a b : Comp) : Prop := b = ⟨u * a.amp, a.prob⟩

theorem turned_rel (u : ℂ) (c : Comps) : DictRel (CompRel u) c (turned u c) := by
  unfold turned
  induction c with
  | nil => exact .nil
  | cons p c ih => exact .cons ⟨rfl, rfl⟩ ih

theorem turned_of_rel {u : ℂ} {c c' : Comps} (h : DictRel (CompRel u) c c') : c' = turned u c := by
  induction h with
  | nil => rfl
  | @cons p p' _ _ h1 _ ih =>
    obtain ⟨k, v⟩ := p'
    obtain ⟨rfl, rfl⟩ := h1
    rw [ih]; rfl

theorem rel_toVector (g : Cfg) (u : ℂ) {c c' : Comps} (h : DictRel (CompRel u) c c') : Option.Rel (fun x y : ℕ → ℂ => y = fun i => u * x i) (toVector g c) (toVector g c') := by
  unfold toVector
  refine phase_foldlM (Q := fun p p' => p'.1 = p.1 ∧ CompRel u p.2 p'.2) ?_ (by simp) h
  rintro x y p ⟨k, v⟩ rfl ⟨rfl, rfl⟩
  refine phase_bind (phase_of_eq (R := Eq) rfl (fun _ => rfl)) ?_
  rintro i _ rfl
  split
  · refine Option.Rel.some ?_
    funext j
    by_cases hj : j = i
    · subst hj; simp
    · simp [Function.update_of_ne hj]
  · exact Option.Rel.none

theorem norm_turn {u : ℂ} (hu : ‖u‖ = 1) (a : ℂ) : ‖u * a‖ = ‖a‖ := by rw [norm_mul, hu, one_mul]

theorem sq_turn {u : ℂ} (hu : ‖u‖ = 1) (a : ℂ) : (u * a).re ^ 2 + (u * a).im ^ 2 = a.re ^ 2 + a.im ^ 2 := by
  have h : ∀ z : ℂ, z.re ^ 2 + z.im ^ 2 = ‖z‖ ^ 2 := fun z => by rw [← Complex.normSq_eq_norm_sq, Complex.normSq_apply]; ring
  rw [h, h, norm_turn hu]

theorem rel_fromVector (g : Cfg) (thr : ℝ) {u : ℂ} (hu : ‖u‖ = 1) (x : ℕ → ℂ) : Option.Rel (DictRel (CompRel u)) (fromVector g thr x) (fromVector g thr (fun i => u * x i)) := by
  unfold fromVector
  refine phase_foldlM (Q := Eq) ?_ .nil (forall₂_self _)
  rintro d d' i _ hd rfl
  simp only [norm_turn hu]
  split
  · exact Option.Rel.some hd
  · refine phase_bind (phase_of_eq (R := Eq) rfl (fun _ => rfl)) ?_
    rintro s _ rfl
    exact Option.Rel.some (dictRel_set hd _ rfl)

theorem applyReduced_turn (F : SqArr × List ℕ) (u : ℂ) (x : ℕ → ℂ) : applyReduced F (fun i => u * x i) = fun i => u * applyReduced F x i := by
  unfold applyReduced
  have h0 : (fun _ : ℕ => (0 : ℂ)) = fun i => u * (fun _ : ℕ => (0 : ℂ)) i := by simp
  have key : ∀ (l : List (ℕ × ℕ)) (out out' : ℕ → ℂ) (acc acc' : ℕ → ℂ), (∀ i, out' i = u * out i) → (∀ i, acc' i = u * acc i) → ∀ i,
      l.foldl (fun acc p => Function.update acc p.1 (out' p.2)) acc' i = u * l.foldl (fun acc p => Function.update acc p.1 (out p.2)) acc i := by
    intro l
    induction l with
    | nil => intro out out' acc acc' _ h i; exact h i
    | cons p l ih =>
      intro out out' acc acc' ho h i
      refine ih out out' _ _ ho (fun j => ?_) i
      by_cases hj : j = p.1
      · subst hj; simp [ho]
      · simp [Function.update_of_ne hj, h]
  funext i
  refine key _ _ _ _ _ (fun j => ?_) (fun j => by simp) i
  simp only [SqArr.mulVec, Finset.mul_sum]
  exact Finset.sum_congr rfl fun k _ => by ring

theorem mulVec_turn (F : SqArr) (u : ℂ) (x : ℕ → ℂ) : F.mulVec (fun i => u * x i) = fun i => u * F.mulVec x i := by
  funext i
  simp only [SqArr.mulVec, Finset.mul_sum]
  exact Finset.sum_congr rfl fun k _ => by ring

theorem photonNumber_turn (g : Cfg) {u : ℂ} {c c' : Comps} (h : DictRel (CompRel u) c c') : photonNumber g c' = photonNumber g c := by
  unfold photonNumber
  rw [dictRel_keys h]

/-! ### States -/

theorem upToPhase_with {q q' : QState} (h : UpToPhase q q') {c c' : Comps} {u : ℂ} (hu : ‖u‖ = 1) (hc : DictRel (CompRel u) c c') : UpToPhase { q with comps := c } { q' with comps := c' } :=
  ⟨h.initial, h.cum, h.classical, h.results, u, hu, turned_of_rel hc⟩

theorem checkValid_phase {thr : ℝ} {m : ℕ} {q q' : QState} (h : UpToPhase q q') : CheckValid thr m q' ↔ CheckValid thr m q := by
  obtain ⟨u, -, hc⟩ := h.comps
  unfold CheckValid
  rw [h.cum, h.classical, hc]
  simp only [turned, List.forall_mem_map]

theorem copyState_phase {thr : ℝ} {m : ℕ} {q q' : QState} (h : UpToPhase q q') : Option.Rel UpToPhase (copyState thr m q) (copyState thr m q') := by
  unfold copyState
  by_cases hv : CheckValid thr m q
  · rw [if_pos hv, if_pos ((checkValid_phase h).2 hv)]; exact Option.Rel.some h
  · rw [if_neg hv, if_neg (fun h' => hv ((checkValid_phase h).1 h'))]; exact Option.Rel.none

theorem newState_phase {thr : ℝ} {m : ℕ} {q q' : QState} (h : UpToPhase q q') : Option.Rel UpToPhase (newState thr m q) (newState thr m q') := copyState_phase h

/-- two entries of collections -/
abbrev PairPhase (p p' : List Char × QState) : Prop := p'.1 = p.1 ∧ UpToPhase p.2 p'.2

theorem collUpToPhase_iff {A B : Coll} : CollUpToPhase A B ↔ DictRel UpToPhase A B := Iff.rfl

theorem copyColl_phase {thr : ℝ} {m : ℕ} {A B : Coll} (h : CollUpToPhase A B) : Option.Rel CollUpToPhase (copyColl thr m A) (copyColl thr m B) := by
  unfold copyColl selectStates
  refine phase_foldlM (R := CollUpToPhase) (Q := PairPhase) ?_ .nil h
  rintro s t p p' hs ⟨hk, hp⟩
  simp only [Option.bind_eq_bind, Option.bind_some, if_true]
  rw [hk]
  exact phase_bind (copyState_phase hp) (fun x y hxy => Option.Rel.some (dictRel_set hs _ hxy))

/-! ### Nodes -/

theorem groupByPhotons_phase (g : Cfg) {A B : Coll} (h : CollUpToPhase A B) : groupByPhotons g B = groupByPhotons g A := by
  unfold groupByPhotons
  refine (phase_eq_iff (phase_foldlM (R := Eq) (Q := PairPhase) ?_ rfl h)).symm
  rintro s _ p p' rfl ⟨hk, hp⟩
  obtain ⟨u, -, hc⟩ := hp.comps
  rw [hk, photonNumber_turn g (c := p.2.comps) (c' := p'.2.comps) (by rw [hc]; exact turned_rel u p.2.comps)]
  exact phase_of_eq rfl (fun _ => rfl)

theorem opticalColl_phase (c : Circ) (n : Opt × List ℕ) (l : List (Opt × List ℕ)) {A B : Coll} (h : CollUpToPhase A B) : Option.Rel CollUpToPhase (opticalColl c n l A) (opticalColl c n l B) := by
  unfold opticalColl
  refine phase_bind (copyColl_phase h) (fun A B h => ?_)
  have hg : opticalGroups c B = opticalGroups c A := by
    unfold opticalGroups
    rw [groupByPhotons_phase c.g h, dictRel_keys h]
  rw [hg]
  refine phase_bind (phase_of_eq (R := Eq) rfl (fun _ => rfl)) ?_
  rintro groups _ rfl
  refine phase_foldlM (R := CollUpToPhase) (Q := Eq) ?_ h (forall₂_self _)
  rintro s t gr _ hs rfl
  refine phase_foldlM (R := CollUpToPhase) (Q := Eq) ?_ hs (forall₂_self _)
  rintro s t i _ hs rfl
  refine phase_bind (dictRel_get hs i) (fun q q' hq => ?_)
  obtain ⟨u, hu, hc⟩ := hq.comps
  refine phase_bind (rel_toVector c.g u (hc ▸ turned_rel u q.comps)) ?_
  rintro x _ rfl
  rw [applyReduced_turn]
  exact phase_bind (rel_fromVector c.g c.thr hu _) (fun d d' hd => Option.Rel.some (dictRel_set hs i (upToPhase_with hq hu hd)))

theorem addState_phase {A B : Coll} (h : CollUpToPhase A B) {q q' : QState} (hq : UpToPhase q q') (i : Option (List Char)) (r : ℕ → ℕ) : CollUpToPhase (addState A q i r) (addState B q' i r) := by
  unfold addState
  rw [dictRel_keys h]
  exact dictRel_set h _ hq

theorem customColl_phase (c : Circ) (F : SqArr) (r : ℕ → ℕ → ℕ) {A B : Coll} (h : CollUpToPhase A B) : Option.Rel CollUpToPhase (customColl c F r A) (customColl c F r B) := by
  unfold customColl
  refine phase_foldlM (R := CollUpToPhase) (Q := PairPhase) ?_ .nil h
  rintro s t p p' hs ⟨hk, hp⟩
  refine phase_bind (copyState_phase hp) (fun q q' hq => ?_)
  split
  · exact Option.Rel.none
  · obtain ⟨u, hu, hc⟩ := hp.comps
    unfold applyCustom
    refine phase_bind (S := CollUpToPhase) (R := DictRel (CompRel u)) ?_ (fun d d' hd => ?_)
    · refine phase_bind (rel_toVector c.g u (hc ▸ turned_rel u p.2.comps)) ?_
      rintro x _ rfl
      rw [mulVec_turn]
      exact rel_fromVector c.g c.thr hu _
    · rw [dictRel_length hs]
      exact Option.Rel.some (addState_phase hs (upToPhase_with hq hu hd) none _)

theorem classicalColl_phase (c : Circ) (f : List ℝ → List ℝ → List ℤ → Option (List ℝ)) (v : List ℝ) (a : List ℤ) {A B : Coll} (h : CollUpToPhase A B) :
    Option.Rel CollUpToPhase (classicalColl c f v a A) (classicalColl c f v a B) := by
  unfold classicalColl
  refine phase_mapM (Q := PairPhase) ?_ h
  rintro p p' ⟨hk, hp⟩
  rw [hk, hp.classical]
  refine phase_bind (phase_of_eq (R := Eq) rfl (fun _ => rfl)) ?_
  rintro vals _ rfl
  split
  · exact Option.Rel.some ⟨rfl, hp.initial, hp.cum, rfl, hp.results, hp.comps⟩
  · exact Option.Rel.none

theorem controlledColl_phase (c : Circ) (vars : List Angle) (channels : List ℤ) (defaults : List (Angle × ℝ)) (tl : List ℕ) {A B : Coll} (h : CollUpToPhase A B) :
    Option.Rel CollUpToPhase (controlledColl c vars channels defaults tl A) (controlledColl c vars channels defaults tl B) := by
  unfold controlledColl
  split
  · exact Option.Rel.none
  · refine phase_bind (R := fun s t : Coll × (Option ℝ × Option ℝ) => CollUpToPhase s.1 t.1 ∧ t.2 = s.2) ?_ (fun s t hst => Option.Rel.some hst.1)
    refine phase_foldlM (R := fun s t : Coll × (Option ℝ × Option ℝ) => CollUpToPhase s.1 t.1 ∧ t.2 = s.2) (Q := PairPhase) ?_ ⟨.nil, rfl⟩ h
    rintro s t p p' ⟨hs, ht⟩ ⟨hk, hp⟩
    rw [hp.classical, ht]
    refine phase_bind (phase_of_eq (R := Eq) rfl (fun _ => rfl)) ?_
    rintro read _ rfl
    refine phase_bind (phase_of_eq (R := Eq) rfl (fun _ => rfl)) ?_
    rintro th _ rfl
    refine phase_bind (phase_of_eq (R := Eq) rfl (fun _ => rfl)) ?_
    rintro ph _ rfl
    refine phase_bind (opticalColl_phase c _ [] (A := [p]) (B := [p']) (.cons ⟨hk, hp⟩ .nil)) (fun X Y hXY => Option.Rel.some ⟨dictRel_update hXY hs, rfl⟩)

/-! ### Measurement -/

theorem groupBy_phase {u : ℂ} (opt : List ℕ) {l l' : List (Vals × ℂ)} (h : List.Forall₂ (fun p p' : Vals × ℂ => p' = (p.1, u * p.2)) l l') :
    DictRel (List.Forall₂ (fun p p' : Vals × ℂ => p' = (p.1, u * p.2))) (groupBy (fun p : Vals × ℂ => outcomeOf opt p.1) l) (groupBy (fun p : Vals × ℂ => outcomeOf opt p.1) l') := by
  unfold groupBy
  refine phase_foldl (R := DictRel (List.Forall₂ (fun p p' : Vals × ℂ => p' = (p.1, u * p.2)))) (Q := fun p p' : Vals × ℂ => p' = (p.1, u * p.2)) ?_ .nil h
  rintro s t p _ hs rfl
  refine dictRel_set hs _ ?_
  refine List.rel_append ?_ (.cons rfl .nil)
  have := dictRel_get hs (outcomeOf opt p.1)
  revert this
  generalize Dict.get? s (outcomeOf opt p.1) = a
  generalize Dict.get? t (outcomeOf opt p.1) = b
  intro this
  cases this with
  | none => exact .nil
  | some h => exact h

theorem setFromDict_phase (g : Cfg) {u : ℂ} {c c' : Comps} (hd : DictRel (CompRel u) c c') : Option.Rel (DictRel (CompRel u)) (setFromDict g c) (setFromDict g c') := by
  have hall : c'.all (fun p => g.containsName p.1 == some true) = c.all (fun p => g.containsName p.1 == some true) := by
    induction hd with
    | nil => rfl
    | cons h1 _ ih => rw [List.all_cons, List.all_cons, ih, h1.1]
  unfold setFromDict
  rw [hall]
  split
  · exact Option.Rel.some hd
  · exact Option.Rel.none

theorem collapse_phase (g : Cfg) (thr : ℝ) (m : ℕ) (cls o : List ℕ) {q q' : QState} (hq : UpToPhase q q') {u : ℂ} (hu : ‖u‖ = 1) {l l' : List (Vals × ℂ)}
    (h : List.Forall₂ (fun p p' : Vals × ℂ => p' = (p.1, u * p.2)) l l') : Option.Rel UpToPhase (collapse g thr m q cls o l) (collapse g thr m q' cls o l') := by
  have htot : (l'.map (fun p => p.2.re ^ 2 + p.2.im ^ 2)).sum = (l.map (fun p => p.2.re ^ 2 + p.2.im ^ 2)).sum := by
    clear hq
    induction h with
    | nil => rfl
    | cons h1 _ ih => subst h1; rw [List.map_cons, List.map_cons, List.sum_cons, List.sum_cons, ih, sq_turn hu]
  unfold collapse
  simp only [htot]
  split
  · exact Option.Rel.none
  · refine phase_bind (copyState_phase hq) (fun x y hxy => ?_)
    rw [hxy.cum, hxy.classical]
    refine phase_bind (phase_of_eq (R := Eq) rfl (fun _ => rfl)) ?_
    rintro cum _ rfl
    refine phase_bind (phase_of_eq (R := Eq) rfl (fun _ => rfl)) ?_
    rintro classical _ rfl
    refine phase_bind (R := DictRel (CompRel u)) ?_ (fun named named' hn => ?_)
    · refine phase_mapM (Q := fun p p' : Vals × ℂ => p' = (p.1, u * p.2)) ?_ h
      rintro p _ rfl
      refine phase_bind (phase_of_eq (R := Eq) rfl (fun _ => rfl)) ?_
      rintro s _ rfl
      refine Option.Rel.some ⟨rfl, ?_⟩
      unfold CompRel
      simp only [mul_div_assoc, sq_turn hu]
    · have hd : DictRel (CompRel u) (Dict.ofList named) (Dict.ofList named') := dictRel_update hn .nil
      refine phase_bind (R := DictRel (CompRel u)) ?_ (fun d d' hd' => Option.Rel.some ⟨hxy.initial, rfl, rfl, by simp only [hxy.results], u, hu, turned_of_rel hd'⟩)
      exact setFromDict_phase g hd

theorem measure_phase (g : Cfg) (thr : ℝ) (m : ℕ) (opt cls : List ℕ) {q q' : QState} (hq : UpToPhase q q') : Option.Rel (List.Forall₂ UpToPhase) (measure g thr m q opt cls) (measure g thr m q' opt cls) := by
  obtain ⟨u, hu, hc⟩ := hq.comps
  unfold measure
  refine phase_bind (R := List.Forall₂ (fun p p' : Vals × ℂ => p' = (p.1, u * p.2))) ?_ (fun l l' hl => ?_)
  · refine phase_mapM (Q := fun p p' => p'.1 = p.1 ∧ CompRel u p.2 p'.2) ?_ (hc ▸ turned_rel u q.comps)
    rintro p ⟨k, v⟩ ⟨rfl, rfl⟩
    exact phase_map (phase_of_eq (R := Eq) rfl (fun _ => rfl)) (by rintro v _ rfl; rfl)
  · refine phase_mapM (Q := fun a b : List ℕ × List (Vals × ℂ) => b.1 = a.1 ∧ List.Forall₂ (fun p p' : Vals × ℂ => p' = (p.1, u * p.2)) a.2 b.2) ?_ (groupBy_phase opt hl)
    rintro a b ⟨e, hab⟩
    rw [e]
    exact collapse_phase g thr m _ _ hq hu hab

theorem measureColl_phase (g : Cfg) (thr : ℝ) (m : ℕ) (mid : List Char) (opt cls : List ℕ) {A B : Coll} (h : CollUpToPhase A B) :
    Option.Rel CollUpToPhase (measureColl g thr m mid opt cls A) (measureColl g thr m mid opt cls B) := by
  unfold measureColl
  refine phase_foldlM (R := CollUpToPhase) (Q := PairPhase) ?_ .nil h
  rintro s t p p' hs ⟨hk, hp⟩
  refine phase_bind (measure_phase g thr m opt cls hp) (fun qs qs' hqs => Option.Rel.some ?_)
  rw [hk]
  have hz : List.Forall₂ (fun a b : QState × ℕ => b.2 = a.2 ∧ UpToPhase a.1 b.1) qs.zipIdx qs'.zipIdx := by
    have : ∀ (n : ℕ), List.Forall₂ (fun a b : QState × ℕ => b.2 = a.2 ∧ UpToPhase a.1 b.1) (qs.zipIdx n) (qs'.zipIdx n) := by
      induction hqs with
      | nil => intro n; exact .nil
      | cons h1 _ ih => intro n; rw [List.zipIdx_cons, List.zipIdx_cons]; exact .cons ⟨rfl, h1⟩ (ih (n + 1))
    exact this 0
  refine phase_foldl (R := CollUpToPhase) (Q := fun a b : QState × ℕ => b.2 = a.2 ∧ UpToPhase a.1 b.1) ?_ hs hz
  rintro s t a b hs ⟨e, hab⟩
  rw [e]
  exact dictRel_set hs _ hab

/-! ### Bridges -/

/-- collections with settings -/
structure CollectionPhase (a b : Collection) : Prop where
  g : b.g = a.g
  m : b.m = a.m
  thr : b.thr = a.thr
  states : CollUpToPhase a.states b.states

theorem groupTraced_phase (g : Cfg) (keep : List ℕ) {u : ℂ} {c c' : Comps} (h : DictRel (CompRel u) c c') : Option.Rel (DictRel (DictRel (CompRel u))) (groupTraced g keep c) (groupTraced g keep c') := by
  unfold groupTraced
  refine phase_foldlM (R := DictRel (DictRel (CompRel u))) (Q := fun p p' : Name × Comp => p'.1 = p.1 ∧ CompRel u p.2 p'.2) ?_ .nil h
  rintro d d' p ⟨k, v⟩ hd ⟨rfl, hp⟩
  refine phase_bind (phase_of_eq (R := Eq) rfl (fun _ => rfl)) ?_
  rintro v _ rfl
  split
  · refine phase_bind (phase_of_eq (R := Eq) rfl (fun _ => rfl)) ?_
    rintro s _ rfl
    refine Option.Rel.some (dictRel_set hd _ (dictRel_set ?_ _ hp))
    have := dictRel_get hd (dropName g keep v)
    revert this
    generalize Dict.get? d (dropName g keep v) = a
    generalize Dict.get? d' (dropName g keep v) = b
    intro this
    cases this with
    | none => exact .nil
    | some h => exact h
  · exact Option.Rel.none

theorem scale_phase {u : ℂ} (hu : ‖u‖ = 1) (f : ℂ) {c c' : Comps} (h : DictRel (CompRel u) c c') :
    DictRel (CompRel u) (c.map (fun p => (p.1, (⟨p.2.amp * f, ‖p.2.amp * f‖ ^ 2⟩ : Comp)))) (c'.map (fun p => (p.1, (⟨p.2.amp * f, ‖p.2.amp * f‖ ^ 2⟩ : Comp)))) := by
  induction h with
  | nil => exact .nil
  | @cons p p' _ _ h1 _ ih =>
    obtain ⟨k, v⟩ := p'
    obtain ⟨rfl, rfl⟩ := h1
    rw [List.map_cons, List.map_cons]
    refine .cons ⟨rfl, ?_⟩ ih
    unfold CompRel
    simp only [mul_assoc, norm_turn hu]

theorem reducedState_phase (thr : ℝ) (m' : ℕ) (ckeep : List ℕ) {q q' : QState} (hq : UpToPhase q q') {u : ℂ} (hu : ‖u‖ = 1) {c c' : Comps} (h : DictRel (CompRel u) c c') :
    Option.Rel UpToPhase (reducedState thr m' ckeep q c) (reducedState thr m' ckeep q' c') := by
  have htot : (c'.map (fun p => ‖p.2.amp‖ ^ 2)).sum = (c.map (fun p => ‖p.2.amp‖ ^ 2)).sum := by
    induction h with
    | nil => rfl
    | cons h1 _ ih => rw [List.map_cons, List.map_cons, List.sum_cons, List.sum_cons, ih, h1.2]; simp only [norm_turn hu]
  unfold reducedState
  simp only [htot]
  split
  · exact Option.Rel.none
  · rw [hq.classical]
    refine phase_bind (phase_of_eq (R := Eq) rfl (fun _ => rfl)) ?_
    rintro cl _ rfl
    refine newState_phase ⟨hq.initial, by simp only [hq.cum], rfl, hq.results, u, hu, turned_of_rel ?_⟩
    exact scale_phase hu _ h

theorem reduceState_phase (g : Cfg) (thr : ℝ) (keep ckeep : List ℕ) (i : List Char) {q q' : QState} (hq : UpToPhase q q') :
    Option.Rel (List.Forall₂ PairPhase) (reduceState g thr keep ckeep i q) (reduceState g thr keep ckeep i q') := by
  obtain ⟨u, hu, hc⟩ := hq.comps
  unfold reduceState
  refine phase_bind (groupTraced_phase g keep (u := u) (hc ▸ turned_rel u q.comps)) (fun d d' hd => ?_)
  refine phase_mapM (Q := fun a b : List Char × Comps => b.1 = a.1 ∧ DictRel (CompRel u) a.2 b.2) ?_ hd
  rintro a b ⟨e, hab⟩
  rw [e]
  exact phase_map (reducedState_phase thr _ ckeep hq hu hab) (fun x y hxy => ⟨rfl, hxy⟩)

theorem reduceColl_phase (keep ckeep : List ℕ) {a b : Collection} (h : CollectionPhase a b) : Option.Rel CollectionPhase (reduceColl a keep ckeep) (reduceColl b keep ckeep) := by
  obtain ⟨ga, ma, ta, sa⟩ := a
  obtain ⟨gb, mb, tb, sb⟩ := b
  obtain ⟨rfl, rfl, rfl, hs⟩ := h
  have hs : CollUpToPhase sa sb := hs
  unfold reduceColl
  simp only
  generalize (if keep = [] then List.range gb.C else keep) = keep
  generalize (if ckeep = [] then List.range mb else ckeep) = ckeep
  split
  · exact Option.Rel.none
  split
  · exact Option.Rel.none
  refine phase_bind (R := CollUpToPhase) ?_ (fun x y hxy => ?_)
  · refine phase_foldlM (R := CollUpToPhase) (Q := PairPhase) ?_ .nil hs
    rintro s t p p' hst ⟨hk, hp⟩
    rw [hk]
    exact phase_map (reduceState_phase _ _ _ _ _ hp) (fun l l' hl => dictRel_update hl hst)
  · have he : sb = [] ↔ sa = [] := by
      rw [← List.length_eq_zero_iff, ← List.length_eq_zero_iff, dictRel_length hs]
    by_cases h0 : sa = []
    · rw [if_pos h0, if_pos (he.2 h0)]; exact Option.Rel.some ⟨rfl, rfl, rfl, hs⟩
    · rw [if_neg h0, if_neg (fun h1 => h0 (he.1 h1))]; exact Option.Rel.some ⟨rfl, rfl, rfl, hxy⟩

/-- renaming of components commutes with the phase -/
theorem rename_phase {u : ℂ} (f : Name → Option Name) {c c' : Comps} (h : DictRel (CompRel u) c c') :
    Option.Rel (DictRel (CompRel u)) (c.foldlM (fun (d : Comps) p => (f p.1).bind (fun s => some (d.set s p.2))) []) (c'.foldlM (fun (d : Comps) p => (f p.1).bind (fun s => some (d.set s p.2))) []) := by
  refine phase_foldlM (R := DictRel (CompRel u)) (Q := fun p p' : Name × Comp => p'.1 = p.1 ∧ CompRel u p.2 p'.2) ?_ .nil h
  rintro d d' p ⟨k, v⟩ hd ⟨rfl, hp⟩
  refine phase_bind (phase_of_eq (R := Eq) rfl (fun _ => rfl)) ?_
  rintro s _ rfl
  exact Option.Rel.some (dictRel_set hd _ hp)

theorem adjustLength_phase (newL : ℕ) {a b : Collection} (h : CollectionPhase a b) : Option.Rel CollectionPhase (adjustLength a newL) (adjustLength b newL) := by
  obtain ⟨ga, ma, ta, sa⟩ := a
  obtain ⟨gb, mb, tb, sb⟩ := b
  obtain ⟨rfl, rfl, rfl, hs⟩ := h
  have hs : CollUpToPhase sa sb := hs
  unfold adjustLength
  simp only
  generalize (if newL = 0 then gb.L else newL) = newL
  split
  · exact Option.Rel.none
  refine phase_bind (R := CollUpToPhase) ?_ (fun x y hxy => Option.Rel.some ⟨rfl, rfl, rfl, hxy⟩)
  refine phase_foldlM (R := CollUpToPhase) (Q := PairPhase) ?_ .nil hs
  rintro s t p p' hst ⟨hk, hp⟩
  obtain ⟨u, hu, hc⟩ := hp.comps
  rw [hk]
  refine phase_bind (R := DictRel (CompRel u)) ?_ (fun d d' hd => ?_)
  · have := rename_phase (u := u) (fun n => (gb.parse n).bind (fun v => (⟨newL, gb.C, gb.left⟩ : Cfg).render (v.map (· % newL))))
      (c := p.2.comps) (c' := p'.2.comps) (by rw [hc]; exact turned_rel u p.2.comps)
    simpa only [Option.bind_assoc, Option.bind_eq_bind] using this
  · exact phase_bind (newState_phase (upToPhase_with hp hu hd)) (fun x y hxy => Option.Rel.some (dictRel_set hst _ hxy))

theorem extendColl_phase (eo ec : ℕ) (dist : List ℝ) (r : ℕ → ℕ → ℕ) {a b : Collection} (h : CollectionPhase a b) : Option.Rel CollectionPhase (extendColl a eo ec dist r) (extendColl b eo ec dist r) := by
  obtain ⟨ga, ma, ta, sa⟩ := a
  obtain ⟨gb, mb, tb, sb⟩ := b
  obtain ⟨rfl, rfl, rfl, hs⟩ := h
  have hs : CollUpToPhase sa sb := hs
  unfold extendColl
  simp only
  generalize (if dist = [] then (1 : ℝ) :: List.replicate (gb.L - 1) 0 else dist) = dist
  split
  · exact Option.Rel.none
  split
  · exact Option.Rel.some ⟨rfl, rfl, rfl, hs⟩
  split
  · exact Option.Rel.none
  refine phase_bind (phase_of_eq (R := Eq) rfl (fun _ => rfl)) ?_
  rintro extra _ rfl
  refine phase_bind (R := CollUpToPhase) ?_ (fun x y hxy => Option.Rel.some ⟨rfl, rfl, rfl, hxy⟩)
  refine phase_foldlM (R := CollUpToPhase) (Q := Eq) ?_ .nil (forall₂_self _)
  rintro s t e _ hst rfl
  refine phase_foldlM (R := CollUpToPhase) (Q := PairPhase) ?_ hst hs
  rintro s t p p' hst ⟨hk, hp⟩
  refine phase_bind (R := UpToPhase) ?_ (fun q q' hq => ?_)
  · obtain ⟨u, hu, hc⟩ := hp.comps
    unfold extendedState
    refine phase_bind (R := DictRel (CompRel u)) ?_ (fun d d' hd => Option.Rel.some ⟨hp.initial, by simp only [hp.cum], by simp only [hp.classical], hp.results, u, hu, turned_of_rel hd⟩)
    have := rename_phase (u := u) (fun n => (gb.parse n).bind (fun v => (⟨gb.L, gb.C + eo, gb.left⟩ : Cfg).render (v ++ e.2.2)))
      (c := p.2.comps) (c' := p'.2.comps) (by rw [hc]; exact turned_rel u p.2.comps)
    simpa only [Option.bind_assoc, Option.bind_eq_bind] using this
  · rw [hq.cum]
    split
    · refine phase_bind (newState_phase hq) (fun x y hxy => ?_)
      rw [dictRel_length hst]
      exact Option.Rel.some (addState_phase hst hxy none _)
    · exact Option.Rel.some hst

theorem reshape_phase (c next : Circ) (r r' : ℕ → ℕ → ℕ) {A B : Coll} (h : CollUpToPhase A B) : Option.Rel CollectionPhase (reshape c next r r' A) (reshape c next r r' B) := by
  unfold reshape
  refine phase_bind (copyColl_phase h) (fun A B h => ?_)
  have h2 : ∀ a b : Collection, CollectionPhase a b → Option.Rel CollectionPhase
      (if next.m > c.m then (extendColl a 0 (next.m - c.m) [] r').bind (fun d => adjustLength d next.g.L)
        else if next.m < c.m then (reduceColl a [] (List.range next.m)).bind (fun d => adjustLength d next.g.L) else adjustLength a next.g.L)
      (if next.m > c.m then (extendColl b 0 (next.m - c.m) [] r').bind (fun d => adjustLength d next.g.L)
        else if next.m < c.m then (reduceColl b [] (List.range next.m)).bind (fun d => adjustLength d next.g.L) else adjustLength b next.g.L) := by
    intro a b hab
    split
    · exact phase_bind (extendColl_phase _ _ _ _ hab) (fun a b hab => adjustLength_phase _ hab)
    split
    · exact phase_bind (reduceColl_phase _ _ hab) (fun a b hab => adjustLength_phase _ hab)
    · exact adjustLength_phase _ hab
  simp only [Option.bind_eq_bind, Option.bind_some]
  split
  · exact phase_bind (extendColl_phase _ _ _ _ ⟨rfl, rfl, rfl, h⟩) h2
  split
  · exact phase_bind (reduceColl_phase _ _ ⟨rfl, rfl, rfl, h⟩) h2
  · exact h2 _ _ ⟨rfl, rfl, rfl, h⟩

/-! ### Evaluation -/

theorem evalNodes_phase (env : ℕ → Circ) (rnd : ℕ → ℕ → Bool → ℕ → ℕ → ℕ)
    (hgen : ∀ (k i : ℕ) (f : Coll → Option Coll), (env k).nodes[i]? = some (Node.generic f) → ∀ A B, CollUpToPhase A B → Option.Rel CollUpToPhase (f A) (f B)) :
    ∀ (fuel k : ℕ) (nodes : List ℕ) {A B : Coll}, CollUpToPhase A B → Option.Rel CollUpToPhase (evalNodes env rnd fuel k nodes A) (evalNodes env rnd fuel k nodes B)
  | 0, _, _, _, _, _ => Option.Rel.none
  | fuel + 1, k, [], _, _, h => Option.Rel.some h
  | fuel + 1, k, i :: rest, A, B, h => by
    have ih := fun (k : ℕ) (nodes : List ℕ) (A B : Coll) (h : CollUpToPhase A B) => evalNodes_phase env rnd hgen fuel k nodes h
    unfold evalNodes
    simp only
    split
    · exact Option.Rel.none
    cases hn : (env k).nodes[i]? with
    | none => exact Option.Rel.none
    | some n =>
      cases n with
      | optical M tl =>
        simp only
        cases hl : opticalNodes (env k) (opticalRun (env k) (i :: rest)) with
        | nil => exact Option.Rel.none
        | cons n l => exact phase_bind (opticalColl_phase (env k) n l h) (fun x y hxy => ih _ _ _ _ hxy)
      | fockMatrix F => exact phase_bind (customColl_phase (env k) F _ h) (fun x y hxy => ih _ _ _ _ hxy)
      | classical f v a => exact phase_bind (classicalColl_phase (env k) f v a h) (fun x y hxy => ih _ _ _ _ hxy)
      | measurement opt cls => exact phase_bind (measureColl_phase _ _ _ _ opt cls h) (fun x y hxy => ih _ _ _ _ hxy)
      | controlled vars channels defaults tl => exact phase_bind (controlledColl_phase (env k) vars channels defaults tl h) (fun x y hxy => ih _ _ _ _ hxy)
      | generic f => exact phase_bind (hgen k i f hn A B h) (fun x y hxy => ih _ _ _ _ hxy)
      | bridge next => exact phase_bind (reshape_phase (env k) (env next) _ _ h) (fun x y hxy => ih _ _ _ _ hxy.states)

end Verif
