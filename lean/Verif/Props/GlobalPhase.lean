/-
Property C133: phase factors of states have no observable effect.
-/
import Verif.Lemmas.GlobalPhase
import Verif.Model.ShiftColl
import Verif.Model.Plot
import Verif.Spec.Superposition
import Verif.Lemmas.Collection
import Verif.Model.OperatorNodes
import Verif.Props.Born

namespace Verif.Props
open Verif Spec

/-- A function of a node that does not look at phase factors. -/
def PhaseBlind (f : Coll → Option Coll) : Prop := ∀ A B, CollUpToPhase A B → Option.Rel CollUpToPhase (f A) (f B)

theorem upToPhase_symm {q q' : QState} (h : UpToPhase q q') : UpToPhase q' q := by
  obtain ⟨u, hu, hc⟩ := h.comps
  refine ⟨h.initial.symm, h.cum.symm, h.classical.symm, h.results.symm, star u, by rw [norm_star, hu], ?_⟩
  have h1 : star u * u = 1 := by
    rw [Complex.star_def, ← Complex.normSq_eq_conj_mul_self, Complex.normSq_eq_norm_sq, hu]; norm_num
  rw [hc]
  unfold turned
  rw [List.map_map]
  conv_lhs => rw [← List.map_id q.comps]
  refine List.map_congr_left fun p _ => ?_
  simp only [Function.comp, id, ← mul_assoc, h1, one_mul]

theorem collUpToPhase_symm {A B : Coll} (h : CollUpToPhase A B) : CollUpToPhase B A := by
  induction h with
  | nil => exact .nil
  | cons h1 _ ih => exact .cons ⟨h1.1.symm, upToPhase_symm h1.2⟩ ih

theorem collUpToPhase_refl (A : Coll) : CollUpToPhase A A := by
  refine List.forall₂_same.2 (fun p _ => ⟨rfl, rfl, rfl, rfl, rfl, 1, by simp, ?_⟩)
  unfold turned
  conv_lhs => rw [← List.map_id p.2.comps]
  exact List.map_congr_left fun p _ => by simp

theorem phase_exists {α : Type} {R : α → α → Prop} {a b : Option α} (h : Option.Rel R a b) {x : α} (hx : a = some x) : ∃ y, b = some y ∧ R x y := by
  subst hx
  cases h with
  | some h => exact ⟨_, rfl, h⟩

/-- **C133** Evaluating circuits (optical nodes, custom matrices, measurements, classical and controlled nodes, bridges to other circuits, in any combination) for two collections whose states
differ by phase factors: the same identifiers, labels, probabilities, classical values and measurement results, and components that again differ by phase factors only; an exception occurs for both
or for neither. Nodes with a function of the user must not look at phases themselves (`C133_shift_nodes`: those of the library do not). -/
theorem C133_evaluation (env : ℕ → Circ) (rnd : ℕ → ℕ → Bool → ℕ → ℕ → ℕ) (hgen : ∀ (k i : ℕ) (f : Coll → Option Coll), (env k).nodes[i]? = some (Node.generic f) → PhaseBlind f)
    (fuel k : ℕ) (nodes : List ℕ) (A B : Coll) (h : CollUpToPhase A B) :
    (∀ outA, evalNodes env rnd fuel k nodes A = some outA → ∃ outB, evalNodes env rnd fuel k nodes B = some outB ∧ CollUpToPhase outA outB) ∧
    (evalNodes env rnd fuel k nodes A = none ↔ evalNodes env rnd fuel k nodes B = none) := by
  have hr := evalNodes_phase env rnd (fun k i f hf => hgen k i f hf) fuel k nodes h
  refine ⟨fun outA hA => phase_exists hr hA, ?_⟩
  generalize evalNodes env rnd fuel k nodes A = a at hr
  generalize evalNodes env rnd fuel k nodes B = b at hr
  cases hr <;> simp

/-- **C133** The same for a compound circuit. -/
theorem C133_compound (d : Circ) (cs : List Circ) (rnd : ℕ → ℕ → Bool → ℕ → ℕ → ℕ) (hd : ∀ f : Coll → Option Coll, Node.generic f ∈ d.nodes → PhaseBlind f)
    (hgen : ∀ c ∈ cs, ∀ f : Coll → Option Coll, Node.generic f ∈ c.nodes → PhaseBlind f) (fuel : ℕ) (A B : Coll) (h : CollUpToPhase A B) :
    (∀ outA, evalCompound d cs rnd fuel A = some outA → ∃ outB, evalCompound d cs rnd fuel B = some outB ∧ CollUpToPhase outA outB) ∧
    (evalCompound d cs rnd fuel A = none ↔ evalCompound d cs rnd fuel B = none) := by
  refine C133_evaluation (compoundEnv d cs) rnd ?_ fuel 0 _ A B h
  intro k i f hf
  have hm := List.mem_of_getElem? hf
  have hk : Node.generic f ∈ (cs.getD k d).nodes := by
    unfold compoundEnv at hm
    simp only at hm
    split at hm
    · rcases List.mem_append.1 hm with hm | hm
      · exact hm
      · simp at hm
    · exact hm
  by_cases hlt : k < cs.length
  · rw [List.getD_eq_getElem _ _ hlt] at hk
    exact hgen _ (List.getElem_mem hlt) f hk
  · rw [List.getD_eq_default _ _ (by omega)] at hk
    exact hd f hk

/-- **C133** The nodes `shift_direct` and `c_shift_direct` do not look at phases. -/
theorem C133_shift_nodes (c : Circ) (r : ℕ → ℕ → ℕ) (move : Vals → Option Vals) : PhaseBlind (moveColl c move r) := by
  intro A B h
  unfold moveColl
  refine phase_bind (copyColl_phase h) (fun _ _ _ => ?_)
  refine phase_foldlM (R := CollUpToPhase) (Q := PairPhase) ?_ .nil h
  rintro s t p p' hs ⟨hk, hp⟩
  refine phase_bind (copyState_phase hp) (fun q q' hq => ?_)
  obtain ⟨u, hu, hc⟩ := hp.comps
  refine phase_bind (R := DictRel (CompRel u)) ?_ (fun d d' hd => ?_)
  · unfold moveComps
    refine phase_bind (R := DictRel (CompRel u)) ?_ (fun d d' hd => setFromDict_phase c.g hd)
    have := rename_phase (u := u) (fun n => (c.g.parse n).bind (fun v => (move v).bind (fun w => c.g.render w))) (c := p.2.comps) (c' := p'.2.comps) (by rw [hc]; exact turned_rel u p.2.comps)
    simpa only [Option.bind_assoc, Option.bind_eq_bind] using this
  · rw [dictRel_length hs]
    exact Option.Rel.some (addState_phase hs (upToPhase_with hq hu hd) none _)

theorem setFromList_phase (g : Cfg) {u : ℂ} (hu : ‖u‖ = 1) {l l' : List (Name × ℂ)} (h : List.Forall₂ (fun p p' : Name × ℂ => p' = (p.1, u * p.2)) l l') :
    Option.Rel (DictRel (CompRel u)) (setFromList g l) (setFromList g l') := by
  unfold setFromList
  refine phase_foldlM (R := DictRel (CompRel u)) (Q := fun p p' : Name × ℂ => p' = (p.1, u * p.2)) ?_ .nil h
  rintro d d' p _ hd rfl
  simp only
  split
  · have hget := dictRel_get hd p.1
    revert hget
    generalize Dict.get? d p.1 = a
    generalize Dict.get? d' p.1 = b
    intro hget
    cases hget with
    | none => exact Option.Rel.some (dictRel_set hd _ (by unfold CompRel; simp only [norm_turn hu]))
    | some h => exact Option.Rel.some (dictRel_set hd _ (by rw [h]; unfold CompRel; simp only [← mul_add, norm_turn hu]))
  · exact Option.Rel.none

/-- **C133** The nodes with quantum operators do not look at phases. -/
theorem C133_operator_nodes (g : Cfg) (thr : ℝ) (k : ℕ) (T : Matrix (Fin (g.L ^ k)) (Fin (g.L ^ k)) ℂ) (channels : List ℕ) (r : ℕ → ℕ → ℕ) :
    PhaseBlind (fun coll => operatorColl g thr k T channels coll r) ∧ PhaseBlind nonlinearNode := by
  refine ⟨?_, fun A B h => Option.Rel.some h⟩
  intro A B h
  unfold operatorColl
  refine phase_foldlM (R := CollUpToPhase) (Q := PairPhase) ?_ .nil h
  rintro s t p p' hs ⟨hk, hp⟩
  obtain ⟨u, hu, hc⟩ := hp.comps
  refine phase_map (R := DictRel (CompRel u)) ?_ (fun d d' hd => by rw [dictRel_length hs]; exact addState_phase hs (upToPhase_with hp hu hd) none _)
  unfold operatorComps
  refine phase_bind (R := List.Forall₂ (List.Forall₂ (fun p p' : Name × ℂ => p' = (p.1, u * p.2)))) ?_ (fun l l' hl => setFromList_phase g hu (List.rel_flatten hl))
  refine phase_mapM (Q := fun p p' : Name × Comp => p'.1 = p.1 ∧ CompRel u p.2 p'.2) ?_ (by rw [hc]; exact turned_rel u p.2.comps)
  rintro p ⟨k', v⟩ ⟨rfl, rfl⟩
  refine phase_bind (phase_of_eq (R := Eq) rfl (fun _ => rfl)) ?_
  rintro values _ rfl
  refine phase_bind (phase_of_eq (R := Eq) rfl (fun _ => rfl)) ?_
  rintro affected _ rfl
  refine phase_bind (phase_of_eq (R := Eq) rfl (fun _ => rfl)) ?_
  rintro i _ rfl
  split
  · refine phase_mapM (Q := Eq) ?_ (forall₂_self _)
    rintro j _ rfl
    refine phase_bind (phase_of_eq (R := Eq) rfl (fun _ => rfl)) ?_
    rintro name _ rfl
    refine Option.Rel.some ?_
    rw [mul_left_comm]
  · exact Option.Rel.none

theorem filter_phase {A B : Coll} (h : CollUpToPhase A B) (P : List Char → Bool) : CollUpToPhase (A.filter (fun p => P p.2.initial)) (B.filter (fun p => P p.2.initial)) := by
  induction h with
  | nil => exact .nil
  | @cons p p' _ _ h1 _ ih =>
    rw [List.filter_cons, List.filter_cons, h1.2.initial]
    split
    · exact .cons h1 ih
    · exact ih

/-- **C133** Histograms, and the correlations computed from them, do not depend on phases. -/
theorem C133_histogram (g : Cfg) (m : ℕ) (initials : List (List Char)) (channels : List ℤ) (combis : List (ℤ × ℤ)) (A B : Coll) (h : CollUpToPhase A B) :
    histogram g m initials channels A = histogram g m initials channels B ∧ correlations g m A combis = correlations g m B combis := by
  have key : ∀ (initials : List (List Char)) (channels : List ℤ), histogram g m initials channels A = histogram g m initials channels B := by
    intro initials channels
    unfold histogram
    have hf := filter_phase h (fun l => decide (initials.length = 0) || decide (l ∈ initials))
    simp only
    generalize (if channels = [] then (List.range m).map (fun n : ℕ => (n : ℤ)) else channels) = channels
    refine phase_eq_iff (phase_bind (R := Eq) ?_ (by rintro x _ rfl; exact phase_of_eq rfl (fun _ => rfl)))
    have := phase_mapM (R := Eq) (Q := PairPhase) (f := fun p : List Char × QState => (channels.mapM (m := Option) (pyGet p.2.classical)).map (fun vals => (p.2.initial, outcomeName g vals, p.2.cum)))
      (f' := fun p : List Char × QState => (channels.mapM (m := Option) (pyGet p.2.classical)).map (fun vals => (p.2.initial, outcomeName g vals, p.2.cum))) (by
        rintro p p' ⟨-, hp⟩
        rw [hp.classical, hp.initial, hp.cum]
        exact phase_of_eq rfl (fun _ => rfl)) hf
    rw [List.forall₂_eq_eq_eq] at this
    exact this
  refine ⟨key initials channels, ?_⟩
  unfold correlations
  rw [key]

/-- **C133** Density matrices do not depend on phases. -/
theorem C133_density_matrix (g : Cfg) (label : List Char) (A B : Coll) (h : CollUpToPhase A B) : densityMatrix g A label = densityMatrix g B label := by
  unfold densityMatrix
  refine phase_eq_iff (phase_foldlM (R := Eq) (Q := PairPhase) ?_ rfl h)
  rintro s _ p p' rfl ⟨hk, hp⟩
  rw [hp.initial, hp.cum]
  obtain ⟨u, hu, hc⟩ := hp.comps
  split
  · refine phase_map (rel_toVector g u (c := p.2.comps) (c' := p'.2.comps) (by rw [hc]; exact turned_rel u p.2.comps)) ?_
    rintro x _ rfl
    have h1 : star u * u = 1 := by
      rw [Complex.star_def, ← Complex.normSq_eq_conj_mul_self, Complex.normSq_eq_norm_sq, hu]; norm_num
    funext i j
    rw [star_mul']
    linear_combination (-(p.2.cum : ℂ) * (star (x i) * x j)) * h1
  · exact Option.Rel.some rfl

/-! ### The hypotheses are met -/

section NonVacuity

/-- the state of C117 with the phase factor `i` -/
private noncomputable def turnedBorn : QState := { bornState with comps := [(['0', '1', '0'], ⟨Complex.I, 1⟩)] }

private theorem turnedBorn_phase : CollUpToPhase [(['x'], bornState)] [(['x'], turnedBorn)] :=
  .cons ⟨rfl, rfl, rfl, rfl, rfl, Complex.I, by simp, by simp [turnedBorn, bornState, turned]⟩ .nil

/-- Any unitary element followed by a measurement, for one photon with and without the phase factor. -/
example (M : Opt) (hM : M ∈ Matrix.unitaryGroup (Fin 2) ℂ) : ∃ outA outB,
    evalAll (fun _ => ⟨bornCfg, 2, 1 / 1000, true, opticals [(M, [1, 2, 0])] ++ [.measurement [1, 2] [0, 1]]⟩) (fun _ _ _ _ _ => 0) 3 0 [(['x'], bornState)] = some outA ∧
    evalAll (fun _ => ⟨bornCfg, 2, 1 / 1000, true, opticals [(M, [1, 2, 0])] ++ [.measurement [1, 2] [0, 1]]⟩) (fun _ _ _ _ _ => 0) 3 0 [(['x'], turnedBorn)] = some outB ∧
    CollUpToPhase outA outB := by
  have hel : LosslessElements bornCfg [⟨M, 1, 2⟩] [(M, [1, 2, 0])] :=
    ⟨.cons ⟨(by decide : 1 < bornCfg.C), (by decide : 2 < bornCfg.C), (by decide : 1 ≠ 2), (by decide : ¬ (2 ≤ 1 ∧ 2 = 0)), rfl, (show tensorList 3 [1, 2] = some [1, 2, 0] by decide)⟩ .nil, by simpa using hM⟩
  have hs : ∀ p ∈ [(['x'], bornState)], Sendable bornCfg 2 p.2 := by
    intro p hp
    rw [List.mem_singleton.1 hp]
    obtain ⟨a, b⟩ := bornState_ok
    exact ⟨a, by simp [bornState], fun p hp v hv hval => by rw [b.one p hp v hval hv]; decide⟩
  obtain ⟨outA, eA, -⟩ := born_main (fun _ => ⟨bornCfg, 2, 1 / 1000, true, opticals [(M, [1, 2, 0])] ++ [.measurement [1, 2] [0, 1]]⟩) (fun _ _ _ _ _ => 0) 0 _ rfl bornOk (by norm_num) [⟨M, 1, 2⟩]
    (M, [1, 2, 0]) [] hel [1, 2] [0, 1] rfl rfl (by decide) (by decide : ∀ x ∈ [0, 1], x < 2) [(['x'], bornState)] (by decide) hs 3 (by decide)
  obtain ⟨outB, eB, h⟩ := (C133_evaluation (fun _ => (⟨bornCfg, 2, 1 / 1000, true, opticals [(M, [1, 2, 0])] ++ [Node.measurement [1, 2] [0, 1]]⟩ : Circ)) (fun _ _ _ _ _ => 0) (by
    intro k i f hf
    have := List.mem_of_getElem? hf
    simp [opticals] at this) 3 0 (List.range (opticals [(M, [1, 2, 0])] ++ [Node.measurement [1, 2] [0, 1]]).length) _ _ turnedBorn_phase).1 outA eA
  exact ⟨outA, outB, eA, eB, h⟩

end NonVacuity

end Verif.Props
