/-
Property C134: labels and earlier measurement results are only carried along.
-/
import Verif.Lemmas.Bookkeeping
import Verif.Props.GlobalPhase

namespace Verif.Props
open Verif Spec

/-- A function of a node that does not look at labels and measurement results. -/
def RecordBlind (f : Coll → Option Coll) : Prop :=
  ∀ (R : List Char → List Char → Prop) (H : List MRes → List MRes → Prop) (A B : Coll), CollSameButRecords R H A B → Option.Rel (CollSameButRecords R H) (f A) (f B)

/-- The collection with other labels. -/
def relabel (ρ : List Char → List Char) (A : Coll) : Coll := A.map (fun p => (p.1, { p.2 with initial := ρ p.2.initial }))

/-- The collection without measurement results. -/
def forget (A : Coll) : Coll := A.map (fun p => (p.1, { p.2 with results := [] }))

/-- **C134** Evaluating circuits (nodes of any type, bridges to other circuits) for two collections that differ in their labels and earlier measurement results: the states at the end have the same
identifiers, probabilities, components and classical values, the labels of the states they come from, and the same new measurement results behind the earlier ones; an exception occurs for both or for neither.
`R`, `H`: any relations of labels and of earlier results, so labels and results can be changed in any way. -/
theorem C134_evaluation (R : List Char → List Char → Prop) (H : List MRes → List MRes → Prop) (env : ℕ → Circ) (rnd : ℕ → ℕ → Bool → ℕ → ℕ → ℕ)
    (hgen : ∀ (k i : ℕ) (f : Coll → Option Coll), (env k).nodes[i]? = some (Node.generic f) → RecordBlind f) (fuel k : ℕ) (nodes : List ℕ) (A B : Coll) (h : CollSameButRecords R H A B) :
    (∀ outA, evalNodes env rnd fuel k nodes A = some outA → ∃ outB, evalNodes env rnd fuel k nodes B = some outB ∧ CollSameButRecords R H outA outB) ∧
    (evalNodes env rnd fuel k nodes A = none ↔ evalNodes env rnd fuel k nodes B = none) := by
  have hr := evalNodes_records env rnd (fun k i f hf => hgen k i f hf R H) fuel k nodes h
  refine ⟨fun outA hA => phase_exists hr hA, ?_⟩
  generalize evalNodes env rnd fuel k nodes A = a at hr
  generalize evalNodes env rnd fuel k nodes B = b at hr
  cases hr <;> simp

theorem relabel_of_rel {ρ : List Char → List Char} {A B : Coll} (h : CollSameButRecords (fun l l' => l' = ρ l) Eq A B) : B = relabel ρ A := by
  induction h with
  | nil => rfl
  | @cons p p' _ _ h1 _ ih =>
    obtain ⟨k, v⟩ := p'
    obtain ⟨rfl, hv⟩ := h1
    unfold relabel at *
    rw [ih, List.map_cons]
    congr 2
    obtain ⟨i, c, co, cl, re⟩ := v
    obtain ⟨a, b, c', d, old, _, new, rfl, e, e'⟩ := hv
    simp only at a b c' d e'
    rw [QState.mk.injEq]
    exact ⟨a, b, c', d, by rw [e', e]⟩

theorem rel_relabel (ρ : List Char → List Char) (A : Coll) : CollSameButRecords (fun l l' => l' = ρ l) Eq A (relabel ρ A) := by
  unfold relabel
  induction A with
  | nil => exact .nil
  | cons p A ih => exact .cons ⟨rfl, rfl, rfl, rfl, rfl, p.2.results, p.2.results, [], rfl, by simp, by simp⟩ ih

/-- **C134** Changing labels before the evaluation is the same as changing them afterwards. -/
theorem C134_labels (env : ℕ → Circ) (rnd : ℕ → ℕ → Bool → ℕ → ℕ → ℕ) (hgen : ∀ (k i : ℕ) (f : Coll → Option Coll), (env k).nodes[i]? = some (Node.generic f) → RecordBlind f) (fuel k : ℕ)
    (nodes : List ℕ) (ρ : List Char → List Char) (A : Coll) : evalNodes env rnd fuel k nodes (relabel ρ A) = (evalNodes env rnd fuel k nodes A).map (relabel ρ) := by
  have hr := evalNodes_records env rnd (fun k i f hf => hgen k i f hf _ _) fuel k nodes (rel_relabel ρ A)
  generalize evalNodes env rnd fuel k nodes A = a at hr
  generalize evalNodes env rnd fuel k nodes (relabel ρ A) = b at hr
  cases hr with
  | none => rfl
  | some h => rw [relabel_of_rel h]; rfl

/-- **C134** Without the earlier measurement results the evaluation gives the same, and exactly the new results are recorded: every state has an earlier history of one of the input states followed by
the results it has without that history. -/
theorem C134_histories (env : ℕ → Circ) (rnd : ℕ → ℕ → Bool → ℕ → ℕ → ℕ) (hgen : ∀ (k i : ℕ) (f : Coll → Option Coll), (env k).nodes[i]? = some (Node.generic f) → RecordBlind f) (fuel k : ℕ)
    (nodes : List ℕ) (A outA : Coll) (hA : evalNodes env rnd fuel k nodes A = some outA) :
    ∃ outB, evalNodes env rnd fuel k nodes (forget A) = some outB ∧
      List.Forall₂ (fun p p' => p'.1 = p.1 ∧ p'.2.initial = p.2.initial ∧ p'.2.cum = p.2.cum ∧ p'.2.comps = p.2.comps ∧ p'.2.classical = p.2.classical ∧
        ∃ a ∈ A, p.2.results = a.2.results ++ p'.2.results) outA outB := by
  have hin : CollSameButRecords (fun l l' => l' = l) (fun old old' => old' = [] ∧ ∃ a ∈ A, a.2.results = old) A (forget A) := by
    have key : ∀ l : Coll, (∀ p ∈ l, p ∈ A) → CollSameButRecords (fun l l' => l' = l) (fun old old' => old' = [] ∧ ∃ a ∈ A, a.2.results = old) l (forget l) := by
      intro l
      induction l with
      | nil => intro _; exact .nil
      | cons p l ih => intro hl; exact .cons ⟨rfl, rfl, rfl, rfl, rfl, p.2.results, [], [], ⟨rfl, p, hl p (by simp), rfl⟩, by simp, by simp⟩ (ih (fun q hq => hl q (by simp [hq])))
    exact key A (fun _ h => h)
  obtain ⟨outB, hB, hr⟩ := (C134_evaluation _ _ env rnd hgen fuel k nodes _ _ hin).1 outA hA
  refine ⟨outB, hB, List.Forall₂.imp ?_ hr⟩
  rintro p p' ⟨hk, hp⟩
  obtain ⟨old, _, new, ⟨rfl, a, ha, rfl⟩, e, e'⟩ := hp.results
  exact ⟨hk, hp.initial, hp.cum, hp.comps, hp.classical, a, ha, by rw [e, e', List.nil_append]⟩

/-- **C134** The same for a compound circuit. -/
theorem C134_compound (R : List Char → List Char → Prop) (H : List MRes → List MRes → Prop) (d : Circ) (cs : List Circ) (rnd : ℕ → ℕ → Bool → ℕ → ℕ → ℕ)
    (hd : ∀ f : Coll → Option Coll, Node.generic f ∈ d.nodes → RecordBlind f) (hgen : ∀ c ∈ cs, ∀ f : Coll → Option Coll, Node.generic f ∈ c.nodes → RecordBlind f) (fuel : ℕ) (A B : Coll)
    (h : CollSameButRecords R H A B) :
    (∀ outA, evalCompound d cs rnd fuel A = some outA → ∃ outB, evalCompound d cs rnd fuel B = some outB ∧ CollSameButRecords R H outA outB) ∧
    (evalCompound d cs rnd fuel A = none ↔ evalCompound d cs rnd fuel B = none) := by
  refine C134_evaluation R H (compoundEnv d cs) rnd ?_ fuel 0 _ A B h
  intro k i f hf
  have hm := List.mem_of_getElem? hf
  have hk : Node.generic f ∈ (cs.getD k d).nodes := by
    unfold compoundEnv at hm
    simp only at hm
    split at hm
    · rcases List.mem_append.1 hm with hm | hm
      · exact hm
      · simp at hm
    · exact hm
  by_cases hlt : k < cs.length
  · rw [List.getD_eq_getElem _ _ hlt] at hk
    exact hgen _ (List.getElem_mem hlt) f hk
  · rw [List.getD_eq_default _ _ (by omega)] at hk
    exact hd f hk

/-- **C134** The nodes of the library that are given as functions (`shift_direct`, `c_shift_direct`, nodes with quantum operators, `nonlinear_optical_node`) do not look at labels and results. -/
theorem C134_library_nodes (c : Circ) (r : ℕ → ℕ → ℕ) (move : Vals → Option Vals) (k : ℕ) (T : Matrix (Fin (c.g.L ^ k)) (Fin (c.g.L ^ k)) ℂ) (channels : List ℕ) :
    RecordBlind (moveColl c move r) ∧ RecordBlind (fun coll => operatorColl c.g c.thr k T channels coll r) ∧ RecordBlind nonlinearNode := by
  refine ⟨?_, ?_, fun R H A B h => Option.Rel.some h⟩
  · intro R H A B h
    unfold moveColl
    refine phase_bind (copyColl_records h) (fun _ _ _ => ?_)
    refine phase_foldlM (R := CollSameButRecords R H) (Q := PairRecords R H) ?_ .nil h
    rintro s t p p' hs ⟨hk, hp⟩
    refine phase_bind (copyState_records hp) (fun q q' hq => ?_)
    rw [hp.comps]
    refine phase_bind (phase_of_eq (R := Eq) rfl (fun _ => rfl)) ?_
    rintro d _ rfl
    rw [dictRel_length hs]
    exact Option.Rel.some (addState_records hs (records_with hq d) none _)
  · intro R H A B h
    unfold operatorColl
    refine phase_foldlM (R := CollSameButRecords R H) (Q := PairRecords R H) ?_ .nil h
    rintro s t p p' hs ⟨hk, hp⟩
    rw [hp.comps]
    refine phase_map (phase_of_eq (R := Eq) rfl (fun _ => rfl)) ?_
    rintro d _ rfl
    rw [dictRel_length hs]
    exact addState_records hs (records_with hp d) none _

/-! ### The hypotheses are met -/

section NonVacuity

/-- the photon of C117 after an earlier measurement -/
private noncomputable def measuredBorn : QState := { bornState with results := [⟨[1, 0], 1 / 2⟩] }

/-- Any unitary element followed by a measurement, for one photon with an earlier result: with another label the same, without the earlier result the new one only. -/
example (M : Opt) (hM : M ∈ Matrix.unitaryGroup (Fin 2) ℂ) (ρ : List Char → List Char) : ∃ outA,
    evalAll (fun _ => ⟨bornCfg, 2, 1 / 1000, true, opticals [(M, [1, 2, 0])] ++ [.measurement [1, 2] [0, 1]]⟩) (fun _ _ _ _ _ => 0) 3 0 [(['x'], measuredBorn)] = some outA ∧
    evalAll (fun _ => ⟨bornCfg, 2, 1 / 1000, true, opticals [(M, [1, 2, 0])] ++ [.measurement [1, 2] [0, 1]]⟩) (fun _ _ _ _ _ => 0) 3 0 (relabel ρ [(['x'], measuredBorn)]) = some (relabel ρ outA) ∧
    ∃ outB, evalAll (fun _ => ⟨bornCfg, 2, 1 / 1000, true, opticals [(M, [1, 2, 0])] ++ [.measurement [1, 2] [0, 1]]⟩) (fun _ _ _ _ _ => 0) 3 0 (forget [(['x'], measuredBorn)]) = some outB ∧
      List.Forall₂ (fun p p' => p.2.results = [⟨[1, 0], 1 / 2⟩] ++ p'.2.results) outA outB := by
  have hel : LosslessElements bornCfg [⟨M, 1, 2⟩] [(M, [1, 2, 0])] :=
    ⟨.cons ⟨(by decide : 1 < bornCfg.C), (by decide : 2 < bornCfg.C), (by decide : 1 ≠ 2), (by decide : ¬ (2 ≤ 1 ∧ 2 = 0)), rfl, (show tensorList 3 [1, 2] = some [1, 2, 0] by decide)⟩ .nil, by simpa using hM⟩
  have hs : ∀ p ∈ [(['x'], measuredBorn)], Sendable bornCfg 2 p.2 := by
    intro p hp
    rw [List.mem_singleton.1 hp]
    obtain ⟨a, b⟩ := bornState_ok
    exact ⟨⟨a.wf, a.probs, a.total, a.cum0, a.cum1, a.classical⟩, by simp [measuredBorn, bornState], fun p hp v hv hval => by rw [b.one p hp v hval hv]; decide⟩
  obtain ⟨outA, eA, -⟩ := born_main (fun _ => ⟨bornCfg, 2, 1 / 1000, true, opticals [(M, [1, 2, 0])] ++ [.measurement [1, 2] [0, 1]]⟩) (fun _ _ _ _ _ => 0) 0 _ rfl bornOk (by norm_num) [⟨M, 1, 2⟩]
    (M, [1, 2, 0]) [] hel [1, 2] [0, 1] rfl rfl (by decide) (by decide : ∀ x ∈ [0, 1], x < 2) [(['x'], measuredBorn)] (by decide) hs 3 (by decide)
  have hgen : ∀ (k i : ℕ) (f : Coll → Option Coll), (((fun _ => ⟨bornCfg, 2, 1 / 1000, true, opticals [(M, [1, 2, 0])] ++ [Node.measurement [1, 2] [0, 1]]⟩) : ℕ → Circ) k).nodes[i]? = some (Node.generic f) →
      RecordBlind f := by
    intro k i f hf
    have := List.mem_of_getElem? hf
    simp [opticals] at this
  refine ⟨outA, eA, ?_, ?_⟩
  · unfold evalAll
    rw [C134_labels _ _ hgen]
    unfold evalAll at eA
    rw [eA]
    rfl
  · obtain ⟨outB, hB, h⟩ := C134_histories _ _ hgen 3 0 _ _ outA eA
    refine ⟨outB, hB, List.Forall₂.imp ?_ h⟩
    rintro p p' ⟨-, -, -, -, -, a, ha, e⟩
    rw [List.mem_singleton.1 ha] at e
    exact e

end NonVacuity

end Verif.Props
