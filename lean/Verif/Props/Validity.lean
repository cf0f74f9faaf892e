/-
C90, C91, C92: creating and checking states and collections.
-/
import Verif.Model.Validity
import Verif.Model.Evaluate
import Verif.Lemmas.State
import Verif.Lemmas.Decode

namespace Verif.Props
open Verif Spec

/-! ### C90 -/

/-- What the check of a dictionary really tests: it refuses exactly the dictionaries with a valid state under a key that is not a string. -/
theorem C90_actual (thr : ℝ) (m : ℕ) (l : List (PyKey × PyVal)) :
    validDict thr m l = true ↔ ∀ (n : ℕ) (q : QState), (PyKey.other n, PyVal.state q) ∈ l → ¬ CheckValid thr m q := by
  unfold validDict
  rw [List.all_eq_true]
  constructor
  · intro h n q hm
    simpa using h _ hm
  · rintro h ⟨k, v⟩ hm
    cases k with
    | str s => rfl
    | other n =>
      cases v with
      | state q => simpa using h n q hm
      | dict d => rfl
      | other => rfl

/-- **C90** (partial: for dictionaries that contain nothing but valid states) the check accepts exactly the dictionaries whose identifiers are strings, and
the constructor then takes over all states under their identifiers, in order; otherwise it raises. -/
theorem C90_valid_states_partial (g : Cfg) (thr : ℝ) (m : ℕ) (l : List (PyKey × QState)) (hv : ∀ e ∈ l, CheckValid thr m e.2) :
    (collBool thr m l = true ↔ ∀ e ∈ l, ∃ s, e.1 = PyKey.str s) ∧
    collFromDict g thr m (l.map (fun e => (e.1, .state e.2))) = if collBool thr m l then some l else none := by
  refine ⟨?_, ?_⟩
  · rw [collBool, C90_actual]
    constructor
    · intro h e he
      cases hk : e.1 with
      | str s => exact ⟨s, rfl⟩
      | other n =>
        refine absurd (hv e he) (h n e.2 ?_)
        exact List.mem_map.2 ⟨e, he, by rw [hk]⟩
    · intro h n q hm
      obtain ⟨e, he, heq⟩ := List.mem_map.1 hm
      obtain ⟨s, hs⟩ := h e he
      rw [Prod.mk.injEq, hs] at heq
      cases heq.1
  · have key : ∀ (l acc : List (PyKey × QState)), (l.map (fun e => (e.1, PyVal.state e.2))).foldlM (fun (acc : List (PyKey × QState)) e => match e.2 with
        | .state q => some (acc ++ [(e.1, q)])
        | .dict d => (stateFromDict g thr m d).map (fun q => acc ++ [(e.1, q)])
        | .other => some acc) acc = some (acc ++ l) := by
      intro l
      induction l with
      | nil => intro acc; simp
      | cons e l ih =>
        intro acc
        rw [List.map_cons, List.foldlM_cons]
        simp only [Option.bind_eq_bind, Option.bind_some]
        rw [ih]
        simp
    unfold collFromDict
    cases l with
    | nil => simp [collBool, validDict]
    | cons e l =>
      rw [if_neg (by simp)]
      by_cases h : collBool thr m (e :: l) = true
      · rw [if_pos h, if_neg (by rw [collBool] at h; rw [h]; simp)]
        exact key (e :: l) []
      · rw [if_neg h, if_pos (by rw [collBool] at h; simpa using h)]

/-- A state with cumulative probability 5. -/
noncomputable def probabilityFive : QState := ⟨['0'], 5, [(['0'], ⟨1, 1⟩)], [], []⟩

theorem probabilityFive_invalid : ¬ CheckValid (1 / 10000) 0 probabilityFive := by
  rintro ⟨-, h, -⟩
  norm_num [probabilityFive] at h

/-- **C90** fails: a collection with an invalid state counts as valid whatever its identifier is, the constructor accepts it, and
values that are no states at all are left out without notice. -/
theorem C90_fails : ∃ (g : Cfg) (thr : ℝ) (m : ℕ) (q : QState), 0 < thr ∧ ¬ CheckValid thr m q ∧
    (∀ k, collBool thr m [(k, q)] = true ∧ collFromDict g thr m [(k, .state q)] = some [(k, q)] ∧
      ∀ old, loadDict thr m old [(k, .state q)] = [(k, .state q)]) ∧
    ∀ k, collFromDict g thr m [(k, .other)] = some [] := by
  refine ⟨⟨2, 1, true⟩, 1 / 10000, 0, probabilityFive, by norm_num, probabilityFive_invalid, ?_, ?_⟩
  · intro k
    have hv : validDict (1 / 10000) 0 [(k, .state probabilityFive)] = true := by
      rw [C90_actual]
      intro n q hm
      obtain ⟨-, rfl⟩ : PyKey.other n = k ∧ q = probabilityFive := by simpa using hm
      exact probabilityFive_invalid
    refine ⟨hv, ?_, ?_⟩
    · unfold collFromDict
      rw [if_neg (by simp), if_neg (by rw [hv]; simp)]
      rfl
    · intro old
      rw [loadDict, if_pos hv]
  · intro k
    have hv : validDict (1 / 10000) 0 [(k, .other)] = true := by
      rw [C90_actual]; simp
    unfold collFromDict
    rw [if_neg (by simp), if_neg (by rw [hv]; simp)]
    rfl

/-- non-vacuity of C90_valid_states_partial: two valid states -/
example : ∃ q : QState, CheckValid (1 / 10000) 0 q ∧ collBool (1 / 10000) 0 [(.str ['a'], q), (.str ['b'], q)] = true ∧
    collBool (1 / 10000) 0 [(.str ['a'], q), (.other 3, q)] = false := by
  have hq : CheckValid (1 / 10000) 0 ⟨['0'], 1, [(['0'], ⟨1, 1⟩)], [], []⟩ := by norm_num [CheckValid]
  refine ⟨_, hq, ?_, ?_⟩
  · rw [(C90_valid_states_partial ⟨2, 1, true⟩ _ _ _ (by rintro e he; simp only [List.mem_cons, List.not_mem_nil, or_false] at he; rcases he with rfl | rfl <;> exact hq)).1]
    intro e he
    simp at he
    rcases he with rfl | rfl
    · exact ⟨_, rfl⟩
    · exact ⟨_, rfl⟩
  · rw [← Bool.not_eq_true, (C90_valid_states_partial ⟨2, 1, true⟩ _ _ _ (by rintro e he; simp only [List.mem_cons, List.not_mem_nil, or_false] at he; rcases he with rfl | rfl <;> exact hq)).1]
    intro h
    obtain ⟨s, hs⟩ := h (.other 3, ⟨['0'], 1, [(['0'], ⟨1, 1⟩)], [], []⟩) (by simp)
    cases hs

/-! ### C91 -/

/-- The name of the vacuum. -/
theorem nameAt_zero {g : Cfg} (hg : g.Ok) : ∃ s, g.nameAt 0 = some s ∧ IsName g (List.replicate g.C 0) s := by
  have hL : 1 ≤ g.L := hg.1
  have hv : Valid g (List.replicate g.C 0) := ⟨by simp, by intro n hn; rw [List.eq_of_mem_replicate hn]; omega⟩
  have h0 : g.valuesFromIndex 0 = List.replicate g.C 0 := by
    apply List.ext_getElem
    · simp [Cfg.valuesFromIndex]
    · intro i h1 h2
      simp [Cfg.valuesFromIndex]
  refine ⟨g.stdName (List.replicate g.C 0), ?_, (isName_iff hv).2 rfl⟩
  rw [nameAt_eq hL, Cfg.nm, h0]

/-- **C91** (partial) The constructor of a state takes the given entries, and for the others the vacuum with amplitude 1, probability 1, classical values 0
and an empty history; it accepts exactly the states with probabilities between 0 and 1 (up to the threshold) and one value per classical channel. Missing: no other condition
is checked, see `C91_names_fails` and `C91_normalised_fails`. -/
theorem C91_accepted_partial {g : Cfg} (hg : g.Ok) (thr : ℝ) (m : ℕ) (d : StateDict) :
    ∃ vac, IsName g (List.replicate g.C 0) vac ∧ ∀ q, stateFromDict g thr m d = some q ↔
      (q = ⟨d.initial.getD vac, d.cum.getD 1, d.comps.getD [(vac, ⟨1, 1⟩)], d.classical.getD (List.replicate m 0), d.results.getD []⟩ ∧
      (-thr ≤ q.cum ∧ q.cum ≤ 1 + thr) ∧ (∀ p ∈ q.comps, -thr ≤ p.2.prob ∧ p.2.prob ≤ 1 + thr) ∧ q.classical.length = m) := by
  obtain ⟨s, hs, hn⟩ := nameAt_zero hg
  refine ⟨s, hn, fun q => ?_⟩
  unfold stateFromDict initState
  rw [hs]
  simp only [Option.map_some, Option.bind_eq_bind, Option.bind_some, newState]
  constructor
  · intro h
    split_ifs at h with hc
    · obtain rfl := Option.some.inj h
      obtain ⟨h1, h2, h3, h4⟩ := hc
      exact ⟨rfl, ⟨h1, by linarith⟩, h3, h4⟩
  · rintro ⟨rfl, ⟨h1, h2⟩, h3, h4⟩
    rw [if_pos ⟨h1, by linarith, h3, h4⟩]

/-- A state without a given dictionary, and `create_initialized_state`: the vacuum. -/
theorem C91_default {g : Cfg} (hg : g.Ok) {thr : ℝ} (ht : 0 ≤ thr) (m : ℕ) : ∃ vac, IsName g (List.replicate g.C 0) vac ∧
    createInitialized g thr m = some ⟨vac, 1, [(vac, ⟨1, 1⟩)], List.replicate m 0, []⟩ ∧
    stateFromDict g thr m ⟨none, none, none, none, none⟩ = some ⟨vac, 1, [(vac, ⟨1, 1⟩)], List.replicate m 0, []⟩ := by
  obtain ⟨s, hs, hn⟩ := nameAt_zero hg
  have hc : CheckValid thr m ⟨s, 1, [(s, ⟨1, 1⟩)], List.replicate m 0, []⟩ := by
    refine ⟨by show -thr ≤ 1; linarith, by show (1 : ℝ) - 1 ≤ thr; linarith, ?_, by simp⟩
    intro p hp
    obtain rfl : p = (s, ⟨1, 1⟩) := by simpa using hp
    exact ⟨by show -thr ≤ 1; linarith, by show (1 : ℝ) ≤ 1 + thr; linarith⟩
  refine ⟨s, hn, ?_, ?_⟩
  · unfold createInitialized
    rw [hs, Option.bind_some]
    unfold stateFromDict initState newState
    rw [hs]
    simp only [Option.map_some, Option.bind_eq_bind, Option.bind_some, Option.getD_some]
    rw [if_pos hc]
  · unfold stateFromDict initState newState
    rw [hs]
    simp only [Option.map_some, Option.bind_eq_bind, Option.bind_some, Option.getD_none]
    rw [if_pos hc]

/-- **C91** fails for names: a state with a component that no circuit of this size has is accepted; its photon number cannot be read, it cannot be turned into a
vector, and every custom gate raises on it. -/
theorem C91_names_fails : ∃ (g : Cfg) (d : StateDict) (q : QState), g.Ok ∧ stateFromDict g (1 / 10000) 0 d = some q ∧
    (∃ p ∈ q.comps, ¬ ∃ v, Valid g v ∧ IsName g v p.1) ∧
    toVector g q.comps = none ∧
    ∀ (F : SqArr) (r : ℕ → ℕ → ℕ) (i : List Char), customColl ⟨g, 0, 1 / 10000, false, []⟩ F r [(i, q)] = none := by
  have hn : Cfg.nameAt ⟨2, 2, true⟩ 0 = some ['0', '0'] := by decide
  have hpar : Cfg.indexOfName ⟨2, 2, true⟩ ['x', 'y'] = none := by decide
  have hto : toVector ⟨2, 2, true⟩ [(['x', 'y'], ⟨1, 1⟩)] = none := by simp [toVector, hpar]
  refine ⟨⟨2, 2, true⟩, ⟨none, none, some [(['x', 'y'], ⟨1, 1⟩)], none, none⟩, ⟨['0', '0'], 1, [(['x', 'y'], ⟨1, 1⟩)], [], []⟩, by decide, ?_, ?_, hto, ?_⟩
  · norm_num [stateFromDict, initState, hn, newState, CheckValid]
  · refine ⟨_, List.mem_singleton.2 rfl, ?_⟩
    rintro ⟨v, hv, h⟩
    rw [isName_iff hv] at h
    have := indexOfName_stdName hv
    rw [← h, hpar] at this
    cases this
  · intro F r i
    simp only [customColl, List.foldlM_cons, Option.bind_eq_bind, applyCustom, hto, Option.bind_none]
    cases copyState (1 / 10000) 0 _ with
    | none => rfl
    | some q => simp only [Option.bind_some]; split_ifs <;> rfl


/-- **C91** fails for amplitudes: a state with total probability 2 is accepted, and so is one whose listed probability differs from the square of its amplitude. -/
theorem C91_normalised_fails : ∃ (g : Cfg) (d d' : StateDict) (q q' : QState), g.Ok ∧
    stateFromDict g (1 / 10000) 0 d = some q ∧ WellFormed g q.comps ∧ ProbsAgree q.comps ∧ totalProb q.comps = 2 ∧
    stateFromDict g (1 / 10000) 0 d' = some q' ∧ WellFormed g q'.comps ∧ ¬ ProbsAgree q'.comps := by
  have hn : Cfg.nameAt ⟨2, 2, true⟩ 0 = some ['0', '0'] := by decide
  have hw : WellFormed ⟨2, 2, true⟩ [(['0', '0'], ⟨1, 1⟩), (['0', '1'], ⟨1, 1⟩)] :=
    wf_enc (g := ⟨2, 2, true⟩) (l := [([0, 0], ⟨1, 1⟩), ([0, 1], ⟨1, 1⟩)])
      ⟨by simp, by intro p hp; simp at hp; rcases hp with rfl | rfl <;> exact ⟨rfl, by decide⟩⟩
  have hw' : WellFormed ⟨2, 2, true⟩ [(['0', '0'], ⟨3, 1⟩)] :=
    wf_enc (g := ⟨2, 2, true⟩) (l := [([0, 0], ⟨3, 1⟩)]) ⟨by simp, by intro p hp; simp at hp; rcases hp with rfl; exact ⟨rfl, by decide⟩⟩
  refine ⟨⟨2, 2, true⟩, ⟨none, none, some [(['0', '0'], ⟨1, 1⟩), (['0', '1'], ⟨1, 1⟩)], none, none⟩, ⟨none, none, some [(['0', '0'], ⟨3, 1⟩)], none, none⟩,
    ⟨['0', '0'], 1, [(['0', '0'], ⟨1, 1⟩), (['0', '1'], ⟨1, 1⟩)], [], []⟩, ⟨['0', '0'], 1, [(['0', '0'], ⟨3, 1⟩)], [], []⟩, by decide, ?_, hw, ?_, ?_, ?_, hw', ?_⟩
  · norm_num [stateFromDict, initState, hn, newState, CheckValid]
  · intro p hp
    have : p = (['0', '0'], ⟨1, 1⟩) ∨ p = (['0', '1'], ⟨1, 1⟩) := by simpa using hp
    rcases this with rfl | rfl <;> norm_num
  · norm_num [totalProb]
  · norm_num [stateFromDict, initState, hn, newState, CheckValid]
  · intro h
    have := h (['0', '0'], ⟨3, 1⟩) (by simp)
    norm_num at this


/-! ### C92 -/

/-- **C92** For every state with at least one component: `photon_number()` gives the number of photons of the component with most photons, and whether all components
have that number; `int(state)` is the first, and `state == n` compares it with `n`. -/
theorem C92_photon_number {g : Cfg} {q : QState} (hw : WellFormed g q.comps) (hne : q.comps ≠ []) :
    ∃ n b, photonNumber g q.comps = some (n, b) ∧ stateInt g q = some n ∧ (∀ k, stateEqNum g q k = some (decide (k = n))) ∧
      (∃ p ∈ q.comps, ∃ v, Valid g v ∧ IsName g v p.1 ∧ v.sum = n) ∧
      (∀ p ∈ q.comps, ∀ v, Valid g v → IsName g v p.1 → v.sum ≤ n) ∧
      (b = true ↔ ∀ p ∈ q.comps, ∀ v, Valid g v → IsName g v p.1 → v.sum = n) := by
  have hm : q.comps.keys.mapM (fun s => (g.parse s).map List.sum)
      = some (q.comps.keys.map (fun s => ((g.parse s).map List.sum).getD 0)) := by
    apply mapM_some_of
    intro s hs
    obtain ⟨p, hp, rfl⟩ := List.mem_map.1 hs
    obtain ⟨v, hv, e⟩ := hw.named' hp
    rw [e, g.parse_stdName hv.2]; rfl
  set l := q.comps.keys.map (fun s => ((g.parse s).map List.sum).getD 0) with hl
  have hlne : l ≠ [] := by simpa [hl, Dict.keys] using hne
  obtain ⟨mx, hmx⟩ : ∃ m, l.max? = some m := by
    rw [← Option.isSome_iff_exists, List.isSome_max?_iff]; exact hlne
  obtain ⟨mn, hmn⟩ : ∃ m, l.min? = some m := by
    rw [← Option.isSome_iff_exists, List.isSome_min?_iff]; exact hlne
  have h1 := List.max?_eq_some_iff.1 hmx
  have h2 := List.min?_eq_some_iff.1 hmn
  have hp : photonNumber g q.comps = some (mx, decide (mx = mn)) := by
    unfold photonNumber
    rw [hm]
    simp only [Option.bind_eq_bind, Option.bind_some, hmx, hmn]
    by_cases e : mx = mn <;> simp [e]
  have hmem : ∀ p ∈ q.comps, ∀ v, Valid g v → IsName g v p.1 → v.sum ∈ l := by
    intro p hp v hv e
    rw [isName_iff hv] at e
    rw [hl]
    refine List.mem_map.2 ⟨p.1, List.mem_map.2 ⟨p, hp, rfl⟩, ?_⟩
    rw [e, g.parse_stdName hv.2]; rfl
  have hmem' : ∀ n ∈ l, ∃ p ∈ q.comps, ∃ v, Valid g v ∧ IsName g v p.1 ∧ v.sum = n := by
    intro n hn
    obtain ⟨s, hs, rfl⟩ := List.mem_map.1 hn
    obtain ⟨p, hp, rfl⟩ := List.mem_map.1 hs
    obtain ⟨v, hv, e⟩ := hw.named' hp
    exact ⟨p, hp, v, hv, (isName_iff hv).2 e, by rw [e, g.parse_stdName hv.2]; rfl⟩
  refine ⟨mx, decide (mx = mn), hp, by rw [stateInt, hp]; rfl, ?_, hmem' mx h1.1, fun p hp v hv e => h1.2 _ (hmem p hp v hv e), ?_⟩
  · intro k
    rw [stateEqNum, stateInt, hp]
    rfl
  · rw [decide_eq_true_iff]
    constructor
    · rintro rfl p hp v hv e
      exact le_antisymm (h1.2 _ (hmem p hp v hv e)) (h2.2 _ (hmem p hp v hv e))
    · intro h
      obtain ⟨p, hpm, v, hv, e, rfl⟩ := hmem' mn h2.1
      exact (h p hpm v hv e).symm


/-- Two states compare equal exactly if their largest photon numbers agree, whatever their components are. -/
theorem C92_compare {g : Cfg} {q q' : QState} (hw : WellFormed g q.comps) (hne : q.comps ≠ []) (hw' : WellFormed g q'.comps) (hne' : q'.comps ≠ []) :
    stateEqState g q q' = some (decide (stateInt g q = stateInt g q')) := by
  obtain ⟨n, b, -, h1, h2, -⟩ := C92_photon_number hw hne
  obtain ⟨n', b', -, h1', h2', -⟩ := C92_photon_number hw' hne'
  unfold stateEqState
  rw [h1, Option.bind_some, h2', h1']
  simp

/-- non-vacuity: 3/5 |02> + 4/5 |11> has photon number 2 in both components, adding |10> makes the second entry false -/
example : ∃ c c' : Comps, WellFormed ⟨3, 2, true⟩ c ∧ WellFormed ⟨3, 2, true⟩ c' ∧
    photonNumber ⟨3, 2, true⟩ c = some (2, true) ∧ photonNumber ⟨3, 2, true⟩ c' = some (2, false) := by
  refine ⟨[(['0', '2'], ⟨3 / 5, 9 / 25⟩), (['1', '1'], ⟨4 / 5, 16 / 25⟩)], [(['0', '2'], ⟨3 / 5, 9 / 25⟩), (['1', '0'], ⟨4 / 5, 16 / 25⟩)], ?_, ?_, ?_, ?_⟩
  · exact wf_enc (g := ⟨3, 2, true⟩) (l := [([0, 2], ⟨3 / 5, 9 / 25⟩), ([1, 1], ⟨4 / 5, 16 / 25⟩)])
      ⟨by simp, by intro p hp; simp at hp; rcases hp with rfl | rfl <;> exact ⟨rfl, by decide⟩⟩
  · exact wf_enc (g := ⟨3, 2, true⟩) (l := [([0, 2], ⟨3 / 5, 9 / 25⟩), ([1, 0], ⟨4 / 5, 16 / 25⟩)])
      ⟨by simp, by intro p hp; simp at hp; rcases hp with rfl | rfl <;> exact ⟨rfl, by decide⟩⟩
  · have h1 : Cfg.parse ⟨3, 2, true⟩ ['0', '2'] = some [0, 2] := by decide
    have h2 : Cfg.parse ⟨3, 2, true⟩ ['1', '1'] = some [1, 1] := by decide
    simp [photonNumber, Dict.keys, h1, h2]
  · have h1 : Cfg.parse ⟨3, 2, true⟩ ['0', '2'] = some [0, 2] := by decide
    have h2 : Cfg.parse ⟨3, 2, true⟩ ['1', '0'] = some [1, 0] := by decide
    simp [photonNumber, Dict.keys, h1, h2]

end Verif.Props
