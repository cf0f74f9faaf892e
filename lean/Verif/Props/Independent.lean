/-
Property C114: the states of a collection do not influence each other.
-/
import Verif.Lemmas.Independent3

namespace Verif.Props
open Verif Spec

/-- **C114** Evaluating a circuit (any selection of its nodes, in any order, without bridges) replaces every state of the collection by
a list of states that depends on this state only: not on the other states, not on the identifiers, and not on the random numbers that
are drawn for new identifiers. No result is lost by a clash of identifiers. -/
theorem C114_states (env : ℕ → Circ) (k : ℕ) (nodes : List ℕ) (hp : PlainNodes (env k) nodes) (fuel : ℕ) (hf : nodes.length < fuel) :
    ∃ f, ∀ rnd, ActsPerState (evalNodes env rnd fuel k nodes) f := by
  obtain ⟨f, -, h⟩ := eval_perState env k fuel nodes hp hf
  exact ⟨f, h⟩

/-- **C114** Evaluating two collections together gives the results of evaluating them separately (also if different random numbers are
drawn), and it succeeds exactly if both succeed. -/
theorem C114_together (env : ℕ → Circ) (k : ℕ) (nodes : List ℕ) (hp : PlainNodes (env k) nodes) (fuel : ℕ) (hf : nodes.length < fuel)
    (rnd rnd₁ rnd₂ : ℕ → ℕ → Bool → ℕ → ℕ → ℕ) (A B : Coll) (hid : ((A ++ B).map Prod.fst).Nodup) :
    (evalNodes env rnd fuel k nodes (A ++ B)).map statesOf =
      ((evalNodes env rnd₁ fuel k nodes A).map statesOf).bind (fun a => ((evalNodes env rnd₂ fuel k nodes B).map statesOf).map (fun b => a ++ b)) := by
  obtain ⟨f, h⟩ := C114_states env k nodes hp fuel hf
  have hid' := hid
  rw [List.map_append, List.nodup_append] at hid'
  rw [(h rnd).states _ hid, (h rnd₁).states _ hid'.1, (h rnd₂).states _ hid'.2.1, statesOf_append, mapM_append_opt]
  cases (statesOf A).mapM f with
  | none => rfl
  | some a =>
    cases (statesOf B).mapM f with
    | none => rfl
    | some b => simp

/-- **C114** The results for one label (initial state) are those of the states with this label alone: all other states can be left out. -/
theorem C114_labels (env : ℕ → Circ) (k : ℕ) (nodes : List ℕ) (hp : PlainNodes (env k) nodes)
    (hg : ∀ i ∈ nodes, ∀ f, (env k).nodes[i]? ≠ some (.generic f)) (fuel : ℕ) (hf : nodes.length < fuel)
    (rnd rnd' : ℕ → ℕ → Bool → ℕ → ℕ → ℕ) (coll out : Coll) (hid : (coll.map Prod.fst).Nodup)
    (h : evalNodes env rnd fuel k nodes coll = some out) (label : List Char) :
    ∃ out', evalNodes env rnd' fuel k nodes (coll.filter (fun p => p.2.initial = label)) = some out' ∧
      statesOf out' = (statesOf out).filter (fun q => q.initial = label) := by
  obtain ⟨f, hk, hf⟩ := eval_perState env k fuel nodes hp hf
  exact (hf rnd).labels (hf rnd') (hk hg) coll out hid h label

/-- **C114** The same for a compound circuit: also the reshaping at the bridges (more or fewer channels, another length of the Fock
state) replaces every state by states that depend on this state only. -/
theorem C114_compound (d : Circ) (cs : List Circ) (hne : cs ≠ []) (hp : ∀ c ∈ cs, PlainNodes c (List.range c.nodes.length))
    (hg : ∀ c ∈ cs, c.g.Ok) (ht : ∀ c ∈ cs, 0 < c.thr) :
    ∃ f, ∀ rnd, ∃ F, ∀ fuel ≥ F, ActsPerState (evalCompound d cs rnd fuel) f := by
  obtain ⟨f, -, h⟩ := compound_perState d cs hne hp hg ht
  exact ⟨f, h⟩

/-- **C114** In a compound circuit the results for one label are those of the states with this label alone. -/
theorem C114_compound_labels (d : Circ) (cs : List Circ) (hne : cs ≠ []) (hp : ∀ c ∈ cs, PlainNodes c (List.range c.nodes.length))
    (hg : ∀ c ∈ cs, c.g.Ok) (ht : ∀ c ∈ cs, 0 < c.thr) (hgen : ∀ c ∈ cs, ∀ (i : ℕ) h, c.nodes[i]? ≠ some (Node.generic h))
    (rnd rnd' : ℕ → ℕ → Bool → ℕ → ℕ → ℕ) :
    ∃ F, ∀ fuel ≥ F, ∀ coll out : Coll, (coll.map Prod.fst).Nodup → evalCompound d cs rnd fuel coll = some out → ∀ label : List Char,
      ∃ out', evalCompound d cs rnd' fuel (coll.filter (fun p => p.2.initial = label)) = some out' ∧
        statesOf out' = (statesOf out).filter (fun q => q.initial = label) := by
  obtain ⟨f, hk, h⟩ := compound_perState d cs hne hp hg ht
  obtain ⟨F, h1⟩ := h rnd
  obtain ⟨F', h2⟩ := h rnd'
  refine ⟨max F F', fun fuel hfu coll out hid ho label => ?_⟩
  exact (h1 fuel (le_trans (le_max_left _ _) hfu)).labels (h2 fuel (le_trans (le_max_right _ _) hfu)) (hk hgen) coll out hid ho label

/-- **C114** The nodes `shift_direct` and `c_shift_direct` (functions on the collection) treat every state on its own as well, so
they are allowed in `C114_states`. -/
theorem C114_shifts (c : Circ) (controls targets : List ℕ) (shifts : List ℤ) (r : ℕ → ℕ → ℕ) :
    (∃ f h, shiftDirectNode c targets shifts r = .generic f ∧ ActsPerState f h) ∧
    ∃ f h, cShiftDirectNode c controls targets r = .generic f ∧ ActsPerState f h :=
  ⟨⟨_, _, rfl, actsPerState_move c _ r⟩, ⟨_, _, rfl, actsPerState_move c _ r⟩⟩

/-! ### the hypotheses are met -/

/-- a circuit with a beam splitter, a measurement, a controlled wave plate and a shift -/
private noncomputable def sample : Circ :=
  ⟨⟨2, 2, true⟩, 2, 1 / 1000, false, [.optical (genericMatrix 1 2) [0, 1], .measurement [0, 1] [0, 1],
    .controlled [.theta] [0] [(.phi, 3)] [0, 1], shiftDirectNode ⟨⟨2, 2, true⟩, 2, 1 / 1000, false, []⟩ [0] [1] (fun _ _ => 0)]⟩

example : PlainNodes sample [0, 1, 2, 3] := by
  refine ⟨by simp [sample], ?_, ?_, ?_⟩
  · intro i hi k
    fin_cases hi <;> simp [sample, shiftDirectNode]
  · intro i hi vars channels defaults tl h
    fin_cases hi <;> simp [sample, shiftDirectNode] at h
    obtain ⟨rfl, rfl, -⟩ := h
    rfl
  · intro i hi f h
    fin_cases hi <;> simp [sample, shiftDirectNode] at h
    subst h
    exact ⟨_, actsPerState_move _ _ _⟩

/-- non-vacuity of `C114_compound`: two circuits with different numbers of channels and different cut-offs -/
example : ∃ cs : List Circ, cs.length = 2 ∧ (∀ c ∈ cs, PlainNodes c (List.range c.nodes.length)) ∧ (∀ c ∈ cs, c.g.Ok) ∧ (∀ c ∈ cs, 0 < c.thr) ∧
    (∀ c ∈ cs, ∀ (i : ℕ) h, c.nodes[i]? ≠ some (Node.generic h)) := by
  have key : ∀ (g : Cfg) (m : ℕ), let c : Circ := ⟨g, m, 1 / 1000, false, [.optical (genericMatrix 1 2) [0, 1], .measurement [0] [0]]⟩
      PlainNodes c (List.range c.nodes.length) ∧ 0 < c.thr ∧ ∀ (i : ℕ) h, c.nodes[i]? ≠ some (Node.generic h) := by
    intro g m c
    have hgen : ∀ (i : ℕ) h, c.nodes[i]? ≠ some (Node.generic h) := by
      intro i h
      match i with
      | 0 => simp [c]
      | 1 => simp [c]
      | i + 2 => simp [c]
    refine ⟨⟨fun i hi => by simpa using hi, ?_, ?_, fun i _ f h => absurd h (hgen i f)⟩, by norm_num [c], hgen⟩
    · intro i _ k
      match i with
      | 0 => simp [c]
      | 1 => simp [c]
      | i + 2 => simp [c]
    · intro i _ vars channels defaults tl h
      match i with
      | 0 => simp [c] at h
      | 1 => simp [c] at h
      | i + 2 => simp [c] at h
  refine ⟨[⟨⟨2, 3, true⟩, 2, 1 / 1000, false, [.optical (genericMatrix 1 2) [0, 1], .measurement [0] [0]]⟩, ⟨⟨3, 2, true⟩, 1, 1 / 1000, false, [.optical (genericMatrix 1 2) [0, 1], .measurement [0] [0]]⟩], rfl, ?_, ?_, ?_, ?_⟩
  · intro c hc
    simp only [List.mem_cons, List.not_mem_nil, or_false] at hc
    rcases hc with rfl | rfl <;> exact (key _ _).1
  · intro c hc
    simp only [List.mem_cons, List.not_mem_nil, or_false] at hc
    rcases hc with rfl | rfl <;> exact ⟨by decide, by decide⟩
  · intro c hc
    simp only [List.mem_cons, List.not_mem_nil, or_false] at hc
    rcases hc with rfl | rfl <;> exact (key ⟨2, 3, true⟩ 0).2.1
  · intro c hc
    simp only [List.mem_cons, List.not_mem_nil, or_false] at hc
    rcases hc with rfl | rfl <;> exact (key ⟨2, 3, true⟩ 0).2.2

end Verif.Props
