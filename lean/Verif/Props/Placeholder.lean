/-
Property C120: the placeholder node `nonlinear_optical_node` has no effect.
-/
import Verif.Model.OperatorNodes
import Verif.Props.Evaluate

namespace Verif.Props
open Verif Spec

variable {env : ℕ → Circ} {rnd : ℕ → ℕ → Bool → ℕ → ℕ → ℕ}

/-- **C120** Evaluating a list of nodes with the placeholder in it is evaluating the nodes before it and then the nodes after it; so if not both neighbours are optical nodes
it is the same as evaluating the list without the placeholder (`C120_left_out`). -/
theorem C120_placeholder (k : ℕ) (l₁ l₂ : List ℕ) (i : ℕ) (hi : (env k).nodes[i]? = some (.generic nonlinearNode)) (hs : (l₁ ++ i :: l₂).Pairwise (· < ·))
    (hv : ValidNodes (env k) (l₁ ++ i :: l₂)) (fuel : ℕ) (hf : (l₁ ++ i :: l₂).length + 1 < fuel) (coll : Coll) :
    evalNodes env rnd fuel k (l₁ ++ i :: l₂) coll = (evalNodes env rnd fuel k l₁ coll).bind (evalNodes env rnd fuel k l₂) := by
  have hno : ¬ IsOptical (env k) i := by
    rintro ⟨M, tl, h⟩
    rw [hi] at h
    simp at h
  rw [C31_split_partial k l₁ (i :: l₂) hs hv (fun a _ b hb => by
    simp only [List.head?_cons, Option.mem_some_iff] at hb
    rw [← hb]
    exact fun h => hno h.2) fuel (by omega)]
  congr 1
  funext c
  have hs' : ([i] ++ l₂).Pairwise (· < ·) := (List.pairwise_append.1 hs).2.1
  have hv' : ValidNodes (env k) ([i] ++ l₂) := fun j hj => hv j (List.mem_append_right _ hj)
  have hl : (i :: l₂).length < fuel := by rw [List.length_append] at hf; omega
  have := C31_split_partial (rnd := rnd) k [i] l₂ hs' hv' (fun a ha b _ => by
    simp only [List.getLast?_singleton, Option.mem_some_iff] at ha
    rw [← ha]
    exact fun h => hno h.1) fuel hl c
  rw [show i :: l₂ = [i] ++ l₂ from rfl, this]
  obtain ⟨f, rfl⟩ : ∃ f, fuel = f + 2 := ⟨fuel - 2, by omega⟩
  have hb : ∀ n, (env k).nodes[i]? ≠ some (.bridge n) := fun n hn => by rw [hi] at hn; simp at hn
  have h1 : evalNodes env rnd (f + 2) k [i] c = some c := by
    have hlt := (hv' i (by simp)).1
    rw [evalNodes]
    simp only [List.all_cons, List.all_nil, hlt, decide_true, Bool.and_true, not_true, if_false, hi, nonlinearNode, Option.bind_some]
    rw [show remaining [i] [i] = [] by simp [remaining]]
    rfl
  rw [h1, Option.bind_some]

/-- **C120** The placeholder can be left out, if it does not stand between two optical nodes. -/
theorem C120_left_out (k : ℕ) (l₁ l₂ : List ℕ) (i : ℕ) (hi : (env k).nodes[i]? = some (.generic nonlinearNode)) (hs : (l₁ ++ i :: l₂).Pairwise (· < ·))
    (hv : ValidNodes (env k) (l₁ ++ i :: l₂)) (hcut : ∀ i ∈ l₁.getLast?, ∀ j ∈ l₂.head?, ¬ (IsOptical (env k) i ∧ IsOptical (env k) j))
    (fuel : ℕ) (hf : (l₁ ++ i :: l₂).length + 1 < fuel) (coll : Coll) :
    evalNodes env rnd fuel k (l₁ ++ i :: l₂) coll = evalNodes env rnd fuel k (l₁ ++ l₂) coll := by
  rw [C120_placeholder k l₁ l₂ i hi hs hv fuel hf, C31_split_partial k l₁ l₂ ?_ ?_ hcut fuel (by simp at hf ⊢; omega)]
  · exact hs.sublist (List.Sublist.append_left (List.sublist_cons_self i l₂) l₁)
  · intro j hj
    refine hv j ?_
    rcases List.mem_append.1 hj with h | h
    · simp [h]
    · simp [h]

/-- **C120** At the end of a circuit it has no effect, whatever the other nodes are. -/
theorem C120_last (c : Circ) (hb : ∀ n ∈ c.nodes, ∀ k, n ≠ .bridge k) (rnd : ℕ → ℕ → Bool → ℕ → ℕ → ℕ) (fuel : ℕ) (hf : c.nodes.length + 2 < fuel) (coll : Coll) :
    evalAll (fun _ => { c with nodes := c.nodes ++ [.generic nonlinearNode] }) rnd fuel 0 coll = evalAll (fun _ => c) rnd fuel 0 coll := by
  have h := C120_left_out (env := fun _ => { c with nodes := c.nodes ++ [.generic nonlinearNode] }) (rnd := rnd) 0 (List.range c.nodes.length) [] c.nodes.length
    (by simp) (by rw [← List.range_succ]; exact List.pairwise_lt_range) ?_ (by simp) fuel (by simp; omega) coll
  · unfold evalAll
    simp only [List.length_append, List.length_singleton, List.range_succ]
    rw [h, List.append_nil]
    refine evalNodes_congr (env := fun _ => c) (extra := [.generic nonlinearNode]) (by simp [Node.isMeasurement]) rfl fuel _ (fun j hj => List.mem_range.1 hj) ?_ rnd rfl coll
    intro j hj k hk
    exact hb _ (List.mem_of_getElem? hk) k rfl
  · intro j hj
    have hj' : j < c.nodes.length + 1 := by
      rcases List.mem_append.1 hj with h | h
      · have := List.mem_range.1 h; omega
      · have := List.mem_singleton.1 h; omega
    refine ⟨by simpa using hj', ?_⟩
    rintro ⟨k, hk⟩
    have := List.mem_of_getElem? hk
    rcases List.mem_append.1 this with h | h
    · exact hb _ h k rfl
    · simp at h

/-! ### The hypotheses are met -/

section NonVacuity

/-- C120: a circuit with classical nodes before and behind the placeholder. -/
example : evalNodes (fun _ => { twoSetters with nodes := twoSetters.nodes ++ [.generic nonlinearNode] }) (fun _ _ _ _ _ => 0) 9 0 ([0, 1] ++ [2]) oneState
    = evalNodes (fun _ => { twoSetters with nodes := twoSetters.nodes ++ [.generic nonlinearNode] }) (fun _ _ _ _ _ => 0) 9 0 ([0, 1] ++ []) oneState := by
  refine C120_left_out (env := fun _ => { twoSetters with nodes := twoSetters.nodes ++ [.generic nonlinearNode] }) 0 [0, 1] [] 2 (by simp [twoSetters]) (by decide) ?_ (by simp) 9 (by decide) oneState
  intro i hi
  have : i = 0 ∨ i = 1 ∨ i = 2 := by simpa using hi
  rcases this with rfl | rfl | rfl
  all_goals exact ⟨by simp [twoSetters], by rintro ⟨k, hk⟩; simp [twoSetters] at hk⟩

/-- C120: the same at the end. -/
example : evalAll (fun _ => { twoSetters with nodes := twoSetters.nodes ++ [.generic nonlinearNode] }) (fun _ _ _ _ _ => 0) 9 0 oneState
    = evalAll (fun _ => twoSetters) (fun _ _ _ _ _ => 0) 9 0 oneState :=
  C120_last twoSetters (by intro n hn k; simp [twoSetters] at hn; rcases hn with rfl | rfl <;> simp) _ 9 (by decide) oneState

end NonVacuity

end Verif.Props
