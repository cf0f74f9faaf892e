/-
Lemmas about sessions with compound circuits.
-/
import Verif.Model.Session

namespace Verif

/-- Renumber the circuit a bridge leads to. -/
def Node.shift (b : ℕ) : Node → Node
  | .bridge k => .bridge (b + k)
  | n => n

theorem isOptical_shift (b : ℕ) (n : Node) : (n.shift b).isOptical = n.isOptical := by cases n <;> rfl

theorem isMeasurement_shift (b : ℕ) (n : Node) : (n.shift b).isMeasurement = n.isMeasurement := by cases n <;> rfl

theorem opticalRun_shift (b : ℕ) (c : Circ) (l : List ℕ) : opticalRun { c with nodes := c.nodes.map (Node.shift b) } l = opticalRun c l := by
  unfold opticalRun
  congr 1
  funext i
  simp only [List.getElem?_map]
  cases c.nodes[i]? with
  | none => rfl
  | some n => simp [isOptical_shift]

theorem opticalNodes_shift (b : ℕ) (c : Circ) (l : List ℕ) : opticalNodes { c with nodes := c.nodes.map (Node.shift b) } l = opticalNodes c l := by
  unfold opticalNodes
  congr 1
  funext i
  simp only [List.getElem?_map]
  cases c.nodes[i]? with
  | none => rfl
  | some n => cases n <;> rfl

/-- Evaluation does not depend on the numbers of the circuits. -/
theorem evalNodes_shift {env env' : ℕ → Circ} {rnd rnd' : ℕ → ℕ → Bool → ℕ → ℕ → ℕ} {b n : ℕ}
    (h : ∀ k < n, env' (b + k) = { env k with nodes := (env k).nodes.map (Node.shift b) }) (hr : ∀ k < n, rnd' (b + k) = rnd k)
    (hb : ∀ k < n, ∀ k', Node.bridge k' ∈ (env k).nodes → k' < n) (fuel : ℕ) :
    ∀ k < n, ∀ nodes coll, evalNodes env' rnd' fuel (b + k) nodes coll = evalNodes env rnd fuel k nodes coll := by
  induction fuel with
  | zero => intro k _ nodes coll; rfl
  | succ fuel ih =>
    intro k hk nodes coll
    cases nodes with
    | nil => rfl
    | cons i rest =>
      simp only [evalNodes]
      have ih' := ih k hk
      rw [h k hk, hr k hk]
      simp only [List.length_map, List.getElem?_map]
      split_ifs with hall
      swap
      · rfl
      · cases hn : (env k).nodes[i]? with
        | none => rfl
        | some nd =>
          simp only [Option.map_some]
          cases nd with
          | optical M tl =>
            simp only [Node.shift]
            rw [opticalRun_shift, opticalNodes_shift]
            cases opticalNodes (env k) (opticalRun (env k) (i :: rest)) with
            | nil => rfl
            | cons a l =>
              simp only
              congr 1
              funext c
              exact ih' _ _
          | fockMatrix F =>
            simp only [Node.shift]
            congr 1
            funext c
            exact ih' _ _
          | classical f v a =>
            simp only [Node.shift]
            congr 1
            funext c
            exact ih' _ _
          | measurement o c =>
            simp only [Node.shift, List.map_map]
            congr 1
            · congr 2
              apply List.map_congr_left
              intro a _
              exact isMeasurement_shift b a
            · funext c
              exact ih' _ _
          | controlled v ch df tl =>
            simp only [Node.shift]
            congr 1
            funext c
            exact ih' _ _
          | generic f =>
            simp only [Node.shift]
            congr 1
            funext c
            exact ih' _ _
          | bridge next =>
            have hnext := hb k hk next (List.mem_of_getElem? hn)
            simp only [Node.shift]
            rw [h next hnext]
            simp only [List.length_map]
            congr 1
            funext c
            exact ih next hnext _ _

theorem bridged_length (base : ℕ) (cs : List Circ) : (bridged base cs).length = cs.length := by simp [bridged]

theorem bridged_get {base : ℕ} {d : Circ} {cs : List Circ} (hno : ∀ c ∈ cs, ∀ k, Node.bridge k ∉ c.nodes) {i : ℕ} (hi : i < cs.length) :
    (bridged base cs)[i]? = some (false, { compoundEnv d cs i with nodes := (compoundEnv d cs i).nodes.map (Node.shift base) }) := by
  have hc : cs.getD i d = cs[i] := by simp [hi]
  have hs : ∀ c ∈ cs, c.nodes.map (Node.shift base) = c.nodes := by
    intro c hcm
    refine (List.map_congr_left (g := id) ?_).trans (List.map_id _)
    intro nd hnd
    cases nd with
    | bridge k => exact absurd hnd (hno c hcm k)
    | _ => rfl
  simp only [bridged, List.getElem?_map, List.getElem?_zipIdx, List.getElem?_eq_getElem hi, Option.map_some, Nat.zero_add, compoundEnv, hc]
  have hsi := hs _ (List.getElem_mem hi)
  split_ifs
  · simp only [List.map_append, hsi, List.map_cons, List.map_nil, Node.shift, Nat.add_assoc]
  · simp only [hsi]

/-- Circuits keep their place; those that are not the user's keep their content. -/
theorem step_private {d : Circ} {w : World} {k : ℕ} {c : Circ} (h : w.circs[k]? = some (false, c)) (op : Op) : (w.step d op).circs[k]? = some (false, c) := by
  have hr : ∀ (w : World) (j : ℕ), w.circs[k]? = some (false, c) → (w.refresh d j).circs[k]? = some (false, c) := by
    intro w j h
    unfold World.refresh
    cases w.comps[j]? with
    | none => exact h
    | some o => simp only; rw [List.getElem?_append_left (List.getElem?_eq_some_iff.1 h).1]; exact h
  cases op with
  | newCircuit c' => simp only [World.step]; rw [List.getElem?_append_left (List.getElem?_eq_some_iff.1 h).1]; exact h
  | addNode k' n =>
    simp only [World.step]
    split
    · rename_i c' hc'
      simp only
      by_cases e : k' = k
      · subst e; rw [h] at hc'; cases hc'
      · rw [List.getElem?_set_ne e]; exact h
    · exact h
  | newList l => exact h
  | append ref k' => exact h
  | newCompound ref => exact hr _ _ h
  | setList j ref => exact h
  | refresh j => exact hr _ _ h
  | clear j => exact h

theorem step_inner {d : Circ} {w : World} {j : ℕ} {o : CompoundObj} (h : w.comps[j]? = some o) {op : Op} (h1 : op ≠ .refresh j) (h2 : op ≠ .clear j) :
    ∃ o', (w.step d op).comps[j]? = some o' ∧ o'.inner = o.inner := by
  have hr : ∀ (w : World) (j' : ℕ), j' ≠ j → w.comps[j]? = some o → (w.refresh d j').comps[j]? = some o := by
    intro w j' hne h
    unfold World.refresh
    cases w.comps[j']? with
    | none => exact h
    | some o' => simp only; rw [List.getElem?_set_ne hne]; exact h
  have hlt : j < w.comps.length := (List.getElem?_eq_some_iff.1 h).1
  cases op with
  | newCircuit c' => exact ⟨o, h, rfl⟩
  | addNode k' n =>
    simp only [World.step]
    split <;> exact ⟨o, h, rfl⟩
  | newList l => exact ⟨o, h, rfl⟩
  | append ref k' => exact ⟨o, h, rfl⟩
  | newCompound ref =>
    refine ⟨o, hr _ _ (by omega) ?_, rfl⟩
    simp only
    rw [List.getElem?_append_left hlt]; exact h
  | setList j' ref =>
    simp only [World.step, List.getElem?_modify, h]
    by_cases e : j' = j
    · exact ⟨{ o with listRef := ref }, by simp [e], rfl⟩
    · exact ⟨o, by simp [e], rfl⟩
  | refresh j' => exact ⟨o, hr _ _ (fun e => h1 (by rw [e])) h, rfl⟩
  | clear j' =>
    simp only [World.step, List.getElem?_modify, h]
    by_cases e : j' = j
    · exact absurd (by rw [e]) h2
    · exact ⟨o, by simp [e], rfl⟩

theorem run_private {d : Circ} (ops : List Op) : ∀ {w : World} {k : ℕ} {c : Circ}, w.circs[k]? = some (false, c) → (w.run d ops).circs[k]? = some (false, c) := by
  induction ops with
  | nil => intro w k c h; exact h
  | cons op ops ih => intro w k c h; exact ih (step_private h op)

theorem run_inner {d : Circ} {j : ℕ} (ops : List Op) (h1 : Op.refresh j ∉ ops) (h2 : Op.clear j ∉ ops) : ∀ {w : World} {o : CompoundObj}, w.comps[j]? = some o →
    ∃ o', (w.run d ops).comps[j]? = some o' ∧ o'.inner = o.inner := by
  induction ops with
  | nil => intro w o h; exact ⟨o, h, rfl⟩
  | cons op ops ih =>
    intro w o h
    obtain ⟨o1, e1, e2⟩ := step_inner (d := d) h (op := op) (by rintro rfl; simp at h1) (by rintro rfl; simp at h2)
    obtain ⟨o2, e3, e4⟩ := ih (by simp at h1; exact h1.2) (by simp at h2; exact h2.2) e1
    exact ⟨o2, e3, e4.trans e2⟩

end Verif
