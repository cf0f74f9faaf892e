/-
Property C142: the drawing shows the nodes in the order of the evaluation.
-/
import Verif.Lemmas.Draw4

namespace Verif.Props
open Verif Spec

/-- **C142** Drawing circuits (each connected to the next by a bridge) in which every run of nodes of one combined gate fits on a page raises no exception and gives every
node a place. -/
theorem C142_draws_partial (a c w : ℕ) (hw : 1 ≤ w) (ls : List (List DrawNode)) (h : ∀ l ∈ ls, l ≠ [] ∧ GatesFit w l) :
    ∃ places occ, drawCircuits a c w [] ls = some (places, occ) ∧ places.length = ls.flatten.length := by
  obtain ⟨⟨p, o⟩, h1, h2, -⟩ := drawCircuits_ok (a := a) (c := c) hw ls [] [] (fun h hh => by cases hh) List.Pairwise.nil h
  exact ⟨p, o, h1, h2⟩

theorem drawn_pairwise {a c w : ℕ} (hw : 1 ≤ w) {ls : List (List DrawNode)} (h : ∀ l ∈ ls, l ≠ [] ∧ GatesFit w l) {places : List ℤ} {occ : List ℕ}
    (hd : drawCircuits a c w [] ls = some (places, occ)) {i j : ℕ} (hij : i < j) {n m : DrawNode} (hn : ls.flatten[i]? = some n) (hm : ls.flatten[j]? = some m) :
    ∃ x y, places[i]? = some x ∧ places[j]? = some y ∧ DrawnAfter a c (x, n) (y, m) := by
  obtain ⟨⟨p, o⟩, h1, h2, h3⟩ := drawCircuits_ok (a := a) (c := c) hw ls [] [] (fun h hh => by cases hh) List.Pairwise.nil h
  rw [hd] at h1
  obtain ⟨rfl, rfl⟩ := Prod.mk.inj (Option.some.inj h1)
  rw [List.nil_append] at h3
  obtain ⟨hi1, rfl⟩ := List.getElem?_eq_some_iff.1 hn
  obtain ⟨hj1, rfl⟩ := List.getElem?_eq_some_iff.1 hm
  have h2 : places.length = ls.flatten.length := h2
  refine ⟨places[i]'(by omega), places[j]'(by omega), List.getElem?_eq_getElem _, List.getElem?_eq_getElem _, ?_⟩
  have := List.pairwise_iff_getElem.1 h3 i j (by rw [List.length_zip]; omega) (by rw [List.length_zip]; omega) hij
  simpa using this

/-- **C142** The drawing shows the order of the evaluation: of two nodes whose symbols have a line in common the one that is evaluated first is drawn further to the left
(or on an earlier page); a bridge has all lines in common with every node, so that it is drawn right of the nodes before it and left of the nodes after it. -/
theorem C142_order_partial (a c w : ℕ) (hw : 1 ≤ w) (ls : List (List DrawNode)) (h : ∀ l ∈ ls, l ≠ [] ∧ GatesFit w l) (places : List ℤ) (occ : List ℕ)
    (hd : drawCircuits a c w [] ls = some (places, occ)) (i j : ℕ) (hij : i < j) (n m : DrawNode) (hn : ls.flatten[i]? = some n) (hm : ls.flatten[j]? = some m)
    (hb : ¬(n = .bridge ∧ m = .bridge)) (line : ℕ) (h1 : Covers a c n line) (h2 : Covers a c m line) :
    ∃ x y, places[i]? = some x ∧ places[j]? = some y ∧ x < y := by
  obtain ⟨x, y, hx, hy, hf⟩ := drawn_pairwise hw h hd hij hn hm
  exact ⟨x, y, hx, hy, hf.1 hb ⟨line, h1, h2⟩⟩

/-- **C142** Symbols do not overlap or touch: if two nodes are drawn at the same place there is at least one free line between all lines of the one and all lines of the
other. -/
theorem C142_apart_partial (a c w : ℕ) (hw : 1 ≤ w) (ls : List (List DrawNode)) (h : ∀ l ∈ ls, l ≠ [] ∧ GatesFit w l) (places : List ℤ) (occ : List ℕ)
    (hd : drawCircuits a c w [] ls = some (places, occ)) (i j : ℕ) (hij : i ≠ j) (n m : DrawNode) (hn : ls.flatten[i]? = some n) (hm : ls.flatten[j]? = some m)
    (hb : n ≠ .bridge ∧ m ≠ .bridge) (x : ℤ) (hx : places[i]? = some x) (hy : places[j]? = some x) (line line' : ℕ) (h1 : Covers a c n line) (h2 : Covers a c m line') :
    line + 2 ≤ line' ∨ line' + 2 ≤ line := by
  rcases Nat.lt_or_gt_of_ne hij with hl | hl
  · obtain ⟨x', y', hx', hy', hf⟩ := drawn_pairwise hw h hd hl hn hm
    obtain rfl := Option.some.inj (hx.symm.trans hx')
    obtain rfl := Option.some.inj (hy.symm.trans hy')
    exact hf.2 hb.1 hb.2 rfl line line' h1 h2
  · obtain ⟨x', y', hx', hy', hf⟩ := drawn_pairwise hw h hd hl hm hn
    obtain rfl := Option.some.inj (hy.symm.trans hx')
    obtain rfl := Option.some.inj (hx.symm.trans hy')
    exact (hf.2 hb.2 hb.1 rfl line' line h2 h1).symm

/-- **C142** Every node is drawn on one of the pages that are prepared before drawing: the pages never run out. -/
theorem C142_pages_partial (a c w : ℕ) (hw : 1 ≤ w) (ls : List (List DrawNode)) (h : ∀ l ∈ ls, l ≠ [] ∧ GatesFit w l) (hn : ∃ n ∈ ls.flatten, n ≠ .bridge) (places : List ℤ)
    (occ : List ℕ) (hd : drawCircuits a c w [] ls = some (places, occ)) (x : ℤ) (hx : x ∈ places) :
    ∃ page < preparedPages w ls, 4 * (w * page : ℤ) ≤ x + 2 ∧ x + 2 < 4 * (w * (page + 1) : ℤ) := by
  obtain ⟨n, hn, hb⟩ := hn
  have h1 := plainNodes_pos hn hb
  have h2 := plainNodes_counted ls
  obtain ⟨b1, b2⟩ := drawCircuits_pages (K := countedNodes ls) hw (by omega) ls [] (by simp; omega) (fun l hl => (h l hl).2) _ hd x hx
  have h3 := counted_pages hw ls
  obtain ⟨y, hy⟩ : ∃ y : ℕ, x + 2 = y := ⟨(x + 2).toNat, by omega⟩
  have e1 := Nat.div_add_mod y (4 * w)
  have e2 := Nat.mod_lt y (show 0 < 4 * w by omega)
  have e3 : y / (4 * w) < preparedPages w ls := by
    rw [Nat.div_lt_iff_lt_mul (by omega)]
    have : preparedPages w ls * (4 * w) = 4 * (w * preparedPages w ls) := by ring
    omega
  refine ⟨y / (4 * w), e3, ?_, ?_⟩
  · rw [hy]
    have : 4 * w * (y / (4 * w)) ≤ y := by omega
    calc 4 * ((w : ℤ) * ((y / (4 * w) : ℕ) : ℤ)) = ((4 * w * (y / (4 * w)) : ℕ) : ℤ) := by push_cast; ring
      _ ≤ y := by exact_mod_cast this
  · rw [hy]
    have : y < 4 * w * (y / (4 * w)) + 4 * w := by omega
    calc (y : ℤ) < ((4 * w * (y / (4 * w)) + 4 * w : ℕ) : ℤ) := by exact_mod_cast this
      _ = 4 * ((w : ℤ) * (((y / (4 * w) : ℕ) : ℤ) + 1)) := by push_cast; ring

theorem gateRun_replicate (g : List Char) (o k : List ℕ) (linked : Bool) (m : ℕ) : gateRun g (List.replicate m (.node o k linked (some g))) = m := by
  induction m with
  | zero => rfl
  | succ m ih => rw [List.replicate_succ]; unfold gateRun; rw [if_pos rfl, ih]

/-- **C142 fails** for longer runs: a circuit that consists of more than `2 * w + 1` nodes of one combined gate cannot be drawn, the code raises an exception. For instance
eleven beam splitters (`non_polarizing_50_50_beamsplitter`, two nodes each) with the default of ten positions on a page. -/
theorem C142_fails (a c w m : ℕ) (hw : 1 ≤ w) (g : List Char) (o k : List ℕ) (linked : Bool) (hm : 2 * w + 1 < m) :
    drawCircuits a c w [] [List.replicate m (.node o k linked (some g))] = none := by
  obtain ⟨m, rfl⟩ : ∃ n, m = n + 2 := ⟨m - 2, by omega⟩
  have hr := gateRun_replicate g o k linked (m + 2)
  rw [List.replicate_succ] at hr
  unfold drawCircuits
  rw [if_neg (by simp [List.replicate_succ])]
  have : drawNodes a c w true none ⟨[], []⟩ (List.replicate (m + 2) (.node o k linked (some g))) = none := by
    have e2 : ∀ (s : DrawState) (rest : List DrawNode), s.pending = [] → drawNode a c w false (some g) s (.node o k linked (some g) :: rest) = none := by
      intro s rest h
      unfold drawNode
      dsimp only
      rw [if_neg (by simp), h]
    have e1 : drawNode a c w true none ⟨[], []⟩ (.node o k linked (some g) :: List.replicate (m + 1) (.node o k linked (some g))) =
        some (placeEnd ⟨[], []⟩ (linkBits (a + c) (fillBits (a + c) (usedBits a c o k)) linked)) := by
      unfold drawNode
      dsimp only
      rw [if_pos (Or.inl rfl), hr, if_pos (Or.inl (by omega)), if_pos (Or.inl rfl)]
    rw [List.replicate_succ]
    unfold drawNodes
    rw [e1]
    simp only [Option.bind_eq_bind, Option.bind_some]
    rw [List.replicate_succ]
    unfold drawNodes
    rw [show (DrawNode.node o k linked (some g)).gate = some g from rfl, e2 _ _ rfl]
    rfl
  rw [this]
  rfl

/-! ### The hypotheses are met -/

section NonVacuity

/-- Three optical and two classical lines: a node on the first two lines, one on the third (drawn at the next position, as it would touch), a measurement of line 0 written
to classical line 1, a beam splitter of two nodes, and a bridge; then a circuit with a node on line 2 and one on line 0. -/
private def twoDrawn : List (List DrawNode) :=
  [[.node [0, 1] [] false none, .node [2] [] false none, .node [0] [1] false none, .node [0, 2] [] false (some ['B']), .node [1] [] false (some ['B']), .bridge],
   [.node [2] [] false none, .node [0] [] false none]]

private theorem twoDrawn_fit : ∀ l ∈ twoDrawn, l ≠ [] ∧ GatesFit 10 l := by
  intro l hl
  have hlen : l.length ≤ 6 ∧ l ≠ [] := by
    simp only [twoDrawn, List.mem_cons, List.not_mem_nil, or_false] at hl
    rcases hl with rfl | rfl <;> simp
  refine ⟨hlen.2, fun i g => ⟨7, by omega, fun n hn => ?_⟩⟩
  have := (List.getElem?_eq_some_iff.1 hn).1
  omega

/-- the two nodes of the last circuit are drawn at the same place, and the theorem says that they do not touch -/
example : ∃ places occ, drawCircuits 3 2 10 [] twoDrawn = some (places, occ) ∧ places = [0, 4, 8, 11, 13, 14, 16, 16] ∧
    (∃ page : ℕ, page < 2 ∧ 4 * (((10 : ℕ) : ℤ) * (page : ℤ)) ≤ 16 + 2 ∧ (16 + 2 : ℤ) < 4 * (((10 : ℕ) : ℤ) * ((page : ℤ) + 1))) ∧
    ∃ x y, places[0]? = some x ∧ places[2]? = some y ∧ x < y := by
  have h : drawCircuits 3 2 10 [] twoDrawn = some ([0, 4, 8, 11, 13, 14, 16, 16], [4, 31, 28, 31, 20]) := by decide
  have c0 : Covers 3 2 (.node [0, 1] [] false none) 0 := ⟨by omega, ⟨0, le_rfl, Or.inl (by simp)⟩, Or.inr ⟨0, le_rfl, Or.inl (by simp)⟩⟩
  have c2 : Covers 3 2 (.node [0] [1] false none) 0 := ⟨by omega, ⟨0, le_rfl, Or.inl (by simp)⟩, Or.inr ⟨0, le_rfl, Or.inl (by simp)⟩⟩
  have hp := C142_pages_partial 3 2 10 (by norm_num) twoDrawn twoDrawn_fit ⟨_, by simp [twoDrawn]; exact Or.inl rfl, by simp⟩ _ _ h 16 (by simp)
  rw [show preparedPages 10 twoDrawn = 2 from by decide] at hp
  exact ⟨_, _, h, rfl, hp, C142_order_partial 3 2 10 (by norm_num) twoDrawn twoDrawn_fit _ _ h 0 2 (by norm_num) _ _ rfl rfl (by simp) 0 c0 c2⟩

end NonVacuity

end Verif.Props
