/-
Property C143: a circuit drawn by station.
-/
import Verif.Lemmas.Station
import Mathlib.Data.List.Nodup

namespace Verif.Props
open Verif Spec

open Classical in
/-- **C143** The circuit of a station consists, in the order of the circuit, of the bridges and of the nodes with a channel at the station; each is on the right channels of
the station and names exactly the other stations it is shared with. -/
theorem C143_nodes (s : Station) (all : List Station) (nodes : List GlobalNode) :
    List.Forall₂ (SeenAs s all) (nodes.filter (fun n => decide (n.type = .bridge ∨ Has s n))) (stationCircuit s all nodes) := by
  unfold stationCircuit
  suffices ∀ k, List.Forall₂ (SeenAs s all) (nodes.filter (fun n => decide (n.type = .bridge ∨ Has s n)))
      ((nodes.zipIdx k).filterMap (fun p => localNode s all p.2 p.1)) from this 0
  induction nodes with
  | nil => intro k; exact List.Forall₂.nil
  | cons n nodes ih =>
    intro k
    rw [List.zipIdx_cons]
    rcases h : localNode s all k n with _ | m
    · have := (localNode_eq_none s all k n).1 h
      rw [List.filterMap_cons_none (by exact h), List.filter_cons_of_neg (by simpa using this)]
      exact ih _
    · have h2 : ¬(n.type ≠ .bridge ∧ ¬Has s n) := fun hc => by
        rw [(localNode_eq_none s all k n).2 hc] at h
        cases h
      rw [List.filterMap_cons_some (by exact h), List.filter_cons_of_pos (by
        simp only [decide_eq_true_eq]
        by_contra hc
        exact h2 (not_or.1 hc))]
      exact List.Forall₂.cons (localNode_seen h).1 (ih _)

/-- **C143** Connections are mutual: if the node with index `i` names station `t` in the circuit of station `s`, then it is in the circuit of `t`, names `s` there, and is
marked with the same symbol. -/
theorem C143_mutual (all : List Station) (s t : Station) (hs : s ∈ all) (ht : t ∈ all) (hd : (all.map Station.name).Nodup) (i : ℕ) (n : GlobalNode)
    (m : LocalNode) (h : localNode s all i n = some m) (hn : t.name ∈ m.named) :
    ∃ m', localNode t all i n = some m' ∧ s.name ∈ m'.named ∧ m.identifier = some (symbolNumber i) ∧ m'.identifier = some (symbolNumber i) := by
  obtain ⟨hseen, hid⟩ := localNode_seen h
  obtain ⟨t', ht', e, hne, hsh⟩ := (hseen.2.2.2 _).1 hn
  have huniq : t' = t := by
    exact List.inj_on_of_nodup_map hd ht' ht e
  subst huniq
  have hsh' : Shared t' s n := by
    unfold Shared at hsh ⊢
    rcases hty : n.type with _ | _ | _ <;> rw [hty] at hsh <;> dsimp only at hsh ⊢
    · obtain ⟨p, hp, h1, h2⟩ := hsh
      exact ⟨p, hp, h2, h1⟩
    · exact hsh.symm
  have hHas : Has t' n := by
    unfold Shared at hsh
    rcases hty : n.type with _ | _ | _ <;> rw [hty] at hsh <;> dsimp only at hsh
    · obtain ⟨p, hp, -, h2⟩ := hsh
      have := List.of_mem_zip hp
      rcases h2 with h2 | h2
      · exact Or.inl ⟨_, this.1, h2⟩
      · exact Or.inr ⟨_, this.2, h2⟩
    · exact hsh.2
  rcases h' : localNode t' all i n with _ | m'
  · exact absurd hHas ((localNode_eq_none t' all i n).1 h').2
  · obtain ⟨hseen', hid'⟩ := localNode_seen h'
    have hin : s.name ∈ m'.named := (hseen'.2.2.2 _).2 ⟨s, hs, rfl, hne.symm, hsh'⟩
    refine ⟨m', rfl, hin, ?_, ?_⟩
    · rw [hid, if_neg (List.ne_nil_of_mem hn)]
    · rw [hid', if_neg (List.ne_nil_of_mem hin)]

/-- **C143** Different nodes of a circuit are marked with different symbols. -/
theorem C143_symbols (all : List Station) (s t : Station) (i j : ℕ) (n n' : GlobalNode) (m m' : LocalNode) (h : localNode s all i n = some m)
    (h' : localNode t all j n' = some m') (x : ℕ) (hx : m.identifier = some x) (hy : m'.identifier = some x) : i = j := by
  rw [(localNode_seen h).2] at hx
  rw [(localNode_seen h').2] at hy
  split_ifs at hx hy
  have e : symbolNumber i = symbolNumber j := Option.some.inj (hx.trans hy.symm)
  unfold symbolNumber at e
  omega

/-- **C143 fails** for a list given as `station_to_draw`: whatever the list is, all stations are drawn, although the documentation says that the stations of the list are
drawn. -/
theorem C143_fails :
    (∀ all names, stationsDrawn all (.list names) = all.map Station.name) ∧
    ∃ all names, (∀ name ∈ names, name ∈ all.map Station.name) ∧ stationsDrawn all (.list names) ≠ names := by
  refine ⟨fun _ _ => rfl, [⟨['b'], [0], []⟩, ⟨['a'], [1], []⟩], [['a']], by decide, by decide⟩

/-! ### The hypotheses are met -/

section NonVacuity

private def alice : Station := ⟨['a'], [2, 3], [2]⟩
private def bob : Station := ⟨['b'], [0, 1], [0, 1]⟩

/-- Alice has optical channels 2 and 3 (her 0 and 1) and classical channel 2 (her 0). A measurement of 1 and 2, written to 1 and 2, is no connection; a beam splitter on
3 and 1 is; a gate controlled by Bob's classical channel 0 is as well. -/
example : stationCircuit alice [bob, alice] [⟨.measurement, [1, 2], [1, 2]⟩, ⟨.other, [0, 1], []⟩, ⟨.other, [3, 1], []⟩, ⟨.other, [2], [0]⟩, ⟨.bridge, [], []⟩] =
    [⟨.measurement, [0], [0], [], [], [], none⟩, ⟨.other, [1], [], [], [['b']], [], some 51⟩, ⟨.other, [0], [], [['b']], [], [], some 52⟩,
      ⟨.bridge, [], [], [], [], [], none⟩] := by
  decide

example : ∃ m', localNode bob [bob, alice] 2 ⟨.other, [3, 1], []⟩ = some m' ∧ alice.name ∈ m'.named ∧
    (localNode alice [bob, alice] 2 ⟨.other, [3, 1], []⟩).map LocalNode.identifier = some (some 51) ∧ m'.identifier = some (symbolNumber 2) := by
  obtain ⟨m', h1, h2, -, h3⟩ := C143_mutual [bob, alice] alice bob (by simp) (by simp) (by simp [alice, bob]) 2 ⟨.other, [3, 1], []⟩ _ rfl
    (by rw [show bob.name = ['b'] from rfl]; decide)
  exact ⟨m', h1, h2, rfl, h3⟩

end NonVacuity

end Verif.Props
