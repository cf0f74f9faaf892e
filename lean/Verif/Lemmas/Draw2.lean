import Verif.Lemmas.Draw
import Mathlib.Tactic.Ring
import Mathlib.Data.Int.Order.Basic

namespace Verif
open Spec

/-- a node that has been drawn, and its place -/
abbrev Drawn := ℤ × DrawNode

/-- nodes that share a line with this one will be drawn to its right -/
def SafeAt (a c : ℕ) (occ : List ℕ) (h : Drawn) : Prop :=
  (h.2 = .bridge ∧ h.1 ≤ -2) ∨ ∃ q < occ.length, h.1 ≤ 4 * (q : ℤ) + 2 ∧ (h.2 ≠ .bridge → h.1 ≤ 4 * (q : ℤ) + 1) ∧
    ∀ line, Covers a c h.2 line → (occ.getD q 0).testBit (a + c - 1 - line) = true

/-- no node will be drawn at its place too close to this one -/
def FreeAt (a c : ℕ) (occ : List ℕ) (h : Drawn) : Prop :=
  h.2 ≠ .bridge → ∀ p : ℕ, h.1 = 4 * (p : ℤ) → (∀ line, Covers a c h.2 line → (occ.getD p 0).testBit (a + c - 1 - line) = true) ∨
    ∃ q < occ.length, p ≤ q ∧ ∀ i < a + c, (occ.getD q 0).testBit i = true

def DrawInv (a c : ℕ) (occ : List ℕ) (H : List Drawn) : Prop := ∀ h ∈ H, SafeAt a c occ h ∧ FreeAt a c occ h

def DrawnAfter (a c : ℕ) (h x : Drawn) : Prop :=
  (¬(h.2 = .bridge ∧ x.2 = .bridge) → (∃ line, Covers a c h.2 line ∧ Covers a c x.2 line) → h.1 < x.1) ∧
  (h.2 ≠ .bridge → x.2 ≠ .bridge → h.1 = x.1 → ∀ line line', Covers a c h.2 line → Covers a c x.2 line' → line + 2 ≤ line' ∨ line' + 2 ≤ line)

theorem follows_of_lt {a c : ℕ} {h x : Drawn} (e : h.1 < x.1) : DrawnAfter a c h x := ⟨fun _ _ => e, fun _ _ e' => by omega⟩

/-- more occupied than before -/
def OccMono (occ occ' : List ℕ) : Prop := occ.length ≤ occ'.length ∧ ∀ q i, (occ.getD q 0).testBit i = true → (occ'.getD q 0).testBit i = true

theorem OccMono.inv {a c : ℕ} {occ occ' : List ℕ} {H : List Drawn} (h : OccMono occ occ') (hi : DrawInv a c occ H) : DrawInv a c occ' H := by
  intro x hx
  obtain ⟨h1, h2⟩ := hi x hx
  refine ⟨?_, fun hb p hp => ?_⟩
  · rcases h1 with h1 | ⟨q, hq, e1, e2, e3⟩
    · exact Or.inl h1
    · exact Or.inr ⟨q, by have := h.1; omega, e1, e2, fun line hl => h.2 _ _ (e3 line hl)⟩
  · rcases h2 hb p hp with h2 | ⟨q, hq, e1, e2⟩
    · exact Or.inl fun line hl => h.2 _ _ (h2 line hl)
    · exact Or.inr ⟨q, by have := h.1; omega, e1, fun i hi => h.2 _ _ (e2 i hi)⟩

theorem occMono_append (occ xs : List ℕ) : OccMono occ (occ ++ xs) := by
  refine ⟨by simp, fun q i h => ?_⟩
  by_cases hq : q < occ.length
  · rwa [List.getD_append _ _ _ _ hq]
  · rw [List.getD_eq_default _ _ (by omega)] at h; simp at h

theorem occMono_set (occ : List ℕ) (p b : ℕ) : OccMono occ (occ.set p (occ.getD p 0 ||| b)) := by
  refine ⟨by simp, fun q i h => ?_⟩
  by_cases hq : q < occ.length
  · rw [List.getD_eq_getElem _ _ (by simpa using hq), List.getElem_set]
    split
    · rename_i e; subst e; rw [Nat.testBit_or, h]; rfl
    · rwa [List.getD_eq_getElem _ _ hq] at h
  · rw [List.getD_eq_default _ _ (by omega)] at h; simp at h

theorem DrawInv.below {a c : ℕ} {occ : List ℕ} {H : List Drawn} (hi : DrawInv a c occ H) {h : Drawn} (hh : h ∈ H) : h.1 ≤ 4 * (occ.length : ℤ) - 2 ∧
    (h.2 ≠ .bridge → h.1 ≤ 4 * (occ.length : ℤ) - 3) := by
  rcases (hi h hh).1 with ⟨h1, h2⟩ | ⟨q, hq, e1, e2, -⟩
  · exact ⟨by omega, fun hb => absurd h1 hb⟩
  · exact ⟨by omega, fun hb => by have := e2 hb; omega⟩

theorem DrawInv.add {a c : ℕ} {occ : List ℕ} {H : List Drawn} (hi : DrawInv a c occ H) {x : Drawn} (h1 : SafeAt a c occ x) (h2 : FreeAt a c occ x) :
    DrawInv a c occ (H ++ [x]) := by
  intro h hh
  rcases List.mem_append.1 hh with hh | hh
  · exact hi h hh
  · rw [List.mem_singleton.1 hh]; exact ⟨h1, h2⟩

/-- a node of its own, with bits that contain the lines it covers -/
theorem placeEnd_ok {a c : ℕ} {s : DrawState} {H : List Drawn} (hi : DrawInv a c s.occ H) {n : DrawNode} {bits : ℕ}
    (hb : ∀ line, Covers a c n line → bits.testBit (a + c - 1 - line) = true) : let r := placeEnd s bits
    DrawInv a c r.2.occ (H ++ [(r.1, n)]) ∧ ∀ h ∈ H, DrawnAfter a c h (r.1, n) := by
  dsimp only [placeEnd]
  have hg : (s.occ ++ [bits]).getD s.occ.length 0 = bits := by rw [List.getD_append_right _ _ _ _ le_rfl]; simp
  refine ⟨((occMono_append _ _).inv hi).add ?_ ?_, fun h hh => follows_of_lt ?_⟩
  · exact Or.inr ⟨s.occ.length, by simp, by simp, fun _ => by simp, fun line hl => by rw [hg]; exact hb line hl⟩
  · intro _ p hp
    have : p = s.occ.length := by simp at hp; omega
    subst this
    exact Or.inl fun line hl => by rw [hg]; exact hb line hl
  · have := (hi.below hh).1
    show h.1 < 4 * (s.occ.length : ℤ)
    omega

theorem placeFit_ok {a c : ℕ} {s : DrawState} {H : List Drawn} (hi : DrawInv a c s.occ H) {n : DrawNode} {bits : ℕ}
    (hb : ∀ line, Covers a c n line → bits.testBit (a + c - 1 - line) = true) : let r := placeFit s bits
    DrawInv a c r.2.occ (H ++ [(r.1, n)]) ∧ ∀ h ∈ H, DrawnAfter a c h (r.1, n) := by
  unfold placeFit
  dsimp only
  set L := searchLeft s.occ bits s.occ.length with hL
  set p := searchRight s.occ (wideBits bits) s.occ.length L with hp
  have hpL : L ≤ p := searchRight_ge _ _
  have hfree := searchRight_free (occ := s.occ) (wide := wideBits bits) s.occ.length L (by omega)
  rw [← hp] at hfree
  split
  · exact placeEnd_ok hi hb
  rename_i hlt
  have hlt : p < s.occ.length := by omega
  have hfree : s.occ.getD p 0 &&& wideBits bits = 0 := by
    rcases hfree with h | h
    · omega
    · exact h
  have hg : (s.occ.set p (s.occ.getD p 0 ||| bits)).getD p 0 = s.occ.getD p 0 ||| bits := by
    rw [List.getD_eq_getElem _ _ (by simpa using hlt), List.getElem_set]; simp
  have hset : ∀ line, Covers a c n line → ((s.occ.set p (s.occ.getD p 0 ||| bits)).getD p 0).testBit (a + c - 1 - line) = true := by
    intro line hl
    rw [hg, Nat.testBit_or, hb line hl]; simp
  refine ⟨((occMono_set _ _ _).inv hi).add ?_ ?_, fun h hh => ⟨fun _ hs => ?_, fun h1 h2 e line line' hl hl' => ?_⟩⟩
  · exact Or.inr ⟨p, by simpa using hlt, by simp, fun _ => by simp, hset⟩
  · intro _ p' hp'
    have : p' = p := by simp at hp'; omega
    subst this
    exact Or.inl hset
  · obtain ⟨line, h1, h2⟩ := hs
    show h.1 < 4 * (p : ℤ)
    rcases (hi h hh).1 with ⟨-, h3⟩ | ⟨q, hq, e1, -, e3⟩
    · omega
    · have := searchLeft_gt s.occ.length hq (land_ne_zero (e3 line h1) (hb line h2))
      omega
  · have e : h.1 = 4 * (p : ℤ) := e
    rcases (hi h hh).2 h1 p e with h3 | ⟨q, hq, hpq, hf⟩
    · by_contra hc
      have b1 := h3 line hl
      have b2 := wideBits_near (i := a + c - 1 - line) (hb line' hl') (by have := hl.1; have := hl'.1; omega)
      exact land_ne_zero b1 b2 hfree
    · have b1 := hf (a + c - 1 - line') (by have := hl'.1; omega)
      have := searchLeft_gt s.occ.length hq (land_ne_zero b1 (hb line' hl'))
      omega

theorem placeBridge_ok {a c : ℕ} {s : DrawState} {H : List Drawn} (hi : DrawInv a c s.occ H) : let r := placeBridge a c s
    DrawInv a c r.2.occ (H ++ [(r.1, .bridge)]) ∧ ∀ h ∈ H, DrawnAfter a c h (r.1, .bridge) := by
  unfold placeBridge
  dsimp only
  set full := bitsToNat (List.replicate (a + c) true) with hfull
  have hlen : ((s.occ ++ [full]).drop 1).length = s.occ.length := by simp
  have hlast : 0 < s.occ.length → ((s.occ ++ [full]).drop 1).getD (s.occ.length - 1) 0 = full := by
    intro h
    rw [List.getD_eq_getElem?_getD, List.getElem?_drop, show 1 + (s.occ.length - 1) = s.occ.length by omega, List.getElem?_append_right le_rfl]
    simp
  have hbit : ∀ i < a + c, full.testBit i = true := fun i hi => full_testBit hi
  refine ⟨?_, fun h hh => ⟨fun hb _ => ?_, fun _ hx => absurd rfl hx⟩⟩
  · intro x hx
    by_cases h0 : s.occ.length = 0
    · have hall : x.2 = .bridge ∧ x.1 ≤ -2 := by
        rcases List.mem_append.1 hx with hx | hx
        · rcases (hi x hx).1 with h | ⟨q, hq, -⟩
          · exact h
          · omega
        · rw [List.mem_singleton.1 hx]; refine ⟨rfl, ?_⟩
          show 4 * (s.occ.length : ℤ) - 2 ≤ -2
          rw [h0]; simp
      exact ⟨Or.inl hall, fun hb => absurd hall.1 hb⟩
    · have hpos : 0 < s.occ.length := by omega
      have hx1 : x.1 ≤ 4 * (s.occ.length : ℤ) - 2 ∧ (x.2 ≠ .bridge → x.1 ≤ 4 * (s.occ.length : ℤ) - 3) := by
        rcases List.mem_append.1 hx with hx | hx
        · exact hi.below hx
        · rw [List.mem_singleton.1 hx]; exact ⟨le_rfl, fun h => absurd rfl h⟩
      have hc : ((s.occ.length - 1 : ℕ) : ℤ) = (s.occ.length : ℤ) - 1 := by omega
      refine ⟨Or.inr ⟨s.occ.length - 1, by rw [hlen]; omega, by rw [hc]; have := hx1.1; omega, fun hb => by rw [hc]; have := hx1.2 hb; omega, fun line hl => ?_⟩, fun hb p hp => Or.inr ⟨s.occ.length - 1, by rw [hlen]; omega, ?_, fun i hi => ?_⟩⟩
      · rw [hlast hpos]; exact hbit _ (by have := hl.1; omega)
      · have := hx1.2 hb; omega
      · rw [hlast hpos]; exact hbit i hi
  · have := (hi.below hh).2 (fun e => hb ⟨e, rfl⟩)
    show h.1 < 4 * (s.occ.length : ℤ) - 2
    omega

end Verif
