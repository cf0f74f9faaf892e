import Verif.Lemmas.Draw2

namespace Verif
open Spec

theorem placeGate_ok {a c w : ℕ} {s : DrawState} {bits n : ℕ} (hw : 1 ≤ w) (hn : n ≤ 2 * w) : let r := placeGate w s bits n
    OccMono s.occ r.2.occ ∧ r.1.length = n ∧ r.1.Pairwise (· < ·) ∧ ∀ x ∈ r.1, 4 * (s.occ.length : ℤ) - 1 ≤ x ∧
      ∀ m : DrawNode, (∀ line, Covers a c m line → bits.testBit (a + c - 1 - line) = true) → SafeAt a c r.2.occ (x, m) ∧ FreeAt a c r.2.occ (x, m) := by
  unfold placeGate
  dsimp only
  set len := s.occ.length with hlen
  set size := (1 + n) / 2 with hsize
  set fill := if (len + size) / w ≠ len / w then w - len % w else 0 with hfill
  have hmod : len % w < w := Nat.mod_lt _ (by omega)
  have hdiv : w * (len / w) + len % w = len := Nat.div_add_mod len w
  have hbase : w * ((len + size) / w) + (if (len + size) / w ≠ len / w then 0 else len % w) = len + fill := by
    by_cases h : (len + size) / w = len / w
    · rw [hfill, h]; simp; exact hdiv
    · rw [hfill, if_pos h, if_pos h]
      have h1 : (len + size) / w = len / w + 1 := by
        have hle : len / w ≤ (len + size) / w := Nat.div_le_div_right (by omega)
        have hlt : (len + size) / w < len / w + 2 := by
          rw [Nat.div_lt_iff_lt_mul (by omega)]
          have : (len / w + 2) * w = w * (len / w) + 2 * w := by ring
          omega
        omega
      rw [h1]
      have : w * (len / w + 1) = w * (len / w) + w := by ring
      omega
  rw [hbase]
  set base := len + fill with hb
  set shift : ℤ := if n % 2 = 0 then -1 else 0 with hshift
  have hs : (n % 2 = 0 ∧ shift = -1) ∨ (n % 2 = 1 ∧ shift = 0) := by
    rcases Nat.mod_two_eq_zero_or_one n with h | h
    · left; exact ⟨h, by rw [hshift, if_pos h]⟩
    · right; exact ⟨h, by rw [hshift, if_neg (by omega)]⟩
  set occ' := s.occ ++ List.replicate fill 0 ++ List.replicate size bits with hocc
  have hol : occ'.length = base + size := by simp [hocc, hb, hlen]; omega
  have hget : ∀ p, base ≤ p → p < base + size → occ'.getD p 0 = bits := by
    intro p h1 h2
    have hl : (s.occ ++ List.replicate fill 0).length = base := by simp [hb, hlen]
    rw [hocc, List.getD_append_right _ _ _ _ (by rw [hl]; exact h1), List.getD_eq_getElem _ _ (by simp; omega), List.getElem_replicate]
  refine ⟨?_, by simp, ?_, ?_⟩
  · rw [hocc, List.append_assoc]; exact occMono_append _ _
  · rw [List.pairwise_map]
    refine List.pairwise_lt_range.imp ?_
    intro x y h
    omega
  · intro x hx
    obtain ⟨k, hk, rfl⟩ := List.mem_map.1 hx
    have hk : k < n := List.mem_range.1 hk
    refine ⟨by rcases hs with ⟨_, h⟩ | ⟨_, h⟩ <;> rw [h] <;> omega, fun m hm => ⟨Or.inr ⟨base + size - 1, by rw [hol]; omega, ?_, fun _ => ?_, fun line hl => ?_⟩, fun _ p hp => Or.inl fun line hl => ?_⟩⟩
    · show (4 * ((base : ℕ) : ℤ) + shift + 2 * (k : ℤ)) ≤ _
      rcases hs with ⟨h', h⟩ | ⟨h', h⟩ <;> rw [h] <;> omega
    · show (4 * ((base : ℕ) : ℤ) + shift + 2 * (k : ℤ)) ≤ _
      rcases hs with ⟨h', h⟩ | ⟨h', h⟩ <;> rw [h] <;> omega
    · rw [hget _ (by omega) (by omega)]; exact hm line hl
    · have hp : (4 * ((base : ℕ) : ℤ) + shift + 2 * (k : ℤ)) = 4 * (p : ℤ) := hp
      rw [hget p (by rcases hs with ⟨h', h⟩ | ⟨h', h⟩ <;> rw [h] at hp <;> omega) (by rcases hs with ⟨h', h⟩ | ⟨h', h⟩ <;> rw [h] at hp <;> omega)]
      exact hm line hl

/-- the nodes of a run -/
theorem take_gateRun (g : List Char) : ∀ (l : List DrawNode), ∀ n ∈ l.take (gateRun g l), ∃ o k linked, n = .node o k linked (some g)
  | [] => by simp [gateRun]
  | .bridge :: l => by simp [gateRun]
  | .node o k linked none :: l => by simp [gateRun]
  | .node o k linked (some s) :: l => by
    unfold gateRun
    split
    · rename_i h
      subst h
      intro n hn
      rw [List.take_succ_cons] at hn
      rcases List.mem_cons.1 hn with rfl | hn
      · exact ⟨_, _, _, rfl⟩
      · exact take_gateRun s l n hn
    · simp

/-- what is known about the places that are left for the current gate -/
def PendOk (a c : ℕ) (first : Bool) (prev : Option (List Char)) (s : DrawState) (H : List Drawn) (l : List DrawNode) : Prop :=
  first = false → ∀ g, prev = some g → gateRun g l = 0 ∨ (s.pending.length = gateRun g l ∧ s.pending.Pairwise (· < ·) ∧
    ∀ x ∈ s.pending, (∀ h ∈ H, h.1 < x) ∧ ∀ n ∈ l.take (gateRun g l), SafeAt a c s.occ (x, n) ∧ FreeAt a c s.occ (x, n))

theorem gateRun_cons_other {g : List Char} {n : DrawNode} {l : List DrawNode} (h : n.gate ≠ some g) : gateRun g (n :: l) = 0 := by
  cases n with
  | bridge => rfl
  | node o k li gt =>
    cases gt with
    | none => rfl
    | some s =>
      unfold gateRun
      rw [if_neg]
      intro e; subst e; exact h rfl

theorem drawNode_ok {a c w : ℕ} (hw : 1 ≤ w) {first : Bool} {prev : Option (List Char)} {s : DrawState} {H : List Drawn} {n : DrawNode} {l : List DrawNode}
    (hi : DrawInv a c s.occ H) (hrun : ∀ g, gateRun g (n :: l) ≤ 2 * w) (hp : PendOk a c first prev s H (n :: l)) :
    ∃ r, drawNode a c w first prev s (n :: l) = some r ∧ DrawInv a c r.2.occ (H ++ [(r.1, n)]) ∧ (∀ h ∈ H, DrawnAfter a c h (r.1, n)) ∧
      PendOk a c false n.gate r.2 (H ++ [(r.1, n)]) l := by
  cases n with
  | bridge =>
    obtain ⟨h1, h2⟩ := placeBridge_ok (a := a) (c := c) hi
    exact ⟨_, rfl, h1, h2, fun _ g e => by cases e⟩
  | node o k linked gate =>
    unfold drawNode
    dsimp only
    set bits := linkBits (a + c) (fillBits (a + c) (usedBits a c o k)) linked with hbits
    have hb : ∀ line, Covers a c (.node o k linked gate) line → bits.testBit (a + c - 1 - line) = true := fun line hl => nodeBits_covers hl
    set plain := (if first = true ∨ (o = [] ∧ k = []) then placeEnd s bits else placeFit s bits) with hplain
    have hpl : DrawInv a c plain.2.occ (H ++ [(plain.1, .node o k linked gate)]) ∧ ∀ h ∈ H, DrawnAfter a c h (plain.1, .node o k linked gate) := by
      rw [hplain]
      split
      · exact placeEnd_ok hi hb
      · exact placeFit_ok hi hb
    cases gate with
    | none => exact ⟨plain, rfl, hpl.1, hpl.2, fun _ g e => by cases e⟩
    | some g =>
      dsimp only
      have hrg : gateRun g (.node o k linked (some g) :: l) = gateRun g l + 1 := by
        conv_lhs => unfold gateRun
        rw [if_pos rfl]
      by_cases hf : first = true ∨ prev ≠ some g
      · rw [if_pos hf]
        by_cases h1 : gateRun g (.node o k linked (some g) :: l) / 2 > w ∨ gateRun g (.node o k linked (some g) :: l) ≤ 1
        · rw [if_pos h1]
          have := hrun g
          refine ⟨plain, rfl, hpl.1, hpl.2, fun _ g' e => Or.inl ?_⟩
          obtain rfl : g = g' := Option.some.inj e
          omega
        · rw [if_neg h1]
          set N := gateRun g (.node o k linked (some g) :: l) with hN
          set gb := fillBits (a + c) (gateBits a c ((DrawNode.node o k linked (some g) :: l).take N)) with hgb
          obtain ⟨m1, m2, m3, m4⟩ := placeGate_ok (a := a) (c := c) (s := s) (bits := gb) hw (hrun g)
          have hcov : ∀ m ∈ (DrawNode.node o k linked (some g) :: l).take N, ∀ line, Covers a c m line → gb.testBit (a + c - 1 - line) = true := by
            intro m hm line hl
            obtain ⟨o', k', li', rfl⟩ := take_gateRun g _ m hm
            exact gateFill_covers hm hl
          generalize hR : placeGate w s gb N = R at m1 m2 m3 m4
          obtain ⟨ps, s'⟩ := R
          cases ps with
          | nil => exfalso; change 0 = N at m2; omega
          | cons x xs =>
            dsimp only at m1 m2 m3 m4 ⊢
            have hmem : DrawNode.node o k linked (some g) ∈ (DrawNode.node o k linked (some g) :: l).take N := by
              rw [hrg, List.take_succ_cons]; exact List.mem_cons_self
            have hx := m4 x (by simp)
            have hlt : ∀ h ∈ H, ∀ y ∈ x :: xs, h.1 < y := by
              intro h hh y hy
              have b1 := (hi.below hh).1
              have b2 := (m4 y hy).1
              omega
            refine ⟨_, rfl, (m1.inv hi).add (hx.2 _ (hcov _ hmem)).1 (hx.2 _ (hcov _ hmem)).2, fun h hh => follows_of_lt (hlt h hh x (by simp)), fun _ g' e => Or.inr ?_⟩
            obtain rfl : g = g' := Option.some.inj e
            refine ⟨?_, (List.pairwise_cons.1 m3).2, fun y hy => ⟨fun h hh => ?_, fun m hm => ?_⟩⟩
            · show xs.length = gateRun g l
              simp only [List.length_cons] at m2
              omega
            · rcases List.mem_append.1 hh with hh | hh
              · exact hlt h hh y (by simp [hy])
              · rw [List.mem_singleton.1 hh]; exact (List.pairwise_cons.1 m3).1 y hy
            · refine (m4 y (by simp [hy])).2 m (hcov m ?_)
              rw [hrg, List.take_succ_cons]; exact List.mem_cons_of_mem _ hm
      · rw [if_neg hf]
        obtain ⟨h1, h2⟩ : first = false ∧ prev = some g := by
          simp only [not_or, Bool.not_eq_true, not_not] at hf; exact hf
        rcases hp h1 g h2 with h0 | ⟨p1, p2, p3⟩
        · omega
        · rw [hrg] at p1 p3
          rw [List.take_succ_cons] at p3
          cases hpe : s.pending with
          | nil => rw [hpe] at p1; simp at p1
          | cons x xs =>
            rw [hpe] at p1 p2 p3
            dsimp only
            have hx := p3 x (by simp)
            refine ⟨_, rfl, hi.add (hx.2 _ (by simp)).1 (hx.2 _ (by simp)).2, fun h hh => follows_of_lt (hx.1 h hh), fun _ g' e => Or.inr ?_⟩
            obtain rfl : g = g' := Option.some.inj e
            refine ⟨by simpa using p1, (List.pairwise_cons.1 p2).2, fun y hy => ⟨fun h hh => ?_, fun m hm => (p3 y (by simp [hy])).2 m (by simp [hm])⟩⟩
            rcases List.mem_append.1 hh with hh | hh
            · exact (p3 y (by simp [hy])).1 h hh
            · rw [List.mem_singleton.1 hh]; exact (List.pairwise_cons.1 p2).1 y hy

theorem drawNodes_ok {a c w : ℕ} (hw : 1 ≤ w) : ∀ (l : List DrawNode) (first : Bool) (prev : Option (List Char)) (s : DrawState) (H : List Drawn),
    DrawInv a c s.occ H → H.Pairwise (DrawnAfter a c) → (∀ i g, gateRun g (l.drop i) ≤ 2 * w) → PendOk a c first prev s H l →
    ∃ r, drawNodes a c w first prev s l = some r ∧ r.1.length = l.length ∧ DrawInv a c r.2.occ (H ++ r.1.zip l) ∧ (H ++ r.1.zip l).Pairwise (DrawnAfter a c) := by
  intro l
  induction l with
  | nil => intro first prev s H hi hH _ _; exact ⟨([], s), rfl, rfl, by simpa using hi, by simpa using hH⟩
  | cons n l ih =>
    intro first prev s H hi hH hrun hp
    obtain ⟨r, e1, r1, r2, r3⟩ := drawNode_ok hw hi (hrun 0) hp
    obtain ⟨t, e2, t1, t2, t3⟩ := ih false n.gate r.2 (H ++ [(r.1, n)]) r1
      (by rw [List.pairwise_append]; exact ⟨hH, by simp, fun h hh x hx => by rw [List.mem_singleton.1 hx]; exact r2 h hh⟩) (fun i g => hrun (i + 1) g) r3
    refine ⟨(r.1 :: t.1, t.2), ?_, by simp [t1], ?_, ?_⟩
    · unfold drawNodes; rw [e1]; simp only [Option.bind_eq_bind, Option.bind_some]; rw [e2]; rfl
    · simpa using t2
    · simpa using t3

theorem gateRun_le {g : List Char} : ∀ {l : List DrawNode} {j : ℕ}, (∀ n, l[j]? = some n → n.gate ≠ some g) → gateRun g l ≤ j
  | [], j, _ => by simp [gateRun]
  | n :: l, 0, h => by rw [gateRun_cons_other (h n rfl)]
  | n :: l, j + 1, h => by
    by_cases hg : n.gate = some g
    · cases n with
      | bridge => cases hg
      | node o k li gt =>
        obtain rfl : gt = some g := hg
        unfold gateRun
        rw [if_pos rfl]
        have := gateRun_le (g := g) (l := l) (j := j) h
        omega
    · rw [gateRun_cons_other hg]; omega

theorem gatesFit_run {w : ℕ} {l : List DrawNode} (h : GatesFit w l) (i : ℕ) (g : List Char) : gateRun g (l.drop i) ≤ 2 * w := by
  obtain ⟨j, hj, hn⟩ := h i g
  refine (gateRun_le (j := j) ?_).trans hj
  intro n e
  rw [List.getElem?_drop] at e
  exact hn n e

theorem drawCircuits_ok {a c w : ℕ} (hw : 1 ≤ w) : ∀ (ls : List (List DrawNode)) (occ : List ℕ) (H : List Drawn), DrawInv a c occ H → H.Pairwise (DrawnAfter a c) →
    (∀ l ∈ ls, l ≠ [] ∧ GatesFit w l) → ∃ r, drawCircuits a c w occ ls = some r ∧ r.1.length = ls.flatten.length ∧ (H ++ r.1.zip ls.flatten).Pairwise (DrawnAfter a c) := by
  intro ls
  induction ls with
  | nil => intro occ H _ hH _; exact ⟨([], occ), rfl, rfl, by simpa using hH⟩
  | cons l ls ih =>
    intro occ H hi hH hl
    obtain ⟨h1, h2⟩ := hl l (by simp)
    obtain ⟨r, e1, r1, r2, r3⟩ := drawNodes_ok hw l true none ⟨occ, []⟩ H hi hH (gatesFit_run h2) (fun e => by cases e)
    obtain ⟨t, e2, t1, t2⟩ := ih r.2.occ (H ++ r.1.zip l) r2 r3 (fun l' h => hl l' (by simp [h]))
    refine ⟨(r.1 ++ t.1, t.2), ?_, by simp [r1, t1], ?_⟩
    · unfold drawCircuits; rw [if_neg h1, e1]; simp only [Option.bind_eq_bind, Option.bind_some]; rw [e2]; rfl
    · rw [List.flatten_cons, List.zip_append r1, ← List.append_assoc]; exact t2

end Verif
