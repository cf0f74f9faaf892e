import Verif.Lemmas.Draw3

namespace Verif
open Spec

/-- the number of nodes that are no bridges -/
def plainNodes : List DrawNode → ℕ
  | [] => 0
  | .bridge :: l => plainNodes l
  | .node _ _ _ _ :: l => plainNodes l + 1

theorem gateRun_le_plain (g : List Char) : ∀ l : List DrawNode, gateRun g l ≤ plainNodes l
  | [] => by simp [gateRun]
  | .bridge :: l => by simp [gateRun]
  | .node o k li none :: l => by simp [gateRun]
  | .node o k li (some s) :: l => by
    unfold gateRun plainNodes
    split
    · have := gateRun_le_plain g l; omega
    · omega

theorem plainNodes_append (l m : List DrawNode) : plainNodes (l ++ m) = plainNodes l + plainNodes m := by
  induction l with
  | nil => simp [plainNodes]
  | cons n l ih => cases n <;> simp [plainNodes, ih]; omega

theorem plainNodes_le (l : List DrawNode) : plainNodes l ≤ l.length := by
  induction l with
  | nil => simp [plainNodes]
  | cons n l ih => cases n <;> simp [plainNodes] <;> omega

/-- the nodes that are still to come and have a place already -/
def reserved (first : Bool) (prev : Option (List Char)) (l : List DrawNode) : ℕ :=
  if first = true then 0 else match prev with
    | some g => gateRun g l
    | none => 0

theorem reserved_le (first : Bool) (prev : Option (List Char)) (l : List DrawNode) : reserved first prev l ≤ plainNodes l := by
  unfold reserved
  split
  · omega
  · split
    · exact gateRun_le_plain _ _
    · omega

/-- the positions taken so far are not more than a third more than the nodes -/
def PageInv (K R : ℕ) (first : Bool) (prev : Option (List Char)) (s : DrawState) (l : List DrawNode) : Prop :=
  3 * s.occ.length + 4 * plainNodes l + 4 * R ≤ 4 * K + 4 * reserved first prev l ∧
  (reserved first prev l ≠ 0 → ∀ x ∈ s.pending, -2 ≤ x ∧ x + 2 < 8 * (K : ℤ))

theorem placeGate_pages {w : ℕ} {s : DrawState} {bits n : ℕ} (hw : 1 ≤ w) (hn : n ≤ 2 * w) (hn2 : 2 ≤ n) : let r := placeGate w s bits n
    3 * r.2.occ.length ≤ 3 * s.occ.length + 4 * n ∧ ∀ x ∈ r.1, -2 ≤ x ∧ x + 2 < 4 * (r.2.occ.length : ℤ) := by
  unfold placeGate
  dsimp only
  set len := s.occ.length with hlen
  set size := (1 + n) / 2 with hsize
  set fill := if (len + size) / w ≠ len / w then w - len % w else 0 with hfill
  have hmod : len % w < w := Nat.mod_lt _ (by omega)
  have hdiv : w * (len / w) + len % w = len := Nat.div_add_mod len w
  have hbase : w * ((len + size) / w) + (if (len + size) / w ≠ len / w then 0 else len % w) = len + fill ∧ fill ≤ size := by
    by_cases h : (len + size) / w = len / w
    · rw [hfill, h]; simp; exact hdiv
    · rw [hfill, if_pos h, if_pos h]
      have h1 : (len + size) / w = len / w + 1 := by
        have hle : len / w ≤ (len + size) / w := Nat.div_le_div_right (by omega)
        have hlt : (len + size) / w < len / w + 2 := by
          rw [Nat.div_lt_iff_lt_mul (by omega)]
          have : (len / w + 2) * w = w * (len / w) + 2 * w := by ring
          omega
        omega
      have h2 : w * ((len + size) / w) ≤ len + size := Nat.mul_div_le _ _
      rw [h1] at h2 ⊢
      have : w * (len / w + 1) = w * (len / w) + w := by ring
      omega
  obtain ⟨hb1, hb2⟩ := hbase
  rw [hb1]
  have hl : (s.occ ++ List.replicate fill 0 ++ List.replicate size bits).length = len + fill + size := by simp [hlen]; omega
  rw [hl]
  refine ⟨by omega, fun x hx => ?_⟩
  obtain ⟨k, hk, rfl⟩ := List.mem_map.1 hx
  have hk : k < n := List.mem_range.1 hk
  split <;> push_cast <;> omega

theorem drawNode_pages {a c w K R : ℕ} (hw : 1 ≤ w) {first : Bool} {prev : Option (List Char)} {s : DrawState} {n : DrawNode} {l : List DrawNode} (hK : 1 ≤ K)
    (hi : PageInv K R first prev s (n :: l)) (hrun : ∀ g, gateRun g (n :: l) ≤ 2 * w) {r : ℤ × DrawState} (hr : drawNode a c w first prev s (n :: l) = some r) :
    (-2 ≤ r.1 ∧ r.1 + 2 < 8 * (K : ℤ)) ∧ PageInv K R false n.gate r.2 l := by
  obtain ⟨i1, i2⟩ := hi
  have hlen : 3 * s.occ.length ≤ 4 * K := by have := reserved_le first prev (n :: l); omega
  cases n with
  | bridge =>
    obtain rfl := Option.some.inj hr
    have h0 : reserved first prev (DrawNode.bridge :: l) = 0 := by
      unfold reserved; split
      · rfl
      · split <;> rfl
    rw [h0] at i1
    refine ⟨?_, ?_, fun h => absurd rfl h⟩
    · show -2 ≤ 4 * (s.occ.length : ℤ) - 2 ∧ 4 * (s.occ.length : ℤ) - 2 + 2 < _
      omega
    · have e : (placeBridge a c s).2.occ.length = s.occ.length := by simp [placeBridge]
      rw [e]
      simp only [plainNodes] at i1
      omega
  | node o k linked gate =>
    unfold drawNode at hr
    dsimp only at hr
    set bits := linkBits (a + c) (fillBits (a + c) (usedBits a c o k)) linked
    set plain := (if first = true ∨ (o = [] ∧ k = []) then placeEnd s bits else placeFit s bits) with hplain
    have hp1 : plain.2.occ.length ≤ s.occ.length + 1 ∧ 0 ≤ plain.1 ∧ plain.1 ≤ 4 * (s.occ.length : ℤ) := by
      rw [hplain]
      split
      · simp [placeEnd]
      · unfold placeFit
        dsimp only
        split
        · simp
        · rename_i hlt
          simp only [List.length_set]
          omega
    have hPL : reserved first prev (.node o k linked gate :: l) = 0 → (∀ g', gate = some g' → gateRun g' l = 0) →
        (-2 ≤ plain.1 ∧ plain.1 + 2 < 8 * (K : ℤ)) ∧ PageInv K R false gate plain.2 l := by
      intro h0 hg
      rw [h0] at i1
      simp only [plainNodes] at i1
      have h1 : reserved false gate l = 0 := by
        unfold reserved
        rw [if_neg (by simp)]
        split
        · exact hg _ rfl
        · rfl
      refine ⟨by omega, ?_, fun h => absurd h1 h⟩
      rw [h1]; omega
    have hres0 : ∀ g, gate = some g → (first = true ∨ prev ≠ some g) → reserved first prev (.node o k linked gate :: l) = 0 := by
      intro g hg hf
      unfold reserved
      split
      · rfl
      · split
        · rename_i hfalse _ g'
          refine gateRun_cons_other ?_
          intro e
          rcases hf with hf | hf
          · exact hfalse hf
          · exact hf (by rw [← hg]; exact e.symm)
        · rfl
    cases gate with
    | none =>
      obtain rfl := Option.some.inj hr
      refine hPL ?_ (fun g' e => by cases e)
      unfold reserved; split
      · rfl
      · split
        · exact gateRun_cons_other (by simp [DrawNode.gate])
        · rfl
    | some g =>
      dsimp only at hr
      have hrg : gateRun g (.node o k linked (some g) :: l) = gateRun g l + 1 := by
        conv_lhs => unfold gateRun
        rw [if_pos rfl]
      by_cases hf : first = true ∨ prev ≠ some g
      · have h0 := hres0 g rfl hf
        rw [if_pos hf] at hr
        by_cases h1 : gateRun g (.node o k linked (some g) :: l) / 2 > w ∨ gateRun g (.node o k linked (some g) :: l) ≤ 1
        · rw [if_pos h1] at hr
          obtain rfl := Option.some.inj hr
          have := hrun g
          refine hPL h0 (fun g' e => ?_)
          obtain rfl : g = g' := Option.some.inj e
          omega
        · rw [if_neg h1] at hr
          set N := gateRun g (.node o k linked (some g) :: l) with hN
          obtain ⟨m1, m2⟩ := placeGate_pages (s := s) (bits := fillBits (a + c) (gateBits a c ((DrawNode.node o k linked (some g) :: l).take N))) hw (hrun g) (by omega)
          generalize placeGate w s (fillBits (a + c) (gateBits a c ((DrawNode.node o k linked (some g) :: l).take N))) N = R at m1 m2 hr
          obtain ⟨ps, s'⟩ := R
          cases ps with
          | nil => cases hr
          | cons x xs =>
            obtain rfl := Option.some.inj hr
            dsimp only at m1 m2 ⊢
            rw [h0] at i1
            have hNl := gateRun_le_plain g l
            simp only [plainNodes] at i1
            have hb : ∀ y ∈ x :: xs, -2 ≤ y ∧ y + 2 < 8 * (K : ℤ) := by
              intro y hy
              have := m2 y hy
              omega
            refine ⟨hb x (by simp), ?_, fun _ y hy => hb y (by simp [show y ∈ xs from hy])⟩
            show 3 * s'.occ.length + 4 * plainNodes l + 4 * R ≤ 4 * K + 4 * gateRun g l
            omega
      · rw [if_neg hf] at hr
        obtain ⟨h1, h2⟩ : first = false ∧ prev = some g := by
          simp only [not_or, Bool.not_eq_true, not_not] at hf; exact hf
        subst h1 h2
        have hres : reserved false (some g) (.node o k linked (some g) :: l) = gateRun g l + 1 := hrg
        rw [hres] at i1 i2
        cases hpe : s.pending with
        | nil => rw [hpe] at hr; cases hr
        | cons x xs =>
          rw [hpe] at hr i2
          obtain rfl := Option.some.inj hr
          have i2 := i2 (by omega)
          refine ⟨i2 x (by simp), ?_, fun _ y hy => i2 y (by simp [show y ∈ xs from hy])⟩
          show 3 * s.occ.length + 4 * plainNodes l + 4 * R ≤ 4 * K + 4 * gateRun g l
          simp only [plainNodes] at i1
          omega

theorem drawNodes_pages {a c w K R : ℕ} (hw : 1 ≤ w) (hK : 1 ≤ K) : ∀ (l : List DrawNode) (first : Bool) (prev : Option (List Char)) (s : DrawState),
    PageInv K R first prev s l → (∀ i g, gateRun g (l.drop i) ≤ 2 * w) → ∀ r, drawNodes a c w first prev s l = some r →
    (∀ x ∈ r.1, -2 ≤ x ∧ x + 2 < 8 * (K : ℤ)) ∧ 3 * r.2.occ.length + 4 * R ≤ 4 * K := by
  intro l
  induction l with
  | nil =>
    intro first prev s hi _ r hr
    obtain rfl := Option.some.inj hr
    have := reserved_le first prev []
    have h := hi.1
    simp only [plainNodes] at this h
    exact ⟨fun x hx => by simp at hx, by dsimp only; omega⟩
  | cons n l ih =>
    intro first prev s hi hrun r hr
    unfold drawNodes at hr
    simp only [Option.bind_eq_bind, Option.bind_eq_some_iff] at hr
    obtain ⟨q, e1, t, e2, e3⟩ := hr
    obtain rfl := Option.some.inj e3
    obtain ⟨b1, b2⟩ := drawNode_pages hw hK hi (hrun 0) e1
    obtain ⟨b3, b4⟩ := ih false n.gate q.2 b2 (fun i g => hrun (i + 1) g) t e2
    refine ⟨fun x hx => ?_, b4⟩
    rcases List.mem_cons.1 hx with rfl | hx
    · exact b1
    · exact b3 x hx

theorem drawCircuits_pages {a c w K : ℕ} (hw : 1 ≤ w) (hK : 1 ≤ K) : ∀ (ls : List (List DrawNode)) (occ : List ℕ),
    3 * occ.length + 4 * plainNodes ls.flatten ≤ 4 * K → (∀ l ∈ ls, GatesFit w l) → ∀ r, drawCircuits a c w occ ls = some r →
    ∀ x ∈ r.1, -2 ≤ x ∧ x + 2 < 8 * (K : ℤ) := by
  intro ls
  induction ls with
  | nil =>
    intro occ _ _ r hr x hx
    obtain rfl := Option.some.inj hr
    simp at hx
  | cons l ls ih =>
    intro occ hi hg r hr
    unfold drawCircuits at hr
    split at hr
    · cases hr
    · simp only [Option.bind_eq_bind, Option.bind_eq_some_iff] at hr
      obtain ⟨q, e1, t, e2, e3⟩ := hr
      obtain rfl := Option.some.inj e3
      rw [List.flatten_cons, plainNodes_append] at hi
      obtain ⟨b1, b2⟩ := drawNodes_pages (R := plainNodes ls.flatten) hw hK l true none ⟨occ, []⟩
        ⟨by simp only [reserved]; simp; omega, fun h => by simp [reserved] at h⟩ (gatesFit_run (hg l (by simp))) q e1
      have b3 := ih q.2.occ (by omega) (fun l' h => hg l' (by simp [h])) t e2
      intro x hx
      rcases List.mem_append.1 hx with hx | hx
      · exact b1 x hx
      · exact b3 x hx

theorem plainNodes_counted (ls : List (List DrawNode)) : plainNodes ls.flatten ≤ countedNodes ls := by
  induction ls with
  | nil => simp [plainNodes]
  | cons l ls ih =>
    rw [List.flatten_cons, plainNodes_append]
    unfold countedNodes at ih ⊢
    rw [List.map_cons, List.sum_cons]
    have : plainNodes l ≤ (match l.getLast? with
        | some .bridge => l.length - 1
        | _ => l.length) := by
      split
      · rename_i h
        obtain ⟨l', rfl⟩ := List.getLast?_eq_some_iff.1 h
        rw [plainNodes_append]
        have := plainNodes_le l'
        simp [plainNodes]
        omega
      · exact plainNodes_le l
    exact Nat.add_le_add this ih

theorem plainNodes_pos {l : List DrawNode} {n : DrawNode} (h : n ∈ l) (hb : n ≠ .bridge) : 1 ≤ plainNodes l := by
  induction l with
  | nil => cases h
  | cons m l ih =>
    rcases List.mem_cons.1 h with rfl | h
    · cases n with
      | bridge => exact absurd rfl hb
      | node o k li g => simp [plainNodes]
    · have := ih h
      cases m <;> simp [plainNodes]
      omega

theorem counted_pages {w : ℕ} (hw : 1 ≤ w) (ls : List (List DrawNode)) : 2 * countedNodes ls ≤ w * preparedPages w ls := by
  unfold preparedPages
  have h1 := Nat.div_add_mod (countedNodes ls) w
  have h2 := Nat.mod_lt (countedNodes ls) (show 0 < w by omega)
  split
  · have : w * (2 * (countedNodes ls / w)) = 2 * (w * (countedNodes ls / w)) := by ring
    omega
  · have : w * (2 * (1 + countedNodes ls / w)) = 2 * (w + w * (countedNodes ls / w)) := by ring
    omega

end Verif
