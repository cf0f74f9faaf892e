/-
Properties C01, C02, C03, C06: component names, photon-number lists and basis indices.
-/
import Verif.Lemmas.Names
import Mathlib.Algebra.BigOperators.Group.Finset.Basic
import Mathlib.Algebra.BigOperators.Fin

namespace Verif.Props
open Verif Spec

theorem isName_stdName (g : Cfg) {v : Vals} (h : ∀ x ∈ v, x < g.L) : IsName g v (g.stdName v) := by
  refine ⟨(if g.left then v else v.reverse).map (fmt g.digits), rfl, ?_⟩
  have : ∀ w : Vals, (∀ x ∈ w, x < g.L) → List.Forall₂ (fun b n => b.length = g.digits ∧ AllDigits b ∧
        Nat.ofDigits 10 (b.reverse.map (fun c => c.toNat - '0'.toNat)) = n) (w.map (fmt g.digits)) w := by
    intro w hw
    induction w with
    | nil => exact .nil
    | cons a w ih =>
      refine .cons ⟨g.length_fmt (hw a (by simp)), ?_, ?_⟩ (ih (fun x hx => hw x (by simp [hx])))
      · intro c hc
        exact (digit_iff c).1 (fmt_digit _ _ c hc)
      · rw [← digVal_eq_ofDigits, digVal_fmt]
  exact this _ (fun x hx => h x (g.mem_ordered.1 hx))

theorem isName_unique (g : Cfg) {v : Vals} {s : Name} (h : ∀ x ∈ v, x < g.L) (hs : IsName g v s) :
    s = g.stdName v := by
  obtain ⟨bs, rfl, hb⟩ := hs
  have : ∀ (w : Vals), (∀ x ∈ w, x < g.L) →
      List.Forall₂ (fun b n => b.length = g.digits ∧ AllDigits b ∧
        Nat.ofDigits 10 (b.reverse.map (fun c => c.toNat - '0'.toNat)) = n) bs w →
      bs = w.map (fmt g.digits) := by
    intro w hw hf
    clear hb
    induction hf with
    | nil => rfl
    | @cons b n bs w hb _ ih =>
      rw [List.map_cons, ← ih (fun x hx => hw x (by simp [hx]))]
      congr 1
      apply digVal_inj (fun c hc => (digit_iff c).2 (hb.2.1 c hc)) (fmt_digit _ _)
      · rw [hb.1, g.length_fmt (hw n (by simp))]
      · rw [digVal_fmt, digVal_eq_ofDigits, hb.2.2]
  unfold Cfg.stdName
  rw [← this _ (fun x hx => h x (g.mem_ordered.1 hx)) hb]

/-- **C01** Every valid photon-number list has a name, that name is the zero-padded decimal notation of the list in
the circuit's notation order, and it translates back to the list. -/
theorem C01_name_values_roundtrip (g : Cfg) (v : Vals) (h : Valid g v) :
    ∃ s, g.render v = some s ∧ IsName g v s ∧ g.parse s = some v :=
  ⟨_, g.render_of_valid h, isName_stdName g h.2, g.parse_stdName h.2⟩

/-- **C01** Every standard name translates to its photon numbers and back to itself. -/
theorem C01_values_name_roundtrip (g : Cfg) (v : Vals) (s : Name) (h : Valid g v) (hs : IsName g v s) :
    g.parse s = some v ∧ (g.parse s).bind g.render = some s := by
  rw [isName_unique g h.2 hs, g.parse_stdName h.2]
  exact ⟨rfl, g.render_of_valid h⟩

example : Valid ⟨12, 3, false⟩ [1, 0, 11] ∧ Cfg.render ⟨12, 3, false⟩ [1, 0, 11] = some "110001".toList := by
  constructor
  · decide
  · rfl

/-- **C02** Names are collision free and all have the same length. -/
theorem C02_names_injective (g : Cfg) (v w : Vals) (hv : Valid g v) (hw : Valid g w) (hne : v ≠ w) :
    ∃ s t, g.render v = some s ∧ g.render w = some t ∧ s ≠ t ∧
      s.length = g.digits * g.C ∧ t.length = g.digits * g.C := by
  refine ⟨_, _, g.render_of_valid hv, g.render_of_valid hw, ?_, ?_, ?_⟩
  · exact fun h => hne (g.stdName_inj hv.2 hw.2 h)
  · rw [g.length_stdName hv.2, hv.1]
  · rw [g.length_stdName hw.2, hw.1]

example : Valid ⟨101, 2, true⟩ [1, 100] ∧ Valid ⟨101, 2, true⟩ [11, 0] ∧ ([1, 100] : Vals) ≠ [11, 0] := by decide

/-- **C03** `index_of` is the mixed-radix value with channel 0 least significant. -/
theorem C03_index_is_radix (g : Cfg) (v : Vals) :
    g.indexOf v = ∑ i : Fin v.length, v[i] * g.L ^ (i : ℕ) := by
  rw [g.indexOf_eq_ofDigits]
  induction v with
  | nil => simp
  | cons a v ih =>
    have hs : ∑ i : Fin (a :: v).length, (a :: v)[i] * g.L ^ (i : ℕ)
        = ∑ i : Fin (v.length + 1), (a :: v)[i] * g.L ^ (i : ℕ) := rfl
    rw [Nat.ofDigits_cons, ih, hs, Fin.sum_univ_succ, Finset.mul_sum]
    congr 1
    · simp
    · refine Finset.sum_congr rfl fun i _ => ?_
      show g.L * (v[(i : ℕ)] * g.L ^ (i : ℕ)) = v[(i : ℕ)] * g.L ^ ((i : ℕ) + 1)
      ring

/-- **C03** index -> photon numbers -> index. -/
theorem C03_at_index_valid (g : Cfg) (hg : g.Ok) (n : ℕ) (hn : n < g.L ^ g.C) :
    Valid g (g.valuesFromIndex n) ∧ g.indexOf (g.valuesFromIndex n) = n :=
  ⟨g.valid_valuesFromIndex hg.1 n, g.indexOf_valuesFromIndex hn⟩

/-- **C03** photon numbers -> index -> photon numbers. -/
theorem C03_index_of_valid (g : Cfg) (v : Vals) (h : Valid g v) :
    g.indexOf v < g.L ^ g.C ∧ g.valuesFromIndex (g.indexOf v) = v :=
  ⟨g.indexOf_lt h, g.valuesFromIndex_indexOf h⟩

/-- **C03** the same for names: `index_of(at_index(n)) = n` and `at_index(index_of(name)) = name`; the index of the
name of `v` is the same number in both notations. -/
theorem C03_name_index (g : Cfg) (hg : g.Ok) :
    (∀ n < g.L ^ g.C, (g.nameAt n).bind g.indexOfName = some n) ∧
    (∀ v, Valid g v → ∀ s, g.render v = some s →
      g.indexOfName s = some (g.indexOf v) ∧ g.nameAt (g.indexOf v) = some s) ∧
    (∀ v, Valid g v → ∀ s t, Cfg.render ⟨g.L, g.C, true⟩ v = some s → Cfg.render ⟨g.L, g.C, false⟩ v = some t →
      Cfg.indexOfName ⟨g.L, g.C, true⟩ s = Cfg.indexOfName ⟨g.L, g.C, false⟩ t) := by
  have key : ∀ (g : Cfg) v, (∀ x ∈ v, x < g.L) → g.indexOfName (g.stdName v) = some (g.indexOf v) := by
    intro g v h
    simp [Cfg.indexOfName, g.parse_stdName h]
  refine ⟨?_, ?_, ?_⟩
  · intro n hn
    have hv := g.valid_valuesFromIndex hg.1 n
    rw [Cfg.nameAt, g.render_of_valid hv, Option.bind_some, key g _ hv.2, g.indexOf_valuesFromIndex hn]
  · intro v hv s hs
    rw [g.render_of_valid hv] at hs
    obtain rfl := Option.some.inj hs
    refine ⟨key g v hv.2, ?_⟩
    rw [Cfg.nameAt, g.valuesFromIndex_indexOf hv, g.render_of_valid hv]
  · intro v hv s t hs ht
    obtain rfl := (Cfg.render_some _ hs).2
    obtain rfl := (Cfg.render_some _ ht).2
    rw [key ⟨g.L, g.C, true⟩ v hv.2, key ⟨g.L, g.C, false⟩ v hv.2]
    rfl

example : Cfg.Ok ⟨3, 3, false⟩ ∧ Valid ⟨3, 3, false⟩ [2, 0, 1] ∧ Cfg.indexOf ⟨3, 3, false⟩ [2, 0, 1] = 11 ∧
    Cfg.valuesFromIndex ⟨3, 3, false⟩ 11 = [2, 0, 1] := by decide

/-- **C06 (partial)** On full-width digit strings (length = digits per channel x channels) the membership test accepts
exactly the standard names. Missing: strings of other lengths, see `C06_membership_fails`. -/
theorem C06_membership_partial (g : Cfg) (s : Name) (hd : AllDigits s)
    (hl : s.length = g.digits * g.C) :
    ∃ b, g.containsName s = some b ∧ (b = true ↔ ∃ v, Valid g v ∧ IsName g v s) := by
  have hp : ∃ v, g.parse s = some v := by
    unfold Cfg.parse
    have hc := chunks_spec g.digits_pos g.C s hl
    rw [mapM_some_of (g := digVal)]
    · exact ⟨_, rfl⟩
    · intro x hx
      refine pyInt?_of_digits ?_ ?_
      · intro h0
        have := hc.2 x hx
        rw [h0] at this
        have := g.digits_pos
        simp at *; omega
      · intro c hcx
        refine (digit_iff c).2 (hd c ?_)
        rw [← hc.1]
        exact List.mem_flatten.2 ⟨x, hx, hcx⟩
  obtain ⟨v, hv⟩ := hp
  refine ⟨g.containsVals v, by simp [Cfg.containsName, hv], ?_⟩
  rw [g.containsVals_iff]
  have hstd := g.stdName_parse hl hv
  constructor
  · intro h
    exact ⟨v, h, hstd ▸ isName_stdName g h.2⟩
  · rintro ⟨w, hw, hn⟩
    have h1 := g.parse_stdName hw.2
    rw [← isName_unique g hw.2 hn, hv] at h1
    rw [Option.some.inj h1]; exact hw

/-- **C06** for up to ten photon numbers per channel (one digit per channel) the property holds for all digit strings. -/
theorem C06_membership_single_digit (g : Cfg) (hL : g.L ≤ 10) (s : Name) (hd : AllDigits s) :
    ∃ b, g.containsName s = some b ∧ (b = true ↔ ∃ v, Valid g v ∧ IsName g v s) := by
  have hdig : g.digits = 1 := by
    unfold Cfg.digits pyStr
    rw [Nat.toDigits_of_lt_base (by omega)]; rfl
  by_cases hl : s.length = g.digits * g.C
  · exact C06_membership_partial g s hd hl
  · have hlen : s.length = g.digits * s.length := by rw [hdig, Nat.one_mul]
    have hc := chunks_spec g.digits_pos s.length s hlen
    have hm : (chunks g.digits s).mapM pyInt? = some ((chunks g.digits s).map digVal) := by
      apply mapM_some_of
      intro x hx
      refine pyInt?_of_digits ?_ ?_
      · intro h0
        have := hc.2 x hx
        rw [h0, hdig] at this
        simp at this
      · intro c hcx
        refine (digit_iff c).2 (hd c ?_)
        rw [← hc.1]
        exact List.mem_flatten.2 ⟨x, hx, hcx⟩
    have hp : g.parse s = some (if g.left then (chunks g.digits s).map digVal
        else ((chunks g.digits s).map digVal).reverse) := by
      simp [Cfg.parse, hm]
    refine ⟨_, by simp [Cfg.containsName, hp]; rfl, ?_⟩
    rw [g.containsVals_iff]
    constructor
    · intro h
      exfalso
      have hst := g.stdName_parse hlen hp
      have := g.length_stdName h.2
      rw [hst, h.1] at this
      exact hl this
    · rintro ⟨w, hw, hn⟩
      exfalso
      have := g.length_stdName hw.2
      rw [← isName_unique g hw.2 hn, hw.1] at this
      exact hl this

/-- **C06 fails** in general: with 11 photon numbers and 2 channels the three-character string '011' is accepted although
it is not a standard name (the standard name of (1,1) is '0101'). -/
theorem C06_membership_fails :
    ∃ (g : Cfg) (s : Name), g.Ok ∧ AllDigits s ∧ g.containsName s = some true ∧
      ¬ ∃ v, Valid g v ∧ IsName g v s := by
  refine ⟨⟨11, 2, true⟩, "011".toList, by decide, ?_, by rfl, ?_⟩
  · intro c hc
    refine (digit_iff c).1 ?_
    revert c; decide
  · rintro ⟨v, hv, hn⟩
    have h1 := isName_unique _ hv.2 hn
    have h2 := Cfg.length_stdName ⟨11, 2, true⟩ hv.2
    rw [← h1, hv.1] at h2
    exact absurd h2 (by decide)

example : AllDigits "0110".toList ∧ "0110".toList.length = Cfg.digits ⟨11, 2, true⟩ * 2 := by
  constructor
  · intro c hc
    refine (digit_iff c).1 ?_
    revert c; decide
  · rfl

end Verif.Props
