/- Helper lemmas about names and indices. -/
import Verif.Spec.Names
import Mathlib.Data.Nat.Digits.Lemmas
import Mathlib.Tactic.Linarith
import Mathlib.Tactic.Ring

namespace Verif
open Spec

theorem digit_iff (c : Char) : c.isDigit = true ↔ '0' ≤ c ∧ c ≤ '9' := by
  rw [Char.isDigit, Bool.and_eq_true, decide_eq_true_iff, decide_eq_true_iff]
  exact Iff.rfl

/-- value of a digit string -/
def digVal (s : List Char) : ℕ := s.foldl (fun a c => 10 * a + (c.toNat - 48)) 0

theorem foldl_dig (s : List Char) (a : ℕ) :
    s.foldl (fun a c => 10 * a + (c.toNat - 48)) a = a * 10 ^ s.length + digVal s := by
  induction s generalizing a with
  | nil => simp [digVal]
  | cons c s ih =>
    simp only [List.foldl_cons, digVal, List.length_cons]
    rw [ih, ih (10 * 0 + _)]
    ring

theorem digVal_append (s t : List Char) : digVal (s ++ t) = digVal s * 10 ^ t.length + digVal t := by
  simp only [digVal, List.foldl_append]
  rw [foldl_dig]; rfl

theorem digVal_nil : digVal [] = 0 := rfl
theorem digVal_single (c : Char) : digVal [c] = c.toNat - 48 := by simp [digVal]

theorem digVal_eq_ofDigits (s : List Char) :
    digVal s = Nat.ofDigits 10 (s.reverse.map (fun c => c.toNat - '0'.toNat)) := by
  induction s using List.reverseRecOn with
  | nil => rfl
  | append_singleton s c ih =>
    rw [digVal_append, List.reverse_append, digVal_single]
    simp only [List.reverse_singleton, List.singleton_append, List.map_cons, Nat.ofDigits_cons, ← ih]
    have : '0'.toNat = 48 := rfl
    simp [this]
    ring

theorem digVal_lt (s : List Char) (h : ∀ c ∈ s, c.isDigit = true) : digVal s < 10 ^ s.length := by
  induction s with
  | nil => simp [digVal]
  | cons c s ih =>
    have h1 := ih (fun c hc => h c (by simp [hc]))
    have h2 : c.toNat - 48 ≤ 9 := by
      have := (digit_iff c).1 (h c (by simp))
      have h3 : c.toNat ≤ '9'.toNat := this.2
      have h4 : '9'.toNat = 57 := rfl
      omega
    rw [show c :: s = [c] ++ s from rfl, digVal_append, digVal_single]
    simp only [List.length_append, List.length_singleton, pow_add, pow_one]
    nlinarith [Nat.pow_pos (n := s.length) (show 0 < 10 by norm_num)]

theorem digVal_pyStr (n : ℕ) : digVal (pyStr n) = n := by
  induction n using Nat.strong_induction_on with
  | _ n ih =>
    unfold pyStr at *
    by_cases h : n < 10
    · rw [Nat.toDigits_of_lt_base h, digVal_single, Nat.toNat_digitChar_sub_48_of_lt_ten h]
    · rw [Nat.toDigits_of_base_le (by norm_num) (by omega), digVal_append, ih _ (by omega), digVal_single,
        Nat.toNat_digitChar_sub_48_of_lt_ten (by omega)]
      simp
      omega

theorem pyStr_digit (n : ℕ) : ∀ c ∈ pyStr n, c.isDigit = true := fun _ hc =>
  Nat.isDigit_of_mem_toDigits (by norm_num) (by norm_num) hc

theorem pyStr_length_mono {m n : ℕ} (h : m ≤ n) : (pyStr m).length ≤ (pyStr n).length := by
  unfold pyStr
  have hn := (Nat.length_toDigits_le_iff (n := n) (b := 10) (k := (Nat.toDigits 10 n).length) (by norm_num)
    (Nat.length_toDigits_pos)).1 le_rfl
  exact (Nat.length_toDigits_le_iff (by norm_num) Nat.length_toDigits_pos).2 (by omega)

theorem fmt_digit (k n : ℕ) : ∀ c ∈ fmt k n, c.isDigit = true := by
  intro c hc
  rcases List.mem_append.1 hc with h | h
  · rw [List.mem_replicate] at h; rw [h.2]; rfl
  · exact pyStr_digit n c h

theorem digVal_replicate (k : ℕ) : digVal (List.replicate k '0') = 0 := by
  induction k with
  | zero => rfl
  | succ k ih => rw [List.replicate_succ', digVal_append, ih, digVal_single]; rfl

theorem digVal_fmt (k n : ℕ) : digVal (fmt k n) = n := by
  rw [fmt, digVal_append, digVal_replicate, digVal_pyStr]; simp

theorem length_fmt {k n : ℕ} (h : (pyStr n).length ≤ k) : (fmt k n).length = k := by
  simp [fmt]; omega

theorem fmt_inj {k m n : ℕ} (h : fmt k m = fmt k n) : m = n := by
  rw [← digVal_fmt k m, h, digVal_fmt]

theorem pyInt?_of_digits {s : List Char} (hs : s ≠ []) (h : ∀ c ∈ s, c.isDigit = true) :
    pyInt? s = some (digVal s) := by
  unfold pyInt?
  rw [if_pos ⟨hs, by simpa [List.all_eq_true] using h⟩]; rfl

theorem pyInt?_some {s : List Char} {n : ℕ} (h : pyInt? s = some n) :
    s ≠ [] ∧ (∀ c ∈ s, c.isDigit = true) ∧ digVal s = n := by
  unfold pyInt? at h
  split at h
  · rename_i hh
    exact ⟨hh.1, by simpa [List.all_eq_true] using hh.2, by simpa [digVal] using h⟩
  · cases h

/-- two digit strings of equal length and value coincide -/
theorem digVal_inj {s t : List Char} (hs : ∀ c ∈ s, c.isDigit = true) (ht : ∀ c ∈ t, c.isDigit = true)
    (hl : s.length = t.length) (h : digVal s = digVal t) : s = t := by
  induction s generalizing t with
  | nil => simpa using hl.symm
  | cons c s ih =>
    cases t with
    | nil => simp at hl
    | cons d t =>
      have hl' : s.length = t.length := by simpa using hl
      rw [show c :: s = [c] ++ s from rfl, show d :: t = [d] ++ t from rfl, digVal_append, digVal_append,
        digVal_single, digVal_single, hl'] at h
      have h1 := digVal_lt s (fun c hc => hs c (by simp [hc]))
      have h2 := digVal_lt t (fun c hc => ht c (by simp [hc]))
      rw [hl'] at h1
      have hp : 0 < 10 ^ t.length := Nat.pow_pos (by norm_num)
      have e1 : digVal s = digVal t := by
        have := congrArg (· % 10 ^ t.length) h
        simpa [Nat.mul_add_mod', Nat.mod_eq_of_lt h1, Nat.mod_eq_of_lt h2] using this
      have e2 : c.toNat - 48 = d.toNat - 48 := by
        rw [e1] at h
        exact Nat.eq_of_mul_eq_mul_right hp (by omega)
      have hc : 48 ≤ c.toNat := ((digit_iff c).1 (hs c (by simp))).1
      have hd : 48 ≤ d.toNat := ((digit_iff d).1 (ht d (by simp))).1
      have e3 : c = d := Char.ext (UInt32.toNat_inj.1 (by
        show c.toNat = d.toNat
        omega))
      rw [e3, ih (fun c hc => hs c (by simp [hc])) (fun c hc => ht c (by simp [hc])) hl' e1]

theorem Cfg.digits_pos (g : Cfg) : 0 < g.digits := Nat.length_toDigits_pos

theorem Cfg.pyStr_le_digits (g : Cfg) {n : ℕ} (h : n < g.L) : (pyStr n).length ≤ g.digits :=
  pyStr_length_mono (by omega)

theorem Cfg.length_fmt (g : Cfg) {n : ℕ} (h : n < g.L) : (fmt g.digits n).length = g.digits :=
  Verif.length_fmt (g.pyStr_le_digits h)

theorem chunks_nil (d : ℕ) : chunks d [] = [] := by
  unfold chunks
  rcases d with _ | d
  · simp
  · have : (([] : List Char).length + (d + 1) - 1) / (d + 1) = 0 := by
      simp
    rw [this]; rfl

theorem chunks_cons {d : ℕ} (hd : 0 < d) {b s : List Char} (hb : b.length = d) :
    chunks d (b ++ s) = b :: chunks d s := by
  unfold chunks
  have : ((b ++ s).length + d - 1) / d = (s.length + d - 1) / d + 1 := by
    rw [List.length_append, hb, show d + s.length + d - 1 = (s.length + d - 1) + d by omega,
      Nat.add_div_right _ hd]
  rw [this, List.range_succ_eq_map, List.map_cons, List.map_map]
  congr 1
  · simp [← hb]
  · apply List.map_congr_left
    intro i _
    simp only [Function.comp]
    rw [show (i.succ) * d = b.length + i * d by rw [hb, Nat.succ_mul]; omega, List.drop_length_add_append]

theorem chunks_flatten {d : ℕ} (hd : 0 < d) (bs : List (List Char)) (h : ∀ b ∈ bs, b.length = d) :
    chunks d bs.flatten = bs := by
  induction bs with
  | nil => simp [chunks_nil]
  | cons b bs ih =>
    rw [List.flatten_cons, chunks_cons hd (h b (by simp)), ih (fun b hb => h b (by simp [hb]))]

theorem mapM_some_of {α β : Type*} {f : α → Option β} {g : α → β} {l : List α}
    (h : ∀ x ∈ l, f x = some (g x)) : l.mapM f = some (l.map g) := by
  induction l with
  | nil => rfl
  | cons a l ih =>
    rw [List.mapM_cons, h a (by simp), ih (fun x hx => h x (by simp [hx]))]; rfl

theorem mapM_some_iff {α β : Type*} {f : α → Option β} {l : List α} {r : List β} :
    l.mapM f = some r ↔ List.Forall₂ (fun a b => f a = some b) l r := by
  induction l generalizing r with
  | nil => 
    cases r <;> simp [List.mapM_nil]
  | cons a l ih =>
    rw [List.mapM_cons]
    cases r with
    | nil =>
      simp only [List.forall₂_nil_right_iff]
      cases h : f a with
      | none => simp
      | some b => cases h' : l.mapM f <;> simp
    | cons b r =>
      rw [List.forall₂_cons, ← ih]
      cases h : f a with
      | none => simp
      | some b' => cases h' : l.mapM f <;> simp

/-- The standard name, as a total function. -/
def Cfg.stdName (g : Cfg) (v : Vals) : Name :=
  ((if g.left then v else v.reverse).map (fmt g.digits)).flatten

theorem Cfg.tuple_get (g : Cfg) {n : ℕ} (h : n < g.L) : g.tupleOfStrings[n]? = some (fmt g.digits n) := by
  simp [Cfg.tupleOfStrings, h]

theorem Cfg.tuple_get_none (g : Cfg) {n : ℕ} (h : ¬ n < g.L) : g.tupleOfStrings[n]? = none := by
  simp [Cfg.tupleOfStrings]; omega

theorem Cfg.mem_ordered (g : Cfg) {v : Vals} {n : ℕ} :
    n ∈ (if g.left then v else v.reverse) ↔ n ∈ v := by
  split <;> simp

theorem Cfg.render_of_lt (g : Cfg) {v : Vals} (h : ∀ x ∈ v, x < g.L) : g.render v = some (g.stdName v) := by
  unfold Cfg.render
  rw [mapM_some_of (g := fmt g.digits)]
  · rfl
  · intro x hx
    exact g.tuple_get (h x (g.mem_ordered.1 hx))

theorem Cfg.render_of_valid (g : Cfg) {v : Vals} (h : Valid g v) : g.render v = some (g.stdName v) :=
  g.render_of_lt h.2

theorem Cfg.render_some (g : Cfg) {v : Vals} {s : Name} (h : g.render v = some s) :
    (∀ x ∈ v, x < g.L) ∧ s = g.stdName v := by
  have : ∀ x ∈ v, x < g.L := by
    intro x hx
    unfold Cfg.render at h
    cases h' : (if g.left then v else v.reverse).mapM (fun n => g.tupleOfStrings[n]?) with
    | none => rw [h'] at h; cases h
    | some r =>
      rw [mapM_some_iff] at h'
      have hx' := (g.mem_ordered (v := v)).2 hx
      by_contra hc
      rw [List.forall₂_iff_get] at h'
      obtain ⟨i, hi, hx2⟩ := List.getElem_of_mem hx'
      have := h'.2 i hi (h'.1 ▸ hi)
      simp only [List.get_eq_getElem, hx2, g.tuple_get_none hc] at this
      cases this
  refine ⟨this, ?_⟩
  rw [g.render_of_lt this] at h
  exact (Option.some.inj h).symm

theorem Cfg.parse_stdName (g : Cfg) {v : Vals} (h : ∀ x ∈ v, x < g.L) : g.parse (g.stdName v) = some v := by
  unfold Cfg.parse Cfg.stdName
  rw [chunks_flatten g.digits_pos]
  · rw [mapM_some_of (g := digVal)]
    · simp only [List.map_map, Option.map_some]
      have : (digVal ∘ fmt g.digits) = id := by
        funext n; simp [digVal_fmt]
      rw [this, List.map_id]
      cases g.left <;> simp
    · intro x hx
      obtain ⟨n, hn, rfl⟩ := List.mem_map.1 hx
      refine pyInt?_of_digits ?_ (fmt_digit _ _)
      intro h0
      have := g.length_fmt (h n (g.mem_ordered.1 hn))
      rw [h0] at this
      have := g.digits_pos
      simp at *
      omega
  · intro b hb
    obtain ⟨n, hn, rfl⟩ := List.mem_map.1 hb
    exact g.length_fmt (h n (g.mem_ordered.1 hn))

theorem Cfg.length_stdName (g : Cfg) {v : Vals} (h : ∀ x ∈ v, x < g.L) :
    (g.stdName v).length = g.digits * v.length := by
  unfold Cfg.stdName
  rw [List.length_flatten, List.map_map]
  have : ∀ w : Vals, (∀ x ∈ w, x < g.L) → (w.map (List.length ∘ fmt g.digits)).sum = g.digits * w.length := by
    intro w hw
    induction w with
    | nil => simp
    | cons a w ih =>
      simp only [List.map_cons, List.sum_cons, Function.comp, List.length_cons]
      rw [g.length_fmt (hw a (by simp)), ih (fun x hx => hw x (by simp [hx]))]
      ring
  rw [this _ (fun x hx => h x (g.mem_ordered.1 hx))]
  cases g.left <;> simp

theorem Cfg.stdName_inj (g : Cfg) {v w : Vals} (hv : ∀ x ∈ v, x < g.L) (hw : ∀ x ∈ w, x < g.L)
    (h : g.stdName v = g.stdName w) : v = w := by
  have := g.parse_stdName hv
  rw [h, g.parse_stdName hw] at this
  exact (Option.some.inj this).symm

/-- all chunks of a string whose length is a multiple of `d` have length `d`, and they concatenate to it -/
theorem chunks_spec {d : ℕ} (hd : 0 < d) (k : ℕ) (s : List Char) (h : s.length = d * k) :
    (chunks d s).flatten = s ∧ ∀ b ∈ chunks d s, b.length = d := by
  induction k generalizing s with
  | zero =>
    have : s = [] := by simpa using h
    subst this
    simp [chunks_nil]
  | succ k ih =>
    have h1 : (s.take d).length = d := by
      simp [h, Nat.mul_succ]
    have h2 : (s.drop d).length = d * k := by simp [h, Nat.mul_succ]
    have h3 := ih _ h2
    rw [← List.take_append_drop d s, chunks_cons hd h1]
    refine ⟨by rw [List.flatten_cons, h3.1], ?_⟩
    intro b hb
    rcases List.mem_cons.1 hb with rfl | hb
    · exact h1
    · exact h3.2 b hb

/-- a full-width digit string is the standard name of what it parses to -/
theorem Cfg.stdName_parse (g : Cfg) {s : Name} {v : Vals} {k : ℕ} (hl : s.length = g.digits * k)
    (h : g.parse s = some v) : g.stdName v = s := by
  unfold Cfg.parse at h
  obtain ⟨t, ht, rfl⟩ := Option.map_eq_some_iff.1 h
  have hc := chunks_spec g.digits_pos k s hl
  rw [mapM_some_iff] at ht
  have key : t.map (fmt g.digits) = chunks g.digits s := by
    generalize chunks g.digits s = bs at ht hc
    clear h hl
    replace hc := hc.2
    induction ht with
    | nil => rfl
    | @cons b n bs t hb _ ih =>
      rw [List.map_cons, ih (fun b hb => hc b (by simp [hb]))]
      congr 1
      obtain ⟨h1, h2, h3⟩ := pyInt?_some hb
      have hbl := hc b (by simp)
      apply digVal_inj (fmt_digit _ _) h2
      · rw [hbl]
        apply Verif.length_fmt
        have := digVal_lt b h2
        unfold pyStr
        refine (Nat.length_toDigits_le_iff (by norm_num) g.digits_pos).2 ?_
        rw [← h3, ← hbl]; exact this
      · rw [digVal_fmt, h3]
  unfold Cfg.stdName
  cases hleft : g.left <;> simp [key, hc.1]

/-! ### indices -/

theorem Cfg.indexOf_eq_ofDigits (g : Cfg) (v : Vals) : g.indexOf v = Nat.ofDigits g.L v := by
  unfold Cfg.indexOf
  have : ∀ (k : ℕ) (v : Vals), (v.mapIdx (fun i x => x * g.L ^ (i + k))).sum = Nat.ofDigits g.L v * g.L ^ k := by
    intro k v
    induction v generalizing k with
    | nil => simp
    | cons a v ih =>
      rw [List.mapIdx_cons, List.sum_cons, Nat.ofDigits_cons]
      simp only [Nat.zero_add]
      have e : (fun i x => x * g.L ^ (i + 1 + k)) = (fun i x => x * g.L ^ (i + (k + 1))) := by
        funext i x; congr 2; omega
      rw [e, ih (k + 1)]; ring
  simpa using this 0 v

theorem Cfg.indexOf_cons (g : Cfg) (a : ℕ) (v : Vals) : g.indexOf (a :: v) = a + g.L * g.indexOf v := by
  simp [Cfg.indexOf_eq_ofDigits, Nat.ofDigits_cons]

theorem indexOf_lt_aux {L : ℕ} {v : Vals} (h : ∀ x ∈ v, x < L) : Nat.ofDigits L v < L ^ v.length := by
  induction v with
  | nil => simp
  | cons a v ih =>
    rw [Nat.ofDigits_cons, List.length_cons, pow_succ]
    have h1 := h a (by simp)
    have h2 := ih (fun x hx => h x (by simp [hx]))
    nlinarith

theorem Cfg.indexOf_lt (g : Cfg) {v : Vals} (h : Valid g v) : g.indexOf v < g.size := by
  rw [g.indexOf_eq_ofDigits, Cfg.size, ← h.1]; exact indexOf_lt_aux h.2

theorem vfi_aux (L C n : ℕ) : (List.range (C + 1)).map (fun c => n / L ^ c % L)
    = (n % L) :: (List.range C).map (fun c => (n / L) / L ^ c % L) := by
  rw [List.range_succ_eq_map, List.map_cons, List.map_map]
  congr 1
  · simp
  · apply List.map_congr_left
    intro c _
    simp only [Function.comp, Nat.succ_eq_add_one]
    rw [pow_succ', Nat.div_div_eq_div_mul]

theorem Cfg.valid_valuesFromIndex (g : Cfg) (hL : 1 ≤ g.L) (n : ℕ) : Valid g (g.valuesFromIndex n) := by
  refine ⟨by simp [Cfg.valuesFromIndex], ?_⟩
  intro x hx
  obtain ⟨c, _, rfl⟩ := List.mem_map.1 hx
  exact Nat.mod_lt _ hL

theorem ofDigits_vfi (L C n : ℕ) (h : n < L ^ C) :
    Nat.ofDigits L ((List.range C).map (fun c => n / L ^ c % L)) = n := by
  induction C generalizing n with
  | zero => simp at h; simp [h]
  | succ C ih =>
    rw [vfi_aux, Nat.ofDigits_cons, ih]
    · exact Nat.mod_add_div n L
    · rw [pow_succ] at h
      exact Nat.div_lt_of_lt_mul (by rw [Nat.mul_comm]; exact h)

theorem vfi_ofDigits (L : ℕ) (v : Vals) (h : ∀ x ∈ v, x < L) :
    (List.range v.length).map (fun c => (Nat.ofDigits L v) / L ^ c % L) = v := by
  induction v with
  | nil => simp
  | cons a v ih =>
    have ha := h a (by simp)
    rw [List.length_cons, vfi_aux, Nat.ofDigits_cons]
    have h1 : ((a : ℕ) + L * Nat.ofDigits L v) % L = a := by
      rw [Nat.add_mul_mod_self_left, Nat.mod_eq_of_lt ha]
    have h2 : ((a : ℕ) + L * Nat.ofDigits L v) / L = Nat.ofDigits L v := by
      rw [Nat.add_mul_div_left _ _ (by omega), Nat.div_eq_of_lt ha]; simp
    simp only [h1, h2]
    rw [ih (fun x hx => h x (by simp [hx]))]

theorem Cfg.indexOf_valuesFromIndex (g : Cfg) {n : ℕ} (h : n < g.size) : g.indexOf (g.valuesFromIndex n) = n := by
  rw [g.indexOf_eq_ofDigits]; exact ofDigits_vfi _ _ _ h

theorem Cfg.valuesFromIndex_indexOf (g : Cfg) {v : Vals} (h : Valid g v) : g.valuesFromIndex (g.indexOf v) = v := by
  rw [g.indexOf_eq_ofDigits, Cfg.valuesFromIndex, ← h.1]; exact vfi_ofDigits _ _ h.2

theorem Cfg.indexOf_inj (g : Cfg) {v w : Vals} (hv : Valid g v) (hw : Valid g w) (h : g.indexOf v = g.indexOf w) :
    v = w := by
  rw [← g.valuesFromIndex_indexOf hv, h, g.valuesFromIndex_indexOf hw]

theorem Cfg.containsVals_iff (g : Cfg) (v : Vals) : g.containsVals v = true ↔ Valid g v := by
  simp [Cfg.containsVals, Valid]

end Verif
