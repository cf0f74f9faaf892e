/- The Fock matrix on all channels. -/
import Verif.Lemmas.Gate
import Verif.Lemmas.Names
import Mathlib.LinearAlgebra.Matrix.Kronecker
import Mathlib.Data.List.GetD

namespace Verif
open Spec
open scoped Kronecker

theorem radix_split {K a b : ℕ} : (a / K = b / K ∧ a % K = b % K) ↔ a = b := by
  constructor
  · rintro ⟨h1, h2⟩
    rw [← Nat.div_add_mod a K, ← Nat.div_add_mod b K, h1, h2]
  · rintro rfl; exact ⟨rfl, rfl⟩

theorem scaleUp_spec (L : ℕ) (hL : 1 ≤ L) (left : Bool) (A : SqArr) (hA : A.size = L ^ 2) (c : ℕ) :
    (scaleUp ⟨L, c + 2, left⟩ A).size = L ^ (c + 2) ∧
    ∀ i j, i < L ^ (c + 2) → j < L ^ (c + 2) → (scaleUp ⟨L, c + 2, left⟩ A).at_ i j =
      (if i / L ^ 2 = j / L ^ 2 then 1 else 0) * A.at_ (i % L ^ 2) (j % L ^ 2) := by
  unfold scaleUp
  simp only
  rcases Nat.lt_or_ge 1 L with h1 | h1
  swap
  · have hL1 : L = 1 := by omega
    subst hL1
    have : ∀ (l : List ℕ) (S : SqArr), S = A → l.foldl (fun S n => if 1 ^ n < A.size then S
        else if 1 ^ n = A.size then A else kronId 1 S) S = A := by
      intro l
      induction l with
      | nil => intro S h; exact h
      | cons n l ih =>
        intro S h
        rw [List.foldl_cons]
        apply ih
        simp [hA]
    rw [this _ A rfl]
    refine ⟨by simp [hA], ?_⟩
    intro i j hi hj
    simp only [one_pow, Nat.lt_one_iff] at hi hj
    subst hi hj
    simp
  induction c with
  | zero =>
    have : List.range' 1 (0 + 2) = [1, 2] := rfl
    rw [this]
    have e1 : L ^ 1 < A.size := by rw [hA]; exact Nat.pow_lt_pow_right h1 (by norm_num)
    simp only [List.foldl_cons, List.foldl_nil, if_true, hA, lt_irrefl, if_false]
    refine ⟨by simp, ?_⟩
    intro i j hi hj
    rw [Nat.zero_add] at hi hj
    rw [Nat.div_eq_of_lt hi, Nat.div_eq_of_lt hj, Nat.mod_eq_of_lt hi, Nat.mod_eq_of_lt hj]
    simp
  | succ c ih =>
    rw [show c + 1 + 2 = (c + 2) + 1 by omega, List.range'_concat, List.foldl_append, List.foldl_cons, List.foldl_nil]
    generalize List.foldl _ A (List.range' 1 (c + 2)) = S at ih
    have e1 : ¬ L ^ (1 + 1 * (c + 2)) < A.size := by
      rw [hA]; exact not_lt.2 (Nat.pow_le_pow_right hL (by omega))
    have e2 : ¬ L ^ (1 + 1 * (c + 2)) = A.size := by
      rw [hA]
      exact (Nat.pow_lt_pow_right h1 (by omega)).ne'
    rw [if_neg e1, if_neg e2]
    refine ⟨by simp [kronId, ih.1, pow_succ, Nat.mul_comm], ?_⟩
    intro i j hi hj
    have hpos : 0 < L ^ (c + 2) := Nat.pow_pos hL
    simp only [kronId, ih.1]
    rw [ih.2 _ _ (Nat.mod_lt _ hpos) (Nat.mod_lt _ hpos)]
    have hd : L ^ 2 ∣ L ^ (c + 2) := pow_dvd_pow _ (by omega)
    rw [Nat.mod_mod_of_dvd _ hd, Nat.mod_mod_of_dvd _ hd, ← mul_assoc]
    congr 1
    have hm : L ^ (c + 2) = L ^ 2 * L ^ c := by rw [← pow_add]; congr 1; omega
    rw [hm, Nat.mod_mul_right_div_self, Nat.mod_mul_right_div_self, ← Nat.div_div_eq_div_mul, ← Nat.div_div_eq_div_mul]
    have := @radix_split (L ^ c) (i / L ^ 2) (j / L ^ 2)
    by_cases h : i / L ^ 2 = j / L ^ 2
    · simp [h]
    · rw [if_neg h]
      by_cases h' : i / L ^ 2 / L ^ c = j / L ^ 2 / L ^ c
      · have : ¬ i / L ^ 2 % L ^ c = j / L ^ 2 % L ^ c := fun h'' => h (this.1 ⟨h', h''⟩)
        simp [this]
      · simp [h']

/-! ### reordering -/

/-- the photon numbers read in tensor-list order -/
def permute (tl : List ℕ) (v : Vals) : Vals := tl.map (fun i => v.getD i 0)

theorem permute_valid {g : Cfg} {tl : List ℕ} (ht : tl.Perm (List.range g.C)) {v : Vals} (hv : Valid g v) :
    Valid g (permute tl v) := by
  refine ⟨by simp [permute, ht.length_eq], ?_⟩
  intro x hx
  obtain ⟨i, hi, rfl⟩ := List.mem_map.1 hx
  have hi' : i < v.length := by
    rw [hv.1]; exact List.mem_range.1 (ht.mem_iff.1 hi)
  rw [List.getD_eq_getElem _ _ hi']
  exact hv.2 _ (List.getElem_mem hi')

theorem permute_inj {g : Cfg} {tl : List ℕ} (ht : tl.Perm (List.range g.C)) {v w : Vals} (hv : Valid g v)
    (hw : Valid g w) (h : permute tl v = permute tl w) : v = w := by
  have h1 : ∀ i ∈ tl, v.getD i 0 = w.getD i 0 := List.map_inj_left.1 h
  apply List.ext_getElem (by rw [hv.1, hw.1])
  intro i hi hi'
  have := h1 i (ht.mem_iff.2 (List.mem_range.2 (by rw [← hv.1]; exact hi)))
  rwa [List.getD_eq_getElem _ _ hi, List.getD_eq_getElem _ _ hi'] at this

theorem reorder_eq (g : Cfg) (v : Vals) (tl : List ℕ) : g.reorder v tl = g.indexOf (permute tl v) := rfl

/-- position of a basis index in the reordered matrix -/
def sig (g : Cfg) (tl : List ℕ) (p : ℕ) : ℕ := g.reorder (g.valuesFromIndex p) tl

theorem sig_lt {g : Cfg} (hg : g.Ok) {tl : List ℕ} (ht : tl.Perm (List.range g.C)) (p : ℕ) : sig g tl p < g.size :=
  g.indexOf_lt (permute_valid ht (g.valid_valuesFromIndex hg.1 p))

theorem sig_inj {g : Cfg} (hg : g.Ok) {tl : List ℕ} (ht : tl.Perm (List.range g.C)) {p q : ℕ} (hp : p < g.size)
    (hq : q < g.size) (h : sig g tl p = sig g tl q) : p = q := by
  have vp := g.valid_valuesFromIndex hg.1 p
  have vq := g.valid_valuesFromIndex hg.1 q
  have := permute_inj ht vp vq (g.indexOf_inj (permute_valid ht vp) (permute_valid ht vq) h)
  rw [← g.indexOf_valuesFromIndex hp, this, g.indexOf_valuesFromIndex hq]

theorem newOrder_getD {g : Cfg} {tl : List ℕ} {p : ℕ} (hp : p < g.size) :
    (newOrder g (standardKeys g) tl).getD p 0 = sig g tl p := by
  rw [List.getD_eq_getElem _ _ (by simpa [newOrder, standardKeys] using hp)]
  simp [newOrder, standardKeys, sig]

theorem fockNode_all_size (g : Cfg) (keys : List Vals) (M : Opt) (tl : List ℕ) :
    (fockNode g keys M tl .all).1.size = g.size := by
  simp [fockNode, indicesToKeep]

/-- entries of the full matrix in terms of the scaled-up matrix -/
theorem fockNode_all_at {g : Cfg} {M : Opt} {tl : List ℕ} {p q : ℕ} (hp : p < g.size) (hq : q < g.size) :
    (fockNode g (standardKeys g) M tl .all).1.at_ p q = (scaleUp g (fock2 g.L M)).at_ (sig g tl p) (sig g tl q) := by
  have key : ∀ a, a < g.size →
      ((List.range g.size).map (fun i => (newOrder g (standardKeys g) tl).getD i 0)).getD a 0 = sig g tl a := by
    intro a ha
    rw [List.getD_eq_getElem _ _ (by simpa using ha)]
    simp only [List.getElem_map, List.getElem_range]
    exact newOrder_getD ha
  show (scaleUp g (fock2 g.L M)).at_ _ _ = _
  simp only [indicesToKeep]
  rw [key p hp, key q hq]

theorem mod_sq (x L : ℕ) : x % L ^ 2 = (x / L % L) * L + x % L := by
  rw [pow_two, Nat.mod_mul]; ring

theorem scaleUp_fock2 {g : Cfg} (hg : g.Ok) (M : Opt) {i j : ℕ} (hi : i < g.size) (hj : j < g.size) :
    (scaleUp g (fock2 g.L M)).at_ i j = (if i / g.L ^ 2 = j / g.L ^ 2 then 1 else 0) *
      gateAmp g.L M (i % g.L) (i / g.L % g.L) (j % g.L) (j / g.L % g.L) := by
  obtain ⟨L, C, left⟩ := g
  obtain ⟨hL, hC⟩ := hg
  simp only at hL hC
  obtain ⟨c, rfl⟩ : ∃ c, C = c + 2 := ⟨C - 2, by omega⟩
  have := (scaleUp_spec L hL left (fock2 L M) rfl c).2 i j hi hj
  rw [this]
  congr 1
  rw [mod_sq, mod_sq]
  exact fock2_at M (Nat.mod_lt _ hL) (Nat.mod_lt _ hL) (Nat.mod_lt _ hL) (Nat.mod_lt _ hL)

/-- first two digits of a reordered index -/
theorem sig_digits {g : Cfg} (hg : g.Ok) {tl : List ℕ} (ht : tl.Perm (List.range g.C)) {v : Vals} (hv : Valid g v)
    {h c : ℕ} {rest : List ℕ} (e : tl = h :: c :: rest) :
    sig g tl (g.indexOf v) % g.L = v.getD h 0 ∧ sig g tl (g.indexOf v) / g.L % g.L = v.getD c 0 ∧
      sig g tl (g.indexOf v) / g.L ^ 2 = g.indexOf (permute rest v) := by
  have hval := permute_valid ht hv
  unfold sig
  rw [g.valuesFromIndex_indexOf hv, reorder_eq]
  subst e
  simp only [permute, List.map_cons] at hval ⊢
  have h1 : v.getD h 0 < g.L := hval.2 _ (by simp)
  have h2 : v.getD c 0 < g.L := hval.2 _ (by simp)
  rw [g.indexOf_cons, g.indexOf_cons]
  have hL := hg.1
  have d1 : (v.getD h 0 + g.L * (v.getD c 0 + g.L * g.indexOf (rest.map fun i => v.getD i 0))) / g.L
      = v.getD c 0 + g.L * g.indexOf (rest.map fun i => v.getD i 0) := by
    rw [Nat.add_mul_div_left _ _ hL, Nat.div_eq_of_lt h1, Nat.zero_add]
  refine ⟨?_, ?_, ?_⟩
  · rw [Nat.add_mul_mod_self_left, Nat.mod_eq_of_lt h1]
  · rw [d1, Nat.add_mul_mod_self_left, Nat.mod_eq_of_lt h2]
  · rw [pow_two, ← Nat.div_div_eq_div_mul, d1, Nat.add_mul_div_left _ _ hL, Nat.div_eq_of_lt h2, Nat.zero_add]

/-- **Key lemma**: entries of the full matrix between basis states. -/
theorem fockNode_entry {g : Cfg} (hg : g.Ok) (M : Opt) {tl : List ℕ} (ht : tl.Perm (List.range g.C))
    {h c : ℕ} {rest : List ℕ} (e : tl = h :: c :: rest) {v w : Vals} (hv : Valid g v) (hw : Valid g w) :
    (fockNode g (standardKeys g) M tl .all).1.at_ (g.indexOf v) (g.indexOf w) =
      if ∀ i < g.C, i ≠ h → i ≠ c → v.getD i 0 = w.getD i 0 then
        gateAmp g.L M (v.getD h 0) (v.getD c 0) (w.getD h 0) (w.getD c 0) else 0 := by
  rw [fockNode_all_at (g.indexOf_lt hv) (g.indexOf_lt hw), scaleUp_fock2 hg M (sig_lt hg ht _) (sig_lt hg ht _)]
  obtain ⟨a1, a2, a3⟩ := sig_digits hg ht hv e
  obtain ⟨b1, b2, b3⟩ := sig_digits hg ht hw e
  rw [a1, a2, a3, b1, b2, b3]
  have hnd : (h :: c :: rest).Nodup := e ▸ ht.nodup_iff.2 List.nodup_range
  have hmem : ∀ i, i ∈ rest ↔ (i < g.C ∧ i ≠ h ∧ i ≠ c) := by
    intro i
    have h1 : i ∈ tl ↔ i < g.C := by rw [ht.mem_iff, List.mem_range]
    rw [e] at h1
    simp only [List.nodup_cons, List.mem_cons, not_or] at hnd
    constructor
    · intro hi
      refine ⟨h1.1 (by simp [hi]), ?_, ?_⟩
      · rintro rfl; exact hnd.1.2 hi
      · rintro rfl; exact hnd.2.1 hi
    · rintro ⟨h2, h3, h4⟩
      have := h1.2 h2
      simp only [List.mem_cons] at this
      rcases this with h | h | h
      · exact absurd h h3
      · exact absurd h h4
      · exact h
  have hr : (g.indexOf (permute rest v) = g.indexOf (permute rest w)) ↔
      (∀ i < g.C, i ≠ h → i ≠ c → v.getD i 0 = w.getD i 0) := by
    have key : (permute rest v = permute rest w) ↔ (∀ i < g.C, i ≠ h → i ≠ c → v.getD i 0 = w.getD i 0) := by
      unfold permute
      rw [List.map_inj_left]
      constructor
      · intro hh i h1 h2 h3; exact hh i ((hmem i).2 ⟨h1, h2, h3⟩)
      · intro hh i hi
        have := (hmem i).1 hi
        exact hh i this.1 this.2.1 this.2.2
    rw [← key]
    constructor
    · intro hh
      have hlt : ∀ u : Vals, Valid g u → ∀ x ∈ permute rest u, x < g.L := by
        intro u hu x hx
        have := (permute_valid ht hu).2 x
        rw [e] at this
        exact this (by simp only [permute, List.map_cons, List.mem_cons]; right; right; exact hx)
      have v1 : Valid ⟨g.L, rest.length, true⟩ (permute rest v) := ⟨by simp [permute], hlt v hv⟩
      have v2 : Valid ⟨g.L, rest.length, true⟩ (permute rest w) := ⟨by simp [permute], hlt w hw⟩
      exact Cfg.indexOf_inj _ v1 v2 hh
    · intro hh; rw [hh]
  by_cases hc : g.indexOf (permute rest v) = g.indexOf (permute rest w)
  · rw [if_pos hc, if_pos (hr.1 hc), one_mul]
  · rw [if_neg hc, if_neg (fun h => hc (hr.2 h)), zero_mul]

/-! ### matrix form -/

/-- decomposition of a basis index -/
def split (g : Cfg) (hL : 1 ≤ g.L) (tl : List ℕ) (hs : ∀ p, sig g tl p < g.size) (hC : 2 ≤ g.C) (p : Fin g.size) :
    Fin (g.L ^ (g.C - 2)) × (Fin g.L × Fin g.L) :=
  (⟨sig g tl p / g.L ^ 2, by
    apply Nat.div_lt_of_lt_mul
    rw [← pow_add, show 2 + (g.C - 2) = g.C by omega]; exact hs p⟩,
   (⟨sig g tl p % g.L, Nat.mod_lt _ hL⟩, ⟨sig g tl p / g.L % g.L, Nat.mod_lt _ hL⟩))

theorem split_bij {g : Cfg} (hg : g.Ok) {tl : List ℕ} (ht : tl.Perm (List.range g.C)) :
    Function.Bijective (split g hg.1 tl (sig_lt hg ht) hg.2) := by
  refine (Fintype.bijective_iff_injective_and_card _).2 ⟨?_, ?_⟩
  · intro p q h
    simp only [split, Prod.mk.injEq, Fin.mk.injEq] at h
    apply Fin.ext
    apply sig_inj hg ht p.2 q.2
    rw [← Nat.div_add_mod (sig g tl p) (g.L ^ 2), ← Nat.div_add_mod (sig g tl q) (g.L ^ 2), h.1, mod_sq, mod_sq,
      h.2.1, h.2.2]
  · simp only [Fintype.card_fin, Fintype.card_prod]
    rw [Cfg.size, ← pow_two, ← pow_add, show g.C - 2 + 2 = g.C by have := hg.2; omega]

/-- the matrix of a node with optical matrix `M` acting through `tl`, as a Mathlib matrix -/
noncomputable def nodeMat (g : Cfg) (M : Opt) (tl : List ℕ) : Matrix (Fin g.size) (Fin g.size) ℂ :=
  fun i j => (fockNode g (standardKeys g) M tl .all).1.at_ i j

/-- equivalence form of the decomposition -/
noncomputable def splitE {g : Cfg} (hg : g.Ok) {tl : List ℕ} (ht : tl.Perm (List.range g.C)) :
    Fin g.size ≃ Fin (g.L ^ (g.C - 2)) × (Fin g.L × Fin g.L) := Equiv.ofBijective _ (split_bij hg ht)

theorem nodeMat_eq {g : Cfg} (hg : g.Ok) (M : Opt) {tl : List ℕ} (ht : tl.Perm (List.range g.C)) :
    nodeMat g M tl = ((1 : Matrix (Fin (g.L ^ (g.C - 2))) (Fin (g.L ^ (g.C - 2))) ℂ) ⊗ₖ gateMat g.L M).submatrix
      (splitE hg ht) (splitE hg ht) := by
  ext i j
  rw [nodeMat, fockNode_all_at i.2 j.2, scaleUp_fock2 hg M (sig_lt hg ht _) (sig_lt hg ht _)]
  rw [Matrix.submatrix_apply, Matrix.kroneckerMap_apply, Matrix.one_apply]
  simp only [splitE, Equiv.ofBijective_apply, split, Fin.mk.injEq, gateMat]

theorem nodeMat_mul {g : Cfg} (hg : g.Ok) (M M' : Opt) {tl : List ℕ} (ht : tl.Perm (List.range g.C)) :
    nodeMat g M tl * nodeMat g M' tl = nodeMat g (M' * M) tl := by
  rw [nodeMat_eq hg M ht, nodeMat_eq hg M' ht, nodeMat_eq hg _ ht, Matrix.submatrix_mul_equiv,
    ← Matrix.mul_kronecker_mul, gateMat_mul, one_mul]

theorem nodeMat_one {g : Cfg} (hg : g.Ok) {tl : List ℕ} (ht : tl.Perm (List.range g.C)) :
    nodeMat g 1 tl = 1 := by
  rw [nodeMat_eq hg _ ht, gateMat_one, Matrix.one_kronecker_one, Matrix.submatrix_one_equiv]

theorem nodeMat_conjTranspose {g : Cfg} (hg : g.Ok) (M : Opt) {tl : List ℕ} (ht : tl.Perm (List.range g.C)) :
    (nodeMat g M tl).conjTranspose = nodeMat g M.conjTranspose tl := by
  rw [nodeMat_eq hg _ ht, nodeMat_eq hg _ ht, Matrix.conjTranspose_submatrix, Matrix.conjTranspose_kronecker,
    gateMat_conjTranspose, Matrix.conjTranspose_one]

theorem nodeMat_unitary {g : Cfg} (hg : g.Ok) {M : Opt} (hM : M ∈ Matrix.unitaryGroup (Fin 2) ℂ) {tl : List ℕ}
    (ht : tl.Perm (List.range g.C)) : nodeMat g M tl ∈ Matrix.unitaryGroup (Fin g.size) ℂ := by
  rw [Matrix.mem_unitaryGroup_iff]
  rw [Matrix.star_eq_conjTranspose, nodeMat_conjTranspose hg _ ht, nodeMat_mul hg _ _ ht]
  have := (Matrix.mem_unitaryGroup_iff').1 hM
  rw [Matrix.star_eq_conjTranspose] at this
  rw [this, nodeMat_one hg ht]

end Verif
