/-
C52, C58: quantum operators from Hamiltonians.
-/
import Verif.Lemmas.Operators
import Mathlib.LinearAlgebra.Matrix.ConjTranspose
import Mathlib.Algebra.BigOperators.Group.List.Basic

namespace Verif.Props
open Verif Spec
open scoped Matrix

/-- C52: the limited basis: the indices below `L^k` correspond one-to-one to the lists of `k` photon numbers below `L`. -/
theorem C52_basis {L k : ℕ} (hL : 1 ≤ L) :
    (∀ i < L ^ k, (limValues L k i).length = k ∧ ∀ x ∈ limValues L k i, x < L) ∧
    (∀ v : List ℕ, v.length = k → (∀ x ∈ v, x < L) → ∃ i < L ^ k, limValues L k i = v ∧ limIndex L k v = some i) ∧
    (∀ i < L ^ k, ∀ j < L ^ k, limValues L k i = limValues L k j → i = j) := by
  refine ⟨fun i hi => limValues_valid hL hi, fun v h1 h2 => ?_, fun i hi j hj h => limValues_inj hL hi hj h⟩
  obtain ⟨h3, h4, h5⟩ := limIndex_eq hL (v := v) ⟨h1, h2⟩
  exact ⟨_, h4, h5, h3⟩

theorem limRow_aux {L k : ℕ} (hL : 1 ≤ L) {chans : List ℕ} {i : ℕ} (hi : i < L ^ k) (ops : List (List Char × ℂ)) (r₀ r : ℕ → ℂ)
    (h : ops.foldlM (m := Option) (fun (r : ℕ → ℂ) op =>
      (ladder (chans.zip op.1) (limValues L k i) op.2).bind (fun res =>
      match res with
      | none => some r
      | some (v, c) =>
        if v = [] then none
        else if v.any (fun n => decide (L ≤ n)) then some r
        else (limIndex L k v).map (fun j => Function.update r j (r j + c)))) r₀ = some r) :
    ∀ j < L ^ k, r j = r₀ j + (ops.map (fun op => op.2 * commands (chans.zip op.1) (Finsupp.single (limValues L k i) 1) (limValues L k j))).sum := by
  induction ops generalizing r₀ with
  | nil =>
    intro j _
    simp only [List.foldlM_nil, Option.pure_def, Option.some.injEq] at h
    rw [h]; simp
  | cons op ops ih =>
    intro j hj
    simp only [List.foldlM_cons, Option.bind_eq_bind, Option.bind_eq_some_iff] at h
    obtain ⟨r₁, ⟨res, hres, h1⟩, h2⟩ := h
    rw [ih r₁ h2 j hj, List.map_cons, List.sum_cons, ← add_assoc]
    congr 1
    obtain ⟨hn, hs⟩ := ladder_spec (chans.zip op.1) (limValues L k i) op.2
    cases res with
    | none =>
      simp only [Option.some.injEq] at h1
      rw [hn hres, ← h1]; simp
    | some vc =>
      obtain ⟨v, c⟩ := vc
      obtain ⟨hlen, hc⟩ := hs v c hres
      have hcoef : op.2 * commands (chans.zip op.1) (Finsupp.single (limValues L k i) 1) (limValues L k j) =
          if v = limValues L k j then c else 0 := by
        have := congrArg (fun f : Fock => f (limValues L k j)) hc
        simp only [Finsupp.smul_apply, smul_eq_mul, Finsupp.single_apply] at this
        rw [this]
        split_ifs <;> simp
      rw [hcoef]
      simp only at h1
      by_cases hv : v = []
      · rw [if_pos hv] at h1; cases h1
      · rw [if_neg hv] at h1
        by_cases ha : v.any (fun n => decide (L ≤ n)) = true
        · rw [if_pos ha, Option.some.injEq] at h1
          rw [if_neg, h1]
          · simp
          · rintro rfl
            rw [List.any_eq_true] at ha
            obtain ⟨x, hx, hxl⟩ := ha
            have : x < L := (limValues_valid hL hj).2 x hx
            simp only [decide_eq_true_eq] at hxl
            omega
        · rw [if_neg ha, Option.map_eq_some_iff] at h1
          obtain ⟨j', hj', rfl⟩ := h1
          obtain ⟨hj'l, hj'v⟩ := limIndex_some hj'
          by_cases hjj : j = j'
          · subst hjj
            rw [Function.update_self, if_pos hj'v.symm]
          · rw [Function.update_of_ne hjj, if_neg]
            · simp
            · intro hv'
              exact hjj (limValues_inj hL hj hj'l (hv'.symm.trans hj'v.symm))

/-- C52: the entry of the matrix of a Hamiltonian in the row of the photon numbers `u` and the column of the photon numbers `v` is the matrix element ⟨v| H |u⟩ of
the sum of the products of creation and annihilation operators. -/
theorem C52_elements {L k : ℕ} (hL : 1 ≤ L) {chans : List ℕ} {ops : List (List Char × ℂ)}
    {M : Matrix (Fin (L ^ k)) (Fin (L ^ k)) ℂ} (h : limMatrix L k chans ops = some M) (i j : Fin (L ^ k)) :
    M i j = (ops.map (fun op => op.2 * commands (chans.zip op.1) (Finsupp.single (limValues L k i) 1) (limValues L k j))).sum := by
  unfold limMatrix at h
  rw [Option.map_eq_some_iff] at h
  obtain ⟨rows, hr, rfl⟩ := h
  rw [mapM_some_iff, List.forall₂_iff_get] at hr
  obtain ⟨hlen, hr⟩ := hr
  rw [List.length_range] at hlen
  have hi : (i : ℕ) < rows.length := hlen ▸ i.2
  have h1 := hr i (by simp) hi
  simp only [List.get_eq_getElem, List.getElem_range] at h1
  have h2 : rows.getD i (fun _ => 0) = rows[(i : ℕ)] := by rw [List.getD_eq_getElem?_getD, List.getElem?_eq_getElem hi]; rfl
  have := limRow_aux hL i.2 ops (fun _ => 0) rows[(i : ℕ)] h1 j j.2
  rw [Matrix.of_apply, h2, this, zero_add]

/-- C52: no exception if the operator channels are numbered from 0. -/
theorem C52_defined {L k : ℕ} (hL : 1 ≤ L) (hk : 1 ≤ k) {chans : List ℕ} (hc : ∀ c ∈ chans, c < k) (ops : List (List Char × ℂ)) :
    ∃ M, limMatrix L k chans ops = some M := by
  have hrow : ∀ i ∈ List.range (L ^ k), ∃ r, limRow L k chans ops i = some r := by
    intro i hi
    rw [List.mem_range] at hi
    unfold limRow
    generalize (fun _ => (0 : ℂ)) = r₀
    induction ops generalizing r₀ with
    | nil => exact ⟨_, rfl⟩
    | cons op ops ih =>
      rw [List.foldlM_cons]
      have hlen := (limValues_valid hL hi).1
      obtain ⟨res, hres⟩ := ladder_defined (chans.zip op.1) (limValues L k i) op.2 (fun x hx => by
        rw [hlen]; exact hc _ (List.of_mem_zip hx).1)
      rw [hres]
      cases res with
      | none => exact ih r₀
      | some vc =>
        obtain ⟨v, c⟩ := vc
        have hvl := ((ladder_spec _ _ _).2 v c hres).1
        rw [hlen] at hvl
        have hvl' : v.length = k := hvl
        have hne : v ≠ [] := by rintro rfl; simp at hvl'; omega
        simp only [Option.bind_eq_bind, Option.bind_some, if_neg hne]
        by_cases ha : v.any (fun n => decide (L ≤ n)) = true
        · rw [if_pos ha]; exact ih r₀
        · rw [if_neg ha]
          have hv : Valid (limCfg L k) v := ⟨hvl', fun x hx => by
            by_contra hcon
            exact ha (List.any_eq_true.2 ⟨x, hx, by simpa [limCfg] using hcon⟩)⟩
          rw [(limIndex_eq hL hv).1]
          exact ih _
  have : ∃ rows, (List.range (L ^ k)).mapM (limRow L k chans ops) = some rows := by
    choose! f hf using hrow
    exact ⟨_, mapM_some_of (g := f) hf⟩
  obtain ⟨rows, hr⟩ := this
  exact ⟨_, by unfold limMatrix; rw [hr]; rfl⟩

theorem commands_skip {w : List (ℕ × Char)} (h : ∀ x ∈ w, x.2 ≠ '+' ∧ x.2 ≠ '-') : commands w = LinearMap.id := by
  induction w with
  | nil => rfl
  | cons x w ih =>
    rw [commands_cons, ih (fun x hx => h x (List.mem_cons_of_mem _ hx))]
    obtain ⟨h1, h2⟩ := h x List.mem_cons_self
    unfold command
    rw [if_neg h1, if_neg h2]; rfl

theorem commands_one {pre post : List (ℕ × Char)} {x : ℕ × Char} (h1 : ∀ x ∈ pre, x.2 ≠ '+' ∧ x.2 ≠ '-')
    (h2 : ∀ x ∈ post, x.2 ≠ '+' ∧ x.2 ≠ '-') : commands (pre ++ x :: post) = command x.1 x.2 := by
  rw [commands_append, commands_cons, commands_skip h1, commands_skip h2]; rfl

/-- C52: the creation operator of channel `c` (all other commands of the string are ignored ones): row |n⟩, column |m⟩ is `√(n_c + 1)` if `m` is `n` with one photon more
in channel `c`, and 0 otherwise. -/
theorem C52_creation {L k : ℕ} (hL : 1 ≤ L) {chans : List ℕ} {word : List Char} {pre post : List (ℕ × Char)} {c : ℕ}
    (hz : chans.zip word = pre ++ (c, '+') :: post) (h1 : ∀ x ∈ pre, x.2 ≠ '+' ∧ x.2 ≠ '-') (h2 : ∀ x ∈ post, x.2 ≠ '+' ∧ x.2 ≠ '-')
    {M : Matrix (Fin (L ^ k)) (Fin (L ^ k)) ℂ} (h : limMatrix L k chans [(word, 1)] = some M) (i j : Fin (L ^ k)) :
    M i j = if limValues L k j = (limValues L k i).set c ((limValues L k i).getD c 0 + 1) then
      (Real.sqrt ((limValues L k i).getD c 0 + 1) : ℂ) else 0 := by
  rw [C52_elements hL h i j, List.map_cons, List.map_nil, List.sum_cons, List.sum_nil, hz, commands_one h1 h2, one_mul, add_zero]
  simp only [command, if_true, create_single, one_mul, Finsupp.smul_apply, Finsupp.single_apply, smul_eq_mul]
  by_cases he : (limValues L k i).set c ((limValues L k i).getD c 0 + 1) = limValues L k j
  · rw [if_pos he, if_pos he.symm, mul_one]
  · rw [if_neg he, if_neg (fun h => he h.symm), mul_zero]

/-- C52: the annihilation operator of channel `c`: row |n⟩, column |m⟩ is `√n_c` if `m` is `n` with one photon less in channel `c`, and 0 otherwise. -/
theorem C52_annihilation {L k : ℕ} (hL : 1 ≤ L) {chans : List ℕ} {word : List Char} {pre post : List (ℕ × Char)} {c : ℕ}
    (hz : chans.zip word = pre ++ (c, '-') :: post) (h1 : ∀ x ∈ pre, x.2 ≠ '+' ∧ x.2 ≠ '-') (h2 : ∀ x ∈ post, x.2 ≠ '+' ∧ x.2 ≠ '-')
    {M : Matrix (Fin (L ^ k)) (Fin (L ^ k)) ℂ} (h : limMatrix L k chans [(word, 1)] = some M) (i j : Fin (L ^ k)) :
    M i j = if limValues L k j = (limValues L k i).set c ((limValues L k i).getD c 0 - 1) then
      (Real.sqrt ((limValues L k i).getD c 0) : ℂ) else 0 := by
  rw [C52_elements hL h i j, List.map_cons, List.map_nil, List.sum_cons, List.sum_nil, hz, commands_one h1 h2, one_mul, add_zero]
  have hpm : ¬ ('-' : Char) = '+' := by decide
  simp only [command, if_true, if_neg hpm, annihilate_single, one_mul, Finsupp.smul_apply, Finsupp.single_apply, smul_eq_mul]
  by_cases he : (limValues L k i).set c ((limValues L k i).getD c 0 - 1) = limValues L k j
  · rw [if_pos he, if_pos he.symm, mul_one]
  · rw [if_neg he, if_neg (fun h => he h.symm), mul_zero]

/-! ### adjoint -/

theorem create_adjoint (c : ℕ) {u v : List ℕ} (hu : c < u.length) (hl : v.length = u.length) :
    create c (Finsupp.single u 1) v = annihilate c (Finsupp.single v 1) u := by
  rw [create_single, annihilate_single]
  simp only [Finsupp.smul_apply, Finsupp.single_apply, smul_eq_mul, one_mul]
  have hgu : ∀ w : List ℕ, c < w.length → ∀ n, (w.set c n).getD c 0 = n := by
    intro w hw n
    rw [List.getD_eq_getElem?_getD, List.getElem?_set_self hw]; rfl
  by_cases h : u.set c (u.getD c 0 + 1) = v
  · subst h
    rw [if_pos rfl, hgu u hu]
    have : (u.set c (u.getD c 0 + 1)).set c (u.getD c 0 + 1 - 1) = u := by
      rw [List.set_set, Nat.add_sub_cancel]
      have : u.getD c 0 = u[c] := by rw [List.getD_eq_getElem?_getD, List.getElem?_eq_getElem hu]; rfl
      rw [this, List.set_getElem_self]
    rw [if_pos this]
    push_cast; ring
  · rw [if_neg h]
    by_cases h' : v.set c (v.getD c 0 - 1) = u
    · rw [if_pos h']
      have hvc : c < v.length := hl ▸ hu
      by_cases h0 : v.getD c 0 = 0
      · rw [h0]; simp
      · exfalso
        apply h
        rw [← h', List.set_set, hgu v hvc, Nat.sub_add_cancel (Nat.pos_of_ne_zero h0)]
        have : v.getD c 0 = v[c] := by rw [List.getD_eq_getElem?_getD, List.getElem?_eq_getElem hvc]; rfl
        rw [this, List.set_getElem_self]
    · rw [if_neg h']; simp

theorem command_adjoint (x : ℕ × Char) {u v : List ℕ} (hu : x.1 < u.length) (hl : v.length = u.length) :
    command x.1 x.2 (Finsupp.single u 1) v =
      command x.1 (if x.2 = '+' then '-' else if x.2 = '-' then '+' else x.2) (Finsupp.single v 1) u := by
  have hpm : ¬ ('-' : Char) = '+' := by decide
  unfold command
  by_cases hp : x.2 = '+'
  · simp only [if_pos hp, if_true, if_neg hpm]; exact create_adjoint _ hu hl
  · by_cases hm : x.2 = '-'
    · simp only [if_neg hp, if_pos hm, if_true]; exact (create_adjoint _ (hl ▸ hu) hl.symm).symm
    · simp only [if_neg hp, if_neg hm, LinearMap.id_apply, Finsupp.single_apply]
      by_cases h : u = v
      · rw [if_pos h, if_pos h.symm]
      · rw [if_neg h, if_neg (fun h' => h h'.symm)]

theorem commands_adjoint (w : List (ℕ × Char)) {u v : List ℕ} (hu : ∀ x ∈ w, x.1 < u.length) (hl : v.length = u.length) :
    commands w (Finsupp.single u 1) v = commands (adjointWord w) (Finsupp.single v 1) u := by
  induction w generalizing u v with
  | nil =>
    simp only [adjointWord, List.map_nil, List.reverse_nil, commands_nil, LinearMap.id_apply, Finsupp.single_apply]
    by_cases h : u = v
    · rw [if_pos h, if_pos h.symm]
    · rw [if_neg h, if_neg (fun h' => h h'.symm)]
  | cons x w ih =>
    obtain ⟨a, u', hu', ha⟩ := commands_single [x] u
    have hxa : command x.1 x.2 (Finsupp.single u 1) = a • Finsupp.single u' (1 : ℂ) := by
      rw [← ha, commands_cons, commands_nil]; rfl
    obtain ⟨b, v', hv', hb⟩ := commands_single (adjointWord w) v
    have hadj : adjointWord (x :: w) = adjointWord w ++ [(x.1, if x.2 = '+' then '-' else if x.2 = '-' then '+' else x.2)] := by
      unfold adjointWord; rw [List.map_cons, List.reverse_cons]
    rw [hadj, commands_append, LinearMap.comp_apply, hb, map_smul, commands_cons, LinearMap.comp_apply, hxa, map_smul,
      Finsupp.smul_apply, ih (fun y hy => hu' ▸ hu y (List.mem_cons_of_mem _ hy)) (hl.trans hu'.symm), hb, Finsupp.smul_apply]
    have h1 : commands [(x.1, if x.2 = '+' then '-' else if x.2 = '-' then '+' else x.2)] (Finsupp.single v' (1 : ℂ)) u
        = command x.1 x.2 (Finsupp.single u 1) v' := by
      rw [command_adjoint x (hu x List.mem_cons_self) (hv'.trans hl), commands_cons, commands_nil]; rfl
    rw [Finsupp.smul_apply, h1, hxa, Finsupp.smul_apply]
    simp only [smul_eq_mul, Finsupp.single_apply]
    by_cases h : v' = u'
    · rw [if_pos h, if_pos h.symm]; ring
    · rw [if_neg h, if_neg (fun h' => h h'.symm)]; simp

/-- The adjoint Hamiltonian: every string reversed with '+' and '-' exchanged, complex conjugate coefficients, channels reversed. -/
noncomputable def adjointHam (ops : List (List Char × ℂ)) : List (List Char × ℂ) :=
  ops.map (fun op => ((op.1.map (fun c => if c = '+' then '-' else if c = '-' then '+' else c)).reverse, (starRingEnd ℂ) op.2))

/-- C52: creation and annihilation are adjoint: the matrix of the adjoint Hamiltonian is the conjugate transpose of the matrix, for every Hamiltonian. -/
theorem C52_adjoint {L k : ℕ} (hL : 1 ≤ L) {chans : List ℕ} (hc : ∀ c ∈ chans, c < k) {ops : List (List Char × ℂ)}
    (hlen : ∀ op ∈ ops, op.1.length = chans.length) {M M' : Matrix (Fin (L ^ k)) (Fin (L ^ k)) ℂ}
    (h : limMatrix L k chans ops = some M) (h' : limMatrix L k chans.reverse (adjointHam ops) = some M') : M' = Mᴴ := by
  ext i j
  rw [Matrix.conjTranspose_apply, C52_elements hL h' i j, C52_elements hL h j i]
  unfold adjointHam
  rw [List.map_map]
  have hst : ∀ l : List ℂ, star l.sum = (l.map star).sum := by
    intro l; induction l with
    | nil => simp
    | cons a l ih => simp [ih, add_comm]
  rw [hst, List.map_map]
  congr 1
  apply List.map_congr_left
  intro op hop
  simp only [Function.comp]
  have hz : chans.reverse.zip ((op.1.map (fun c => if c = '+' then '-' else if c = '-' then '+' else c)).reverse) = adjointWord (chans.zip op.1) := by
    unfold adjointWord
    have e : ∀ (a : List ℕ) (b : List Char), a.length = b.length → a.reverse.zip b.reverse = (a.zip b).reverse := fun a b h =>
      (List.reverse_zipWith h).symm
    rw [e _ _ (by rw [List.length_map, hlen op hop]), List.zip_map_right]
    rfl
  have hl : ∀ i : Fin (L ^ k), (limValues L k i).length = k := fun i => (limValues_valid hL i.2).1
  have hadj := commands_adjoint (chans.zip op.1) (u := limValues L k j) (v := limValues L k i)
    (fun x hx => by rw [hl]; exact hc _ (List.of_mem_zip hx).1) (by rw [hl, hl])
  rw [hz, ← hadj]
  -- the matrix elements of products of ladder operators are real
  have hreal : ∀ (w : List (ℕ × Char)) (u v : List ℕ), star (commands w (Finsupp.single u (1 : ℂ)) v) = commands w (Finsupp.single u 1) v := by
    have hr : ∀ (w : List (ℕ × Char)) (u : List ℕ), ∃ (a : ℝ) (u' : List ℕ), commands w (Finsupp.single u (1 : ℂ)) = (a : ℂ) • Finsupp.single u' (1 : ℂ) := by
      intro w
      induction w with
      | nil => intro u; exact ⟨1, u, by rw [commands_nil]; simp⟩
      | cons x w ih =>
        intro u
        have : ∃ (a : ℝ) (u' : List ℕ), command x.1 x.2 (Finsupp.single u (1 : ℂ)) = (a : ℂ) • Finsupp.single u' (1 : ℂ) := by
          unfold command
          split_ifs
          · exact ⟨Real.sqrt (u.getD x.1 0 + 1), _, by rw [create_single, one_mul]⟩
          · exact ⟨Real.sqrt (u.getD x.1 0), _, by rw [annihilate_single, one_mul]⟩
          · exact ⟨1, u, by simp⟩
        obtain ⟨a, u', ha⟩ := this
        obtain ⟨b, u2, hb⟩ := ih u'
        exact ⟨a * b, u2, by rw [commands_cons, LinearMap.comp_apply, ha, map_smul, hb, smul_smul]; push_cast; rfl⟩
    intro w u v
    obtain ⟨a, u', ha⟩ := hr w u
    rw [ha, Finsupp.smul_apply, Finsupp.single_apply]
    split_ifs <;> simp
  rw [star_mul', hreal]
  rfl

/-- C52: the canonical commutation relation holds exactly on the limited basis: "create, then annihilate" minus "annihilate, then create" is the identity. -/
theorem C52_commutator {L k c : ℕ} (hL : 1 ≤ L) (hc : c < k) :
    limMatrix L k [c, c] [(['+', '-'], 1), (['-', '+'], -1)] = some 1 := by
  obtain ⟨M, hM⟩ := C52_defined hL (Nat.lt_of_le_of_lt (Nat.zero_le _) hc) (chans := [c, c]) (by simp [hc]) [(['+', '-'], 1), (['-', '+'], -1)]
  rw [hM, Option.some.injEq]
  ext i j
  rw [C52_elements hL hM i j, Matrix.one_apply]
  have hl : (limValues L k i).length = k := (limValues_valid hL i.2).1
  have hci : c < (limValues L k i).length := by rw [hl]; exact hc
  have hpm : ¬ ('-' : Char) = '+' := by decide
  generalize hu : limValues L k i = u at *
  have hgu : ∀ n, (u.set c n).getD c 0 = n := by
    intro n
    rw [List.getD_eq_getElem?_getD, List.getElem?_set_self hci]; rfl
  have hself : u.set c (u.getD c 0) = u := by
    have : u.getD c 0 = u[c] := by rw [List.getD_eq_getElem?_getD, List.getElem?_eq_getElem hci]; rfl
    rw [this, List.set_getElem_self]
  have e1 : commands ([c, c].zip ['+', '-']) (Finsupp.single u (1 : ℂ)) = ((u.getD c 0 : ℂ) + 1) • Finsupp.single u (1 : ℂ) := by
    simp only [List.zip_cons_cons, List.zip_nil_right, commands_cons, commands_nil, LinearMap.comp_apply, LinearMap.id_apply, command, if_true, if_neg hpm,
      create_single, map_smul, annihilate_single, hgu, List.set_set, Nat.add_sub_cancel, hself, smul_smul, one_mul]
    congr 1
    push_cast
    rw [← Complex.ofReal_mul, Real.mul_self_sqrt (by positivity)]
    push_cast; rfl
  have e2 : commands ([c, c].zip ['-', '+']) (Finsupp.single u (1 : ℂ)) = (u.getD c 0 : ℂ) • Finsupp.single u (1 : ℂ) := by
    simp only [List.zip_cons_cons, List.zip_nil_right, commands_cons, commands_nil, LinearMap.comp_apply, LinearMap.id_apply, command, if_true, if_neg hpm,
      create_single, map_smul, annihilate_single, hgu, List.set_set, smul_smul, one_mul]
    by_cases h0 : u.getD c 0 = 0
    · rw [h0]; simp
    · have h1 : u.getD c 0 - 1 + 1 = u.getD c 0 := Nat.sub_add_cancel (Nat.pos_of_ne_zero h0)
      have h2 : ((u.getD c 0 - 1 : ℕ) : ℝ) + 1 = (u.getD c 0 : ℝ) := by exact_mod_cast h1
      rw [h1, hself, h2, ← Complex.ofReal_mul, Real.mul_self_sqrt (by positivity)]
      push_cast; rfl
  simp only [List.map_cons, List.map_nil, List.sum_cons, List.sum_nil, e1, e2, Finsupp.smul_apply, Finsupp.single_apply, smul_eq_mul, add_zero]
  by_cases hij : i = j
  · have : u = limValues L k j := by rw [← hij, hu]
    rw [if_pos this, if_pos hij]; ring
  · have : ¬ u = limValues L k j := fun h => hij (Fin.ext (limValues_inj hL i.2 j.2 (hu.trans h)))
    rw [if_neg this, if_neg hij]; ring

/-- Non-vacuity: a Hamiltonian on two channels of three photon numbers. -/
example : ∃ M, limMatrix 3 2 [0, 0, 1, 1] [("+0-0".toList, 1), ("-0+0".toList, -1)] = some M :=
  C52_defined (by norm_num) (by norm_num) (by simp) _

end Verif.Props
