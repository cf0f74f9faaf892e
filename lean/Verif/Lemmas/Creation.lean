/-
Lemmas for linear optics as a substitution of creation operators.
-/
import Verif.Spec.Creation
import Verif.Lemmas.Columns2
import Verif.Lemmas.PRExperiment
import Verif.Lemmas.OperatorNodes

namespace Verif
open Spec Props MvPolynomial

theorem ketPoly_range (info : Option PInfo) (v : Vals) :
    ketPoly info v = ∏ j ∈ Finset.range v.length, (C (1 / (Real.sqrt (Nat.factorial (v.getD j 0)) : ℂ)) * X (j, info) ^ (v.getD j 0) : MvPolynomial Mode ℂ) := by
  have e : v.zipIdx = (List.range v.length).map (fun j => (v.getD j 0, j)) := by
    refine List.ext_getElem (by simp) (fun i h1 h2 => ?_)
    have hi : i < v.length := by simpa using h1
    simp [hi]
  unfold ketPoly
  rw [e, List.map_map, ← List.toFinset_range, List.prod_toFinset _ List.nodup_range]
  rfl

/-- The state with the amplitudes `x`. -/
noncomputable def vecPoly (g : Cfg) (info : Option PInfo) (x : ℕ → ℂ) : MvPolynomial Mode ℂ :=
  ∑ k ∈ Finset.range g.size, C (x k) * ketPoly info (g.valuesFromIndex k)

theorem vecPoly_congr {g : Cfg} {info : Option PInfo} {x y : ℕ → ℂ} (h : ∀ k < g.size, x k = y k) : vecPoly g info x = vecPoly g info y :=
  Finset.sum_congr rfl (fun k hk => by rw [h k (Finset.mem_range.1 hk)])

theorem statePoly_vec {g : Cfg} (hL : 1 ≤ g.L) (s : PState) (h : WellFormed g s.q.comps) : statePoly g s = vecPoly g s.info (vec g s.q.comps) := by
  unfold statePoly vecPoly
  have := sum_comps hL (fun (nm : Name) (a : ℂ) => (C a * ((g.parse nm).map (ketPoly s.info)).getD 0 : MvPolynomial Mode ℂ)) (by simp) h
  rw [this]
  refine Finset.sum_congr rfl (fun k _ => ?_)
  rw [Cfg.nm, g.parse_stdName (g.valid_valuesFromIndex hL k).2]
  rfl

/-- The factors of the other channels. -/
noncomputable def restPoly (info : Option PInfo) (v : Vals) (h c : ℕ) : MvPolynomial Mode ℂ :=
  ∏ j ∈ ((Finset.range v.length).erase h).erase c, (C (1 / (Real.sqrt (Nat.factorial (v.getD j 0)) : ℂ)) * X (j, info) ^ (v.getD j 0))

/-- The factors of two channels. -/
noncomputable def pairPoly (info : Option PInfo) (h c a b : ℕ) : MvPolynomial Mode ℂ :=
  C (1 / (Real.sqrt (Nat.factorial a) : ℂ)) * X (h, info) ^ a * (C (1 / (Real.sqrt (Nat.factorial b) : ℂ)) * X (c, info) ^ b)

theorem ketPoly_pair (info : Option PInfo) (v : Vals) {h c : ℕ} (hh : h < v.length) (hc : c < v.length) (hne : h ≠ c) :
    ketPoly info v = pairPoly info h c (v.getD h 0) (v.getD c 0) * restPoly info v h c := by
  rw [ketPoly_range, ← Finset.mul_prod_erase _ _ (Finset.mem_range.2 hh),
    ← Finset.mul_prod_erase _ _ (Finset.mem_erase.2 ⟨hne.symm, Finset.mem_range.2 hc⟩), ← mul_assoc]
  rfl

theorem restPoly_set (info : Option PInfo) (v : Vals) (h c a b : ℕ) : restPoly info ((v.set h a).set c b) h c = restPoly info v h c := by
  unfold restPoly
  rw [List.length_set, List.length_set]
  refine Finset.prod_congr rfl (fun j hj => ?_)
  simp only [Finset.mem_erase] at hj
  rw [getD_set_ne (fun e => hj.1 e.symm), getD_set_ne (fun e => hj.2.1 e.symm)]

theorem gateSubst_rest (M : Opt) (info : Option PInfo) (v : Vals) (h c : ℕ) : gateSubst M h c (restPoly info v h c) = restPoly info v h c := by
  unfold restPoly
  rw [map_prod]
  refine Finset.prod_congr rfl (fun j hj => ?_)
  simp only [Finset.mem_erase] at hj
  simp only [gateSubst, map_mul, map_pow, aeval_X, if_neg hj.1, if_neg hj.2.1]
  congr 1
  exact aeval_C _ _

theorem gateSubst_C (M : Opt) (h c : ℕ) (a : ℂ) : gateSubst M h c (C a) = C a := aeval_C _ _

theorem antidiag_sum {L N : ℕ} (hN : N < L) {R : Type*} [AddCommMonoid R] (f : ℕ → ℕ → R) (h : ∀ u v, u + v ≠ N → f u v = 0) :
    ∑ a ∈ Finset.range L, ∑ b ∈ Finset.range L, f a b = ∑ u ∈ Finset.range (N + 1), f u (N - u) := by
  rw [← Finset.sum_subset (Finset.range_subset_range.2 (show N + 1 ≤ L by omega))]
  · refine Finset.sum_congr rfl fun u hu => ?_
    rw [Finset.mem_range] at hu
    rw [Finset.sum_eq_single (N - u)]
    · intro v _ hv; exact h _ _ (by omega)
    · intro hc; exact absurd (Finset.mem_range.2 (by omega)) hc
  · intro u _ hu
    rw [Finset.mem_range] at hu
    exact Finset.sum_eq_zero fun v _ => h _ _ (by omega)

/-- homogeneous form of the generating polynomial, in any two commuting elements -/
theorem genPoly_homog_alg (M : Opt) (n m : ℕ) (x y : MvPolynomial Mode ℂ) :
    ∑ u ∈ Finset.range (n + m + 1), C ((genPoly M n m).coeff u) * x ^ u * y ^ (n + m - u)
      = (C (M 0 0) * x + C (M 1 0) * y) ^ n * (C (M 0 1) * x + C (M 1 1) * y) ^ m := by
  have e : (C (M 0 0) * x + C (M 1 0) * y) ^ n * (C (M 0 1) * x + C (M 1 1) * y) ^ m =
      ∑ j ∈ Finset.range (n + 1), ∑ k ∈ Finset.range (m + 1),
      C ((n.choose j : ℂ) * (m.choose k : ℂ) * M 0 0 ^ j * M 1 0 ^ (n - j) * M 0 1 ^ k * M 1 1 ^ (m - k))
        * x ^ (j + k) * y ^ (n + m - (j + k)) := by
    rw [add_pow, add_pow, Finset.sum_mul_sum]
    refine Finset.sum_congr rfl fun j hj => Finset.sum_congr rfl fun k hk => ?_
    simp only [Finset.mem_range] at hj hk
    rw [show n + m - (j + k) = (n - j) + (m - k) by omega]
    simp only [mul_pow, pow_add, map_mul, map_pow, map_natCast]
    ring
  rw [e]
  simp only [coeff_genPoly, map_sum, Finset.sum_mul]
  rw [Finset.sum_comm]
  refine Finset.sum_congr rfl fun j hj => ?_
  rw [Finset.sum_comm]
  refine Finset.sum_congr rfl fun k hk => ?_
  simp only [Finset.mem_range] at hj hk
  rw [Finset.sum_eq_single (j + k)]
  · rw [if_pos rfl]
  · intro u _ hu
    rw [if_neg (fun h => hu h.symm)]; simp
  · intro h
    exact absurd (Finset.mem_range.2 (by omega)) h

/-- The two channels of a gate. -/
theorem pair_subst (L : ℕ) (M : Opt) (info : Option PInfo) {h c : ℕ} (hne : h ≠ c) {u v : ℕ} (huv : u + v < L) :
    ∑ a ∈ Finset.range L, ∑ b ∈ Finset.range L, C (gateAmp L M a b u v) * pairPoly info h c a b = gateSubst M h c (pairPoly info h c u v) := by
  have hz : ∀ a b, a + b ≠ u + v → (C (gateAmp L M a b u v) * pairPoly info h c a b : MvPolynomial Mode ℂ) = 0 := by
    intro a b hab
    have : gateAmp L M a b u v = 0 := by
      by_contra hne'
      exact hab (gateAmp_conserves hne')
    rw [this, C_0, zero_mul]
  rw [antidiag_sum huv _ hz]
  have hterm : ∀ a ∈ Finset.range (u + v + 1), (C (gateAmp L M a (u + v - a) u v) * pairPoly info h c a (u + v - a) : MvPolynomial Mode ℂ)
      = C (1 / (Real.sqrt (Nat.factorial u) : ℂ) * (1 / (Real.sqrt (Nat.factorial v) : ℂ))) *
        (C ((genPoly M.transpose u v).coeff a) * X (h, info) ^ a * X (c, info) ^ (u + v - a)) := by
    intro a ha
    rw [Finset.mem_range] at ha
    have hg : gateAmp L M a (u + v - a) u v = (genPoly M.transpose u v).coeff a * (Real.sqrt ((a.factorial * (u + v - a).factorial : ℕ) / ((u.factorial * v.factorial : ℕ) : ℝ)) : ℂ) := by
      rw [← gateAmp_transpose, gateAmp, if_pos huv, bosonAmp, if_pos (by omega)]
    have hr : (Real.sqrt ((a.factorial * (u + v - a).factorial : ℕ) / ((u.factorial * v.factorial : ℕ) : ℝ)) : ℂ) * (1 / (Real.sqrt (Nat.factorial a) : ℂ)) *
        (1 / (Real.sqrt (Nat.factorial (u + v - a)) : ℂ)) = 1 / (Real.sqrt (Nat.factorial u) : ℂ) * (1 / (Real.sqrt (Nat.factorial v) : ℂ)) := by
      have hpos : ∀ n : ℕ, (0 : ℝ) < (n.factorial : ℝ) := fun n => by exact_mod_cast n.factorial_pos
      have hn : ∀ n : ℕ, (Real.sqrt (Nat.factorial n) : ℝ) ≠ 0 := fun n => (Real.sqrt_pos.2 (hpos n)).ne'
      rw [Real.sqrt_div (by positivity), Nat.cast_mul, Nat.cast_mul, Real.sqrt_mul (hpos _).le, Real.sqrt_mul (hpos _).le]
      push_cast
      have h1 := hn a; have h2 := hn (u + v - a); have h3 := hn u; have h4 := hn v
      have h1' : (Real.sqrt (Nat.factorial a) : ℂ) ≠ 0 := by exact_mod_cast h1
      have h2' : (Real.sqrt (Nat.factorial (u + v - a)) : ℂ) ≠ 0 := by exact_mod_cast h2
      have h3' : (Real.sqrt (Nat.factorial u) : ℂ) ≠ 0 := by exact_mod_cast h3
      have h4' : (Real.sqrt (Nat.factorial v) : ℂ) ≠ 0 := by exact_mod_cast h4
      field_simp
    rw [← hr, hg]
    simp only [pairPoly, map_mul]
    ring
  rw [Finset.sum_congr rfl hterm, ← Finset.mul_sum, genPoly_homog_alg]
  simp only [pairPoly, map_mul, map_pow, gateSubst_C, Matrix.transpose_apply]
  have h1 : gateSubst M h c (X (h, info)) = C (M 0 0) * X (h, info) + C (M 0 1) * X (c, info) := by
    simp [gateSubst, aeval_X]
  have h2 : gateSubst M h c (X (c, info)) = C (M 1 0) * X (h, info) + C (M 1 1) * X (c, info) := by
    simp [gateSubst, aeval_X, hne.symm]
  rw [h1, h2]
  ring

/-- The column of the matrix of a gate that belongs to one basis state. -/
theorem gate_column {g : Cfg} (hg : g.Ok) {M : Opt} {h c : ℕ} (hh : h < g.C) (hc : c < g.C) (hne : h ≠ c) (hbug : ¬ (2 ≤ h ∧ c = 0)) {tl : List ℕ}
    (htl : tensorList g.C [h, c] = some tl) (info : Option PInfo) {v : Vals} (hv : Valid g v) (hlt : v.getD h 0 + v.getD c 0 < g.L) :
    ∑ k ∈ Finset.range g.size, C ((fockNode g (standardKeys g) M tl .all).1.at_ k (g.indexOf v)) * ketPoly info (g.valuesFromIndex k)
      = gateSubst M h c (ketPoly info v) := by
  have hF : IsGateMatrix g M h c (fockNode g (standardKeys g) M tl .all).1 := ⟨tl, htl, rfl⟩
  have hval : ∀ a b, a < g.L → b < g.L → Valid g ((v.set h a).set c b) := fun a b ha hb => valid_set (valid_set hv _ ha) _ hb
  have e1 : ∀ a b : ℕ, ((v.set h a).set c b).getD c 0 = b := fun a b => getD_set_self (by rw [List.length_set, hv.1]; exact hc)
  have e2 : ∀ a b : ℕ, ((v.set h a).set c b).getD h 0 = a := fun a b => by
    rw [getD_set_ne (fun e => hne e.symm)]
    exact getD_set_self (by rw [hv.1]; exact hh)
  have e3 : ∀ a b : ℕ, ∀ i < g.C, i ≠ h → i ≠ c → ((v.set h a).set c b).getD i 0 = v.getD i 0 := fun a b i _ h1 h2 => by
    rw [getD_set_ne (fun e => h2 e.symm), getD_set_ne (fun e => h1 e.symm)]
  have hsum : ∑ k ∈ Finset.range g.size, C ((fockNode g (standardKeys g) M tl .all).1.at_ k (g.indexOf v)) * ketPoly info (g.valuesFromIndex k)
      = ∑ ab ∈ Finset.range g.L ×ˢ Finset.range g.L, C (gateAmp g.L M ab.1 ab.2 (v.getD h 0) (v.getD c 0)) * (pairPoly info h c ab.1 ab.2 * restPoly info v h c) := by
    symm
    refine Finset.sum_of_injOn (fun ab : ℕ × ℕ => g.indexOf ((v.set h ab.1).set c ab.2)) ?_ ?_ ?_ ?_
    · rintro ⟨a, b⟩ hab ⟨a', b'⟩ hab' e
      simp only [Finset.coe_product, Set.mem_prod, Finset.mem_coe, Finset.mem_range] at hab hab'
      have := g.indexOf_inj (hval _ _ hab.1 hab.2) (hval _ _ hab'.1 hab'.2) e
      have h1 := congrArg (fun l : Vals => l.getD h 0) this
      have h2 := congrArg (fun l : Vals => l.getD c 0) this
      simp only [e1, e2] at h1 h2
      rw [h1, h2]
    · rintro ⟨a, b⟩ hab
      simp only [Finset.coe_product, Set.mem_prod, Finset.mem_coe, Finset.mem_range] at hab ⊢
      exact g.indexOf_lt (hval _ _ hab.1 hab.2)
    · intro j hj hno
      rw [Finset.mem_range] at hj
      have hw := g.valid_valuesFromIndex hg.1 j
      have hent := gate_entry hg hh hc hne hbug hF hw hv
      rw [g.indexOf_valuesFromIndex hj] at hent
      rw [hent]
      split
      · rename_i hs
        exfalso
        apply hno
        refine ⟨((g.valuesFromIndex j).getD h 0, (g.valuesFromIndex j).getD c 0), ?_, ?_⟩
        · simp only [Finset.coe_product, Set.mem_prod, Finset.mem_coe, Finset.mem_range]
          exact ⟨valid_getD_lt hw hh, valid_getD_lt hw hc⟩
        · show g.indexOf ((v.set h _).set c _) = j
          rw [set_getD_pair hv hw hh hc hne (fun i hi h1 h2 => (hs i hi h1 h2).symm), g.indexOf_valuesFromIndex hj]
      · rw [C_0, zero_mul]
    · rintro ⟨a, b⟩ hab
      simp only [Finset.mem_product, Finset.mem_range] at hab
      show _ = C ((fockNode g (standardKeys g) M tl .all).1.at_ (g.indexOf ((v.set h a).set c b)) (g.indexOf v)) * ketPoly info (g.valuesFromIndex (g.indexOf ((v.set h a).set c b)))
      have hvl := hval _ _ hab.1 hab.2
      rw [gate_entry hg hh hc hne hbug hF hvl hv, if_pos (e3 a b), e1, e2, g.valuesFromIndex_indexOf hvl,
        ketPoly_pair info _ (by rw [hvl.1]; exact hh) (by rw [hvl.1]; exact hc) hne, e1, e2, restPoly_set]
  rw [hsum, Finset.sum_product, ketPoly_pair info v (by rw [hv.1]; exact hh) (by rw [hv.1]; exact hc) hne, map_mul, gateSubst_rest, ← pair_subst g.L M info hne hlt, Finset.sum_mul]
  refine Finset.sum_congr rfl (fun a _ => ?_)
  rw [Finset.sum_mul]
  exact Finset.sum_congr rfl (fun b _ => by ring)

/-- A gate acting on amplitudes is a substitution. -/
theorem vecPoly_gate {g : Cfg} (hg : g.Ok) {M : Opt} {h c : ℕ} (hh : h < g.C) (hc : c < g.C) (hne : h ≠ c) (hbug : ¬ (2 ≤ h ∧ c = 0)) {tl : List ℕ}
    (htl : tensorList g.C [h, c] = some tl) (info : Option PInfo) (x : ℕ → ℂ) (hx : ∀ v, Valid g v → x (g.indexOf v) ≠ 0 → v.getD h 0 + v.getD c 0 < g.L) :
    vecPoly g info ((fockNode g (standardKeys g) M tl .all).1.mulVec x) = gateSubst M h c (vecPoly g info x) := by
  unfold vecPoly SqArr.mulVec
  rw [fockNode_all_size, map_sum]
  simp only [map_sum, Finset.sum_mul]
  rw [Finset.sum_comm]
  refine Finset.sum_congr rfl (fun j hj => ?_)
  rw [Finset.mem_range] at hj
  have hv := g.valid_valuesFromIndex hg.1 j
  by_cases h0 : x j = 0
  · simp [h0]
  · have hcol := gate_column hg (M := M) hh hc hne hbug htl info hv (hx _ hv (by rw [g.indexOf_valuesFromIndex hj]; exact h0))
    rw [g.indexOf_valuesFromIndex hj] at hcol
    rw [map_mul, gateSubst_C, ← hcol, Finset.mul_sum]
    refine Finset.sum_congr rfl (fun k _ => ?_)
    rw [map_mul]
    ring

theorem sum_set_pair {v : Vals} {h c : ℕ} (hh : h < v.length) (hc : c < v.length) (hne : h ≠ c) (a b : ℕ) :
    ((v.set h a).set c b).sum + v.getD h 0 + v.getD c 0 = v.sum + a + b := by
  have key : ∀ (l : Vals) (i x : ℕ), i < l.length → (l.set i x).sum + l.getD i 0 = l.sum + x := by
    intro l
    induction l with
    | nil => intro i x hi; simp at hi
    | cons y l ih =>
      intro i x hi
      cases i with
      | zero => simp; omega
      | succ i =>
        have := ih i x (by simpa using hi)
        simp only [List.set_cons_succ, List.sum_cons, List.getD_cons_succ]
        omega
  have h1 := key v h a hh
  have h2 := key (v.set h a) c b (by rw [List.length_set]; exact hc)
  rw [getD_set_ne hne] at h2
  omega

/-- The photon number is conserved. -/
theorem gate_support {g : Cfg} (hg : g.Ok) {M : Opt} {h c : ℕ} (hh : h < g.C) (hc : c < g.C) (hne : h ≠ c) (hbug : ¬ (2 ≤ h ∧ c = 0)) {tl : List ℕ}
    (htl : tensorList g.C [h, c] = some tl) (x : ℕ → ℂ) {N : ℕ} (hx : ∀ v, Valid g v → x (g.indexOf v) ≠ 0 → v.sum < N) {v : Vals} (hv : Valid g v)
    (h0 : (fockNode g (standardKeys g) M tl .all).1.mulVec x (g.indexOf v) ≠ 0) : v.sum < N := by
  rw [mulVec_gate hg hh hc hne hbug htl x hv] at h0
  obtain ⟨a, ha, h1⟩ := Finset.exists_ne_zero_of_sum_ne_zero h0
  obtain ⟨b, hb, h2⟩ := Finset.exists_ne_zero_of_sum_ne_zero h1
  rw [Finset.mem_range] at ha hb
  have h3 := gateAmp_conserves (left_ne_zero_of_mul h2)
  have h4 := hx _ (valid_set (valid_set hv _ ha) _ hb) (right_ne_zero_of_mul h2)
  have h5 := sum_set_pair (v := v) (by rw [hv.1]; exact hh) (by rw [hv.1]; exact hc) hne a b
  omega

theorem getD_le_sum (v : Vals) {h c : ℕ} (hne : h ≠ c) : v.getD h 0 + v.getD c 0 ≤ v.sum := by
  have one : ∀ (l : Vals) (i : ℕ), l.getD i 0 ≤ l.sum := by
    intro l
    induction l with
    | nil => intro i; simp
    | cons y l ih =>
      intro i
      cases i with
      | zero => simp
      | succ i => have := ih i; simp only [List.getD_cons_succ, List.sum_cons]; omega
  induction v generalizing h c with
  | nil => simp
  | cons y l ih =>
    cases h with
    | zero =>
      cases c with
      | zero => exact absurd rfl hne
      | succ c => have := one l c; simp only [List.getD_cons_zero, List.getD_cons_succ, List.sum_cons]; omega
    | succ h =>
      cases c with
      | zero => have := one l h; simp only [List.getD_cons_zero, List.getD_cons_succ, List.sum_cons]; omega
      | succ c => have := ih (h := h) (c := c) (by omega); simp only [List.getD_cons_succ, List.sum_cons]; omega

theorem ketPoly_mono (info : Option PInfo) (v : Vals) :
    ketPoly info v = monomial (monoOf info v) (∏ j ∈ Finset.range v.length, (1 / (Real.sqrt (Nat.factorial (v.getD j 0)) : ℂ))) := by
  rw [ketPoly_range, monoOf]
  induction Finset.range v.length using Finset.induction_on with
  | empty => rfl
  | insert j s hj ih => rw [Finset.prod_insert hj, Finset.sum_insert hj, Finset.prod_insert hj, ih, C_mul_X_pow_eq_monomial, monomial_mul]

theorem monoOf_apply (info : Option PInfo) (v : Vals) (ch : ℕ) : monoOf info v (ch, info) = v.getD ch 0 := by
  classical
  unfold monoOf
  rw [Finsupp.finset_sum_apply]
  by_cases h : ch < v.length
  · rw [Finset.sum_eq_single ch]
    · simp
    · intro j _ hj
      rw [Finsupp.single_apply, if_neg (by simp [hj])]
    · intro h'; exact absurd (Finset.mem_range.2 h) h'
  · rw [Finset.sum_eq_zero]
    · simp [List.getD, List.getElem?_eq_none (by omega : v.length ≤ ch)]
    · intro j hj
      rw [Finset.mem_range] at hj
      rw [Finsupp.single_apply, if_neg (by simp; omega)]

theorem monoOf_inj {g : Cfg} (info : Option PInfo) {v w : Vals} (hv : Valid g v) (hw : Valid g w) (h : monoOf info v = monoOf info w) : v = w := by
  refine valid_ext hv hw (fun i _ => ?_)
  rw [← monoOf_apply info v i, ← monoOf_apply info w i, h]

theorem factorials_prod (w : Vals) :
    (∏ j ∈ Finset.range w.length, (1 / (Real.sqrt (Nat.factorial (w.getD j 0)) : ℂ))) * ((Real.sqrt ((w.map Nat.factorial).prod : ℕ) : ℝ) : ℂ) = 1 := by
  have e : (∏ j ∈ Finset.range w.length, (1 / (Real.sqrt (Nat.factorial (w.getD j 0)) : ℂ))) = (w.map (fun n => (1 / (Real.sqrt (Nat.factorial n) : ℂ)))).prod := by
    rw [← List.toFinset_range, List.prod_toFinset _ List.nodup_range]
    congr 1
    refine List.ext_getElem (by simp) (fun i h1 h2 => ?_)
    have hi : i < w.length := by simpa using h1
    simp [hi]
  rw [e]
  clear e
  induction w with
  | nil => simp
  | cons n w ih =>
    have hpos : (0 : ℝ) < (n.factorial : ℝ) := by exact_mod_cast n.factorial_pos
    have hn : (Real.sqrt (Nat.factorial n) : ℂ) ≠ 0 := by exact_mod_cast (Real.sqrt_pos.2 hpos).ne'
    rw [List.map_cons, List.prod_cons, List.map_cons, List.prod_cons, Nat.cast_mul, Real.sqrt_mul hpos.le]
    push_cast
    rw [show ∀ a b c d : ℂ, a * b * (c * d) = (a * c) * (b * d) by intros; ring]
    have ih' := ih
    push_cast at ih'
    rw [ih', mul_one, one_div_mul_cancel hn]

theorem amplitudeIn_vec {g : Cfg} (hg : g.Ok) (info : Option PInfo) (x : ℕ → ℂ) {w : Vals} (hw : Valid g w) : amplitudeIn (vecPoly g info x) info w = x (g.indexOf w) := by
  classical
  have hlt := g.indexOf_lt hw
  unfold amplitudeIn vecPoly
  rw [coeff_sum, Finset.sum_eq_single (g.indexOf w)]
  · rw [g.valuesFromIndex_indexOf hw, coeff_C_mul, ketPoly_mono, coeff_monomial, if_pos rfl, mul_assoc, factorials_prod, mul_one]
  · intro k hk hne
    rw [Finset.mem_range] at hk
    rw [coeff_C_mul, ketPoly_mono, coeff_monomial, if_neg, mul_zero]
    intro e
    apply hne
    rw [← monoOf_inj info (g.valid_valuesFromIndex hg.1 k) hw e, g.indexOf_valuesFromIndex hk]
  · intro h; exact absurd (Finset.mem_range.2 hlt) h

end Verif
