/- Helper lemmas about photon-resolved measurement: the formula with the permanent. -/
import Verif.Lemmas.Resolved

namespace Verif
open Spec Finset Equiv

theorem card_fiber {n : ℕ} (p : Fin n → ℕ) (i : ℕ) : Fintype.card {a : Fin n // p a = i} = (List.ofFn p).count i := by
  rw [Fintype.card_subtype, List.ofFn_eq_map, List.count_eq_countP, List.countP_map, List.countP_eq_length_filter]
  have h : (univ.filter (fun a : Fin n => p a = i)) = ((List.finRange n).filter ((fun x => x == i) ∘ p)).toFinset := by
    ext a; simp
  rw [h, List.toFinset_card_of_nodup ((List.nodup_finRange n).filter _)]

theorem count_channels (v : Vals) (i : ℕ) : (photonChannels v).count i = v.getD i 0 := by
  unfold photonChannels
  rw [count_photonChannels v 0 i, if_pos (Nat.zero_le _), Nat.sub_zero]

theorem bosonOf_sq (v : Vals) : bosonOf v * bosonOf v = ((∏ i ∈ range v.length, (v.getD i 0).factorial : ℕ) : ℝ) := by
  induction v with
  | nil => simp [bosonOf_nil]
  | cons n v ih =>
    rw [bosonOf_cons, List.length_cons, Finset.prod_range_succ', Nat.cast_mul]
    simp only [List.getD_cons_succ, List.getD_cons_zero]
    rw [← ih]
    have : Real.sqrt (n.factorial) * Real.sqrt (n.factorial) = n.factorial := Real.mul_self_sqrt (by positivity)
    linear_combination (bosonOf v * bosonOf v) * this

theorem card_stabilizer {n : ℕ} (p : Fin n → ℕ) (v : Vals) (h : (List.ofFn p).Perm (photonChannels v)) :
    (Fintype.card {σ : Perm (Fin n) // p ∘ σ = p} : ℝ) = bosonOf v * bosonOf v := by
  rw [bosonOf_sq, DomMulAct.stabilizer_card']
  congr 1
  have h1 : ∀ i, Fintype.card {a : Fin n // p a = i} = v.getD i 0 := by
    intro i; rw [card_fiber, h.count_eq, count_channels]
  simp only [h1]
  refine Finset.prod_subset ?_ ?_
  · intro i hi
    obtain ⟨a, _, rfl⟩ := Finset.mem_image.1 hi
    have : p a ∈ photonChannels v := h.mem_iff.1 (List.mem_ofFn.2 ⟨a, rfl⟩)
    rw [Finset.mem_range]
    exact (mem_photonChannels this).1
  · intro i _ hi
    have : v.getD i 0 = 0 := by
      rw [← count_channels, ← h.count_eq]
      refine List.count_eq_zero.2 ?_
      intro hm
      obtain ⟨a, ha⟩ := List.mem_ofFn.1 hm
      exact hi (Finset.mem_image.2 ⟨a, Finset.mem_univ _, ha⟩)
    rw [this]; rfl

theorem exists_perm_of_perm {n : ℕ} (p c : Fin n → ℕ) (h : (List.ofFn c).Perm (List.ofFn p)) : ∃ σ : Perm (Fin n), ∀ i, c (σ i) = p i := by
  have e : ∀ i, Nonempty ({a : Fin n // p a = i} ≃ {a : Fin n // c a = i}) := by
    intro i
    rw [← Fintype.card_eq, card_fiber, card_fiber]
    exact (h.count_eq i).symm
  refine ⟨Equiv.ofFiberEquiv (fun i => (e i).some), fun i => Equiv.ofFiberEquiv_map _ i⟩

theorem sum_photonPairs {α M : Type*} [AddCommMonoid M] (l m : List α) (G : List (ℕ × ℕ) → M) (z : α → α → List (ℕ × ℕ)) :
    ((l.flatMap (fun b => m.map (fun k => z b k))).map G).sum = (l.map (fun b => (m.map (fun k => G (z b k))).sum)).sum := by
  induction l with
  | nil => rfl
  | cons a l ih => rw [List.flatMap_cons, List.map_append, List.sum_append, ih, List.map_cons, List.sum_cons, List.map_map]; rfl

theorem ofFn_getD {α : Type*} {n : ℕ} (l : List α) (d : α) (h : l.length = n) : List.ofFn (fun i : Fin n => l.getD i d) = l := by
  subst h
  refine List.ext_getElem (by simp) ?_
  intro i h1 h2
  rw [List.getElem_ofFn, List.getD_eq_getElem _ _ h2]

theorem zip_ofFn {α β : Type*} {n : ℕ} (f : Fin n → α) (h : Fin n → β) : (List.ofFn f).zip (List.ofFn h) = List.ofFn (fun i => (f i, h i)) := by
  refine List.ext_getElem (by simp) ?_
  intro i h1 h2
  simp

theorem pairProbability_eq {g : Cfg} {v : Vals} {bra ket : Column} {b k : List Photon} (hb : listOfPhotons g bra = some b) (hk : listOfPhotons g ket = some k)
    (pb : PhotonsIn v b) (pk : PhotonsIn v k) :
    pairProbability g v bra ket = some (some (starRingEnd ℂ ket.amp * bra.amp / ((ket.boson * bra.boson : ℝ) : ℂ) * ((overlapPermanent b k : ℝ) : ℂ))) := by
  have lb : (photonChannels v).length = b.length := by rw [← pb.length_eq, List.length_map]
  have lk : k.length = b.length := by rw [← lb, ← pk.length_eq, List.length_map]
  let p : Fin b.length → ℕ := fun i => (photonChannels v).getD i 0
  let cb : Fin b.length → ℕ := fun i => (b.get i).1
  let ck : Fin b.length → ℕ := fun i => (k.getD i (0, none)).1
  have ep : List.ofFn p = photonChannels v := ofFn_getD _ _ lb
  have eb : List.ofFn cb = b.map Prod.fst := by
    refine List.ext_getElem (by simp) ?_
    intro i h1 h2
    simp [cb]
  have ek : List.ofFn ck = k.map Prod.fst := by
    refine List.ext_getElem (by simp [lk]) ?_
    intro i h1 h2
    rw [List.getElem_ofFn, List.getElem_map]
    show (k.getD i (0, none)).1 = _
    rw [List.getD_eq_getElem _ _ (by simpa using h2)]
  obtain ⟨σ₀, hσ⟩ := exists_perm_of_perm p cb (by rw [ep, eb]; exact pb)
  obtain ⟨τ₀, hτ⟩ := exists_perm_of_perm p ck (by rw [ep, ek]; exact pk)
  unfold pairProbability
  rw [hb, hk]
  simp only [Option.bind_some, Option.map_some]
  rw [← eb, ← ek, ← ep]
  have hsum : ((photonPairs (List.ofFn p) (List.ofFn cb) (List.ofFn ck)).map (sequenceOverlap b k)).sum = bosonOf v * bosonOf v * overlapPermanent b k := by
    unfold photonPairs
    rw [sum_photonPairs, sum_validCombinations p cb]
    have inner : ∀ σ ∈ goodPerms p cb, ((validCombinations (List.ofFn p) (List.ofFn ck)).map (fun x => sequenceOverlap b k ((List.ofFn (fun i => (σ i : ℕ))).zip x))).sum =
        ∑ τ ∈ goodPerms p ck, ∏ i, photonOverlap (b.get (σ i)).2 (k.getD (τ i) (0, none)).2 := by
      intro σ _
      rw [sum_validCombinations p ck]
      refine Finset.sum_congr rfl ?_
      intro τ _
      rw [zip_ofFn]
      unfold sequenceOverlap
      rw [List.map_ofFn, List.prod_ofFn]
      refine Finset.prod_congr rfl ?_
      intro i _
      simp only [Function.comp]
      rw [List.getD_eq_getElem b _ (σ i).2]
      rfl
    rw [Finset.sum_congr rfl inner, double_sum p cb ck (fun i j => photonOverlap (b.get i).2 (k.getD j (0, none)).2), card_goodPerms_aux p cb σ₀ hσ, card_stabilizer p v (by rw [ep])]
    rfl
  have hne : photonPairs (List.ofFn p) (List.ofFn cb) (List.ofFn ck) ≠ [] := by
    have hx : ∀ (c : Fin b.length → ℕ) (ρ : Perm (Fin b.length)), (∀ i, c (ρ i) = p i) → ∃ x, x ∈ validCombinations (List.ofFn p) (List.ofFn c) := by
      intro c ρ hρ
      by_contra hcon
      push Not at hcon
      have hnil : validCombinations (List.ofFn p) (List.ofFn c) = [] := List.eq_nil_iff_forall_not_mem.2 hcon
      have := sum_validCombinations p c (fun _ => (1 : ℕ))
      rw [hnil] at this
      simp only [List.map_nil, List.sum_nil, Finset.sum_const, smul_eq_mul, mul_one] at this
      have hm : ρ ∈ goodPerms p c := by
        unfold goodPerms
        exact Finset.mem_filter.2 ⟨Finset.mem_univ _, hρ⟩
      exact absurd hm (by rw [Finset.card_eq_zero.1 this.symm]; simp)
    obtain ⟨x, hx1⟩ := hx cb σ₀ hσ
    obtain ⟨y, hy1⟩ := hx ck τ₀ hτ
    refine List.ne_nil_of_mem (a := x.zip y) ?_
    unfold photonPairs
    exact List.mem_flatMap.2 ⟨x, hx1, List.mem_map.2 ⟨y, hy1, rfl⟩⟩
  rw [if_neg hne, hsum]
  have hB : ((bosonOf v : ℝ) : ℂ) ≠ 0 := by
    exact_mod_cast (bosonOf_pos v).ne'
  congr 2
  push_cast
  field_simp

end Verif
