/-
Properties C131 (superposition, inner products) and C132 (only the density matrix matters).
-/
import Verif.Props.Born
import Verif.Props.Dephasing
import Verif.Spec.Superposition

namespace Verif.Props
open Verif Spec

/-! ### Linear algebra of a list of nodes -/

theorem oneByOne_kernel (g : Cfg) (nodes : List (Opt × List ℕ)) :
    ∃ U : ℕ → ℕ → ℂ, ∀ (x : ℕ → ℂ), ∀ i < g.size, oneByOne g nodes x i = ∑ a ∈ Finset.range g.size, U i a * x a := by
  induction nodes with
  | nil =>
    refine ⟨fun i a => if i = a then 1 else 0, fun x i hi => ?_⟩
    simp only [ite_mul, one_mul, zero_mul, Finset.sum_ite_eq, Finset.mem_range.2 hi, if_true]
    rfl
  | cons m nodes ih =>
    obtain ⟨U, hU⟩ := ih
    refine ⟨fun i a => ∑ b ∈ Finset.range g.size, U i b * (FullMatrix g m).at_ b a, fun x i hi => ?_⟩
    have e : oneByOne g (m :: nodes) x = oneByOne g nodes ((FullMatrix g m).mulVec x) := rfl
    have hs : (FullMatrix g m).size = g.size := fockNode_all_size g (standardKeys g) m.1 m.2
    rw [e, hU _ i hi]
    simp only [SqArr.mulVec, hs, Finset.mul_sum, Finset.sum_mul]
    rw [Finset.sum_comm]
    exact Finset.sum_congr rfl fun a _ => Finset.sum_congr rfl fun b _ => by ring

theorem oneByOne_linear (g : Cfg) (nodes : List (Opt × List ℕ)) (a b : ℂ) (x y z : ℕ → ℂ) (h : ∀ i < g.size, z i = a * x i + b * y i) :
    ∀ i < g.size, oneByOne g nodes z i = a * oneByOne g nodes x i + b * oneByOne g nodes y i := by
  obtain ⟨U, hU⟩ := oneByOne_kernel g nodes
  intro i hi
  rw [hU z i hi, hU x i hi, hU y i hi, Finset.mul_sum, Finset.mul_sum, ← Finset.sum_add_distrib]
  exact Finset.sum_congr rfl fun k hk => by rw [h k (Finset.mem_range.1 hk)]; ring

theorem sq_expand (N : ℕ) (x y : ℕ → ℂ) (t : ℂ) : ((∑ i ∈ Finset.range N, ‖x i + t * y i‖ ^ 2 : ℝ) : ℂ) =
    (∑ i ∈ Finset.range N, star (x i) * x i) + t * (∑ i ∈ Finset.range N, star (x i) * y i) + star t * (∑ i ∈ Finset.range N, star (y i) * x i)
      + star t * t * (∑ i ∈ Finset.range N, star (y i) * y i) := by
  rw [Complex.ofReal_sum, Finset.mul_sum, Finset.mul_sum, Finset.mul_sum, ← Finset.sum_add_distrib, ← Finset.sum_add_distrib, ← Finset.sum_add_distrib]
  refine Finset.sum_congr rfl fun i _ => ?_
  rw [← Complex.normSq_eq_norm_sq, Complex.normSq_eq_conj_mul_self, ← Complex.star_def, star_add, star_mul']
  ring

theorem oneByOne_inner {g : Cfg} (hg : g.Ok) (nodes : List (Opt × List ℕ)) (hm : ∀ m ∈ nodes, OnChannels g m ∧ m.1 ∈ Matrix.unitaryGroup (Fin 2) ℂ) (x y : ℕ → ℂ) :
    ∑ i ∈ Finset.range g.size, star (oneByOne g nodes x i) * oneByOne g nodes y i = ∑ i ∈ Finset.range g.size, star (x i) * y i := by
  have key : ∀ t : ℂ, ((∑ i ∈ Finset.range g.size, ‖oneByOne g nodes x i + t * oneByOne g nodes y i‖ ^ 2 : ℝ) : ℂ) = ((∑ i ∈ Finset.range g.size, ‖x i + t * y i‖ ^ 2 : ℝ) : ℂ) := by
    intro t
    rw [← oneByOne_norm hg nodes (fun i => x i + t * y i) hm]
    congr 1
    refine Finset.sum_congr rfl fun i hi => ?_
    rw [oneByOne_linear g nodes 1 t x y (fun i => x i + t * y i) (fun i _ => by rw [one_mul]) i (Finset.mem_range.1 hi), one_mul]
  have h0 := key 0
  have h1 := key 1
  have hm1 := key (-1)
  have hI := key Complex.I
  rw [sq_expand, sq_expand] at h0 h1 hm1 hI
  have hsI : star Complex.I = -Complex.I := Complex.conj_I
  have hII : Complex.I * Complex.I = -1 := Complex.I_mul_I
  set A := ∑ i ∈ Finset.range g.size, star (oneByOne g nodes x i) * oneByOne g nodes x i
  set B := ∑ i ∈ Finset.range g.size, star (oneByOne g nodes x i) * oneByOne g nodes y i
  set C := ∑ i ∈ Finset.range g.size, star (oneByOne g nodes y i) * oneByOne g nodes x i
  set D := ∑ i ∈ Finset.range g.size, star (oneByOne g nodes y i) * oneByOne g nodes y i
  set a := ∑ i ∈ Finset.range g.size, star (x i) * x i
  set b := ∑ i ∈ Finset.range g.size, star (x i) * y i
  set c := ∑ i ∈ Finset.range g.size, star (y i) * x i
  set d := ∑ i ∈ Finset.range g.size, star (y i) * y i
  simp only [star_zero, star_one, star_neg, hsI] at h0 h1 hm1 hI
  have e0 : A = a := by linear_combination h0
  have e1 : B + C = b + c := by linear_combination (h1 - hm1) / 2
  have e2 : D = d := by linear_combination (h1 + hm1) / 2 - e0
  have e3 : Complex.I * (B - C) = Complex.I * (b - c) := by linear_combination hI - e0 + Complex.I * Complex.I * e2
  have e4 : B - C = b - c := mul_left_cancel₀ Complex.I_ne_zero e3
  linear_combination (e1 + e4) / 2

/-- what is left of an amplitude after the removal of small amplitudes is close to it -/
theorem cut_close {thr : ℝ} (x : ℂ) : ‖(if ‖x‖ ^ 2 < thr then 0 else x) - x‖ ≤ Real.sqrt thr := by
  split
  · rename_i h
    rw [zero_sub, norm_neg]
    exact Real.le_sqrt_of_sq_le h.le
  · simp

/-- amplitudes of the result of optical nodes -/
theorem optical_vec {g : Cfg} (hg : g.Ok) {thr : ℝ} {full : Bool} {n : Opt × List ℕ} {l : List (Opt × List ℕ)} (hn : OnChannels g n) (hl : ∀ m ∈ l, OnChannels g m) {c c' : Comps}
    (h : WellFormed g c) (hne : c ≠ []) (hc : applyOptical g thr full (standardKeys g) n l c = some c') :
    WellFormed g c' ∧ ∀ i < g.size, vec g c' i = if ‖oneByOne g (n :: l) (vec g c) i‖ ^ 2 < thr then 0 else oneByOne g (n :: l) (vec g c) i := by
  rw [applyOptical_eq hg thr full n l hn hl h hne] at hc
  obtain ⟨d, hd, hw, -, -⟩ := fromVector_spec hg.1 thr (oneByOne g (n :: l) (vec g c))
  obtain rfl : d = c' := Option.some.inj (hd.symm.trans hc)
  exact ⟨hw, fun i hi => vec_fromVector hg.1 hc hi⟩

/-- when unitary nodes keep the total probability no amplitude was removed -/
theorem optical_vec_exact {g : Cfg} (hg : g.Ok) {thr : ℝ} {full : Bool} {n : Opt × List ℕ} {l : List (Opt × List ℕ)} (hu : ∀ m ∈ n :: l, OnChannels g m ∧ m.1 ∈ Matrix.unitaryGroup (Fin 2) ℂ) {c c' : Comps}
    (h : WellFormed g c) (hne : c ≠ []) (hc : applyOptical g thr full (standardKeys g) n l c = some c') (hp : totalProb c' = totalProb c) :
    WellFormed g c' ∧ ∀ i < g.size, vec g c' i = oneByOne g (n :: l) (vec g c) i := by
  obtain ⟨hw, hv⟩ := optical_vec hg (hu n (by simp)).1 (fun m hm => (hu m (by simp [hm])).1) h hne hc
  refine ⟨hw, fun i hi => ?_⟩
  rw [totalProb_eq hg.1 hw, totalProb_eq hg.1 h, ← oneByOne_norm hg (n :: l) (vec g c) hu] at hp
  have hle : ∀ i ∈ Finset.range g.size, ‖vec g c' i‖ ^ 2 ≤ ‖oneByOne g (n :: l) (vec g c) i‖ ^ 2 := by
    intro i hi
    rw [hv i (Finset.mem_range.1 hi)]
    split <;> simp
  have he := (Finset.sum_eq_sum_iff_of_le hle).1 hp i (Finset.mem_range.2 hi)
  rw [hv i hi] at he ⊢
  split
  · rename_i h1
    rw [if_pos h1] at he
    have : ‖oneByOne g (n :: l) (vec g c) i‖ ^ 2 = 0 := by rw [← he]; simp
    exact (norm_eq_zero.1 (pow_eq_zero_iff (two_ne_zero) |>.1 this)).symm
  · rfl

theorem vec_combination {g : Cfg} (hL : 1 ≤ g.L) {c₁ c₂ c₃ : Comps} {a b : ℂ} (h : ∀ v s, Valid g v → IsName g v s → ampOf c₃ s = a * ampOf c₁ s + b * ampOf c₂ s) :
    ∀ i < g.size, vec g c₃ i = a * vec g c₁ i + b * vec g c₂ i := by
  intro i hi
  exact h (g.valuesFromIndex i) (g.nm i) (g.valid_valuesFromIndex hL i) ((isName_iff (g.valid_valuesFromIndex hL i)).2 rfl)

/-! ### C131 -/

/-- **C131** Superposition. Let the amplitudes of a third state be `a` times those of a first plus `b` times those of a second state. After any list of optical nodes, unitary or not, the amplitudes
of the third result are `a` times those of the first plus `b` times those of the second result, up to the amplitudes that are removed because they are below the threshold. -/
theorem C131_superposition (g : Cfg) (hg : g.Ok) (thr : ℝ) (full : Bool) (n : Opt × List ℕ) (l : List (Opt × List ℕ)) (hn : ∀ m ∈ n :: l, OnChannels g m) (a b : ℂ) (c₁ c₂ c₃ d₁ d₂ d₃ : Comps)
    (w₁ : WellFormed g c₁) (w₂ : WellFormed g c₂) (w₃ : WellFormed g c₃) (n₁ : c₁ ≠ []) (n₂ : c₂ ≠ []) (n₃ : c₃ ≠ [])
    (h : ∀ v s, Valid g v → IsName g v s → ampOf c₃ s = a * ampOf c₁ s + b * ampOf c₂ s)
    (h₁ : applyOptical g thr full (standardKeys g) n l c₁ = some d₁) (h₂ : applyOptical g thr full (standardKeys g) n l c₂ = some d₂) (h₃ : applyOptical g thr full (standardKeys g) n l c₃ = some d₃) :
    ∀ v s, Valid g v → IsName g v s → ‖ampOf d₃ s - (a * ampOf d₁ s + b * ampOf d₂ s)‖ ≤ (1 + ‖a‖ + ‖b‖) * Real.sqrt thr := by
  intro v s hv hs
  have hn1 := hn n (by simp)
  have hn2 : ∀ m ∈ l, OnChannels g m := fun m hm => hn m (by simp [hm])
  have hi := g.indexOf_lt hv
  rw [(isName_iff hv).1 hs, ← vec_index hv, ← vec_index hv, ← vec_index hv]
  have e₁ := (optical_vec hg hn1 hn2 w₁ n₁ h₁).2 _ hi
  have e₂ := (optical_vec hg hn1 hn2 w₂ n₂ h₂).2 _ hi
  have e₃ := (optical_vec hg hn1 hn2 w₃ n₃ h₃).2 _ hi
  have hlin := oneByOne_linear g (n :: l) a b _ _ _ (vec_combination hg.1 h) _ hi
  set x₁ := oneByOne g (n :: l) (vec g c₁) (g.indexOf v)
  set x₂ := oneByOne g (n :: l) (vec g c₂) (g.indexOf v)
  set x₃ := oneByOne g (n :: l) (vec g c₃) (g.indexOf v)
  have k₁ : ‖vec g d₁ (g.indexOf v) - x₁‖ ≤ Real.sqrt thr := by rw [e₁]; exact cut_close x₁
  have k₂ : ‖vec g d₂ (g.indexOf v) - x₂‖ ≤ Real.sqrt thr := by rw [e₂]; exact cut_close x₂
  have k₃ : ‖vec g d₃ (g.indexOf v) - x₃‖ ≤ Real.sqrt thr := by rw [e₃]; exact cut_close x₃
  have e : vec g d₃ (g.indexOf v) - (a * vec g d₁ (g.indexOf v) + b * vec g d₂ (g.indexOf v)) =
      (vec g d₃ (g.indexOf v) - x₃) - a * (vec g d₁ (g.indexOf v) - x₁) - b * (vec g d₂ (g.indexOf v) - x₂) := by rw [hlin]; ring
  rw [e]
  refine (norm_sub_le _ _).trans ?_
  have := norm_sub_le (vec g d₃ (g.indexOf v) - x₃) (a * (vec g d₁ (g.indexOf v) - x₁))
  rw [norm_mul] at this
  rw [norm_mul]
  nlinarith [norm_nonneg a, norm_nonneg b, mul_le_mul_of_nonneg_left k₁ (norm_nonneg a), mul_le_mul_of_nonneg_left k₂ (norm_nonneg b)]

/-- **C131** With unitary nodes that remove no amplitude (the total probabilities stay the same) the superposition is exact. -/
theorem C131_superposition_exact (g : Cfg) (hg : g.Ok) (thr : ℝ) (full : Bool) (n : Opt × List ℕ) (l : List (Opt × List ℕ)) (hu : ∀ m ∈ n :: l, OnChannels g m ∧ m.1 ∈ Matrix.unitaryGroup (Fin 2) ℂ)
    (a b : ℂ) (c₁ c₂ c₃ d₁ d₂ d₃ : Comps) (w₁ : WellFormed g c₁) (w₂ : WellFormed g c₂) (w₃ : WellFormed g c₃) (n₁ : c₁ ≠ []) (n₂ : c₂ ≠ []) (n₃ : c₃ ≠ [])
    (h : ∀ v s, Valid g v → IsName g v s → ampOf c₃ s = a * ampOf c₁ s + b * ampOf c₂ s)
    (h₁ : applyOptical g thr full (standardKeys g) n l c₁ = some d₁) (h₂ : applyOptical g thr full (standardKeys g) n l c₂ = some d₂) (h₃ : applyOptical g thr full (standardKeys g) n l c₃ = some d₃)
    (p₁ : totalProb d₁ = totalProb c₁) (p₂ : totalProb d₂ = totalProb c₂) (p₃ : totalProb d₃ = totalProb c₃) :
    ∀ v s, Valid g v → IsName g v s → ampOf d₃ s = a * ampOf d₁ s + b * ampOf d₂ s := by
  intro v s hv hs
  have hi := g.indexOf_lt hv
  rw [(isName_iff hv).1 hs, ← vec_index hv, ← vec_index hv, ← vec_index hv, (optical_vec_exact hg hu w₁ n₁ h₁ p₁).2 _ hi, (optical_vec_exact hg hu w₂ n₂ h₂ p₂).2 _ hi,
    (optical_vec_exact hg hu w₃ n₃ h₃ p₃).2 _ hi]
  exact oneByOne_linear g (n :: l) a b _ _ _ (vec_combination hg.1 h) _ hi

/-- **C131** Unitary nodes that remove no amplitude preserve the inner product that the library computes, so they preserve orthogonality and overlap. -/
theorem C131_inner_product (g : Cfg) (hg : g.Ok) (thr : ℝ) (full : Bool) (n : Opt × List ℕ) (l : List (Opt × List ℕ)) (hu : ∀ m ∈ n :: l, OnChannels g m ∧ m.1 ∈ Matrix.unitaryGroup (Fin 2) ℂ)
    (c₁ c₂ d₁ d₂ : Comps) (w₁ : WellFormed g c₁) (w₂ : WellFormed g c₂) (n₁ : c₁ ≠ []) (n₂ : c₂ ≠ [])
    (h₁ : applyOptical g thr full (standardKeys g) n l c₁ = some d₁) (h₂ : applyOptical g thr full (standardKeys g) n l c₂ = some d₂)
    (p₁ : totalProb d₁ = totalProb c₁) (p₂ : totalProb d₂ = totalProb c₂) : inner d₁ d₂ = inner c₁ c₂ := by
  obtain ⟨k₁, e₁⟩ := optical_vec_exact hg hu w₁ n₁ h₁ p₁
  obtain ⟨k₂, e₂⟩ := optical_vec_exact hg hu w₂ n₂ h₂ p₂
  rw [inner_eq hg.1 k₁ k₂, inner_eq hg.1 w₁ w₂, ← oneByOne_inner hg (n :: l) hu (vec g c₁)]
  exact Finset.sum_congr rfl fun i hi => by rw [e₁ i (Finset.mem_range.1 hi), e₂ i (Finset.mem_range.1 hi)]

/-! ### C132 -/

theorem dm_optical (c : Circ) (hg : c.g.Ok) (n : Opt × List ℕ) (l : List (Opt × List ℕ)) (hu : ∀ m ∈ n :: l, OnChannels c.g m ∧ m.1 ∈ Matrix.unitaryGroup (Fin 2) ℂ) (U : ℕ → ℕ → ℂ)
    (hU : ∀ (x : ℕ → ℂ), ∀ i < c.g.size, oneByOne c.g (n :: l) x i = ∑ a ∈ Finset.range c.g.size, U i a * x a) (coll out : Coll) (hid : (coll.map Prod.fst).Nodup)
    (hw : ∀ p ∈ coll, WellFormed c.g p.2.comps ∧ p.2.comps ≠ [])
    (hloss : ∀ p ∈ coll, ∀ d, applyOptical c.g c.thr c.full (standardKeys c.g) n l p.2.comps = some d → totalProb d = totalProb p.2.comps)
    (h : opticalColl c n l coll = some out) (label : List Char) :
    (∀ p ∈ out, WellFormed c.g p.2.comps) ∧ ∃ dm dm', densityMatrix c.g coll label = some dm ∧ densityMatrix c.g out label = some dm' ∧
      ∀ i < c.g.size, ∀ j < c.g.size, dm' i j = ∑ a ∈ Finset.range c.g.size, ∑ b ∈ Finset.range c.g.size, star (U i a) * U j b * dm a b := by
  obtain ⟨-, hf⟩ := (opticalColl_iff c n l coll hid out).1 h
  have hwo : ∀ p ∈ out, WellFormed c.g p.2.comps := by
    intro p hp
    obtain ⟨q, hq, d, hd, rfl⟩ := forall₂_mem_right_exists hf hp
    exact (optical_vec_exact hg hu (hw q hq).1 (hw q hq).2 hd (hloss q hq d hd)).1
  obtain ⟨dm, e, k⟩ := densityMatrix_eq hg.1 (fun p hp => (hw p hp).1) label
  obtain ⟨dm', e', k'⟩ := densityMatrix_eq hg.1 hwo label
  refine ⟨hwo, dm, dm', e, e', fun i hi j hj => ?_⟩
  rw [k' i hi j hj]
  have hk : ∑ a ∈ Finset.range c.g.size, ∑ b ∈ Finset.range c.g.size, star (U i a) * U j b * dm a b =
      ∑ a ∈ Finset.range c.g.size, ∑ b ∈ Finset.range c.g.size, star (U i a) * U j b * ((coll.filter (fun p => p.2.initial = label)).map
        (fun p => (p.2.cum : ℂ) * (star (vec c.g p.2.comps a) * vec c.g p.2.comps b))).sum :=
    Finset.sum_congr rfl fun a ha => Finset.sum_congr rfl fun b hb => by rw [k a (Finset.mem_range.1 ha) b (Finset.mem_range.1 hb)]
  rw [hk]
  clear hk k k' e e' h hid hwo
  induction hf with
  | nil => simp
  | @cons p p' cs os h1 _ ih =>
    obtain ⟨d, hd, rfl⟩ := h1
    have hrec := ih (fun q hq => hw q (by simp [hq])) (fun q hq => hloss q (by simp [hq]))
    rw [List.filter_cons, List.filter_cons]
    by_cases hl : p.2.initial = label
    · rw [if_pos (by simpa using hl), if_pos (by simpa using hl), List.map_cons, List.sum_cons, hrec]
      simp only [List.map_cons, List.sum_cons, mul_add, Finset.sum_add_distrib]
      congr 1
      have hv := (optical_vec_exact hg hu (hw p (by simp)).1 (hw p (by simp)).2 hd (hloss p (by simp) d hd)).2
      rw [hv i hi, hv j hj, hU _ i hi, hU _ j hj, star_sum, Finset.sum_mul_sum, Finset.mul_sum]
      refine Finset.sum_congr rfl fun a _ => ?_
      rw [Finset.mul_sum]
      refine Finset.sum_congr rfl fun b _ => ?_
      rw [star_mul']
      ring
    · rw [if_neg (by simpa using hl), if_neg (by simpa using hl), hrec]

/-- **C132** Only the density matrix matters, for optics: two collections with the same density matrix for a label (for example two different mixtures of states) have the same density matrix after the
same unitary nodes, when these remove no amplitude. -/
theorem C132_optics (c : Circ) (hg : c.g.Ok) (n : Opt × List ℕ) (l : List (Opt × List ℕ)) (hu : ∀ m ∈ n :: l, OnChannels c.g m ∧ m.1 ∈ Matrix.unitaryGroup (Fin 2) ℂ) (A B outA outB : Coll)
    (idA : (A.map Prod.fst).Nodup) (idB : (B.map Prod.fst).Nodup) (hA : ∀ p ∈ A, WellFormed c.g p.2.comps ∧ p.2.comps ≠ []) (hB : ∀ p ∈ B, WellFormed c.g p.2.comps ∧ p.2.comps ≠ [])
    (lossA : ∀ p ∈ A, ∀ d, applyOptical c.g c.thr c.full (standardKeys c.g) n l p.2.comps = some d → totalProb d = totalProb p.2.comps)
    (lossB : ∀ p ∈ B, ∀ d, applyOptical c.g c.thr c.full (standardKeys c.g) n l p.2.comps = some d → totalProb d = totalProb p.2.comps) (label : List Char)
    (same : SameDensityMatrix c.g label A B) (oA : opticalColl c n l A = some outA) (oB : opticalColl c n l B = some outB) : SameDensityMatrix c.g label outA outB := by
  obtain ⟨U, hU⟩ := oneByOne_kernel c.g (n :: l)
  obtain ⟨-, a, a', e1, e2, e3⟩ := dm_optical c hg n l hu U hU A outA idA hA lossA oA label
  obtain ⟨-, b, b', f1, f2, f3⟩ := dm_optical c hg n l hu U hU B outB idB hB lossB oB label
  obtain ⟨x, y, h1, h2, h3⟩ := same
  obtain rfl := Option.some.inj (e1.symm.trans h1)
  obtain rfl := Option.some.inj (f1.symm.trans h2)
  refine ⟨a', b', e2, f2, fun i hi j hj => ?_⟩
  rw [e3 i hi j hj, f3 i hi j hj]
  exact Finset.sum_congr rfl fun s hs => Finset.sum_congr rfl fun t ht => by rw [h3 s (Finset.mem_range.1 hs) t (Finset.mem_range.1 ht)]

/-- **C132** ... and for measurements: the density matrix after a measurement is determined by the density matrix before. -/
theorem C132_measurement (g : Cfg) (hg : g.Ok) (thr : ℝ) (m : ℕ) (kinds kinds' : List Bool) (idx idx' : ℕ) (opt cls : List ℕ) (hlen : cls.length = opt.length) (A B outA outB : Coll)
    (idA : (A.map Prod.fst).Nodup) (idB : (B.map Prod.fst).Nodup) (hA : ∀ p ∈ A, Measurable g m p.2) (hB : ∀ p ∈ B, Measurable g m p.2) (label : List Char) (same : SameDensityMatrix g label A B)
    (mA : measureColl g thr m (measurementId kinds idx) opt cls A = some outA) (mB : measureColl g thr m (measurementId kinds' idx') opt cls B = some outB) :
    SameDensityMatrix g label outA outB := by
  obtain ⟨a, a', e1, e2, e3⟩ := C129_decoherence g hg thr m kinds idx opt cls hlen A outA idA hA mA label
  obtain ⟨b, b', f1, f2, f3⟩ := C129_decoherence g hg thr m kinds' idx' opt cls hlen B outB idB hB mB label
  obtain ⟨x, y, h1, h2, h3⟩ := same
  obtain rfl := Option.some.inj (e1.symm.trans h1)
  obtain rfl := Option.some.inj (f1.symm.trans h2)
  refine ⟨a', b', e2, f2, fun i hi j hj => ?_⟩
  have hv := g.valid_valuesFromIndex hg.1 i
  have hw := g.valid_valuesFromIndex hg.1 j
  have k1 := e3 _ _ hv hw
  have k2 := f3 _ _ hv hw
  rw [g.indexOf_valuesFromIndex hi, g.indexOf_valuesFromIndex hj] at k1 k2
  rw [k1, k2, h3 i hi j hj]

/-- probabilities of the measured values from the diagonal of the density matrix -/
theorem measured_prob (g : Cfg) (hg : g.Ok) (thr : ℝ) (m : ℕ) (kinds : List Bool) (idx : ℕ) (opt cls : List ℕ) (hlen : cls.length = opt.length) (hnd : cls.Nodup) (A out : Coll)
    (idA : (A.map Prod.fst).Nodup) (hA : ∀ p ∈ A, Measurable g m p.2) (label : List Char) (hm : measureColl g thr m (measurementId kinds idx) opt cls A = some out) (v : List ℕ) :
    ∃ dm, densityMatrix g A label = some dm ∧ ((probOf out (fun s => s.initial = label ∧ Shown (cls.map (fun n : ℕ => (n : ℤ))) s (v.map (fun n : ℕ => (n : ℝ)))) : ℝ) : ℂ) =
      ∑ i ∈ Finset.range g.size, if outcomeOf opt (g.valuesFromIndex i) = v then dm i i else 0 := by
  classical
  obtain ⟨dm, e, k⟩ := densityMatrix_eq hg.1 (fun p hp => (hA p hp).wf) label
  refine ⟨dm, e, ?_⟩
  obtain ⟨-, qss, hf, hout⟩ := C29_no_state_lost g thr m kinds idx opt cls A out idA hm
  rw [probOf_sum, hout]
  have hk : (∑ i ∈ Finset.range g.size, if outcomeOf opt (g.valuesFromIndex i) = v then dm i i else 0) =
      ∑ i ∈ Finset.range g.size, if outcomeOf opt (g.valuesFromIndex i) = v then ((A.filter (fun p => p.2.initial = label)).map
        (fun p => (p.2.cum : ℂ) * (star (vec g p.2.comps i) * vec g p.2.comps i))).sum else 0 :=
    Finset.sum_congr rfl fun i hi => by rw [k i (Finset.mem_range.1 hi) i (Finset.mem_range.1 hi)]
  rw [hk]
  suffices H : (((qss.flatten.map (fun s => if s.initial = label ∧ Shown (cls.map (fun n : ℕ => (n : ℤ))) s (v.map (fun n : ℕ => (n : ℝ))) then s.cum else 0)).sum : ℝ) : ℂ) =
      ∑ i ∈ Finset.range g.size, if outcomeOf opt (g.valuesFromIndex i) = v then ((A.filter (fun p => p.2.initial = label)).map
        (fun p => (p.2.cum : ℂ) * (star (vec g p.2.comps i) * vec g p.2.comps i))).sum else 0 by
    rw [← H]; congr!
  clear hk k e hout hm idA
  induction hf with
  | nil => simp
  | @cons p qs cs os h1 _ ih =>
    have hrec := ih (fun q hq => hA q (by simp [hq]))
    have hs := measure_shown (hA p (by simp)) hlen hnd h1 label v
    rw [List.flatten_cons, List.map_append, List.sum_append, Complex.ofReal_add, hrec, List.filter_cons]
    rw [hs]
    by_cases hl : p.2.initial = label
    · rw [if_pos hl, if_pos (by simpa using hl)]
      rw [outcomeProb_vec hg.1 (hA p (by simp)).wf]
      simp only [List.map_cons, List.sum_cons]
      have : ∀ (i : ℕ) (x y : ℂ), (if outcomeOf opt (g.valuesFromIndex i) = v then x + y else 0) = (if outcomeOf opt (g.valuesFromIndex i) = v then x else 0) + (if outcomeOf opt (g.valuesFromIndex i) = v then y else 0) := by
        intro i x y; split <;> simp
      simp only [this, Finset.sum_add_distrib]
      congr 1
      rw [Complex.ofReal_mul, Complex.ofReal_sum, Finset.mul_sum]
      refine Finset.sum_congr rfl fun i _ => ?_
      rw [norm_part_sq]
      split
      · rw [← Complex.normSq_eq_norm_sq, Complex.normSq_eq_conj_mul_self, ← Complex.star_def]
      · simp
    · rw [if_neg hl, if_neg (by simpa using hl), Complex.ofReal_zero, zero_add]

/-- **C132** Measured statistics: two collections with the same density matrix for a label give every measured value with the same probability. -/
theorem C132_statistics (g : Cfg) (hg : g.Ok) (thr : ℝ) (m : ℕ) (kinds kinds' : List Bool) (idx idx' : ℕ) (opt cls : List ℕ) (hlen : cls.length = opt.length) (hnd : cls.Nodup) (A B outA outB : Coll)
    (idA : (A.map Prod.fst).Nodup) (idB : (B.map Prod.fst).Nodup) (hA : ∀ p ∈ A, Measurable g m p.2) (hB : ∀ p ∈ B, Measurable g m p.2) (label : List Char) (same : SameDensityMatrix g label A B)
    (mA : measureColl g thr m (measurementId kinds idx) opt cls A = some outA) (mB : measureColl g thr m (measurementId kinds' idx') opt cls B = some outB) (v : List ℕ) :
    probOf outA (fun s => s.initial = label ∧ Shown (cls.map (fun n : ℕ => (n : ℤ))) s (v.map (fun n : ℕ => (n : ℝ)))) =
      probOf outB (fun s => s.initial = label ∧ Shown (cls.map (fun n : ℕ => (n : ℤ))) s (v.map (fun n : ℕ => (n : ℝ)))) := by
  obtain ⟨a, e1, e2⟩ := measured_prob g hg thr m kinds idx opt cls hlen hnd A outA idA hA label mA v
  obtain ⟨b, f1, f2⟩ := measured_prob g hg thr m kinds' idx' opt cls hlen hnd B outB idB hB label mB v
  obtain ⟨x, y, h1, h2, h3⟩ := same
  obtain rfl := Option.some.inj (e1.symm.trans h1)
  obtain rfl := Option.some.inj (f1.symm.trans h2)
  apply Complex.ofReal_injective
  rw [e2, f2]
  exact Finset.sum_congr rfl fun i hi => by rw [h3 i (Finset.mem_range.1 hi) i (Finset.mem_range.1 hi)]

/-- **C132** The same for a whole circuit of unitary optical nodes followed by a measurement. -/
theorem C132_circuit (env : ℕ → Circ) (rnd : ℕ → ℕ → Bool → ℕ → ℕ → ℕ) (j : ℕ) (c : Circ) (hc : env j = c) (hg : c.g.Ok) (n : Opt × List ℕ) (l : List (Opt × List ℕ))
    (hu : ∀ m ∈ n :: l, OnChannels c.g m ∧ m.1 ∈ Matrix.unitaryGroup (Fin 2) ℂ) (opt cls : List ℕ) (hk : c.nodes = opticals (n :: l) ++ [.measurement opt cls]) (hlen : cls.length = opt.length) (hnd : cls.Nodup)
    (A B outA outB : Coll) (idA : (A.map Prod.fst).Nodup) (idB : (B.map Prod.fst).Nodup) (hA : ∀ p ∈ A, Measurable c.g c.m p.2 ∧ p.2.comps ≠ []) (hB : ∀ p ∈ B, Measurable c.g c.m p.2 ∧ p.2.comps ≠ [])
    (lossA : ∀ p ∈ A, ∀ d, applyOptical c.g c.thr c.full (standardKeys c.g) n l p.2.comps = some d → totalProb d = totalProb p.2.comps)
    (lossB : ∀ p ∈ B, ∀ d, applyOptical c.g c.thr c.full (standardKeys c.g) n l p.2.comps = some d → totalProb d = totalProb p.2.comps) (label : List Char)
    (same : SameDensityMatrix c.g label A B) (fuel : ℕ) (hf : l.length + 2 < fuel) (eA : evalAll env rnd fuel j A = some outA) (eB : evalAll env rnd fuel j B = some outB) :
    SameDensityMatrix c.g label outA outB ∧ ∀ v : List ℕ,
      probOf outA (fun s => s.initial = label ∧ Shown (cls.map (fun n : ℕ => (n : ℤ))) s (v.map (fun n : ℕ => (n : ℝ)))) =
        probOf outB (fun s => s.initial = label ∧ Shown (cls.map (fun n : ℕ => (n : ℤ))) s (v.map (fun n : ℕ => (n : ℝ)))) := by
  subst hc
  rw [eval_optics_then_measure env rnd j n l opt cls hk fuel hf] at eA eB
  obtain ⟨mA, oA, tA⟩ := Option.bind_eq_some_iff.1 eA
  obtain ⟨mB, oB, tB⟩ := Option.bind_eq_some_iff.1 eB
  have hs := C132_optics (env j) hg n l hu A B mA mB idA idB (fun p hp => ⟨(hA p hp).1.wf, (hA p hp).2⟩) (fun p hp => ⟨(hB p hp).1.wf, (hB p hp).2⟩) lossA lossB label same oA oB
  have hmid : ∀ (X mX : Coll), (X.map Prod.fst).Nodup → (∀ p ∈ X, Measurable (env j).g (env j).m p.2 ∧ p.2.comps ≠ []) →
      (∀ p ∈ X, ∀ d, applyOptical (env j).g (env j).thr (env j).full (standardKeys (env j).g) n l p.2.comps = some d → totalProb d = totalProb p.2.comps) →
      opticalColl (env j) n l X = some mX → (mX.map Prod.fst).Nodup ∧ ∀ p ∈ mX, Measurable (env j).g (env j).m p.2 := by
    intro X mX idX hX lossX oX
    obtain ⟨-, hfX⟩ := (opticalColl_iff (env j) n l X idX mX).1 oX
    constructor
    · have : mX.map Prod.fst = X.map Prod.fst := by
        clear oX lossX hX idX
        induction hfX with
        | nil => rfl
        | @cons a b cs gd h1 _ ih =>
          obtain ⟨d, -, rfl⟩ := h1
          rw [List.map_cons, List.map_cons, ih]
      rw [this]; exact idX
    · intro p hp
      obtain ⟨q, hq, d, hd, rfl⟩ := forall₂_mem_right_exists hfX hp
      have hm := (hX q hq).1
      have hl := lossX q hq d hd
      have hd' : applyOptical (env j).g (env j).thr (env j).full (standardKeys (env j).g) n l q.2.comps = some d := hd
      rw [applyOptical_eq hg _ _ n l (hu n (by simp)).1 (fun m hm => (hu m (by simp [hm])).1) hm.wf (hX q hq).2] at hd'
      obtain ⟨d', e1, hw, hpa, -⟩ := fromVector_spec hg.1 (env j).thr (oneByOne (env j).g (n :: l) (vec (env j).g q.2.comps))
      obtain rfl := Option.some.inj (e1.symm.trans hd')
      exact ⟨hw, hpa, by show totalProb d' ≤ 1; rw [hl]; exact hm.total, hm.cum0, hm.cum1, hm.classical⟩
  obtain ⟨iA, kA⟩ := hmid A mA idA hA lossA oA
  obtain ⟨iB, kB⟩ := hmid B mB idB hB lossB oB
  exact ⟨C132_measurement (env j).g hg (env j).thr (env j).m _ _ _ _ opt cls hlen mA mB outA outB iA iB kA kB label hs tA tB,
    C132_statistics (env j).g hg (env j).thr (env j).m _ _ _ _ opt cls hlen hnd mA mB outA outB iA iB kA kB label hs tA tB⟩

/-! ### The hypotheses are met -/

section NonVacuity

private def sg : Cfg := ⟨2, 2, true⟩
private noncomputable def sPlus : VComps := [([0, 1], ⟨3 / 5, 9 / 25⟩), ([1, 0], ⟨4 / 5, 16 / 25⟩)]
private noncomputable def sMinus : VComps := [([0, 1], ⟨3 / 5, 9 / 25⟩), ([1, 0], ⟨-4 / 5, 16 / 25⟩)]
private noncomputable def s01 : VComps := [([0, 1], ⟨1, 1⟩)]
private noncomputable def s10 : VComps := [([1, 0], ⟨1, 1⟩)]

/-- an even mixture of two superpositions, and a mixture of the two components -/
private noncomputable def mixA : Coll := [("a".toList, ⟨"psi".toList, 1 / 2, enc sg sPlus, [0, 0], []⟩), ("b".toList, ⟨"psi".toList, 1 / 2, enc sg sMinus, [0, 0], []⟩)]
private noncomputable def mixB : Coll := [("a".toList, ⟨"psi".toList, 9 / 25, enc sg s01, [0, 0], []⟩), ("b".toList, ⟨"psi".toList, 16 / 25, enc sg s10, [0, 0], []⟩)]

private theorem sPlus_ok : VOk sg sPlus := by
  refine ⟨by simp [sPlus], ?_⟩
  intro p hp
  simp only [sPlus, List.mem_cons, List.not_mem_nil, or_false] at hp
  rcases hp with rfl | rfl <;> exact ⟨rfl, by decide⟩

private theorem sMinus_ok : VOk sg sMinus := by
  refine ⟨by simp [sMinus], ?_⟩
  intro p hp
  simp only [sMinus, List.mem_cons, List.not_mem_nil, or_false] at hp
  rcases hp with rfl | rfl <;> exact ⟨rfl, by decide⟩

private theorem s01_ok : VOk sg s01 := ⟨by simp [s01], by intro p hp; obtain rfl : p = _ := (by simpa [s01] using hp); exact ⟨rfl, by decide⟩⟩
private theorem s10_ok : VOk sg s10 := ⟨by simp [s10], by intro p hp; obtain rfl : p = _ := (by simpa [s10] using hp); exact ⟨rfl, by decide⟩⟩

private theorem mixA_mem : ∀ p ∈ mixA, WellFormed sg p.2.comps := by
  intro p hp
  simp only [mixA, List.mem_cons, List.not_mem_nil, or_false] at hp
  rcases hp with rfl | rfl
  exacts [wf_enc sPlus_ok, wf_enc sMinus_ok]

private theorem mixB_mem : ∀ p ∈ mixB, WellFormed sg p.2.comps := by
  intro p hp
  simp only [mixB, List.mem_cons, List.not_mem_nil, or_false] at hp
  rcases hp with rfl | rfl
  exacts [wf_enc s01_ok, wf_enc s10_ok]

/-- Two different collections with the same density matrix. -/
theorem mixtures_same : SameDensityMatrix sg "psi".toList mixA mixB ∧ mixA.map (fun p => p.2.comps) ≠ mixB.map (fun p => p.2.comps) := by
  constructor
  · obtain ⟨a, e1, e2⟩ := densityMatrix_eq (g := sg) (by decide) mixA_mem "psi".toList
    obtain ⟨b, f1, f2⟩ := densityMatrix_eq (g := sg) (by decide) mixB_mem "psi".toList
    refine ⟨a, b, e1, f1, fun i hi j hj => ?_⟩
    rw [e2 i hi j hj, f2 i hi j hj]
    have fA : mixA.filter (fun p => p.2.initial = "psi".toList) = mixA := rfl
    have fB : mixB.filter (fun p => p.2.initial = "psi".toList) = mixB := rfl
    rw [fA, fB, mixA, mixB]
    simp only [List.map_cons, List.map_nil, List.sum_cons, List.sum_nil]
    have hi' : i < 4 := hi
    have hj' : j < 4 := hj
    have p0 : vec sg (enc sg sPlus) 0 = 0 := rfl
    have p1 : vec sg (enc sg sPlus) 1 = 4 / 5 := rfl
    have p2 : vec sg (enc sg sPlus) 2 = 3 / 5 := rfl
    have p3 : vec sg (enc sg sPlus) 3 = 0 := rfl
    have m0 : vec sg (enc sg sMinus) 0 = 0 := rfl
    have m1 : vec sg (enc sg sMinus) 1 = -4 / 5 := rfl
    have m2 : vec sg (enc sg sMinus) 2 = 3 / 5 := rfl
    have m3 : vec sg (enc sg sMinus) 3 = 0 := rfl
    have a0 : vec sg (enc sg s01) 0 = 0 := rfl
    have a1 : vec sg (enc sg s01) 1 = 0 := rfl
    have a2 : vec sg (enc sg s01) 2 = 1 := rfl
    have a3 : vec sg (enc sg s01) 3 = 0 := rfl
    have b0 : vec sg (enc sg s10) 0 = 0 := rfl
    have b1 : vec sg (enc sg s10) 1 = 1 := rfl
    have b2 : vec sg (enc sg s10) 2 = 0 := rfl
    have b3 : vec sg (enc sg s10) 3 = 0 := rfl
    interval_cases i <;> interval_cases j <;> simp only [p0, p1, p2, p3, m0, m1, m2, m3, a0, a1, a2, a3, b0, b1, b2, b3] <;> norm_num
  · intro h
    have := congrArg (fun l : List Comps => (l.map List.length)) h
    simp [mixA, mixB, enc, sPlus, sMinus, s01, s10] at this

/-- without a threshold nothing is removed -/
theorem nothing_removed {g : Cfg} (hg : g.Ok) {thr : ℝ} (ht : thr ≤ 0) {full : Bool} {n : Opt × List ℕ} {l : List (Opt × List ℕ)} (hu : ∀ m ∈ n :: l, OnChannels g m ∧ m.1 ∈ Matrix.unitaryGroup (Fin 2) ℂ)
    {c d : Comps} (h : WellFormed g c) (hne : c ≠ []) (hc : applyOptical g thr full (standardKeys g) n l c = some d) : totalProb d = totalProb c := by
  obtain ⟨hw, hv⟩ := optical_vec hg (hu n (by simp)).1 (fun m hm => (hu m (by simp [hm])).1) h hne hc
  rw [totalProb_eq hg.1 hw, totalProb_eq hg.1 h, ← oneByOne_norm hg (n :: l) (vec g c) hu]
  refine Finset.sum_congr rfl fun i hi => ?_
  rw [hv i (Finset.mem_range.1 hi), if_neg]
  intro hlt
  have := sq_nonneg ‖oneByOne g (n :: l) (vec g c) i‖
  linarith

private theorem sg_ok : sg.Ok := by decide
private theorem sg_on (M : Opt) : OnChannels sg (M, [0, 1]) := ⟨0, 1, by decide, by decide, by decide, (show tensorList 2 [0, 1] = some [0, 1] by decide)⟩

/-- C131: any unitary node, `3/5 |0,1⟩ + 4/5 |1,0⟩` as superposition, without threshold. The states |0,1⟩ and |1,0⟩ stay orthogonal. -/
example (M : Opt) (hM : M ∈ Matrix.unitaryGroup (Fin 2) ℂ) : ∃ d₁ d₂ d₃, applyOptical sg 0 true (standardKeys sg) (M, [0, 1]) [] (enc sg s01) = some d₁ ∧
    applyOptical sg 0 true (standardKeys sg) (M, [0, 1]) [] (enc sg s10) = some d₂ ∧ applyOptical sg 0 true (standardKeys sg) (M, [0, 1]) [] (enc sg sPlus) = some d₃ ∧
    (∀ v s, Valid sg v → IsName sg v s → ampOf d₃ s = 3 / 5 * ampOf d₁ s + 4 / 5 * ampOf d₂ s) ∧ inner d₁ d₂ = 0 := by
  have hu : ∀ m ∈ [((M, [0, 1]) : Opt × List ℕ)], OnChannels sg m ∧ m.1 ∈ Matrix.unitaryGroup (Fin 2) ℂ := by
    intro m hm
    rw [List.mem_singleton.1 hm]
    exact ⟨sg_on M, hM⟩
  have ex : ∀ c : VComps, VOk sg c → c ≠ [] → ∃ d, applyOptical sg 0 true (standardKeys sg) (M, [0, 1]) [] (enc sg c) = some d := by
    intro c hc hne
    rw [applyOptical_eq sg_ok 0 true _ [] (sg_on M) (by simp) (wf_enc hc) (by simpa [enc] using hne)]
    obtain ⟨d, hd, -⟩ := fromVector_spec sg_ok.1 0 (oneByOne sg [(M, [0, 1])] (vec sg (enc sg c)))
    exact ⟨d, hd⟩
  obtain ⟨d₁, h₁⟩ := ex s01 s01_ok (by simp [s01])
  obtain ⟨d₂, h₂⟩ := ex s10 s10_ok (by simp [s10])
  obtain ⟨d₃, h₃⟩ := ex sPlus sPlus_ok (by simp [sPlus])
  have n₁ : enc sg s01 ≠ [] := by simp [enc, s01]
  have n₂ : enc sg s10 ≠ [] := by simp [enc, s10]
  have n₃ : enc sg sPlus ≠ [] := by simp [enc, sPlus]
  have p₁ := nothing_removed sg_ok le_rfl hu (wf_enc s01_ok) n₁ h₁
  have p₂ := nothing_removed sg_ok le_rfl hu (wf_enc s10_ok) n₂ h₂
  have p₃ := nothing_removed sg_ok le_rfl hu (wf_enc sPlus_ok) n₃ h₃
  refine ⟨d₁, d₂, d₃, h₁, h₂, h₃, ?_, ?_⟩
  · refine C131_superposition_exact sg sg_ok 0 true _ [] hu (3 / 5) (4 / 5) _ _ _ d₁ d₂ d₃ (wf_enc s01_ok) (wf_enc s10_ok) (wf_enc sPlus_ok) n₁ n₂ n₃ ?_ h₁ h₂ h₃ p₁ p₂ p₃
    intro v s hv hs
    have hi : sg.indexOf v < 4 := sg.indexOf_lt hv
    rw [(isName_iff hv).1 hs, ← vec_index hv, ← vec_index hv, ← vec_index hv]
    have p0 : vec sg (enc sg sPlus) 0 = 0 := rfl
    have p1 : vec sg (enc sg sPlus) 1 = 4 / 5 := rfl
    have p2 : vec sg (enc sg sPlus) 2 = 3 / 5 := rfl
    have p3 : vec sg (enc sg sPlus) 3 = 0 := rfl
    have a0 : vec sg (enc sg s01) 0 = 0 := rfl
    have a1 : vec sg (enc sg s01) 1 = 0 := rfl
    have a2 : vec sg (enc sg s01) 2 = 1 := rfl
    have a3 : vec sg (enc sg s01) 3 = 0 := rfl
    have b0 : vec sg (enc sg s10) 0 = 0 := rfl
    have b1 : vec sg (enc sg s10) 1 = 1 := rfl
    have b2 : vec sg (enc sg s10) 2 = 0 := rfl
    have b3 : vec sg (enc sg s10) 3 = 0 := rfl
    generalize sg.indexOf v = i at hi
    interval_cases i <;> simp only [p0, p1, p2, p3, a0, a1, a2, a3, b0, b1, b2, b3] <;> norm_num
  · rw [C131_inner_product sg sg_ok 0 true _ [] hu _ _ d₁ d₂ (wf_enc s01_ok) (wf_enc s10_ok) n₁ n₂ h₁ h₂ p₁ p₂]
    rfl

private theorem mixA_sendable : ∀ p ∈ mixA, Sendable sg 2 p.2 := by
  have few : ∀ c : VComps, VOk sg c → (∀ p ∈ c, p.1.sum < 2) → ∀ p ∈ enc sg c, ∀ v, IsName sg v p.1 → Valid sg v → v.sum < sg.L := by
    intro c hc h p hp v hn hv
    obtain ⟨r, hr, rfl⟩ := List.mem_map.1 hp
    have : v = r.1 := sg.stdName_inj hv.2 (hc.2 r hr).2 ((isName_iff hv).1 hn).symm
    rw [this]; exact h r hr
  intro p hp
  have hw := mixA_mem p hp
  simp only [mixA, List.mem_cons, List.not_mem_nil, or_false] at hp
  have d35 : ‖(3 / 5 : ℂ)‖ ^ 2 = 9 / 25 := by rw [norm_div]; norm_num
  have d45 : ‖(4 / 5 : ℂ)‖ ^ 2 = 16 / 25 := by rw [norm_div]; norm_num
  have d45' : ‖(-4 / 5 : ℂ)‖ ^ 2 = 16 / 25 := by rw [neg_div, norm_neg, d45]
  rcases hp with rfl | rfl
  · refine ⟨⟨hw, ?_, ?_, by norm_num, by norm_num, rfl⟩, by simp [enc, sPlus], few _ sPlus_ok (by simp [sPlus])⟩
    · intro p hp
      obtain ⟨r, hr, rfl⟩ := List.mem_map.1 hp
      simp only [sPlus, List.mem_cons, List.not_mem_nil, or_false] at hr
      rcases hr with rfl | rfl
      exacts [d35.symm, d45.symm]
    · rw [totalProb_enc, sPlus]
      simp only [List.map_cons, List.map_nil, List.sum_cons, List.sum_nil, d35, d45]
      norm_num
  · refine ⟨⟨hw, ?_, ?_, by norm_num, by norm_num, rfl⟩, by simp [enc, sMinus], few _ sMinus_ok (by simp [sMinus])⟩
    · intro p hp
      obtain ⟨r, hr, rfl⟩ := List.mem_map.1 hp
      simp only [sMinus, List.mem_cons, List.not_mem_nil, or_false] at hr
      rcases hr with rfl | rfl
      exacts [d35.symm, d45'.symm]
    · rw [totalProb_enc, sMinus]
      simp only [List.map_cons, List.map_nil, List.sum_cons, List.sum_nil, d35, d45']
      norm_num

private theorem mixB_sendable : ∀ p ∈ mixB, Sendable sg 2 p.2 := by
  have few : ∀ c : VComps, VOk sg c → (∀ p ∈ c, p.1.sum < 2) → ∀ p ∈ enc sg c, ∀ v, IsName sg v p.1 → Valid sg v → v.sum < sg.L := by
    intro c hc h p hp v hn hv
    obtain ⟨r, hr, rfl⟩ := List.mem_map.1 hp
    have : v = r.1 := sg.stdName_inj hv.2 (hc.2 r hr).2 ((isName_iff hv).1 hn).symm
    rw [this]; exact h r hr
  intro p hp
  have hw := mixB_mem p hp
  simp only [mixB, List.mem_cons, List.not_mem_nil, or_false] at hp
  rcases hp with rfl | rfl
  · refine ⟨⟨hw, ?_, ?_, by norm_num, by norm_num, rfl⟩, by simp [enc, s01], few _ s01_ok (by simp [s01])⟩
    · intro p hp
      obtain ⟨r, hr, rfl⟩ := List.mem_map.1 hp
      simp only [s01, List.mem_cons, List.not_mem_nil, or_false] at hr
      subst hr
      simp
    · rw [totalProb_enc, s01]; simp
  · refine ⟨⟨hw, ?_, ?_, by norm_num, by norm_num, rfl⟩, by simp [enc, s10], few _ s10_ok (by simp [s10])⟩
    · intro p hp
      obtain ⟨r, hr, rfl⟩ := List.mem_map.1 hp
      simp only [s10, List.mem_cons, List.not_mem_nil, or_false] at hr
      subst hr
      simp
    · rw [totalProb_enc, s10]; simp

/-- C132: the two mixtures in a circuit of any unitary node and a measurement, with a small threshold. -/
example (M : Opt) (hM : M ∈ Matrix.unitaryGroup (Fin 2) ℂ) : ∃ thr > 0, ∃ outA outB,
    evalAll (fun _ => ⟨sg, 2, thr, true, opticals [(M, [0, 1])] ++ [.measurement [0, 1] [0, 1]]⟩) (fun _ _ _ _ _ => 0) 3 0 mixA = some outA ∧
    evalAll (fun _ => ⟨sg, 2, thr, true, opticals [(M, [0, 1])] ++ [.measurement [0, 1] [0, 1]]⟩) (fun _ _ _ _ _ => 0) 3 0 mixB = some outB ∧
    SameDensityMatrix sg "psi".toList outA outB := by
  have hu : ∀ m ∈ [((M, [0, 1]) : Opt × List ℕ)], OnChannels sg m ∧ m.1 ∈ Matrix.unitaryGroup (Fin 2) ℂ := by
    intro m hm
    rw [List.mem_singleton.1 hm]
    exact ⟨sg_on M, hM⟩
  obtain ⟨t, ht, h⟩ := C113_small_thresholds sg sg_ok true (M, [0, 1]) [] hu (mixA ++ mixB) (by
    intro p hp
    rcases List.mem_append.1 hp with hp | hp
    · exact ⟨(mixA_sendable p hp).measurable.wf, (mixA_sendable p hp).nonempty⟩
    · exact ⟨(mixB_sendable p hp).measurable.wf, (mixB_sendable p hp).nonempty⟩)
  have hel : LosslessElements sg [⟨M, 0, 1⟩] [(M, [0, 1])] :=
    ⟨.cons ⟨(by decide : 0 < sg.C), (by decide : 1 < sg.C), (by decide : 0 ≠ 1), (by decide : ¬ (2 ≤ 0 ∧ 1 = 0)), rfl, (show tensorList 2 [0, 1] = some [0, 1] by decide)⟩ .nil, by simpa using hM⟩
  set c : Circ := ⟨sg, 2, t, true, opticals [(M, [0, 1])] ++ [.measurement [0, 1] [0, 1]]⟩ with hc
  obtain ⟨outA, eA, -⟩ := born_main (fun _ => c) (fun _ _ _ _ _ => 0) 0 c rfl sg_ok ht [⟨M, 0, 1⟩] (M, [0, 1]) [] hel [0, 1] [0, 1] rfl rfl (by decide) (by decide : ∀ x ∈ [0, 1], x < 2) mixA (by decide) mixA_sendable 3 (by decide)
  obtain ⟨outB, eB, -⟩ := born_main (fun _ => c) (fun _ _ _ _ _ => 0) 0 c rfl sg_ok ht [⟨M, 0, 1⟩] (M, [0, 1]) [] hel [0, 1] [0, 1] rfl rfl (by decide) (by decide : ∀ x ∈ [0, 1], x < 2) mixB (by decide) mixB_sendable 3 (by decide)
  refine ⟨t, ht, outA, outB, eA, eB, ?_⟩
  exact (C132_circuit (fun _ => c) (fun _ _ _ _ _ => 0) 0 c rfl sg_ok (M, [0, 1]) [] hu [0, 1] [0, 1] rfl rfl (by decide) mixA mixB outA outB (by decide) (by decide)
    (fun p hp => ⟨(mixA_sendable p hp).measurable, (mixA_sendable p hp).nonempty⟩) (fun p hp => ⟨(mixB_sendable p hp).measurable, (mixB_sendable p hp).nonempty⟩)
    (fun p hp => h t le_rfl p (List.mem_append_left _ hp)) (fun p hp => h t le_rfl p (List.mem_append_right _ hp)) "psi".toList mixtures_same.1 3 (by decide) eA eB).1

end NonVacuity

end Verif.Props
