/-
Property C122: the parameters of consecutive elements add.
-/
import Verif.Props.Overall

namespace Verif.Props
open Verif Spec

/-- what is assumed about the two circuits and the input: the same sizes and threshold, and states with components (at least one) that belong to the circuit -/
structure Comparable (a b : Circ) (coll : Coll) : Prop where
  same : a.g = b.g ∧ a.m = b.m ∧ a.thr = b.thr
  ok : a.g.Ok
  ids : (coll.map Prod.fst).Nodup
  inputs : ∀ p ∈ coll, WellFormed a.g p.2.comps ∧ p.2.comps ≠ []

theorem oneByOne_append (g : Cfg) (l l' : List (Opt × List ℕ)) (x : ℕ → ℂ) : oneByOne g (l ++ l') x = oneByOne g l' (oneByOne g l x) := List.foldl_append

theorem oneByOne_two {g : Cfg} (hg : g.Ok) {tl : List ℕ} (ht : tl.Perm (List.range g.C)) (M N : Opt) (x : ℕ → ℂ) :
    ∀ i < g.size, oneByOne g [(M, tl), (N, tl)] x i = oneByOne g [(M * N, tl)] x i := by
  intro i hi
  show (fockNode g (standardKeys g) N tl .all).1.mulVec ((fockNode g (standardKeys g) M tl .all).1.mulVec x) i = (fockNode g (standardKeys g) (M * N) tl .all).1.mulVec x i
  rw [← mul_mulVec (by rw [fockNode_all_size, fockNode_all_size])]
  have e := nodeMat_mul hg N M ht
  simp only [SqArr.mulVec, SqArr.mul, fockNode_all_size]
  refine Finset.sum_congr rfl fun k hk => ?_
  have := congrFun (congrFun e ⟨i, hi⟩) ⟨k, Finset.mem_range.1 hk⟩
  rw [Matrix.mul_apply] at this
  rw [← Fin.sum_univ_eq_sum_range (fun r => (fockNode g (standardKeys g) N tl .all).1.at_ i r * (fockNode g (standardKeys g) M tl .all).1.at_ r k)]
  exact congrArg (· * x k) this

theorem oneByOne_id {g : Cfg} (hg : g.Ok) {tl : List ℕ} (ht : tl.Perm (List.range g.C)) (x : ℕ → ℂ) : ∀ i < g.size, oneByOne g [(1, tl)] x i = x i := by
  intro i hi
  show (fockNode g (standardKeys g) 1 tl .all).1.mulVec x i = x i
  have e := nodeMat_one hg ht
  simp only [SqArr.mulVec, fockNode_all_size]
  rw [Finset.sum_eq_single i]
  · have := congrFun (congrFun e ⟨i, hi⟩) ⟨i, hi⟩
    rw [Matrix.one_apply_eq] at this
    rw [show (fockNode g (standardKeys g) 1 tl .all).1.at_ i i = 1 from this, one_mul]
  · intro k hk hne
    have := congrFun (congrFun e ⟨i, hi⟩) ⟨k, Finset.mem_range.1 hk⟩
    rw [Matrix.one_apply_ne (fun h => hne (Fin.mk.inj h).symm)] at this
    rw [show (fockNode g (standardKeys g) 1 tl .all).1.at_ i k = 0 from this, zero_mul]
  · intro h; exact absurd (Finset.mem_range.2 hi) h

/-- two runs of optical nodes that act equally on all vectors give the same results -/
theorem runs_same {a b : Circ} {coll : Coll} (hab : Comparable a b coll) (n n' : Opt × List ℕ) (l l' : List (Opt × List ℕ)) (hon : ∀ m ∈ n :: l, OnChannels a.g m) (hon' : ∀ m ∈ n' :: l', OnChannels a.g m)
    (hs : ∀ (x : ℕ → ℂ), ∀ i < a.g.size, oneByOne a.g (n :: l) x i = oneByOne a.g (n' :: l') x i) (ha : a.nodes = opticals (n :: l)) (hb : b.nodes = opticals (n' :: l'))
    (rnd rnd' : ℕ → ℕ → Bool → ℕ → ℕ → ℕ) (fuel fuel' : ℕ) (hf : 2 ≤ fuel) (hf' : 2 ≤ fuel') :
    evalAll (fun _ => a) rnd fuel 0 coll = evalAll (fun _ => b) rnd' fuel' 0 coll := by
  rw [eval_optics (fun _ => a) rnd 0 n l ha fuel hf, eval_optics (fun _ => b) rnd' 0 n' l' hb fuel' hf']
  obtain ⟨e1, e2, e3⟩ := hab.same
  apply Option.ext
  intro out
  have k1 := opticalColl_iff a n l coll hab.ids out
  have k2 := opticalColl_iff b n' l' coll hab.ids out
  show opticalColl a n l coll = some out ↔ opticalColl b n' l' coll = some out
  rw [k1, k2, ← e1, ← e2, ← e3]
  refine and_congr Iff.rfl ?_
  refine forall₂_mem_congr ?_
  intro p p' hp
  obtain ⟨hw, hne⟩ := hab.inputs p hp
  have : applyOptical a.g a.thr a.full (standardKeys a.g) n l p.2.comps = applyOptical a.g a.thr b.full (standardKeys a.g) n' l' p.2.comps := by
    rw [applyOptical_eq hab.ok a.thr a.full n l (hon n (by simp)) (fun m hm => hon m (by simp [hm])) hw hne,
      applyOptical_eq hab.ok a.thr b.full n' l' (hon' n' (by simp)) (fun m hm => hon' m (by simp [hm])) hw hne]
    apply fromVector_congr
    exact fun i hi => hs _ i hi
  constructor
  · rintro ⟨d, hd, rfl⟩
    exact ⟨d, this ▸ hd, rfl⟩
  · rintro ⟨d, hd, rfl⟩
    exact ⟨d, this.symm ▸ hd, rfl⟩

/-- **C122** Anywhere in a circuit of optical elements, two consecutive elements on the same channels can be replaced by the element with the product of the matrices: exactly the same results for every
collection of states, any number of photons (also at the cutoff) and all pairs of channels. -/
theorem C122_product {a b : Circ} {coll : Coll} (hab : Comparable a b coll) (M N : Opt) (tl : List ℕ) (h c : ℕ) (hh : h < a.g.C) (hc : c < a.g.C) (hne : h ≠ c) (ht : tensorList a.g.C [h, c] = some tl)
    (before after : List (Opt × List ℕ)) (hbe : ∀ m ∈ before ++ after, OnChannels a.g m)
    (ha : a.nodes = opticals (before ++ [(M, tl), (N, tl)] ++ after)) (hb : b.nodes = opticals (before ++ [(M * N, tl)] ++ after))
    (rnd rnd' : ℕ → ℕ → Bool → ℕ → ℕ → ℕ) (fuel fuel' : ℕ) (hf : 2 ≤ fuel) (hf' : 2 ≤ fuel') :
    evalAll (fun _ => a) rnd fuel 0 coll = evalAll (fun _ => b) rnd' fuel' 0 coll := by
  have on : ∀ K : Opt, OnChannels a.g (K, tl) := fun K => ⟨h, c, hh, hc, hne, ht⟩
  have key : ∀ (x : ℕ → ℂ), ∀ i < a.g.size, oneByOne a.g (before ++ [(M, tl), (N, tl)] ++ after) x i = oneByOne a.g (before ++ [(M * N, tl)] ++ after) x i := by
    intro x i hi
    simp only [oneByOne_append]
    exact oneByOne_congr after (oneByOne_two hab.ok (on 1).perm M N _) i hi
  have o1 : ∀ m ∈ before ++ [(M, tl), (N, tl)] ++ after, OnChannels a.g m := by
    intro m hm
    simp only [List.mem_append, List.mem_cons, List.not_mem_nil, or_false] at hm hbe
    rcases hm with (hm | rfl | rfl) | hm
    exacts [hbe m (Or.inl hm), on M, on N, hbe m (Or.inr hm)]
  have o2 : ∀ m ∈ before ++ [(M * N, tl)] ++ after, OnChannels a.g m := by
    intro m hm
    simp only [List.mem_append, List.mem_cons, List.not_mem_nil, or_false] at hm hbe
    rcases hm with (hm | rfl) | hm
    exacts [hbe m (Or.inl hm), on (M * N), hbe m (Or.inr hm)]
  obtain ⟨n, l, e⟩ : ∃ n l, before ++ [(M, tl), (N, tl)] ++ after = n :: l := by
    cases before with
    | nil => exact ⟨_, _, rfl⟩
    | cons x xs => exact ⟨_, _, rfl⟩
  obtain ⟨n', l', e'⟩ : ∃ n l, before ++ [(M * N, tl)] ++ after = n :: l := by
    cases before with
    | nil => exact ⟨_, _, rfl⟩
    | cons x xs => exact ⟨_, _, rfl⟩
  rw [e] at ha key o1
  rw [e'] at hb key o2
  exact runs_same hab n n' l l' o1 o2 key ha hb rnd rnd' fuel fuel' hf hf'

/-- **C122** Two wave plates at the same angle anywhere in the circuit act like one with the sum of the retardations. -/
theorem C122_wave_plates {a b : Circ} {coll : Coll} (hab : Comparable a b coll) {h v : ℕ} (hh : h < a.g.C) (hv : v < a.g.C) (hne : h ≠ v) (θ φ ψ : ℝ)
    {n₁ n₂ n : Opt × List ℕ} (h₁ : wavePlate a.g h v θ φ = some n₁) (h₂ : wavePlate a.g h v θ ψ = some n₂) (hn : wavePlate a.g h v θ (φ + ψ) = some n)
    (before after : List (Opt × List ℕ)) (hbe : ∀ m ∈ before ++ after, OnChannels a.g m)
    (ha : a.nodes = opticals (before ++ [n₁, n₂] ++ after)) (hb : b.nodes = opticals (before ++ [n] ++ after)) (rnd rnd' : ℕ → ℕ → Bool → ℕ → ℕ → ℕ) (fuel fuel' : ℕ) (hf : 2 ≤ fuel) (hf' : 2 ≤ fuel') :
    evalAll (fun _ => a) rnd fuel 0 coll = evalAll (fun _ => b) rnd' fuel' 0 coll := by
  unfold wavePlate genericRotation at h₁ h₂ hn
  obtain ⟨tl, e, rfl⟩ := Option.map_eq_some_iff.1 h₁
  rw [e] at h₂ hn
  obtain rfl := Option.some.inj h₂
  obtain rfl := Option.some.inj hn
  rw [← (C17_wave_plate θ φ ψ).2.2.2.2] at hb
  exact C122_product hab _ _ tl h v hh hv hne e before after hbe ha hb rnd rnd' fuel fuel' hf hf'

/-- **C122** Two quarter wave plates at the same angle act like a half wave plate. -/
theorem C122_quarter {a b : Circ} {coll : Coll} (hab : Comparable a b coll) {h v : ℕ} (hh : h < a.g.C) (hv : v < a.g.C) (hne : h ≠ v) (θ : ℝ)
    {n₁ n : Opt × List ℕ} (h₁ : quarterWavePlate a.g h v θ = some n₁) (hn : halfWavePlate a.g h v θ = some n) (before after : List (Opt × List ℕ)) (hbe : ∀ m ∈ before ++ after, OnChannels a.g m)
    (ha : a.nodes = opticals (before ++ [n₁, n₁] ++ after)) (hb : b.nodes = opticals (before ++ [n] ++ after)) (rnd rnd' : ℕ → ℕ → Bool → ℕ → ℕ → ℕ) (fuel fuel' : ℕ) (hf : 2 ≤ fuel) (hf' : 2 ≤ fuel') :
    evalAll (fun _ => a) rnd fuel 0 coll = evalAll (fun _ => b) rnd' fuel' 0 coll :=
  C122_wave_plates hab hh hv hne θ (Real.pi / 2) (Real.pi / 2) h₁ h₁ (by rw [add_halves]; exact hn) before after hbe ha hb rnd rnd' fuel fuel' hf hf'

/-- **C122** A quarter wave plate is the wave plate with retardation π/2, a half wave plate the one with π; a wave plate with retardation 2π more is the same element. -/
theorem C122_retardation (g : Cfg) (h v : ℕ) (θ φ : ℝ) :
    quarterWavePlate g h v θ = wavePlate g h v θ (Real.pi / 2) ∧ halfWavePlate g h v θ = wavePlate g h v θ Real.pi ∧ wavePlate g h v θ (φ + 2 * Real.pi) = wavePlate g h v θ φ := by
  refine ⟨rfl, rfl, ?_⟩
  simp only [wavePlate, genericRotation, genericMatrix, Real.cos_add_two_pi, Real.sin_add_two_pi]

/-- **C122** Two phase shifts of the same channel anywhere in the circuit act like one with the sum of the phases. -/
theorem C122_phases_add {a b : Circ} {coll : Coll} (hab : Comparable a b coll) {x : ℕ} (hx : x < a.g.C) (φ ψ : ℝ)
    {n₁ n₂ n : Opt × List ℕ} (h₁ : phaseShift a.g x φ = some n₁) (h₂ : phaseShift a.g x ψ = some n₂) (hn : phaseShift a.g x (φ + ψ) = some n)
    (before after : List (Opt × List ℕ)) (hbe : ∀ m ∈ before ++ after, OnChannels a.g m)
    (ha : a.nodes = opticals (before ++ [n₁, n₂] ++ after)) (hb : b.nodes = opticals (before ++ [n] ++ after)) (rnd rnd' : ℕ → ℕ → Bool → ℕ → ℕ → ℕ) (fuel fuel' : ℕ) (hf : 2 ≤ fuel) (hf' : 2 ≤ fuel') :
    evalAll (fun _ => a) rnd fuel 0 coll = evalAll (fun _ => b) rnd' fuel' 0 coll := by
  have hC := hab.ok.2
  unfold phaseShift at h₁ h₂ hn
  by_cases hx0 : x = 0
  · subst hx0
    rw [if_pos rfl] at h₁ h₂ hn
    exact C122_wave_plates hab (by omega : 1 < a.g.C) hx (by omega) 0 φ ψ h₁ h₂ hn before after hbe ha hb rnd rnd' fuel fuel' hf hf'
  · rw [if_neg hx0] at h₁ h₂ hn
    exact C122_wave_plates hab (by omega : 0 < a.g.C) hx (fun e => hx0 e.symm) 0 φ ψ h₁ h₂ hn before after hbe ha hb rnd rnd' fuel fuel' hf hf'

/-- **C122** An element directly followed by its inverse can be left out, if other elements remain. -/
theorem C122_inverse {a b : Circ} {coll : Coll} (hab : Comparable a b coll) (M N : Opt) (hMN : M * N = 1) (tl : List ℕ) (h c : ℕ) (hh : h < a.g.C) (hc : c < a.g.C) (hne : h ≠ c)
    (ht : tensorList a.g.C [h, c] = some tl) (before after : List (Opt × List ℕ)) (hbe : ∀ m ∈ before ++ after, OnChannels a.g m) (hnil : before ++ after ≠ [])
    (ha : a.nodes = opticals (before ++ [(M, tl), (N, tl)] ++ after)) (hb : b.nodes = opticals (before ++ after))
    (rnd rnd' : ℕ → ℕ → Bool → ℕ → ℕ → ℕ) (fuel fuel' : ℕ) (hf : 2 ≤ fuel) (hf' : 2 ≤ fuel') :
    evalAll (fun _ => a) rnd fuel 0 coll = evalAll (fun _ => b) rnd' fuel' 0 coll := by
  have on : ∀ K : Opt, OnChannels a.g (K, tl) := fun K => ⟨h, c, hh, hc, hne, ht⟩
  have key : ∀ (x : ℕ → ℂ), ∀ i < a.g.size, oneByOne a.g (before ++ [(M, tl), (N, tl)] ++ after) x i = oneByOne a.g (before ++ after) x i := by
    intro x i hi
    simp only [oneByOne_append]
    refine oneByOne_congr after (fun k hk => ?_) i hi
    rw [oneByOne_two hab.ok (on 1).perm M N _ k hk, hMN, oneByOne_id hab.ok (on 1).perm _ k hk]
  have o1 : ∀ m ∈ before ++ [(M, tl), (N, tl)] ++ after, OnChannels a.g m := by
    intro m hm
    simp only [List.mem_append, List.mem_cons, List.not_mem_nil, or_false] at hm hbe
    rcases hm with (hm | rfl | rfl) | hm
    exacts [hbe m (Or.inl hm), on M, on N, hbe m (Or.inr hm)]
  obtain ⟨n, l, e⟩ : ∃ n l, before ++ [(M, tl), (N, tl)] ++ after = n :: l := by
    cases before with
    | nil => exact ⟨_, _, rfl⟩
    | cons x xs => exact ⟨_, _, rfl⟩
  obtain ⟨n', l', e'⟩ : ∃ n l, before ++ after = n :: l := List.exists_cons_of_ne_nil hnil
  rw [e] at ha key o1
  rw [e'] at hb key hbe
  exact runs_same hab n n' l l' o1 hbe key ha hb rnd rnd' fuel fuel' hf hf'

/-- **C122** A half wave plate directly followed by the same half wave plate can be left out, if other elements remain; the same for 50/50 mixers and swaps. -/
theorem C122_twice {a b : Circ} {coll : Coll} (hab : Comparable a b coll) {h v : ℕ} (hh : h < a.g.C) (hv : v < a.g.C) (hne : h ≠ v) {n : Opt × List ℕ}
    (hn : (∃ θ, halfWavePlate a.g h v θ = some n) ∨ mix5050 a.g h v = some n ∨ swapNode a.g h v = some n)
    (before after : List (Opt × List ℕ)) (hbe : ∀ m ∈ before ++ after, OnChannels a.g m) (hnil : before ++ after ≠ [])
    (ha : a.nodes = opticals (before ++ [n, n] ++ after)) (hb : b.nodes = opticals (before ++ after))
    (rnd rnd' : ℕ → ℕ → Bool → ℕ → ℕ → ℕ) (fuel fuel' : ℕ) (hf : 2 ≤ fuel) (hf' : 2 ≤ fuel') :
    evalAll (fun _ => a) rnd fuel 0 coll = evalAll (fun _ => b) rnd' fuel' 0 coll := by
  obtain ⟨h', v', hh', hv', hne', θ, e⟩ : ∃ h' v', h' < a.g.C ∧ v' < a.g.C ∧ h' ≠ v' ∧ ∃ θ, genericRotation a.g h' v' θ Real.pi = some n := by
    rcases hn with ⟨θ, hn⟩ | hn | hn
    · exact ⟨h, v, hh, hv, hne, θ, hn⟩
    · exact ⟨h, v, hh, hv, hne, _, hn⟩
    · unfold swapNode at hn
      split_ifs at hn
      · exact ⟨v, h, hv, hh, hne.symm, _, hn⟩
      · exact ⟨h, v, hh, hv, hne, _, hn⟩
  unfold genericRotation at e
  obtain ⟨tl, e2, rfl⟩ := Option.map_eq_some_iff.1 e
  exact C122_inverse hab _ _ (C17_wave_plate θ 0 0).2.2.2.1 tl h' v' hh' hv' hne' e2 before after hbe hnil ha hb rnd rnd' fuel fuel' hf hf'

/-! ### The hypotheses are met -/

section NonVacuity

theorem born_comparable (n₁ n₂ : List (Opt × List ℕ)) :
    Comparable ⟨bornCfg, 2, 1 / 1000, true, opticals n₁⟩ ⟨bornCfg, 2, 1 / 1000, false, opticals n₂⟩ [(['x'], bornState)] := by
  refine ⟨⟨rfl, rfl, rfl⟩, bornOk, by simp, ?_⟩
  intro p hp
  rw [List.mem_singleton.1 hp]
  exact ⟨bornState_ok.1.wf, by simp [bornState]⟩

/-- C122: two quarter wave plates on channels 1 and 2 of three channels between a mixer and a phase shift. -/
example (θ φ : ℝ) : ∃ n₁ n mix phase : Opt × List ℕ, quarterWavePlate bornCfg 1 2 θ = some n₁ ∧ halfWavePlate bornCfg 1 2 θ = some n ∧ mix5050 bornCfg 0 1 = some mix ∧ phaseShift bornCfg 2 φ = some phase ∧
    evalAll (fun _ => ⟨bornCfg, 2, 1 / 1000, true, opticals [mix, n₁, n₁, phase]⟩) (fun _ _ _ _ _ => 0) 2 0 [(['x'], bornState)]
      = evalAll (fun _ => ⟨bornCfg, 2, 1 / 1000, false, opticals [mix, n, phase]⟩) (fun _ _ _ _ _ => 0) 2 0 [(['x'], bornState)] := by
  refine ⟨_, _, _, _, rfl, rfl, rfl, rfl, C122_quarter (born_comparable _ _) (by decide : 1 < 3) (by decide : 2 < 3) (by decide) θ rfl rfl [_] [_] ?_ rfl rfl _ _ 2 2 le_rfl le_rfl⟩
  intro m hm
  simp only [List.cons_append, List.nil_append, List.mem_cons, List.not_mem_nil, or_false] at hm
  rcases hm with rfl | rfl
  · exact ⟨0, 1, (by decide : 0 < 3), (by decide : 1 < 3), by decide, (by decide : tensorList 3 [0, 1] = some [0, 1, 2])⟩
  · exact ⟨0, 2, (by decide : 0 < 3), (by decide : 2 < 3), by decide, (by decide : tensorList 3 [0, 2] = some [0, 2, 1])⟩

end NonVacuity

end Verif.Props
