/-
Properties C22 - C24: states, vectors, component lists and inner products.
-/
import Verif.Lemmas.State

namespace Verif.Props
open Verif Spec

/-- **C22** The vector of a state: at the index of photon numbers `v` it holds the amplitude of the component named `v`. -/
theorem C22_to_vector (g : Cfg) (hg : g.Ok) (c : Comps) (h : WellFormed g c) :
    ∃ x, toVector g c = some x ∧ ∀ v s, Valid g v → IsName g v s → x (g.indexOf v) = ampOf c s := by
  obtain ⟨x, hx, hxi⟩ := toVector_spec hg.1 h
  refine ⟨x, hx, fun v s hv hs => ?_⟩
  rw [hxi _ (g.indexOf_lt hv), vec_index hv, (isName_iff hv).1 hs]

/-- **C22** The state of a vector: exactly the entries whose squared modulus is not below the threshold become components,
with that amplitude and its squared modulus as probability; the result is again a valid dictionary. -/
theorem C22_from_vector (g : Cfg) (hg : g.Ok) (thr : ℝ) (x : ℕ → ℂ) :
    ∃ c, fromVector g thr x = some c ∧ WellFormed g c ∧ ProbsAgree c ∧
      ∀ v s, Valid g v → IsName g v s →
        c.get? s = if ‖x (g.indexOf v)‖ ^ 2 < thr then none else some ⟨x (g.indexOf v), ‖x (g.indexOf v)‖ ^ 2⟩ := by
  obtain ⟨c, hc, hw, hp, hgt⟩ := fromVector_spec hg.1 thr x
  refine ⟨c, hc, hw, hp, fun v s hv hs => ?_⟩
  rw [(isName_iff hv).1 hs, ← nm_indexOf hv, hgt _ (g.indexOf_lt hv)]

/-- **C22 (partial)** State -> vector -> state, with a positive threshold: every component whose squared amplitude is at or
above the threshold comes back with the same amplitude, and nothing else is in the result.
Missing: threshold 0, where all basis states appear with amplitude 0 (`C22_roundtrip_fails`). -/
theorem C22_roundtrip_partial (g : Cfg) (hg : g.Ok) (thr : ℝ) (hthr : 0 < thr) (c : Comps) (h : WellFormed g c) :
    ∃ x c', toVector g c = some x ∧ fromVector g thr x = some c' ∧ WellFormed g c' ∧
      ∀ s a, (∃ k, c'.get? s = some k ∧ k.amp = a ∧ k.prob = ‖a‖ ^ 2) ↔
        (∃ k, c.get? s = some k ∧ k.amp = a) ∧ thr ≤ ‖a‖ ^ 2 := by
  obtain ⟨x, hx, hxi⟩ := toVector_spec hg.1 h
  obtain ⟨c', hc', hw, hp, hgt⟩ := fromVector_spec hg.1 thr x
  refine ⟨x, c', hx, hc', hw, fun s a => ?_⟩
  have key : ∀ v, Valid g v → c'.get? (g.stdName v) = if ‖ampOf c (g.stdName v)‖ ^ 2 < thr then none
      else some ⟨ampOf c (g.stdName v), ‖ampOf c (g.stdName v)‖ ^ 2⟩ := by
    intro v hv
    rw [← nm_indexOf hv, hgt _ (g.indexOf_lt hv), hxi _ (g.indexOf_lt hv), vec]
  constructor
  · rintro ⟨k, hk, hka, hkp⟩
    obtain ⟨v, hv, e⟩ := hw.named' (Dict.get?_mem hk)
    simp only at e
    subst e
    rw [key v hv] at hk
    split at hk
    · cases hk
    · rename_i hlt
      obtain rfl := Option.some.inj hk
      simp only at hka
      subst hka
      refine ⟨?_, not_lt.1 hlt⟩
      rcases hcs : Dict.get? c (g.stdName v) with _ | k'
      · exfalso
        have : ampOf c (g.stdName v) = 0 := by unfold ampOf; rw [hcs]; rfl
        rw [this] at hlt
        simp at hlt
        linarith
      · exact ⟨k', rfl, by unfold ampOf; rw [hcs]; rfl⟩
  · rintro ⟨⟨k, hk, hka⟩, hge⟩
    obtain ⟨v, hv, e⟩ := h.named' (Dict.get?_mem hk)
    simp only at e
    subst e
    have ha : ampOf c (g.stdName v) = a := by unfold ampOf; rw [hk]; exact hka
    refine ⟨⟨a, ‖a‖ ^ 2⟩, ?_, rfl, rfl⟩
    rw [key v hv, ha, if_neg (not_lt.2 hge)]

/-- **C22 fails** for threshold 0: the vacuum state of a circuit with length 2 and two channels comes back with four
components, three of them with amplitude 0. -/
theorem C22_roundtrip_fails : ∃ (g : Cfg) (c c' : Comps) (x : ℕ → ℂ), g.Ok ∧ WellFormed g c ∧ toVector g c = some x ∧
    fromVector g 0 x = some c' ∧ c.get? ['1', '1'] = none ∧ c'.get? ['1', '1'] = some ⟨0, 0⟩ := by
  let g : Cfg := ⟨2, 2, true⟩
  have hg : g.Ok := by decide
  let c : Comps := [(['0', '0'], ⟨1, 1⟩)]
  have hw : WellFormed g c := by
    refine wf_iff.2 ⟨by simp [c, Dict.keys], ?_⟩
    intro p hp
    simp only [c, List.mem_singleton] at hp
    subst hp
    exact ⟨[0, 0], by decide, by decide⟩
  obtain ⟨x, hx, hxv⟩ := C22_to_vector g hg c hw
  obtain ⟨c', hc', -, -, hgt⟩ := C22_from_vector g hg 0 x
  have hn : IsName g [1, 1] ['1', '1'] := (isName_iff (by decide)).2 (by decide)
  have h0 : ampOf c ['1', '1'] = 0 := by simp [ampOf, c, Dict.get?]
  refine ⟨g, c, c', x, hg, hw, hx, hc', by simp [c, Dict.get?], ?_⟩
  rw [hgt [1, 1] _ (by decide) hn, hxv [1, 1] _ (by decide) hn, h0]
  simp

/-- non-vacuity: a superposition that meets the hypotheses of C22 and the theorems below -/
theorem example_state : WellFormed ⟨3, 2, true⟩ [(['2', '0'], ⟨3 / 5, 9 / 25⟩), (['0', '1'], ⟨4 / 5, 16 / 25⟩)] := by
  refine wf_iff.2 ⟨by simp [Dict.keys], ?_⟩
  intro p hp
  simp only [List.mem_cons, List.not_mem_nil, or_false] at hp
  rcases hp with rfl | rfl
  · exact ⟨[2, 0], by decide, by decide⟩
  · exact ⟨[0, 1], by decide, by decide⟩

/-! ### C23 -/

/-- sum of the amplitudes listed for a name -/
noncomputable def listedSum (l : List (Name × ℂ)) (s : Name) : ℂ := ((l.filter (fun p => p.1 = s)).map Prod.snd).sum

theorem containsName_of_isName {g : Cfg} {v : Vals} {s : Name} (hv : Valid g v) (hs : IsName g v s) :
    g.containsName s = some true := by
  rw [(isName_iff hv).1 hs, Cfg.containsName, g.parse_stdName hv.2, Option.map_some, (g.containsVals_iff v).2 hv]

theorem setFromList_aux {g : Cfg} (l : List (Name × ℂ)) (hl : ∀ p ∈ l, ∃ v, Valid g v ∧ IsName g v p.1) :
    ∃ c, setFromList g l = some c ∧ WellFormed g c ∧ ProbsAgree c ∧
      (∀ s, ampOf c s = listedSum l s) ∧ ∀ s, s ∈ Dict.keys c ↔ s ∈ l.map Prod.fst := by
  unfold setFromList
  induction l using List.reverseRecOn with
  | nil => exact ⟨[], rfl, wf_nil g, (by intro p hp; cases hp), fun s => by simp [ampOf_nil, listedSum], by simp [Dict.keys]⟩
  | append_singleton l na ih =>
    obtain ⟨c, hc, hw, hp, ha, hk⟩ := ih (fun p hp => hl p (by simp [hp]))
    obtain ⟨v, hv, hs⟩ := hl na (by simp)
    rw [List.foldlM_append, hc]
    simp only [Option.bind_eq_bind, Option.bind_some, List.foldlM_cons, List.foldlM_nil, containsName_of_isName hv hs, if_true]
    have wfset : ∀ k, WellFormed g (Dict.set c na.1 k) := by
      intro k
      refine ⟨Dict.nodup_keys_set hw.nodup _ _, fun p hp => ?_⟩
      rcases Dict.mem_set hp with h | h
      · exact hw.named p h
      · rw [h]; exact ⟨v, hv, hs⟩
    have paset : ∀ a : ℂ, ProbsAgree (Dict.set c na.1 ⟨a, ‖a‖ ^ 2⟩) := by
      intro a p hp'
      rcases Dict.mem_set hp' with h | h
      · exact hp p h
      · rw [h]
    have hls : ∀ s, listedSum (l ++ [na]) s = listedSum l s + if na.1 = s then na.2 else 0 := by
      intro s
      unfold listedSum
      rw [List.filter_append, List.map_append, List.sum_append]
      congr 1
      by_cases e : na.1 = s <;> simp [e]
    have amp_set : ∀ (a : ℂ) s, ampOf (Dict.set c na.1 ⟨a, ‖a‖ ^ 2⟩) s = if na.1 = s then a else ampOf c s := by
      intro a s
      unfold ampOf
      rw [Dict.get?_set]; split <;> rfl
    have keyset : ∀ k s, s ∈ Dict.keys (Dict.set c na.1 k) ↔ s ∈ (l ++ [na]).map Prod.fst := by
      intro k s
      rw [Dict.mem_keys_set, hk]; simp [or_comm]
    rcases hcs : Dict.get? c na.1 with _ | old
    · refine ⟨_, rfl, wfset _, paset _, fun s => ?_, keyset _⟩
      rw [amp_set, hls, ← ha]
      by_cases e : na.1 = s
      · subst e
        have : ampOf c na.1 = 0 := by unfold ampOf; rw [hcs]; rfl
        simp [this]
      · simp [e]
    · refine ⟨_, rfl, wfset _, paset _, fun s => ?_, keyset _⟩
      rw [amp_set, hls, ← ha]
      by_cases e : na.1 = s
      · subst e
        have : ampOf c na.1 = old.amp := by unfold ampOf; rw [hcs]; rfl
        simp [this]
      · simp [e]

/-- **C23** Setting the components from a list: each listed name gets the sum of the amplitudes listed for it, with its
squared modulus as probability; no other component appears. -/
theorem C23_list_components (g : Cfg) (l : List (Name × ℂ)) (hl : ∀ p ∈ l, ∃ v, Valid g v ∧ IsName g v p.1) :
    ∃ c, setFromList g l = some c ∧ WellFormed g c ∧ ProbsAgree c ∧
      (∀ s, ampOf c s = ((l.filter (fun p => p.1 = s)).map Prod.snd).sum) ∧
      ∀ s, (c.get? s).isSome ↔ s ∈ l.map Prod.fst := by
  obtain ⟨c, h1, h2, h3, h4, h5⟩ := setFromList_aux l hl
  exact ⟨c, h1, h2, h3, h4, fun s => by rw [← h5, ← Dict.has_iff]; rfl⟩

/-- **C23** The amplitudes do not depend on the order of the list. -/
theorem C23_order_irrelevant (g : Cfg) (l l' : List (Name × ℂ)) (hl : ∀ p ∈ l, ∃ v, Valid g v ∧ IsName g v p.1)
    (hp : l.Perm l') : ∃ c c', setFromList g l = some c ∧ setFromList g l' = some c' ∧ ∀ s, c.get? s = c'.get? s := by
  obtain ⟨c, h1, h2, h3, h4, h5⟩ := setFromList_aux l hl
  obtain ⟨c', k1, k2, k3, k4, k5⟩ := setFromList_aux l' (fun p hp' => hl p (hp.mem_iff.2 hp'))
  refine ⟨c, c', h1, k1, fun s => ?_⟩
  have ha : ampOf c s = ampOf c' s := by
    rw [h4, k4]; exact ((hp.filter _).map _).sum_eq
  have hk : s ∈ Dict.keys c ↔ s ∈ Dict.keys c' := by rw [h5, k5]; exact (hp.map _).mem_iff
  unfold ampOf at ha
  rcases e1 : Dict.get? c s with _ | ⟨a, p⟩
  · rcases e2 : Dict.get? c' s with _ | ⟨a', p'⟩
    · rfl
    · exact absurd (hk.2 (Dict.mem_keys_iff.2 ⟨_, e2⟩)) (Dict.get?_eq_none.1 e1)
  · rcases e2 : Dict.get? c' s with _ | ⟨a', p'⟩
    · exact absurd (hk.1 (Dict.mem_keys_iff.2 ⟨_, e1⟩)) (Dict.get?_eq_none.1 e2)
    · rw [e1, e2] at ha
      have ha' : a = a' := ha
      have q1 : p = ‖a‖ ^ 2 := h3 _ (Dict.get?_mem e1)
      have q2 : p' = ‖a'‖ ^ 2 := k3 _ (Dict.get?_mem e2)
      rw [ha', q1, q2, ha']

/-- **C23** A list containing a name the circuit does not accept is refused. -/
theorem C23_refused (g : Cfg) (l l' : List (Name × ℂ)) (na : Name × ℂ) (h : g.containsName na.1 ≠ some true) :
    setFromList g (l ++ na :: l') = none := by
  unfold setFromList
  rw [List.foldlM_append]
  cases List.foldlM (m := Option) _ [] l with
  | none => rfl
  | some d => 
    rw [Option.bind_eq_bind, Option.bind_some, List.foldlM_cons, if_neg h]; rfl

example : ∀ p ∈ [(['2', '0'], (1 : ℂ)), (['1', '1'], 2), (['2', '0'], 3)],
    ∃ v, Valid ⟨3, 2, true⟩ v ∧ IsName ⟨3, 2, true⟩ v p.1 := by
  intro p hp
  simp only [List.mem_cons, List.not_mem_nil, or_false] at hp
  rcases hp with rfl | rfl | rfl
  · exact ⟨[2, 0], by decide, (isName_iff (by decide)).2 (by decide)⟩
  · exact ⟨[1, 1], by decide, (isName_iff (by decide)).2 (by decide)⟩
  · exact ⟨[2, 0], by decide, (isName_iff (by decide)).2 (by decide)⟩

/-! ### C24 -/

/-- **C24** `inner` is the Hermitian inner product of the state vectors. -/
theorem C24_inner_is_hermitian_product (g : Cfg) (hg : g.Ok) (c₁ c₂ : Comps) (h1 : WellFormed g c₁)
    (h2 : WellFormed g c₂) :
    ∃ x y, toVector g c₁ = some x ∧ toVector g c₂ = some y ∧
      inner c₁ c₂ = ∑ i ∈ Finset.range (g.L ^ g.C), star (x i) * y i := by
  obtain ⟨x, hx, hxi⟩ := toVector_spec hg.1 h1
  obtain ⟨y, hy, hyi⟩ := toVector_spec hg.1 h2
  refine ⟨x, y, hx, hy, ?_⟩
  rw [inner_eq hg.1 h1 h2]
  refine Finset.sum_congr rfl fun i hi => ?_
  rw [hxi i (Finset.mem_range.1 hi), hyi i (Finset.mem_range.1 hi)]

/-- **C24** swapping the arguments conjugates; the inner product with itself is the total probability. -/
theorem C24_inner_symmetry (g : Cfg) (hg : g.Ok) (c₁ c₂ : Comps) (h1 : WellFormed g c₁) (h2 : WellFormed g c₂) :
    inner c₂ c₁ = star (inner c₁ c₂) ∧ inner c₁ c₁ = (totalProb c₁ : ℂ) := by
  constructor
  · rw [inner_eq hg.1 h1 h2, inner_eq hg.1 h2 h1, star_sum]
    refine Finset.sum_congr rfl fun i _ => ?_
    rw [star_mul', star_star, mul_comm]
  · rw [inner_eq hg.1 h1 h1, totalProb_eq hg.1 h1, Complex.ofReal_sum]
    refine Finset.sum_congr rfl fun i _ => ?_
    rw [← Complex.normSq_eq_norm_sq, Complex.normSq_eq_conj_mul_self]
    rfl

/-- **C24** linearity in the second argument. -/
theorem C24_inner_linear (g : Cfg) (hg : g.Ok) (c a b d : Comps) (α β : ℂ) (hc : WellFormed g c) (ha : WellFormed g a)
    (hb : WellFormed g b) (hd : WellFormed g d) (hlin : ∀ s, ampOf d s = α * ampOf a s + β * ampOf b s) :
    inner c d = α * inner c a + β * inner c b := by
  rw [inner_eq hg.1 hc hd, inner_eq hg.1 hc ha, inner_eq hg.1 hc hb, Finset.mul_sum, Finset.mul_sum,
    ← Finset.sum_add_distrib]
  refine Finset.sum_congr rfl fun i _ => ?_
  unfold vec
  rw [hlin]; ring

/-- **C24** `outer` is the rank-one matrix of conjugate(first) and second vector. -/
theorem C24_outer (g : Cfg) (hg : g.Ok) (c₁ c₂ : Comps) (h1 : WellFormed g c₁) (h2 : WellFormed g c₂) :
    ∃ A, outer g c₁ c₂ = some A ∧ ∀ v w s t, Valid g v → IsName g v s → Valid g w → IsName g w t →
      A (g.indexOf v) (g.indexOf w) = star (ampOf c₁ s) * ampOf c₂ t := by
  obtain ⟨x, hx, hxv⟩ := C22_to_vector g hg c₁ h1
  obtain ⟨y, hy, hyv⟩ := C22_to_vector g hg c₂ h2
  refine ⟨_, by rw [outer, hx, hy]; rfl, ?_⟩
  intro v w s t hv hs hw ht
  rw [hxv v s hv hs, hyv w t hw ht]

end Verif.Props
