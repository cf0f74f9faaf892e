/- Helper lemmas about photon columns: termination of splitting, single photons, condensing. -/
import Verif.Lemmas.Columns

namespace Verif
open Spec MvPolynomial Props

/-- A state that can be split to the end: valid names, at least one component, and from three components on normalised with non-zero amplitudes. -/
structure Splittable (g : Cfg) (c : Comps) : Prop where
  wf : WellFormed g c
  ne : c ≠ []
  norm : 3 ≤ c.length → totalProb c = 1 ∧ ∀ p ∈ c, p.2.amp ≠ 0

/-- Product of the number of components of the states. -/
def Column.weight (c : Column) : ℕ := (c.states.map (fun s => s.q.comps.length)).prod

theorem totalProb_cons (p : Name × Comp) (c : Comps) : totalProb (p :: c) = ‖p.2.amp‖ ^ 2 + totalProb c := by
  unfold totalProb; rw [List.map_cons, List.sum_cons]

theorem totalProb_nonneg (c : Comps) : 0 ≤ totalProb c := by
  induction c with
  | nil => simp [totalProb]
  | cons p c ih => rw [totalProb_cons]; positivity

theorem totalProb_div (c : Comps) (f : ℂ) :
    totalProb (c.map (fun p => (p.1, (⟨p.2.amp / f, ‖p.2.amp / f‖ ^ 2⟩ : Comp)))) = totalProb c / ‖f‖ ^ 2 := by
  induction c with
  | nil => simp [totalProb]
  | cons p c ih =>
    rw [List.map_cons, totalProb_cons, ih, totalProb_cons, add_div]
    simp [div_pow]

theorem weight_mid (c : Column) (pre post : List PState) (s : PState) (hc : c.states = pre ++ s :: post) :
    c.weight = s.q.comps.length * ((pre.map (fun s => s.q.comps.length)).prod * (post.map (fun s => s.q.comps.length)).prod) := by
  unfold Column.weight
  rw [hc, List.map_append, List.map_cons, List.prod_append, List.prod_cons]; ring

theorem split_defined {g : Cfg} {c : Column} (hs : ∀ s ∈ c.states, Splittable g s.q.comps) : ∃ r, c.split g = some r := by
  unfold Column.split
  rcases hi : splitIndex c.states with _ | i
  · exact ⟨_, rfl⟩
  · obtain ⟨pre, s, post, e, hl, _, hs1⟩ := splitIndex_some hi
    have hget : c.states[i]? = some s := by rw [e, ← hl]; simp
    have hsp := hs s (by rw [e]; simp)
    simp only [hget, Option.map_some]
    rcases hc : s.q.comps with _ | ⟨⟨s0, k0⟩, _ | ⟨⟨s1, k1⟩, rest⟩⟩
    · exact absurd hc hsp.ne
    · rw [hc] at hs1; simp at hs1
    · rw [hc] at hsp
      have hws := hsp.wf
      have hnam := hws.named
      have e0 := setFromList_nodup (g := g) [(s0, 1)] (by
        intro p hp
        obtain rfl : p = (s0, 1) := by simpa using hp
        exact hnam (s0, k0) (by simp)) (by simp)
      simp only [e0, Option.bind_some]
      by_cases hr : rest = []
      · rw [if_pos hr, setFromList_nodup [(s1, 1)] (by
          intro p hp
          obtain rfl : p = (s1, 1) := by simpa using hp
          exact hnam (s1, k1) (by simp)) (by simp)]
        exact ⟨_, rfl⟩
      · obtain ⟨ht, ha⟩ := hsp.norm (by
          have := List.length_pos_iff.2 hr
          simp only [List.length_cons]; omega)
        have hne : Real.sqrt (1 - ‖k0.amp‖ ^ 2) ≠ 0 := by
          rw [totalProb_cons, totalProb_cons] at ht
          have h1 : 0 < ‖k1.amp‖ := norm_pos_iff.2 (ha (s1, k1) (by simp))
          have h2 := totalProb_nonneg rest
          have h3 : 0 < ‖k1.amp‖ ^ 2 := by positivity
          rw [Real.sqrt_ne_zero']
          simp only at ht
          linarith
        rw [if_neg hr, if_neg hne, setFromList_nodup _ (by
              intro p hp
              obtain ⟨q, hq, rfl⟩ := List.mem_map.1 hp
              exact hnam q (List.mem_cons_of_mem _ hq)) (by
              rw [List.map_map]
              exact (List.nodup_cons.1 hws.nodup).2)]
        exact ⟨_, rfl⟩

theorem splittable_unit {g : Cfg} {nm : Name} (q : ℝ) (h : ∃ v, Valid g v ∧ IsName g v nm) : Splittable g [(nm, ⟨1, q⟩)] :=
  ⟨wf_unit q h, by simp, by simp⟩

theorem split_keeps {g : Cfg} {c new rem : Column} (h : c.split g = some (some (new, rem))) (hs : ∀ s ∈ c.states, Splittable g s.q.comps) :
    (∀ s ∈ new.states, Splittable g s.q.comps) ∧ (∀ s ∈ rem.states, Splittable g s.q.comps) ∧ new.weight + rem.weight = c.weight := by
  rcases split_cases h (fun s hs' => (hs s hs').wf) with ⟨h0, _⟩ | ⟨pre, s, post, s0, k0, s1, k1, rest, r', e, _, hc, hcase⟩
  · cases h0
  have hsp : Splittable g ((s0, k0) :: (s1, k1) :: rest) := by rw [← hc]; exact hs s (by rw [e]; simp)
  have hws := hsp.wf
  have hmid : ∀ t : PState, Splittable g t.q.comps → ∀ u ∈ pre ++ t :: post, Splittable g u.q.comps := by
    intro t ht u hu
    rcases List.mem_append.1 hu with h | h
    · exact hs u (by rw [e]; simp [h])
    · rcases List.mem_cons.1 h with rfl | h
      · exact ht
      · exact hs u (by rw [e]; simp [h])
  have w0 : Splittable g [(s0, (⟨1, ‖(1 : ℂ)‖ ^ 2⟩ : Comp))] := splittable_unit _ (hws.named (s0, k0) (by simp))
  rcases hcase with ⟨f, hf, hr, hrest, hfe, hr'⟩ | ⟨hrest, hr, hr'⟩
  · obtain ⟨rfl, rfl⟩ := Prod.mk.inj (Option.some.inj hr)
    refine ⟨hmid _ w0, hmid _ ?_, ?_⟩
    · obtain ⟨ht, ha⟩ := hsp.norm (by
        have := List.length_pos_iff.2 hrest
        simp only [List.length_cons]; omega)
      show Splittable g r'
      rw [hr']
      refine ⟨⟨?_, ?_⟩, by simp, fun _ => ⟨?_, ?_⟩⟩
      · rw [List.map_map]
        exact (List.nodup_cons.1 hws.nodup).2
      · intro p hp
        obtain ⟨q, hq, rfl⟩ := List.mem_map.1 hp
        exact hws.named q (List.mem_cons_of_mem _ hq)
      · rw [totalProb_div]
        rw [totalProb_cons] at ht
        have hnn := totalProb_nonneg ((s1, k1) :: rest)
        have hfn : ‖f‖ ^ 2 = 1 - ‖k0.amp‖ ^ 2 := by
          rw [hfe, Complex.norm_real, Real.norm_eq_abs, sq_abs, Real.sq_sqrt]
          simp only at ht
          linarith
        have : totalProb ((s1, k1) :: rest) = ‖f‖ ^ 2 := by rw [hfn]; simp only at ht; linarith
        rw [this, div_self]
        have := norm_pos_iff.2 hf
        positivity
      · intro p hp
        obtain ⟨q, hq, rfl⟩ := List.mem_map.1 hp
        exact div_ne_zero (ha q (List.mem_cons_of_mem _ hq)) hf
    · rw [weight_mid c pre post s e, weight_mid _ pre post _ rfl, weight_mid _ pre post _ rfl, hc, hr', ← add_mul]
      simp only [List.length_cons, List.length_nil, List.length_map]
      ring
  · subst hrest
    obtain ⟨rfl, rfl⟩ := Prod.mk.inj (Option.some.inj hr)
    refine ⟨hmid _ w0, hmid _ ?_, ?_⟩
    · show Splittable g r'
      rw [hr']
      exact splittable_unit _ (hws.named (s1, k1) (by simp))
    · rw [weight_mid c pre post s e, weight_mid _ pre post _ rfl, weight_mid _ pre post _ rfl, hc, hr', ← add_mul]
      simp only [List.length_cons, List.length_nil]

/-- All states of all columns can be split to the end. -/
def SplCols (g : Cfg) (cols : List Column) : Prop := ∀ c ∈ cols, ∀ s ∈ c.states, Splittable g s.q.comps

/-- Sum of the weights. -/
def totalWeight (cols : List Column) : ℕ := (cols.map Column.weight).sum

theorem weight_pos {g : Cfg} {c : Column} (hs : ∀ s ∈ c.states, Splittable g s.q.comps) : 0 < c.weight := by
  unfold Column.weight
  refine List.prod_pos ?_
  intro n hn
  obtain ⟨s, hs', rfl⟩ := List.mem_map.1 hn
  exact List.length_pos_iff.2 (hs s hs').ne

theorem length_le_weight {g : Cfg} {cols : List Column} (hs : SplCols g cols) : cols.length ≤ totalWeight cols := by
  induction cols with
  | nil => simp
  | cons c cols ih =>
    have h1 := ih (fun d hd => hs d (List.mem_cons_of_mem _ hd))
    have h2 := weight_pos (hs c List.mem_cons_self)
    unfold totalWeight at h1 ⊢
    rw [List.map_cons, List.sum_cons, List.length_cons]
    omega

theorem splitOnce_defined {g : Cfg} {cols : List Column} (hs : SplCols g cols) : ∃ r, splitOnce g cols = some r ∧
    ∀ cols' new, r = some (cols', new) → SplCols g cols' ∧ (∀ s ∈ new.states, Splittable g s.q.comps) ∧ cols'.length = cols.length ∧
      totalWeight cols' + new.weight = totalWeight cols := by
  induction cols with
  | nil => exact ⟨none, rfl, by intro _ _ h; cases h⟩
  | cons c cols ih =>
    have hsc : SplCols g cols := fun d hd => hs d (List.mem_cons_of_mem _ hd)
    have hs0 := hs c List.mem_cons_self
    obtain ⟨r, hr⟩ := split_defined hs0
    unfold splitOnce
    rw [hr]
    rcases r with _ | ⟨new, rem⟩
    · obtain ⟨r', hr', hk⟩ := ih hsc
      simp only [Option.bind_some, hr']
      refine ⟨_, rfl, ?_⟩
      rcases r' with _ | ⟨d, n⟩
      · intro _ _ h; cases h
      · intro cols' new h
        obtain ⟨rfl, rfl⟩ := Prod.mk.inj (Option.some.inj h)
        obtain ⟨h1, h2, h3, h4⟩ := hk d n rfl
        refine ⟨?_, h2, by simp [h3], ?_⟩
        · intro x hx
          rcases List.mem_cons.1 hx with rfl | hx
          · exact hs0
          · exact h1 x hx
        · unfold totalWeight at h4 ⊢
          rw [List.map_cons, List.sum_cons, List.map_cons, List.sum_cons]; simp only; omega
    · simp only [Option.bind_some]
      refine ⟨_, rfl, ?_⟩
      intro cols' new' h
      obtain ⟨rfl, rfl⟩ := Prod.mk.inj (Option.some.inj h)
      obtain ⟨h1, h2, h3⟩ := split_keeps hr hs0
      refine ⟨?_, h1, by simp, ?_⟩
      · intro x hx
        rcases List.mem_cons.1 hx with rfl | hx
        · exact h2
        · exact hsc x hx
      · unfold totalWeight
        rw [List.map_cons, List.sum_cons, List.map_cons, List.sum_cons]; omega

theorem weight_one_of_single {c : Column} (h : ∀ s ∈ c.states, s.q.comps.length = 1) : c.weight = 1 := by
  unfold Column.weight
  refine List.prod_eq_one ?_
  intro n hn
  obtain ⟨s, hs', rfl⟩ := List.mem_map.1 hn
  exact h s hs'

theorem splitColumns_defined {g : Cfg} (fuel : ℕ) {cols : List Column} (hs : SplCols g cols) (hf : totalWeight cols < fuel + cols.length) :
    ∃ out, splitColumns g fuel cols = some out ∧ out.length = totalWeight cols := by
  induction fuel generalizing cols with
  | zero => have := length_le_weight hs; omega
  | succ fuel ih =>
    obtain ⟨r, hr, hk⟩ := splitOnce_defined hs
    unfold splitColumns
    rw [hr]
    rcases r with _ | ⟨cols', new⟩
    · refine ⟨cols, rfl, ?_⟩
      have h1 := splitOnce_none hr
      unfold totalWeight
      rw [List.map_congr_left (fun c hc => weight_one_of_single (h1 c hc))]
      simp
    · simp only [Option.bind_some]
      obtain ⟨h1, h2, h3, h4⟩ := hk cols' new rfl
      have hw : totalWeight (cols' ++ [{ new with id := nextColumnId cols' }]) = totalWeight cols := by
        rw [← h4]
        unfold totalWeight
        rw [List.map_append, List.sum_append]
        simp [Column.weight]
      obtain ⟨out, e1, e2⟩ := ih (cols := cols' ++ [{ new with id := nextColumnId cols' }]) (by
        intro d hd
        rcases List.mem_append.1 hd with hd | hd
        · exact h1 d hd
        · obtain rfl := List.mem_singleton.1 hd
          exact h2) (by
        rw [hw, List.length_append, h3]
        simp only [List.length_singleton]; omega)
      exact ⟨out, e1, by rw [e2, hw]⟩

/-! ### Single photons -/

/-- Product over the channels of `X^n`. -/
noncomputable def monoX (info : Option PInfo) (v : Vals) (k : ℕ := 0) : MvPolynomial Mode ℂ :=
  ((v.zipIdx k).map (fun p => X (p.2, info) ^ p.1)).prod

theorem boson_factor (n : ℕ) : ((List.range n).map (fun k : ℕ => Real.sqrt ((k : ℝ) + 1))).prod = Real.sqrt (Nat.factorial n) := by
  induction n with
  | zero => simp
  | succ n ih =>
    rw [List.range_succ, List.map_append, List.prod_append, ih, Nat.factorial_succ, Nat.cast_mul, Real.sqrt_mul (by positivity)]
    simp [mul_comm]

theorem bosonOf_pos (v : Vals) : 0 < bosonOf v := by
  unfold bosonOf
  refine List.prod_pos ?_
  intro x hx
  obtain ⟨n, _, rfl⟩ := List.mem_map.1 hx
  rw [boson_factor]
  exact Real.sqrt_pos.2 (by exact_mod_cast Nat.factorial_pos n)

theorem bosonOf_nil : bosonOf [] = 1 := rfl

theorem bosonOf_cons (n : ℕ) (v : Vals) : bosonOf (n :: v) = Real.sqrt (Nat.factorial n) * bosonOf v := by
  unfold bosonOf; rw [List.map_cons, List.prod_cons, boson_factor]

theorem ketPoly_aux (info : Option PInfo) (v : Vals) (k : ℕ) :
    ((v.zipIdx k).map (fun p => C (1 / (Real.sqrt (Nat.factorial p.1) : ℂ)) * X (p.2, info) ^ p.1)).prod =
      C (1 / (bosonOf v : ℂ)) * monoX info v k := by
  induction v generalizing k with
  | nil => simp [bosonOf_nil, monoX]
  | cons n v ih =>
    rw [List.zipIdx_cons, List.map_cons, List.prod_cons, ih, bosonOf_cons]
    unfold monoX
    rw [List.zipIdx_cons, List.map_cons, List.prod_cons]
    push_cast
    rw [one_div, one_div, one_div, mul_inv, C_mul]
    ring

theorem ketPoly_eq (info : Option PInfo) (v : Vals) : ketPoly info v = C (1 / (bosonOf v : ℂ)) * monoX info v := ketPoly_aux info v 0

theorem photonChannels_prod (info : Option PInfo) (v : Vals) (k : ℕ) :
    (((v.zipIdx k).flatMap (fun p => List.replicate p.1 p.2)).map (fun ch => (X (ch, info) : MvPolynomial Mode ℂ))).prod = monoX info v k := by
  unfold monoX
  induction v generalizing k with
  | nil => simp
  | cons n v ih =>
    rw [List.zipIdx_cons, List.flatMap_cons, List.map_append, List.prod_append, ih, List.map_cons, List.prod_cons]
    simp

theorem monoX_add (info : Option PInfo) (v w : Vals) (k : ℕ) (h : v.length = w.length) :
    monoX info (List.zipWith (· + ·) v w) k = monoX info v k * monoX info w k := by
  unfold monoX
  induction v generalizing w k with
  | nil => cases w with
    | nil => simp
    | cons b w => simp at h
  | cons a v ih =>
    cases w with
    | nil => simp at h
    | cons b w =>
      simp only [List.zipWith_cons_cons, List.zipIdx_cons, List.map_cons, List.prod_cons]
      rw [ih w (k + 1) (by simpa using h), pow_add]
      ring

theorem monoX_zero (info : Option PInfo) (n k : ℕ) : monoX info (List.replicate n 0) k = 1 := by
  unfold monoX
  refine List.prod_eq_one ?_
  intro x hx
  obtain ⟨p, hp, rfl⟩ := List.mem_map.1 hx
  have := (List.mem_zipIdx hp)
  obtain ⟨_, _, h3⟩ := this
  rw [List.getElem_replicate] at h3
  rw [h3, pow_zero]

theorem monoX_oneHot (info : Option PInfo) (n ch k : ℕ) (h : ch < n) : monoX info (oneHot n ch) k = X (k + ch, info) := by
  unfold oneHot
  induction n generalizing ch k with
  | zero => omega
  | succ n ih =>
    cases ch with
    | zero =>
      rw [List.replicate_succ, List.set_cons_zero]
      have := monoX_zero info n (k + 1)
      unfold monoX at this ⊢
      rw [List.zipIdx_cons, List.map_cons, List.prod_cons, this]
      simp
    | succ ch =>
      rw [List.replicate_succ, List.set_cons_succ]
      have := ih ch (k + 1) (by omega)
      unfold monoX at this ⊢
      rw [List.zipIdx_cons, List.map_cons, List.prod_cons, this]
      simp only [pow_zero, one_mul]
      congr 2
      omega

theorem bosonOf_oneHot (n ch : ℕ) : bosonOf (oneHot n ch) = 1 := by
  unfold oneHot
  induction n generalizing ch with
  | zero => simp [bosonOf_nil]
  | succ n ih =>
    have hz : ∀ m, bosonOf (List.replicate m 0) = 1 := by
      intro m
      induction m with
      | zero => rfl
      | succ m ihm => rw [List.replicate_succ, bosonOf_cons, ihm]; simp
    cases ch with
    | zero => rw [List.replicate_succ, List.set_cons_zero, bosonOf_cons, hz]; simp
    | succ ch => rw [List.replicate_succ, List.set_cons_succ, bosonOf_cons, ih]; simp

theorem bosonOf_zero (m : ℕ) : bosonOf (List.replicate m 0) = 1 := by
  induction m with
  | zero => rfl
  | succ m ihm => rw [List.replicate_succ, bosonOf_cons, ihm]; simp

theorem sum_zero_replicate {v : Vals} (h : ¬ v.sum > 0) : v = List.replicate v.length 0 := by
  refine List.eq_replicate_iff.2 ⟨rfl, ?_⟩
  intro x hx
  have := List.le_sum_of_mem hx
  omega

theorem mem_photonChannels {v : Vals} {ch : ℕ} (h : ch ∈ photonChannels v) : ch < v.length ∧ v.getD ch 0 > 0 := by
  unfold photonChannels at h
  rw [List.mem_flatMap] at h
  obtain ⟨p, hp, hr⟩ := h
  obtain ⟨h1, h2, h3⟩ := List.mem_zipIdx hp
  rw [List.mem_replicate] at hr
  obtain ⟨hr1, rfl⟩ := hr
  refine ⟨by omega, ?_⟩
  rw [List.getD_eq_getElem _ _ (by omega : p.2 < v.length)]
  simp only [Nat.sub_zero] at h3
  omega

theorem valid_oneHot {g : Cfg} {v : Vals} (hv : Valid g v) {ch : ℕ} (h : ch ∈ photonChannels v) : Valid g (oneHot v.length ch) := by
  obtain ⟨h1, h2⟩ := mem_photonChannels h
  have hx : v.getD ch 0 < g.L := by
    rw [List.getD_eq_getElem _ _ h1]
    exact hv.2 _ (List.getElem_mem h1)
  refine ⟨by simp [oneHot, hv.1], ?_⟩
  intro x hx'
  unfold oneHot at hx'
  rcases List.mem_or_eq_of_mem_set hx' with h | h
  · rw [List.mem_replicate] at h; omega
  · omega

/-- The state with the given single component of amplitude `a`. -/
noncomputable def oneComp (s : PState) (nm : Name) (a : ℂ) : PState := { s with q := { s.q with comps := [(nm, ⟨a, ‖a‖ ^ 2⟩)] } }

theorem setFromList_one {g : Cfg} {v : Vals} (hv : Valid g v) (a : ℂ) :
    setFromList g [(g.stdName v, a)] = some [(g.stdName v, ⟨a, ‖a‖ ^ 2⟩)] :=
  setFromList_nodup _ (by
    intro p hp
    obtain rfl : p = (g.stdName v, a) := by simpa using hp
    exact ⟨v, hv, (isName_iff hv).2 rfl⟩) (by simp)

/-- What `singlePhotons` returns. -/
theorem singlePhotons_eq {g : Cfg} {s : PState} {v : Vals} {k : Comp} {rest : Comps} (hv : Valid g v) (hc : s.q.comps = (g.stdName v, k) :: rest) :
    singlePhotons g s = some (if v.sum > 0 then (photonChannels v).map (fun ch => oneComp s (g.stdName (oneHot v.length ch)) k.amp)
      else [oneComp s (g.stdName v) k.amp], bosonOf v) := by
  unfold singlePhotons
  rw [hc]
  simp only [g.parse_stdName hv.2, Option.bind_some]
  by_cases h : v.sum > 0
  · rw [if_pos h, if_pos h, mapM_some_of (g := fun ch => oneComp s (g.stdName (oneHot v.length ch)) k.amp)]
    · rfl
    · intro ch hch
      have ho := valid_oneHot hv hch
      rw [g.render_of_valid ho, Option.bind_some, setFromList_one ho]
      rfl
  · rw [if_neg h, if_neg h]
    rw [← sum_zero_replicate h, g.render_of_valid hv, Option.bind_some, setFromList_one hv]
    rw [sum_zero_replicate h, bosonOf_zero]
    rfl

theorem statePoly_oneComp {g : Cfg} (s : PState) {v : Vals} (hv : Valid g v) (a : ℂ) :
    statePoly g (oneComp s (g.stdName v) a) = C a * ketPoly s.info v := by
  rw [statePoly_eq]
  unfold compsPoly oneComp
  simp [g.parse_stdName hv.2]

theorem statePoly_single {g : Cfg} (s : PState) {v : Vals} (hv : Valid g v) {k : Comp} (hc : s.q.comps = [(g.stdName v, k)]) :
    statePoly g s = C k.amp * ketPoly s.info v := by
  rw [statePoly_eq, hc]
  unfold compsPoly
  simp [g.parse_stdName hv.2]

theorem singlePhotons_poly {g : Cfg} {s : PState} {v : Vals} {k : Comp} (hv : Valid g v) (hc : s.q.comps = [(g.stdName v, k)]) (hk : k.amp = 1)
    {l : List PState} {b : ℝ} (h : singlePhotons g s = some (l, b)) :
    (l.map (statePoly g)).prod = C (b : ℂ) * statePoly g s ∧ b ≠ 0 := by
  rw [singlePhotons_eq hv hc] at h
  obtain ⟨rfl, rfl⟩ := Prod.mk.inj (Option.some.inj h)
  have hb := (bosonOf_pos v).ne'
  refine ⟨?_, hb⟩
  rw [statePoly_single s hv hc, hk, ketPoly_eq]
  have hb' : (bosonOf v : ℂ) ≠ 0 := by exact_mod_cast hb
  rw [C_1, one_mul, ← mul_assoc, ← C_mul, mul_one_div_cancel hb', C_1, one_mul]
  by_cases hs : v.sum > 0
  · rw [if_pos hs, List.map_map]
    have : ∀ ch ∈ photonChannels v, (statePoly g ∘ fun ch => oneComp s (g.stdName (oneHot v.length ch)) 1) ch = X (ch, s.info) := by
      intro ch hch
      simp only [Function.comp]
      rw [statePoly_oneComp s (valid_oneHot hv hch), ketPoly_eq, monoX_oneHot _ _ _ _ (mem_photonChannels hch).1, bosonOf_oneHot]
      simp
    rw [List.map_congr_left this]
    exact photonChannels_prod s.info v 0
  · rw [if_neg hs, List.map_singleton, List.prod_singleton, statePoly_oneComp s hv, ketPoly_eq, sum_zero_replicate hs, monoX_zero, bosonOf_zero]
    simp

end Verif
