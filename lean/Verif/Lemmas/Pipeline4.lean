/-
Lemmas for circuits with optical elements and time delays: what each step does to one group.
-/
import Verif.Lemmas.Pipeline3

namespace Verif
open Spec Props MvPolynomial

/-! ### From an input state to single photons -/

theorem singlePhotons_phase {g : Cfg} {s : PState} {v : Vals} {k : Comp} (hv : Valid g v) (hc : s.q.comps = [(g.stdName v, k)]) (hk : v.sum = 0 → k.amp = 1) (hn : ‖k.amp‖ = 1)
    {l : List PState} {b : ℝ} (h : singlePhotons g s = some (l, b)) : ∃ z : ℂ, ‖z‖ = 1 ∧ (l.map (statePoly g)).prod = C (b * z) * statePoly g s := by
  rw [singlePhotons_eq hv hc] at h
  obtain ⟨rfl, rfl⟩ := Prod.mk.inj (Option.some.inj h)
  have hb := (bosonOf_pos v).ne'
  have hb' : (bosonOf v : ℂ) ≠ 0 := by exact_mod_cast hb
  by_cases hs : v.sum > 0
  · refine ⟨k.amp ^ (v.sum - 1), by rw [norm_pow, hn, one_pow], ?_⟩
    rw [statePoly_single s hv hc, ketPoly_eq, if_pos hs, List.map_map]
    have : ∀ ch ∈ photonChannels v, (statePoly g ∘ fun ch => oneComp s (g.stdName (oneHot v.length ch)) k.amp) ch = C k.amp * X (ch, s.info) := by
      intro ch hch
      have hlt := (mem_photonChannels hch).1
      show statePoly g (oneComp s (g.stdName (oneHot v.length ch)) k.amp) = _
      rw [statePoly_single (oneComp s (g.stdName (oneHot v.length ch)) k.amp) (valid_oneHot hv hch) rfl, ketPoly_oneHot _ hlt]
      rfl
    rw [List.map_congr_left this, List.prod_map_mul]
    have h2 := photonChannels_prod s.info v 0
    have h2' : ((photonChannels v).map (fun ch => (X (ch, s.info) : MvPolynomial Mode ℂ))).prod = monoX s.info v 0 := h2
    rw [h2', List.map_const', List.prod_replicate, photonChannels_length, ← C_pow]
    rw [← mul_assoc, ← mul_assoc, ← C_mul, ← C_mul]
    congr 2
    have : v.sum = (v.sum - 1) + 1 := by omega
    rw [this, pow_succ]
    simp only [Nat.add_sub_cancel]
    field_simp
  · refine ⟨1, by simp, ?_⟩
    have h1 := hk (by omega)
    rw [if_neg hs, sum_zero_replicate hs, bosonOf_zero]
    rw [← sum_zero_replicate hs]
    simp only [List.map_cons, List.map_nil, List.prod_cons, List.prod_nil, mul_one, Complex.ofReal_one, C_1, one_mul]
    rw [statePoly_single s hv hc, statePoly_single (oneComp s (g.stdName v) k.amp) hv rfl]
    rfl

theorem fresh_photons {g : Cfg} (hg : g.Ok) {m : ℕ} {s : AState} (hs : FreshState g m s) {K : QState × Option PInfo → Prop} (hK : K (skel ⟨s.q, none⟩)) {fuel : ℕ}
    (hf : totalWeight (groupOfState ⟨s.q, none⟩) < fuel) :
    ∃ (out : List Column) (z : ℂ) (α : ℕ → ℂ), toPhotons g fuel (groupOfState ⟨s.q, none⟩) = some out ∧ ‖z‖ = 1 ∧ (∀ ch, ‖α ch‖ = 1) ∧
      groupPoly g out = C z * statePoly g ⟨s.q, none⟩ ∧ (∀ c ∈ out, FrameColumn g (phaseFrame g α) s.q.cum K c) ∧ ∀ c ∈ out, ∀ t ∈ c.states, PhotonState g t := by
  have hne : s.q.comps ≠ [] := by
    intro h0
    have := hs.norm
    rw [h0] at this
    simp [totalProb] at this
  have hpoly : groupPoly g (groupOfState ⟨s.q, none⟩) = statePoly g ⟨s.q, none⟩ := by
    simp [groupPoly, groupOfState, columnPoly]
  by_cases h2 : 2 ≤ s.q.comps.length
  · have hint : ∀ c ∈ groupOfState ⟨s.q, none⟩, InterferingColumn g m s.q.cum (fun _ => 1) c := by
      intro c hc
      obtain rfl := List.mem_singleton.1 hc
      refine ⟨?_, ?_, by simp, by simp, by simp, rfl, ?_⟩
      · intro t ht
        obtain rfl := List.mem_singleton.1 ht
        refine ⟨⟨hs.wf, hne, fun _ => ⟨hs.norm, hs.nonzero⟩⟩, ?_, ?_⟩
        · intro v n k hk
          exfalso
          have hk : s.q.comps = [(n, k)] := hk
          rw [hk] at h2
          simp at h2
        · intro _ p _ v _ _
          simp [numbersPhase]
      · intro ws hws ch _
        cases hws with
        | cons e1 e2 =>
          cases e2
          obtain ⟨p, hp, hn, hv⟩ := e1
          have := hs.few p hp _ hv hn
          simp only [List.map_cons, List.map_nil, List.sum_cons, List.sum_nil, add_zero]
          rename_i w
          have := getD_le_sum w (h := ch) (c := ch + 1) (by omega)
          omega
      · intro t ht
        obtain rfl := List.mem_singleton.1 ht
        exact hs.classical
    obtain ⟨out, o1, o2, o3, o4⟩ := bright_photons hg (α := fun _ => (1 : ℂ)) (by simp) hint (K := K) (by
      intro c hc ws hws
      obtain rfl := List.mem_singleton.1 hc
      refine ⟨?_, Or.inr (fun _ => rfl)⟩
      cases hws with
      | cons e1 e2 =>
        cases e2
        obtain ⟨p, hp, hn, hv⟩ := e1
        simpa using hs.few p hp _ hv hn) (by
      intro c hc t ht
      obtain rfl := List.mem_singleton.1 hc
      obtain rfl := List.mem_singleton.1 ht
      exact hK) (fuel := fuel) (by omega)
    exact ⟨out, 1, fun _ => 1, o1, by simp, by simp, by rw [o2, hpoly, C_1, one_mul], o3, o4⟩
  · have h1 : s.q.comps.length = 1 := by
      have : s.q.comps.length ≠ 0 := fun h => hne (List.length_eq_zero_iff.1 h)
      omega
    obtain ⟨⟨nm, k⟩, hp⟩ := List.length_eq_one_iff.1 h1
    obtain ⟨v, hv, hn⟩ := (wf_iff.1 hs.wf).2 (nm, k) (by rw [hp]; simp)
    simp only at hn
    subst hn
    have hnk : ‖k.amp‖ = 1 := by
      have := hs.norm
      rw [hp] at this
      simp only [totalProb, List.map_cons, List.map_nil, List.sum_cons, List.sum_nil, add_zero] at this
      have h0 := norm_nonneg k.amp
      nlinarith
    have hvac : v.sum = 0 → k.amp = 1 := hs.vacuum _ hp v hv ((isName_iff hv).2 rfl)
    have hfew : v.sum < g.L := hs.few (g.stdName v, k) (by rw [hp]; simp) v hv ((isName_iff hv).2 rfl)
    have he := singlePhotons_eq (s := ⟨s.q, none⟩) hv hp
    generalize hl : (if v.sum > 0 then (photonChannels v).map (fun ch => oneComp (⟨s.q, none⟩ : PState) (g.stdName (oneHot v.length ch)) k.amp) else [oneComp (⟨s.q, none⟩ : PState) (g.stdName v) k.amp]) = l at he
    obtain ⟨z, hz, hprod⟩ := singlePhotons_phase (s := ⟨s.q, none⟩) hv hp hvac hnk he
    obtain ⟨ns, n1, n2⟩ := single_frame hg (α := fun _ => k.amp) (fun _ => hnk) (s := ⟨s.q, none⟩) hv hp (Or.inr (fun _ => ⟨rfl, hvac⟩)) he
    obtain ⟨l1, l2⟩ := singlePhotons_out (s := ⟨s.q, none⟩) hs.wf h1 he
    obtain ⟨f, rfl⟩ : ∃ f, fuel = f + 1 := ⟨fuel - 1, by omega⟩
    let c' : Column := { states := l, amp := 1, boson := 1 * bosonOf v, gprob := s.q.cum, id := 0 }
    refine ⟨[c'], z, fun _ => k.amp, ?_, hz, fun _ => hnk, ?_, ?_, ?_⟩
    · unfold toPhotons
      rw [splitColumns_all_single f (by
        intro c hc t ht
        obtain rfl := List.mem_singleton.1 hc
        obtain rfl := List.mem_singleton.1 ht
        exact h1), Option.bind_some]
      rw [mapM_some_iff]
      refine .cons ?_ .nil
      unfold Column.singlePhotonStates
      simp only
      rw [List.mapM_cons, he]
      simp [c']
    · have hb' : (bosonOf v : ℂ) ≠ 0 := by exact_mod_cast (bosonOf_pos v).ne'
      simp only [groupPoly, columnPoly, List.map_cons, List.map_nil, List.sum_cons, List.sum_nil, add_zero]
      show C (1 / (((1 * bosonOf v : ℝ)) : ℂ)) * (l.map (statePoly g)).prod = _
      rw [hprod, ← mul_assoc, ← C_mul]
      congr 2
      push_cast
      field_simp
    · intro c hc
      obtain rfl := List.mem_singleton.1 hc
      refine ⟨⟨ns, n1, by rw [n2]; exact hfew⟩, l1, by simp [c'], by simpa [c'] using bosonOf_pos v, rfl, ?_⟩
      intro t ht
      rw [(l2 t ht).2]
      exact hK
    · intro c hc t ht
      obtain rfl := List.mem_singleton.1 hc
      exact (l2 t ht).1

/-! ### Changing the photon information -/

/-- A photon state whose photon information is changed. -/
theorem photon_rename {g : Cfg} {f : Mode → Mode} {s s' : PState} (h : PhotonState g s) (hq : s'.q = s.q)
    (hi : ∀ (ch : ℕ), ch < g.C → firstValues g s = some (oneHot g.C ch) → f (ch, s.info) = (ch, s'.info)) : statePoly g s' = rename f (statePoly g s) := by
  obtain ⟨v, a, hv, hle, hc⟩ := h
  rw [statePoly_single s hv hc, statePoly_single s' hv (by rw [hq]; exact hc), map_mul, rename_C]
  congr 1
  rcases few_cases hv hle with ⟨_, e⟩ | ⟨_, _, j, e⟩
  · rw [e, ketPoly_zeros, ketPoly_zeros, map_one]
  · have hfv : firstValues g s = some (oneHot g.C j) := by rw [← e]; exact firstValues_nums ⟨hv, _, hc⟩
    rw [e, ketPoly_oneHot _ j.2, ketPoly_oneHot _ j.2, rename_X, hi j j.2 hfv]

theorem groupPoly_map {g : Cfg} {φ : MvPolynomial Mode ℂ → MvPolynomial Mode ℂ} (h0 : φ 0 = 0) (h1 : φ 1 = 1) (ha : ∀ P Q, φ (P + Q) = φ P + φ Q) (hm : ∀ P Q, φ (P * Q) = φ P * φ Q)
    (hC : ∀ a P, φ (C a * P) = C a * φ P) {R : PState → PState → Prop} {cols out : List Column} (h : List.Forall₂ (SameColumn R) cols out)
    (hR : ∀ c ∈ cols, ∀ s ∈ c.states, ∀ s', R s s' → statePoly g s' = φ (statePoly g s)) : groupPoly g out = φ (groupPoly g cols) := by
  have hprod : ∀ {l l' : List PState}, List.Forall₂ R l l' → (∀ s ∈ l, ∀ s', R s s' → statePoly g s' = φ (statePoly g s)) → (l'.map (statePoly g)).prod = φ (l.map (statePoly g)).prod := by
    intro l l' h
    induction h with
    | nil => intro _; simp [h1]
    | @cons s s' l l' e _ ih =>
      intro hh
      rw [List.map_cons, List.map_cons, List.prod_cons, List.prod_cons, hm, ih (fun t ht => hh t (List.mem_cons_of_mem _ ht)), hh s List.mem_cons_self s' e]
  unfold groupPoly
  induction h with
  | nil => simp [h0]
  | @cons c c' cols out e _ ih =>
    rw [List.map_cons, List.map_cons, List.sum_cons, List.sum_cons, ha, ih (fun d hd => hR d (List.mem_cons_of_mem _ hd))]
    congr 1
    unfold columnPoly
    rw [e.amp, e.boson, hprod e.states (hR c List.mem_cons_self), hC]

theorem groupPoly_rename {g : Cfg} (f : Mode → Mode) {R : PState → PState → Prop} {cols out : List Column} (h : List.Forall₂ (SameColumn R) cols out)
    (hR : ∀ c ∈ cols, ∀ s ∈ c.states, ∀ s', R s s' → statePoly g s' = rename f (statePoly g s)) : groupPoly g out = rename f (groupPoly g cols) :=
  groupPoly_map (φ := rename f) (map_zero _) (map_one _) (map_add _) (map_mul _) (fun a P => by rw [map_mul, rename_C]) h hR

theorem InFrame.congr {g : Cfg} {W : ChMat g} {n : ℕ} {s s' : PState} (h : InFrame g W n s) (hq : s'.q.comps = s.q.comps) : InFrame g W n s' :=
  ⟨by rw [hq]; exact h.wf, by rw [hq]; exact h.probs, by rw [hq]; exact h.nonzero, by rw [hq]; exact h.amps⟩

/-- A step that changes states one by one. -/
theorem frame_same {g : Cfg} {W W' : ChMat g} {gp : ℝ} {K K' : QState × Option PInfo → Prop} {R : PState → PState → Prop} {c c' : Column} (h : FrameColumn g W gp K c) (hc : SameColumn R c c')
    (hR : ∀ n, n < g.L → ∀ s ∈ c.states, ∀ s', R s s' → InFrame g W n s → InFrame g W' n s') (hK : ∀ s ∈ c.states, ∀ s', R s s' → K (skel s) → K' (skel s')) : FrameColumn g W' gp K' c' := by
  obtain ⟨ns, n1, n2⟩ := h.states
  refine ⟨⟨ns, ?_, n2⟩, ?_, by rw [hc.amp]; exact h.amp, by rw [hc.boson]; exact h.boson, by rw [hc.gprob]; exact h.gprob, ?_⟩
  · have hle : ∀ n ∈ ns, n < g.L := fun n hn => lt_of_le_of_lt (List.le_sum_of_mem hn) n2
    have hst := hc.states
    have hR' : ∀ s ∈ c.states, ∀ n, n < g.L → ∀ s', R s s' → InFrame g W n s → InFrame g W' n s' := fun s hs n hn => hR n hn s hs
    generalize c.states = l at n1 hst hR'
    generalize c'.states = l' at hst
    clear n2
    induction n1 generalizing l' with
    | nil => cases hst; exact .nil
    | @cons n s ns l a1 _ ih =>
      cases hst with
      | cons b1 b2 =>
        exact .cons (hR' s List.mem_cons_self n (hle n List.mem_cons_self) _ b1 a1) (ih (fun n hn => hle n (List.mem_cons_of_mem _ hn)) (fun t ht => hR' t (List.mem_cons_of_mem _ ht)) _ b2)
  · intro h0
    have := hc.states
    rw [h0] at this
    exact h.nonempty (List.forall₂_nil_right_iff.1 this)
  · intro s' hs'
    obtain ⟨s, hs, e⟩ := forall2_left_mem hc.states.flip s' hs'
    exact hK s hs s' e (h.keeps s hs)

theorem frames_same {g : Cfg} {W W' : ChMat g} {gp : ℝ} {K K' : QState × Option PInfo → Prop} {R : PState → PState → Prop} {cols out : List Column} (h : ∀ c ∈ cols, FrameColumn g W gp K c)
    (hc : List.Forall₂ (SameColumn R) cols out) (hR : ∀ n, n < g.L → ∀ c ∈ cols, ∀ s ∈ c.states, ∀ s', R s s' → InFrame g W n s → InFrame g W' n s')
    (hK : ∀ c ∈ cols, ∀ s ∈ c.states, ∀ s', R s s' → K (skel s) → K' (skel s')) : ∀ c ∈ out, FrameColumn g W' gp K' c := by
  intro c' hc'
  obtain ⟨c, hcm, e⟩ := forall2_left_mem hc.flip c' hc'
  exact frame_same (h c hcm) e (fun n hn => hR n hn c hcm) (hK c hcm)

end Verif
