/-
Lemmas for circuits with optical elements and time delays: circuits in which nothing is dropped.
-/
import Verif.Lemmas.Pipeline9

namespace Verif
open Spec Props MvPolynomial

theorem runStage_mono {c : Circ} {a b : ℕ} (hab : a ≤ b) {e : Element} {st : Stage} (he : ElementStage c.g c.m e st) {l l' : List AState} (h : runStage c a l st = some l') : runStage c b l st = some l' := by
  cases st with
  | optics n ns => exact h
  | delay chs d w => exact onPhotons_mono hab h
  | width chs w =>
    unfold runStage setPulseWidth at h ⊢
    simp only at h ⊢
    split
    · rw [if_pos ‹_›] at h; exact h
    · rw [if_neg ‹_›] at h
      split
      · rw [if_pos ‹_›] at h; exact h
      · rw [if_neg ‹_›] at h
        exact onPhotons_mono hab h
  | quick _ _ _ => cases e <;> exact he.elim
  | measure _ _ => cases e <;> exact he.elim

theorem runStages_mono {c : Circ} {a b : ℕ} (hab : a ≤ b) {es : List Element} {stages : List Stage} (hes : List.Forall₂ (ElementStage c.g c.m) es stages) {l l' : List AState}
    (h : runStages c a stages l = some l') : runStages c b stages l = some l' := by
  induction hes generalizing l with
  | nil => exact h
  | @cons e st es stages he _ ih =>
    unfold runStages at h ⊢
    rw [List.foldlM_cons] at h ⊢
    obtain ⟨mid, h1, h2⟩ := Option.bind_eq_some_iff.1 h
    refine Option.bind_eq_some_iff.2 ⟨mid, runStage_mono hab he h1, ih h2⟩

theorem factorials_norm (w : Vals) : 1 ≤ ‖(((Real.sqrt ((w.map Nat.factorial).prod : ℕ) : ℝ) : ℂ))‖ := by
  rw [Complex.norm_real, Real.norm_eq_abs, abs_of_nonneg (Real.sqrt_nonneg _)]
  rw [show (1 : ℝ) = Real.sqrt 1 by simp]
  refine Real.sqrt_le_sqrt ?_
  have : 1 ≤ (w.map Nat.factorial).prod := by
    refine List.one_le_prod_of_one_le ?_
    intro x hx
    obtain ⟨n, _, rfl⟩ := List.mem_map.1 hx
    exact Nat.factorial_pos n
  exact_mod_cast this

theorem framePoly_coeff {g : Cfg} {W : ChMat g} {κ : Fin g.C} {info : Option PInfo} {a : Mode →₀ ℕ} (h : (framePoly g W κ info).coeff a ≠ 0) : ∃ j : ℕ, a = Finsupp.single (j, info) 1 := by
  classical
  unfold framePoly at h
  rw [coeff_sum] at h
  obtain ⟨j, _, hj⟩ := Finset.exists_ne_zero_of_sum_ne_zero h
  rw [coeff_C_mul, coeff_X] at hj
  by_contra hno
  push Not at hno
  rw [if_neg (fun e => hno j e.symm), mul_zero] at hj
  exact hj rfl

theorem framePoly_one {g : Cfg} (κ : Fin g.C) (info : Option PInfo) : framePoly g 1 κ info = X ((κ : ℕ), info) := by
  unfold framePoly
  rw [Finset.sum_eq_single κ]
  · rw [Matrix.one_apply_eq]; simp
  · intro j _ hj
    rw [Matrix.one_apply_ne hj]; simp
  · simp

/-- One photon: nothing is dropped. -/
theorem photon_keeps {g : Cfg} {thr : ℝ} (ht : thr ≤ 1) {gates : List Gate} {nodes : List (Opt × List ℕ)} (hgn : List.Forall₂ (GateNode g) gates nodes)
    (hu : ∀ e ∈ gates, e.M ∈ Matrix.unitaryGroup (Fin 2) ℂ) (hk : SinglePhotonKeeps thr gates) {s : PState} (hp : PhotonState g s) (hn : totalProb s.q.comps = 1) (w : Vals)
    (hlt : ‖amplitudeIn (opticsSubst gates (statePoly g s)) s.info w‖ ^ 2 < thr) : amplitudeIn (opticsSubst gates (statePoly g s)) s.info w = 0 := by
  classical
  obtain ⟨v, a, hv, h1, hc⟩ := hp
  have ha : ‖a‖ = 1 := by
    rw [hc] at hn
    unfold totalProb at hn
    simp only [List.map_cons, List.map_nil, List.sum_cons, List.sum_nil, add_zero] at hn
    have : 0 ≤ ‖a‖ := norm_nonneg _
    nlinarith
  rw [statePoly_single s hv hc, opticsSubst_C] at hlt ⊢
  unfold amplitudeIn at hlt ⊢
  rw [coeff_C_mul] at hlt ⊢
  set Q := opticsSubst gates (ketPoly s.info v) with hQ
  by_cases h0 : Q.coeff (monoOf s.info w) = 0
  · rw [h0]; simp
  · exfalso
    have hge : ‖Q.coeff (monoOf s.info w)‖ ^ 2 < thr := by
      refine lt_of_le_of_lt ?_ hlt
      rw [norm_mul, norm_mul, ha, one_mul]
      have := factorials_norm w
      have h2 : 0 ≤ ‖Q.coeff (monoOf s.info w)‖ := norm_nonneg _
      refine pow_le_pow_left₀ h2 ?_ 2
      nlinarith
    rcases few_cases hv h1 with ⟨_, rfl⟩ | ⟨_, _, j, rfl⟩
    · rw [ketPoly_zeros, opticsSubst_one] at hQ
      rw [hQ, MvPolynomial.coeff_one] at h0 hge
      split at h0
      · rw [if_pos ‹_›, norm_one] at hge
        linarith
      · exact h0 rfl
    · rw [ketPoly_oneHot _ j.2] at hQ
      obtain ⟨U, _, hU⟩ := gates_frame hgn hu
      have hf : Q = framePoly g (U * 1) j s.info := by rw [hQ, ← hU, framePoly_one]
      obtain ⟨i, hi⟩ := framePoly_coeff (hf ▸ h0)
      rw [hi] at h0 hge
      exact h0 (by rw [hQ]; exact hk ((j : ℕ), s.info) i (by rw [hQ] at hge; exact hge))

theorem Lit.keeps {c : Circ} (hg : c.g.Ok) (ht : c.thr ≤ 1) {es : List Element} {G0 : Groups} {l : List AState} (h : Lit c.g c.m es G0 l) (he : EndsSpectral c.g es) {gates : List Gate} {nodes : List (Opt × List ℕ)}
    (hgn : List.Forall₂ (GateNode c.g) gates nodes) (hu : ∀ e ∈ gates, e.M ∈ Matrix.unitaryGroup (Fin 2) ℂ) (hk : SinglePhotonKeeps c.thr gates) : NothingDropped c.g c.thr gates l := by
  obtain ⟨G, rfl, hG, hrel, hph⟩ := h
  intro s hs w _ hlt
  have hp := hph he s hs
  obtain ⟨e, he, x, hx, col, hc, t, htt, rfl⟩ := mem_writeGroups.1 hs
  obtain ⟨y0, q0, r1, r2, W, z, hW, hz, _, hcol⟩ := groupsRel_right hrel e he x hx
  obtain ⟨ns, n1, _⟩ := (hcol col hc).states
  obtain ⟨k, _, hin⟩ := forall2_left_mem n1.flip t htt
  exact photon_keeps ht hgn hu hk (s := ⟨t.q, t.info⟩) hp (InFrame.total hg hW hin) w hlt

/-- The steps of an evaluation alternate: no two steps with optical elements follow each other. -/
theorem stagesOf_alternate (nodes : List SNode) : ∀ (k : ℕ) (n n' : Opt × List ℕ) (l l' : List (Opt × List ℕ)), (stagesOf nodes)[k]? = some (.optics n l) → (stagesOf nodes)[k + 1]? = some (.optics n' l') → False := by
  induction nodes with
  | nil => intro k n n' l l' h; simp [stagesOf] at h
  | cons x nodes ih =>
    have tail : ∀ st : Stage, (∀ n l, st ≠ .optics n l) → ∀ (k : ℕ) (n n' : Opt × List ℕ) (l l' : List (Opt × List ℕ)),
        (st :: stagesOf nodes)[k]? = some (.optics n l) → (st :: stagesOf nodes)[k + 1]? = some (.optics n' l') → False := by
      intro st hst k n n' l l' h1 h2
      cases k with
      | zero => exact hst _ _ (Option.some.inj h1)
      | succ k => exact ih k n n' l l' h1 h2
    cases x with
    | optical M tl =>
      intro k n n' l l' h1 h2
      unfold stagesOf at h1 h2
      split at h1
      · rename_i n0 l0 st hst
        rw [hst] at h2 ih
        cases k with
        | zero => exact ih 0 n0 n' l0 l' rfl h2
        | succ k => exact ih (k + 1) n n' l l' h1 h2
      · rename_i hst
        generalize hX : stagesOf nodes = X at *
        cases k with
        | zero =>
          cases X with
          | nil => simp at h2
          | cons y X =>
            cases y with
            | optics n1 l1 => exact hst _ _ _ rfl
            | delay _ _ _ => simp at h2
            | width _ _ => simp at h2
            | quick _ _ _ => simp at h2
            | measure _ _ => simp at h2
        | succ k => 
          refine ih k n n' l l' h1 ?_
          split at h2
          · exact (hst _ _ _ rfl).elim
          · exact h2
    | delay chs d w => exact tail _ (by simp)
    | width chs w => exact tail _ (by simp)
    | quick chs d w => exact tail _ (by simp)
    | measure opt cls => exact tail _ (by simp)

theorem forall2_get {α β : Type*} {R : α → β → Prop} {l : List α} {l' : List β} (h : List.Forall₂ R l l') {k : ℕ} {a : α} (ha : l[k]? = some a) : ∃ b, l'[k]? = some b ∧ R a b := by
  induction h generalizing k with
  | nil => simp at ha
  | @cons x y l l' hxy _ ih =>
    cases k with
    | zero => exact ⟨y, rfl, by rw [List.getElem?_cons_zero] at ha; exact Option.some.inj ha ▸ hxy⟩
    | succ k => exact ih ha

theorem forall2_take {α β : Type*} {R : α → β → Prop} {l : List α} {l' : List β} (h : List.Forall₂ R l l') (k : ℕ) : List.Forall₂ R (l.take k) (l'.take k) := by
  induction h generalizing k with
  | nil => simp
  | @cons x y l l' hxy _ ih =>
    cases k with
    | zero => simp
    | succ k => exact .cons hxy (ih k)

theorem starts_take {g : Cfg} {es : List Element} {k : ℕ} {e : Element} (hk : es[k]? = some e) (he : MakesPhotons g e) (hst : StartsResolved g es) : StartsResolved g (es.take (k + 1)) := by
  induction es generalizing k with
  | nil => exact hst.elim
  | cons x es ih =>
    cases x with
    | optics gates =>
      cases k with
      | zero =>
        rw [List.getElem?_cons_zero] at hk
        obtain rfl := Option.some.inj hk
        exact he.elim
      | succ k => exact ih (k := k) hk hst
    | delay _ _ _ => exact trivial
    | width chs w => exact hst

/-- Circuits in which every optical element comes first or follows an element that makes single photons: nothing is dropped. -/
theorem keepsAll_of {c : Circ} (hg : c.g.Ok) (ht : 0 < c.thr) (ht1 : c.thr ≤ 1) {es : List Element} {stages : List Stage} (hes : List.Forall₂ (ElementStage c.g c.m) es stages) (hst : StartsResolved c.g es)
    {l0 : List AState} (hl0 : ∀ s ∈ l0, FreshState c.g c.m s) (hfirst : ∀ gates, es[0]? = some (.optics gates) → NothingDropped c.g c.thr gates l0)
    (hnext : ∀ k gates, es[k + 1]? = some (.optics gates) → SinglePhotonKeeps c.thr gates ∧ ∀ e, es[k]? = some e → MakesPhotons c.g e) : KeepsAll c es stages l0 := by
  have key : ∀ n k gates, k ≤ n → es[k]? = some (.optics gates) → ∀ (fuel : ℕ) (l' : List AState), runStages c fuel (stages.take k) l0 = some l' → NothingDropped c.g c.thr gates l' := by
    intro n
    induction n with
    | zero =>
      intro k gates hk hke fuel l' hl
      obtain rfl : k = 0 := by omega
      obtain rfl := Option.some.inj hl
      exact hfirst gates hke
    | succ n ih =>
      intro k gates hk hke fuel l' hl
      by_cases hkn : k ≤ n
      · exact ih k gates hkn hke fuel l' hl
      obtain rfl : k = n + 1 := by omega
      obtain ⟨h1, h2⟩ := hnext n gates hke
      obtain ⟨e, hen⟩ : ∃ e, es[n]? = some e := by
        have : n + 1 < es.length := by
          by_contra hc
          rw [List.getElem?_eq_none (by omega)] at hke
          cases hke
        exact ⟨es[n], List.getElem?_eq_getElem (by omega)⟩
      have hmp := h2 e hen
      have htake := forall2_take hes (n + 1)
      have hks : KeepsFrom c 0 (es.take (n + 1)) (stages.take (n + 1)) l0 := by
        intro k gates hke' fuel _ l'' hl''
        rw [List.getElem?_take] at hke'
        split at hke'
        · rename_i hlt
          rw [List.take_take, min_eq_left (by omega)] at hl''
          by_cases hkn' : k ≤ n
          · exact ih k gates hkn' hke' fuel l'' hl''
          · omega
        · cases hke'
      obtain ⟨G0, N, l1, _, r2, r3⟩ := fresh_run hg ht htake (starts_take hen hmp hst) (fresh_start hl0) hks
      have e1 := runStages_mono (le_max_left fuel N) htake hl
      rw [r2 _ (le_max_right fuel N)] at e1
      obtain rfl := Option.some.inj e1
      obtain ⟨st, _, hst'⟩ := forall2_get hes hke
      cases st with
      | optics nn ll =>
        refine r3.keeps hg ht1 ⟨es.take n, e, ?_, hmp⟩ hst'.1 hst'.2 h1
        rw [List.nil_append, List.take_succ, hen]
        rfl
      | delay _ _ _ => exact hst'.elim
      | width _ _ => exact hst'.elim
      | quick _ _ _ => exact hst'.elim
      | measure _ _ => exact hst'.elim
  exact fun k gates hk => key k k gates le_rfl hk

end Verif
