/-
Lemmas for circuits with optical elements and time delays: groups of columns of single photons.
-/
import Verif.Lemmas.Pipeline2

namespace Verif
open Spec Props MvPolynomial

/-- Whichever component is chosen for each state of the column, the photon numbers satisfy `Q`. -/
def Chooses (g : Cfg) (Q : List Vals → Prop) (c : Column) : Prop :=
  ∀ ws : List Vals, List.Forall₂ (fun (s : PState) w => ∃ p ∈ s.q.comps, IsName g w p.1 ∧ Valid g w) c.states ws → Q ws

theorem chooses_split {g : Cfg} {Q : List Vals → Prop} {c new rem : Column} (hw : ∀ s ∈ c.states, WellFormed g s.q.comps) (hc : Chooses g Q c) (h : c.split g = some (some (new, rem))) :
    Chooses g Q new ∧ Chooses g Q rem := by
  rcases split_cases h hw with ⟨h0, _⟩ | ⟨pre, s, post, s0, k0, s1, k1, rest, r', e, _, hcc, hcase⟩
  · cases h0
  have key : ∀ (comps : Comps) (d : Column), (∀ p ∈ comps, ∃ p' ∈ s.q.comps, p'.1 = p.1) → d.states = pre ++ { s with q := { s.q with comps := comps } } :: post → Chooses g Q d := by
    intro comps d hcomp hst ws hf
    refine hc ws ?_
    rw [e]
    rw [hst] at hf
    refine forall₂_mid ?_ hf
    rintro w ⟨p, hp, hw⟩
    obtain ⟨p', hp', hn⟩ := hcomp p hp
    exact ⟨p', hp', by rw [hn]; exact hw⟩
  have m0 : (s0, k0) ∈ s.q.comps := by rw [hcc]; simp
  have m1 : (s1, k1) ∈ s.q.comps := by rw [hcc]; simp
  have hk0 : ∀ p ∈ [(s0, (⟨1, ‖(1 : ℂ)‖ ^ 2⟩ : Comp))], ∃ p' ∈ s.q.comps, p'.1 = p.1 := by
    intro p hp
    obtain rfl := List.mem_singleton.1 hp
    exact ⟨_, m0, rfl⟩
  rcases hcase with ⟨f, hf, hr, hrest, hfe, hr'⟩ | ⟨hrest, hr, hr'⟩
  · obtain ⟨rfl, rfl⟩ := Prod.mk.inj (Option.some.inj hr)
    refine ⟨key _ _ hk0 rfl, key r' _ ?_ rfl⟩
    intro p hp
    rw [hr'] at hp
    obtain ⟨q, hq, rfl⟩ := List.mem_map.1 hp
    exact ⟨q, by rw [hcc]; exact List.mem_cons_of_mem _ hq, rfl⟩
  · obtain ⟨rfl, rfl⟩ := Prod.mk.inj (Option.some.inj hr)
    refine ⟨key _ _ hk0 rfl, key r' _ ?_ rfl⟩
    intro p hp
    rw [hr'] at hp
    obtain rfl := List.mem_singleton.1 hp
    exact ⟨_, m1, rfl⟩

/-- A frame in which every channel keeps its photon, with a phase. -/
noncomputable def phaseFrame (g : Cfg) (α : ℕ → ℂ) : ChMat g := Matrix.diagonal (fun j : Fin g.C => α j)

theorem phaseFrame_unitary {g : Cfg} {α : ℕ → ℂ} (hα : ∀ ch, ‖α ch‖ = 1) : phaseFrame g α ∈ Matrix.unitaryGroup (Fin g.C) ℂ := by
  rw [Matrix.mem_unitaryGroup_iff]
  unfold phaseFrame
  rw [Matrix.star_eq_conjTranspose, Matrix.diagonal_conjTranspose, Matrix.diagonal_mul_diagonal, ← Matrix.diagonal_one]
  congr 1
  funext j
  show α j * star (α j) = 1
  rw [Complex.star_def, Complex.mul_conj', hα]
  simp

theorem framePoly_phase {g : Cfg} (α : ℕ → ℂ) (κ : Fin g.C) (info : Option PInfo) : framePoly g (phaseFrame g α) κ info = C (α κ) * X ((κ : ℕ), info) := by
  unfold framePoly phaseFrame
  rw [Finset.sum_eq_single κ]
  · rw [Matrix.diagonal_apply_eq]
  · intro j _ hj
    rw [Matrix.diagonal_apply_ne _ hj]
    simp
  · intro h; exact absurd (Finset.mem_univ _) h

/-- The photon numbers of a valid state with at most one photon. -/
theorem few_cases {g : Cfg} {v : Vals} (hv : Valid g v) (h : v.sum ≤ 1) : (v.sum = 0 ∧ v = List.replicate g.C 0) ∨ (v.sum = 1 ∧ 2 ≤ g.L ∧ ∃ j : Fin g.C, v = oneHot g.C j) := by
  by_cases h0 : v.sum > 0
  · obtain ⟨ch, h2, h3⟩ := sum_one_oneHot (v := v) (by omega)
    have hlt := (mem_photonChannels (v := v) (ch := ch) (by rw [h2]; simp)).1
    rw [hv.1] at h3 hlt
    refine Or.inr ⟨by omega, ?_, ⟨ch, hlt⟩, h3⟩
    have : (1 : ℕ) ∈ v := by
      rw [h3]
      unfold oneHot
      exact List.mem_set (by simpa using hlt) 1
    have := hv.2 1 this
    omega
  · refine Or.inl ⟨by omega, ?_⟩
    rw [← hv.1]
    exact sum_zero_replicate h0

/-- A state with one component with at most one photon. -/
theorem inFrame_photon {g : Cfg} (hg : g.Ok) {α : ℕ → ℂ} (hα : ∀ ch, ‖α ch‖ = 1) {s : PState} {v : Vals} {a : ℂ} (hv : Valid g v) (h1 : v.sum ≤ 1) (hc : s.q.comps = [(g.stdName v, ⟨a, ‖a‖ ^ 2⟩)])
    (ha : a = numbersPhase α v) : InFrame g (phaseFrame g α) v.sum s := by
  have ha0 : a ≠ 0 := by
    rw [ha]
    intro h0
    have := numbersPhase_norm hα v
    rw [h0] at this
    simp at this
  refine InFrame.of_poly hg (photonState_wf ⟨v, a, hv, h1, hc⟩) ?_ ?_ ?_
  · intro p hp
    rw [hc] at hp
    obtain rfl := List.mem_singleton.1 hp
    rfl
  · intro p hp
    rw [hc] at hp
    obtain rfl := List.mem_singleton.1 hp
    exact ha0
  · rw [statePoly_single s hv hc]
    rcases few_cases hv h1 with ⟨e1, e2⟩ | ⟨e1, hL, j, e2⟩
    · refine Or.inl ⟨e1, ?_⟩
      rw [e2, ketPoly_zeros]
      simp only
      rw [ha, e2, numbersPhase_zeros, C_1, one_mul]
    · refine Or.inr ⟨e1, hL, j, ?_⟩
      rw [framePoly_phase, e2, ketPoly_oneHot s.info j.2]
      simp only
      rw [ha, e2, numbersPhase_oneHot _ j.2]

/-- The single-photon states made from a state with one component. -/
theorem single_frame {g : Cfg} (hg : g.Ok) {α : ℕ → ℂ} (hα : ∀ ch, ‖α ch‖ = 1) {s : PState} {v : Vals} {k : Comp} (hv : Valid g v) (hc : s.q.comps = [(g.stdName v, k)])
    (ha : (v.sum ≤ 1 ∧ k.amp = numbersPhase α v) ∨ ∀ ch, α ch = k.amp ∧ (v.sum = 0 → k.amp = 1)) {l : List PState} {b : ℝ} (h : singlePhotons g s = some (l, b)) :
    ∃ ns : List ℕ, List.Forall₂ (InFrame g (phaseFrame g α)) ns l ∧ ns.sum = v.sum := by
  rw [singlePhotons_eq hv hc] at h
  obtain ⟨rfl, rfl⟩ := Prod.mk.inj (Option.some.inj h)
  by_cases hs : v.sum > 0
  · rw [if_pos hs]
    refine ⟨(photonChannels v).map (fun _ => 1), ?_, ?_⟩
    · rw [List.forall₂_map_left_iff, List.forall₂_map_right_iff, List.forall₂_same]
      intro ch hch
      have hlt := (mem_photonChannels hch).1
      have hval := valid_oneHot hv hch
      have := inFrame_photon hg hα (s := oneComp s (g.stdName (oneHot v.length ch)) k.amp) hval (by rw [oneHot_sum hlt]) rfl ?_
      · rw [oneHot_sum hlt] at this
        exact this
      · rw [hv.1] at hlt
        rw [hv.1, numbersPhase_oneHot _ hlt]
        rcases ha with ⟨h1, h2⟩ | h1
        · obtain ⟨ch', h3, h4⟩ := sum_one_oneHot (v := v) (by omega)
          rw [h3] at hch
          obtain rfl := List.mem_singleton.1 hch
          rw [hv.1] at h4
          rw [h2, h4, numbersPhase_oneHot _ hlt]
        · exact (h1 ch).1.symm
    · rw [List.map_const', List.sum_replicate, photonChannels_length]
      simp
  · rw [if_neg hs]
    refine ⟨[v.sum], .cons ?_ .nil, by simp⟩
    refine inFrame_photon hg hα hv (by omega) rfl ?_
    rcases ha with ⟨_, h2⟩ | h1
    · exact h2
    · rw [sum_zero_replicate hs, hv.1, numbersPhase_zeros]
      exact (h1 0).2 (by omega)

/-- A column of states that have no photon or one photon each; all photons are described by the same unitary matrix. `K` is a property of the states that does not involve the optical
components. -/
structure FrameColumn (g : Cfg) (W : ChMat g) (gp : ℝ) (K : QState × Option PInfo → Prop) (c : Column) : Prop where
  states : ∃ ns : List ℕ, List.Forall₂ (InFrame g W) ns c.states ∧ ns.sum < g.L
  nonempty : c.states ≠ []
  amp : c.amp ≠ 0
  boson : 0 < c.boson
  gprob : c.gprob = gp
  keeps : ∀ s ∈ c.states, K (skel s)

/-- A group that is made of single photons. -/
theorem bright_photons {g : Cfg} (hg : g.Ok) {m : ℕ} {gp : ℝ} {α : ℕ → ℂ} (hα : ∀ ch, ‖α ch‖ = 1) {K : QState × Option PInfo → Prop} {cols : List Column}
    (h : ∀ c ∈ cols, InterferingColumn g m gp α c)
    (hq : ∀ c ∈ cols, Chooses g (fun ws => (ws.map List.sum).sum < g.L ∧ ((∀ w ∈ ws, w.sum ≤ 1) ∨ ∀ ch, α ch = 1)) c)
    (hk : ∀ c ∈ cols, ∀ s ∈ c.states, K (skel s)) {fuel : ℕ} (hf : totalWeight cols < fuel + cols.length) :
    ∃ out, toPhotons g fuel cols = some out ∧ groupPoly g out = groupPoly g cols ∧ (∀ c ∈ out, FrameColumn g (phaseFrame g α) gp K c) ∧ ∀ c ∈ out, ∀ s ∈ c.states, PhotonState g s := by
  obtain ⟨mid, hm, -⟩ := splitColumns_defined fuel (interfering_spl h) hf
  obtain ⟨p1, -, p3⟩ := splitColumns_poly fuel hm (fun c hc s hs' => ((h c hc).states s hs').splits.wf)
  have hint := splitColumns_inv (R := fun c => InterferingColumn g m gp α c ∧ Chooses g (fun ws => (ws.map List.sum).sum < g.L ∧ ((∀ w ∈ ws, w.sum ≤ 1) ∨ ∀ ch, α ch = 1)) c ∧
      ∀ s ∈ c.states, K (skel s)) (by
    rintro c new rem ⟨h1, h2, h3⟩ hs
    have hw : ∀ s ∈ c.states, WellFormed g s.q.comps := fun s hs' => (h1.states s hs').splits.wf
    obtain ⟨a1, a2⟩ := interfering_split c new rem h1 hs
    obtain ⟨b1, b2⟩ := chooses_split hw h2 hs
    obtain ⟨c1, c2, _⟩ := split_skel hs hw
    have hK : ∀ d : Column, d.states.map skel = c.states.map skel → ∀ s ∈ d.states, K (skel s) := by
      intro d e s hs'
      have : skel s ∈ c.states.map skel := by rw [← e]; exact List.mem_map.2 ⟨s, hs', rfl⟩
      obtain ⟨t, ht, e2⟩ := List.mem_map.1 this
      rw [← e2]
      exact h3 t ht
    exact ⟨⟨a1, b1, hK new c1.1⟩, ⟨a2, b2, hK rem c2.1⟩⟩)
    (by rintro c n ⟨h1, h2, h3⟩; exact ⟨⟨h1.states, h1.fits, h1.nonempty, h1.amp, h1.boson, h1.gprob, h1.classical⟩, h2, h3⟩) fuel hm (fun c hc => ⟨h c hc, hq c hc, hk c hc⟩)
  have hcolumn : ∀ c ∈ mid, ∃ c', c.singlePhotonStates g = some c' ∧ columnPoly g c' = columnPoly g c ∧ FrameColumn g (phaseFrame g α) gp K c' ∧ ∀ s ∈ c'.states, PhotonState g s := by
    intro c hc
    obtain ⟨h1, h2, h3⟩ := hint c hc
    obtain ⟨c', e1, e2⟩ := photon_columns h1 (p3 c hc)
    refine ⟨c', e1, e2.poly, ⟨?_, ?_, by rw [e2.amp]; exact h1.amp, e2.boson, e2.gprob, ?_⟩, e2.photons⟩
    · have hst : ∃ r, c.states.mapM (singlePhotons g) = some r ∧ c'.states = (r.map Prod.fst).flatten := by
        unfold Column.singlePhotonStates at e1
        obtain ⟨r, r1, r2⟩ := Option.map_eq_some_iff.1 e1
        exact ⟨r, r1, by rw [← r2]⟩
      obtain ⟨r, r1, r2⟩ := hst
      rw [r2]
      have key : ∀ (l : List PState) (r : List (List PState × ℝ)), l.mapM (singlePhotons g) = some r → (∀ s ∈ l, InterferingState g α s ∧ s.q.comps.length = 1) →
          ∃ vs : List Vals, List.Forall₂ (fun (s : PState) w => ∃ p ∈ s.q.comps, IsName g w p.1 ∧ Valid g w) l vs ∧
            (((∀ w ∈ vs, w.sum ≤ 1) ∨ ∀ ch, α ch = 1) → ∃ ns, List.Forall₂ (InFrame g (phaseFrame g α)) ns (r.map Prod.fst).flatten ∧ ns.sum = (vs.map List.sum).sum) := by
        intro l
        induction l with
        | nil =>
          intro r hr _
          obtain rfl := Option.some.inj hr
          exact ⟨[], .nil, fun _ => ⟨[], .nil, rfl⟩⟩
        | cons s l ih =>
          intro r hr hl
          rw [mapM_some_iff] at hr
          cases hr with
          | @cons _ y _ r' q1 q2 =>
            obtain ⟨vs, v1, v2⟩ := ih r' (mapM_some_iff.2 q2) (fun s hs => hl s (List.mem_cons_of_mem _ hs))
            obtain ⟨hs1, hs2⟩ := hl s List.mem_cons_self
            obtain ⟨⟨nm, k⟩, hp⟩ := List.length_eq_one_iff.1 hs2
            obtain ⟨v, hv, hn⟩ := (wf_iff.1 hs1.splits.wf).2 (nm, k) (by rw [hp]; simp)
            simp only at hn
            subst hn
            have hk1 := hs1.single v _ k hp hv ((isName_iff hv).2 rfl)
            refine ⟨v :: vs, .cons ⟨_, by rw [hp]; exact List.mem_singleton.2 rfl, (isName_iff hv).2 rfl, hv⟩ v1, ?_⟩
            intro hsmall
            obtain ⟨ns, n1, n2⟩ := v2 (hsmall.imp (fun hh w hw => hh w (List.mem_cons_of_mem _ hw)) id)
            obtain ⟨ns', n3, n4⟩ := single_frame hg hα hv hp (by
              rcases hsmall with hh | hh
              · exact Or.inl ⟨hh v List.mem_cons_self, hk1.1⟩
              · have h1 : k.amp = 1 := by
                  rw [hk1.1]
                  unfold numbersPhase
                  exact Finset.prod_eq_one (fun ch _ => by rw [hh, one_pow])
                exact Or.inr (fun ch => ⟨by rw [hh, h1], fun _ => h1⟩)) (l := y.1) (b := y.2) q1
            refine ⟨ns' ++ ns, ?_, by rw [List.sum_append, n2, n4, List.map_cons, List.sum_cons]⟩
            rw [List.map_cons, List.flatten_cons]
            exact List.rel_append n3 n1
      obtain ⟨vs, v1, v2⟩ := key c.states r r1 (fun s hs => ⟨h1.states s hs, p3 c hc s hs⟩)
      obtain ⟨q1, q2⟩ := h2 vs v1
      obtain ⟨ns, n1, n2⟩ := v2 q2
      exact ⟨ns, n1, by rw [n2]; exact q1⟩
    · intro h0
      obtain ⟨V, hV, _⟩ := e2.withs
      have := hV.values
      unfold columnValues at this
      rw [h0] at this
      cases this
    · intro s hs
      obtain ⟨t, ht, e⟩ := e2.skel s hs
      rw [e]
      exact h3 t ht
  obtain ⟨out, o1, o2⟩ := mapM_exists (f := Column.singlePhotonStates g) hcolumn
  have hcol : ∀ c' ∈ out, ∃ c ∈ mid, columnPoly g c' = columnPoly g c ∧ FrameColumn g (phaseFrame g α) gp K c' ∧ ∀ s ∈ c'.states, PhotonState g s := fun c' hc' => forall2_left_mem o2.flip c' hc'
  refine ⟨out, by unfold toPhotons; rw [hm, Option.bind_some, o1], ?_, ?_, ?_⟩
  · rw [← p1]
    unfold groupPoly
    clear hcol o1 hcolumn hint p1 p3 hm
    induction o2 with
    | nil => rfl
    | cons q1 _ ih => rw [List.map_cons, List.map_cons, List.sum_cons, List.sum_cons, ih, q1.1]
  · intro c hc
    obtain ⟨_, _, _, q, _⟩ := hcol c hc
    exact q
  · intro c hc
    obtain ⟨_, _, _, _, q⟩ := hcol c hc
    exact q

/-- Groups made of single photons can be split again. -/
theorem frame_interfering {g : Cfg} (hg : g.Ok) {W : ChMat g} (hW : W ∈ Matrix.unitaryGroup (Fin g.C) ℂ) {m : ℕ} {gp : ℝ} {K : QState × Option PInfo → Prop} (hK : ∀ x, K x → x.1.classical.length = m) {c : Column}
    (h : FrameColumn g W gp K c) :
    InterferingColumn g m gp (framePhase W) c ∧ Chooses g (fun ws => (ws.map List.sum).sum < g.L ∧ ((∀ w ∈ ws, w.sum ≤ 1) ∨ ∀ ch, framePhase W ch = 1)) c := by
  obtain ⟨ns, n1, n2⟩ := h.states
  have hch : ∀ ws : List Vals, List.Forall₂ (fun (s : PState) w => ∃ p ∈ s.q.comps, IsName g w p.1 ∧ Valid g w) c.states ws → (ws.map List.sum).sum = ns.sum ∧ ∀ w ∈ ws, w.sum ≤ 1 := by
    intro ws hws
    generalize c.states = l at n1 hws
    clear n2
    induction n1 generalizing ws with
    | nil => cases hws; simp
    | @cons n s ns l a1 _ ih =>
      cases hws with
      | @cons _ w _ ws b1 b2 =>
        obtain ⟨i1, i2⟩ := ih ws b2
        obtain ⟨p, hp, hn, hv⟩ := b1
        obtain ⟨e, e2⟩ := a1.comp hp hv hn
        refine ⟨by rw [List.map_cons, List.sum_cons, List.sum_cons, i1, e], ?_⟩
        intro x hx
        rcases List.mem_cons.1 hx with rfl | hx
        · rcases e2 with ⟨rfl, _⟩ | ⟨rfl, _⟩ <;> omega
        · exact i2 x hx
  refine ⟨⟨?_, ?_, h.nonempty, h.amp, h.boson, h.gprob, fun s hs => hK _ (h.keeps s hs)⟩, fun ws hws => ⟨by rw [(hch ws hws).1]; exact n2, Or.inl (hch ws hws).2⟩⟩
  · intro s hs
    obtain ⟨n, _, hn⟩ := forall2_left_mem n1.flip s hs
    exact InFrame.interfering hg hW (n := n) hn
  · intro ws hws ch _
    refine lt_of_le_of_lt ?_ ((hch ws hws).1 ▸ n2)
    have : ∀ l : List Vals, (l.map (fun w => w.getD ch 0)).sum ≤ (l.map List.sum).sum := by
      intro l
      induction l with
      | nil => simp
      | cons w l ih =>
        rw [List.map_cons, List.map_cons, List.sum_cons, List.sum_cons]
        have := getD_le_sum w (h := ch) (c := ch + 1) (by omega)
        omega
    exact this ws

end Verif
