/-
Lemmas for circuits with optical elements and time delays: the groups of a collection, step by step.
-/
import Verif.Lemmas.Pipeline5

namespace Verif
open Spec Props MvPolynomial

/-- The classical values and the probability are those of the input state. -/
def KeepsOf (q0 : QState) (x : QState × Option PInfo) : Prop := x.1.classical = q0.classical ∧ x.1.cum = q0.cum

/-- A group of single photons that comes from the input state `q0`; up to a phase it is created by `P`. -/
def LightGroup (g : Cfg) (q0 : QState) (P : MvPolynomial Mode ℂ) (cols : List Column) : Prop :=
  ∃ (W : ChMat g) (z : ℂ), W ∈ Matrix.unitaryGroup (Fin g.C) ℂ ∧ ‖z‖ = 1 ∧ groupPoly g cols = C z * P ∧ ∀ c ∈ cols, FrameColumn g W q0.cum (KeepsOf q0) c

theorem LightGroup.photons {g : Cfg} (hg : g.Ok) {q0 : QState} {P : MvPolynomial Mode ℂ} {cols : List Column} (h : LightGroup g q0 P cols) {fuel : ℕ} (hf : totalWeight cols < fuel + cols.length) :
    ∃ out, toPhotons g fuel cols = some out ∧ LightGroup g q0 P out ∧ ∀ c ∈ out, ∀ s ∈ c.states, PhotonState g s := by
  obtain ⟨W, z, hW, hz, hp, hc⟩ := h
  have hK : ∀ x, KeepsOf q0 x → x.1.classical.length = q0.classical.length := fun x hx => by rw [hx.1]
  obtain ⟨out, o1, o2, o3, o4⟩ := bright_photons hg (framePhase_norm W) (fun c hc' => (frame_interfering hg hW hK (hc c hc')).1) (fun c hc' => (frame_interfering hg hW hK (hc c hc')).2)
    (fun c hc' => (hc c hc').keeps) hf
  exact ⟨out, o1, ⟨_, z, phaseFrame_unitary (framePhase_norm W), hz, by rw [o2, hp], o3⟩, o4⟩

theorem fresh_light {g : Cfg} (hg : g.Ok) {m : ℕ} {s : AState} (hs : FreshState g m s) {fuel : ℕ} (hf : totalWeight (groupOfState ⟨s.q, none⟩) < fuel) :
    ∃ out, toPhotons g fuel (groupOfState ⟨s.q, none⟩) = some out ∧ LightGroup g s.q (statePoly g ⟨s.q, none⟩) out ∧ ∀ c ∈ out, ∀ s ∈ c.states, PhotonState g s := by
  obtain ⟨out, z, α, o1, o2, o3, o4, o5, o6⟩ := fresh_photons hg hs (K := KeepsOf s.q) ⟨rfl, rfl⟩ hf
  exact ⟨out, o1, ⟨_, z, phaseFrame_unitary o3, o2, o4, o5⟩, o6⟩

/-- A change of the photon information of photon states. -/
theorem LightGroup.rename {g : Cfg} {q0 : QState} {P : MvPolynomial Mode ℂ} {cols : List Column} (h : LightGroup g q0 P cols) {f : PState → Option PState} {φ : Mode → Mode}
    (hf : ∀ c ∈ cols, ∀ s ∈ c.states, s.q.classical = q0.classical → ∃ s', f s = some s' ∧ s'.q = s.q ∧ statePoly g s' = MvPolynomial.rename φ (statePoly g s)) :
    ∃ out, mapStates f cols = some out ∧ LightGroup g q0 (MvPolynomial.rename φ P) out := by
  obtain ⟨W, z, hW, hz, hp, hc⟩ := h
  have hcl : ∀ c ∈ cols, ∀ s ∈ c.states, s.q.classical = q0.classical := fun c hc' s hs => ((hc c hc').keeps s hs).1
  have hmap : ∃ out, mapStates f cols = some out := by
    unfold mapStates
    obtain ⟨r, h1, _⟩ := mapM_exists (f := fun (c : Column) => (c.states.mapM f).map (fun sts => ({ c with states := sts } : Column))) (R := fun _ _ => True) (l := cols) (by
      intro c hc'
      obtain ⟨r, h1, _⟩ := mapM_exists (f := f) (R := fun _ _ => True) (l := c.states) (by
        intro s hs
        obtain ⟨s', h1, _⟩ := hf c hc' s hs (hcl c hc' s hs)
        exact ⟨s', h1, trivial⟩)
      exact ⟨_, by rw [h1]; rfl, trivial⟩)
    exact ⟨r, h1⟩
  obtain ⟨out, ho⟩ := hmap
  have hsame := mapStates_some.1 ho
  have key : ∀ c ∈ cols, ∀ s ∈ c.states, ∀ s', f s = some s' → s'.q = s.q ∧ statePoly g s' = MvPolynomial.rename φ (statePoly g s) := by
    intro c hc' s hs s' hs'
    obtain ⟨s2, h1, h2⟩ := hf c hc' s hs (hcl c hc' s hs)
    rw [hs'] at h1
    obtain rfl := Option.some.inj h1
    exact h2
  refine ⟨out, ho, W, z, hW, hz, ?_, ?_⟩
  · rw [groupPoly_rename φ hsame (fun c hc' s hs s' hs' => (key c hc' s hs s' hs').2), hp, map_mul, rename_C]
  · refine frames_same hc hsame ?_ ?_
    · intro n _ c hc' s hs s' hs' hi
      exact hi.congr (by rw [(key c hc' s hs s' hs').1])
    · intro c hc' s hs s' hs' hk
      unfold KeepsOf skel at hk ⊢
      rw [(key c hc' s hs s' hs').1]
      exact hk

theorem oneHot_has {g : Cfg} {ch : ℕ} (hch : ch < g.C) (chs : List ℕ) : HasPhotonIn (oneHot g.C ch) chs ↔ ch ∈ chs := by
  unfold HasPhotonIn
  constructor
  · rintro ⟨i, hi, h0⟩
    rw [oneHot_at hch] at h0
    by_cases e : i = ch
    · rw [← e]; exact hi
    · rw [if_neg e] at h0; exact absurd rfl h0
  · intro h
    exact ⟨ch, h, by rw [oneHot_at hch, if_pos rfl]; simp⟩

theorem LightGroup.delay {g : Cfg} {m : ℕ} {q0 : QState} (hm : q0.classical.length = m) {P : MvPolynomial Mode ℂ} {cols : List Column} (h : LightGroup g q0 P cols) (hph : ∀ c ∈ cols, ∀ s ∈ c.states, PhotonState g s)
    {chs : List ℕ} {d : DelaySource} (hch : ∀ ch ∈ chs, ch < g.C) (hd : ∀ ch, d = .classical ch → ch < m) (w : ℝ) :
    ∃ out, mapStates (delayState g chs d w) cols = some out ∧ LightGroup g q0 (MvPolynomial.rename (delayMode chs (delayFor q0.classical d) w) P) out := by
  refine h.rename ?_
  intro c hc s hs hcl
  have hp := hph c hc s hs
  obtain ⟨v, a, hv, hle, hcc⟩ := hp
  have hfv : firstValues g s = some v := firstValues_nums ⟨hv, _, hcc⟩
  obtain ⟨b, hb⟩ := photonIn_defined (v := v) (chs := chs) (by rw [hv.1]; exact hch)
  have hread : d.read s.q = some (delayFor q0.classical d) := by
    cases d with
    | value t => rfl
    | classical ch =>
      have hlt := hd ch rfl
      simp only [DelaySource.read, delayFor]
      rw [hcl, List.getElem?_eq_getElem (by omega), List.getD_eq_getElem _ _ (by omega)]
  have hdef : ∃ s', delayState g chs d w s = some s' := by
    unfold delayState
    rw [hread, Option.bind_some, hfv, Option.bind_some, hb]
    exact ⟨_, rfl⟩
  obtain ⟨s', hs'⟩ := hdef
  obtain ⟨e1, v2, t, e2, e3, e4⟩ := delayState_some hs'
  refine ⟨s', hs', e1, photon_rename (hph c hc s hs) e1 ?_⟩
  intro ch hch' e5
  have ht : t = delayFor q0.classical d := by
    rw [← delayIs_iff, hread] at e3
    exact (Option.some.inj e3).symm
  rw [e5] at e2
  obtain rfl := Option.some.inj e2
  unfold delayMode
  rw [e4, ht]
  simp only [oneHot_has hch']

theorem LightGroup.width {g : Cfg} {q0 : QState} {P : MvPolynomial Mode ℂ} {cols : List Column} (h : LightGroup g q0 P cols) (hph : ∀ c ∈ cols, ∀ s ∈ c.states, PhotonState g s)
    {chs : List ℕ} (hch : ∀ ch ∈ chs, ch < g.C) (w : ℝ) :
    ∃ out, mapStates (widthState g chs w) cols = some out ∧ LightGroup g q0 (MvPolynomial.rename (widthMode chs w) P) out := by
  refine h.rename ?_
  intro c hc s hs hcl
  have hp := hph c hc s hs
  obtain ⟨v, a, hv, hle, hcc⟩ := hp
  have hfv : firstValues g s = some v := firstValues_nums ⟨hv, _, hcc⟩
  obtain ⟨b, hb⟩ := photonIn_defined (v := v) (chs := chs) (by rw [hv.1]; exact hch)
  have hdef : ∃ s', widthState g chs w s = some s' := by
    unfold widthState
    rw [hfv, Option.bind_some, hb]
    exact ⟨_, rfl⟩
  obtain ⟨s', hs'⟩ := hdef
  obtain ⟨e1, v2, e2, e4⟩ := widthState_some hs'
  refine ⟨s', hs', e1, photon_rename (hph c hc s hs) e1 ?_⟩
  intro ch hch' e5
  rw [e5] at e2
  obtain rfl := Option.some.inj e2
  unfold widthMode
  rw [e4]
  simp only [oneHot_has hch']

/-- The pulse width is set for all channels. -/
theorem LightGroup.widthAll {g : Cfg} (hg : g.Ok) {q0 : QState} {P : MvPolynomial Mode ℂ} {cols out : List Column} (h : LightGroup g q0 P cols) {chs : List ℕ} (hall : ∀ ch < g.C, ch ∈ chs) {w : ℝ}
    (ho : List.Forall₂ (SameColumn (fun s s' => s'.q = s.q ∧ s'.info = some ⟨delayOf s.info, w⟩)) cols out) : LightGroup g q0 (MvPolynomial.rename (widthMode chs w) P) out := by
  obtain ⟨W, z, hW, hz, hp, hc⟩ := h
  refine ⟨W, z, hW, hz, ?_, ?_⟩
  · rw [groupPoly_rename (widthMode chs w) ho ?_, hp, map_mul, rename_C]
    rintro c hc' s hs s' ⟨e1, e2⟩
    obtain ⟨ns, n1, _⟩ := (hc c hc').states
    obtain ⟨n, _, hn⟩ := forall2_left_mem n1.flip s hs
    have hn : InFrame g W n s := hn
    have hn' : InFrame g W n s' := hn.congr (by rw [e1])
    rcases hn.poly hg with ⟨f1, f2⟩ | ⟨f1, _, κ, f2⟩
    · rcases hn'.poly hg with ⟨_, f3⟩ | ⟨f3, _⟩
      · rw [f2, f3, map_one]
      · omega
    · have hL : 2 ≤ g.L := by
        rcases hn.amps with ⟨f3, _⟩ | ⟨_, f3, _⟩
        · omega
        · exact f3
      have hv : statePoly g s' = framePoly g W κ s'.info := by
        rw [statePoly_vec hg.1 s' hn'.wf, e1, framePoly_vec hg hL]
        refine vecPoly_congr (fun i hi => ?_)
        have h3 := f2
        rw [framePoly_vec hg hL] at h3
        have hvi := g.valid_valuesFromIndex hg.1 i
        have h4 := ampOf_poly hg hn.wf h3 hvi
        rw [← g.indexOf_valuesFromIndex hi, vec_index hvi, h4, g.indexOf_valuesFromIndex hi]
      rw [hv, f2]
      unfold framePoly
      rw [map_sum]
      refine Finset.sum_congr rfl (fun j _ => ?_)
      rw [map_mul, rename_C, rename_X, e2]
      unfold widthMode
      simp only [if_pos (hall j j.2)]
  · refine frames_same hc ho ?_ ?_
    · rintro n _ c hc' s hs s' ⟨e1, _⟩ hi
      exact hi.congr (by rw [e1])
    · rintro c hc' s hs s' ⟨e1, _⟩ hk
      unfold KeepsOf skel at hk ⊢
      rw [e1]
      exact hk

/-- A state before and after optical elements. -/
def OpticsStep (g : Cfg) (thr : ℝ) (full : Bool) (gates : List Gate) (n : Opt × List ℕ) (l : List (Opt × List ℕ)) (s s' : PState) : Prop :=
  s'.info = s.info ∧ (∃ comps, applyOptical g thr full (standardKeys g) n l s.q.comps = some comps ∧ s'.q = { s.q with comps := comps }) ∧
    ∀ w, Valid g w → ‖amplitudeIn (opticsSubst gates (statePoly g s)) s.info w‖ ^ 2 < thr → amplitudeIn (opticsSubst gates (statePoly g s)) s.info w = 0

theorem LightGroup.optics {g : Cfg} (hg : g.Ok) {thr : ℝ} (ht : 0 < thr) {full : Bool} {gates : List Gate} {n : Opt × List ℕ} {l : List (Opt × List ℕ)} (hgn : List.Forall₂ (GateNode g) gates (n :: l))
    (hu : ∀ e ∈ gates, e.M ∈ Matrix.unitaryGroup (Fin 2) ℂ) {q0 : QState} {P : MvPolynomial Mode ℂ} {cols out : List Column} (h : LightGroup g q0 P cols)
    (ho : List.Forall₂ (SameColumn (OpticsStep g thr full gates n l)) cols out) : LightGroup g q0 (opticsSubst gates P) out := by
  obtain ⟨W, z, hW, hz, hp, hc⟩ := h
  obtain ⟨U, hU, hUU⟩ := gates_frame hgn hu
  have key : ∀ k, k < g.L → ∀ s s', OpticsStep g thr full gates n l s s' → InFrame g W k s → InFrame g (U * W) k s' ∧ statePoly g s' = opticsSubst gates (statePoly g s) := by
    rintro k hk s s' ⟨e1, ⟨comps, e2, e3⟩, e4⟩ hi
    obtain ⟨c', h1, h2⟩ := frame_optics hg ht full hgn hUU hW hi hk e4
    rw [e2] at h1
    obtain rfl := Option.some.inj h1
    exact h2 s' (by rw [e3]) e1
  refine ⟨U * W, z, mul_mem hU hW, hz, ?_, ?_⟩
  · rw [groupPoly_map (φ := opticsSubst gates) (opticsSubst_zero gates) (opticsSubst_one gates) (opticsSubst_add gates) (opticsSubst_mul gates) (opticsSubst_C gates) ho ?_, hp, opticsSubst_C]
    intro c hc' s hs s' hs'
    obtain ⟨ns, n1, n2⟩ := (hc c hc').states
    obtain ⟨k, hk, hn⟩ := forall2_left_mem n1.flip s hs
    exact (key k (lt_of_le_of_lt (List.le_sum_of_mem hk) n2) s s' hs' hn).2
  · refine frames_same hc ho ?_ ?_
    · intro k hk c hc' s hs s' hs' hi
      exact (key k hk s s' hs' hi).1
    · rintro c hc' s hs s' ⟨_, ⟨comps, _, e3⟩, _⟩ hk
      unfold KeepsOf skel at hk ⊢
      rw [e3]
      exact hk

/-- A state of a group of single photons can pass the optical elements. -/
theorem LightGroup.passes {g : Cfg} (hg : g.Ok) {m : ℕ} {thr : ℝ} (ht : 0 < thr) (full : Bool) {gates : List Gate} {n : Opt × List ℕ} {l : List (Opt × List ℕ)} (hgn : List.Forall₂ (GateNode g) gates (n :: l))
    (hu : ∀ e ∈ gates, e.M ∈ Matrix.unitaryGroup (Fin 2) ℂ) {q0 : QState} (hm : q0.classical.length = m) (hcum : 0 ≤ q0.cum ∧ q0.cum ≤ 1) {P : MvPolynomial Mode ℂ} {cols : List Column} (h : LightGroup g q0 P cols)
    {c : Column} (hcc : c ∈ cols) {s : PState} (hs : s ∈ c.states)
    (hthr : ∀ w, Valid g w → ‖amplitudeIn (opticsSubst gates (statePoly g s)) s.info w‖ ^ 2 < thr → amplitudeIn (opticsSubst gates (statePoly g s)) s.info w = 0) :
    CheckValid thr m s.q ∧ ∃ comps, applyOptical g thr full (standardKeys g) n l s.q.comps = some comps := by
  obtain ⟨W, z, hW, hz, hp, hc⟩ := h
  obtain ⟨U, hU, hUU⟩ := gates_frame hgn hu
  obtain ⟨ns, n1, n2⟩ := (hc c hcc).states
  obtain ⟨k, hk, hn⟩ := forall2_left_mem n1.flip s hs
  have hn : InFrame g W k s := hn
  obtain ⟨k1, k2⟩ := (hc c hcc).keeps s hs
  have k1 : s.q.classical = q0.classical := k1
  have k2 : s.q.cum = q0.cum := k2
  refine ⟨⟨by rw [k2]; linarith [hcum.1], by rw [k2]; linarith [hcum.2], ?_, by rw [k1, hm]⟩, ?_⟩
  · intro p hp'
    have h1 := hn.probs p hp'
    have h2 := hn.total hg hW
    rw [h1]
    have h3 : ‖p.2.amp‖ ^ 2 ≤ totalProb s.q.comps := by
      unfold totalProb
      exact List.single_le_sum (by
        intro x hx
        obtain ⟨p, _, rfl⟩ := List.mem_map.1 hx
        positivity) _ (List.mem_map.2 ⟨p, hp', rfl⟩)
    have h4 : 0 ≤ ‖p.2.amp‖ ^ 2 := by positivity
    constructor <;> linarith
  · obtain ⟨c', h1, _⟩ := frame_optics hg ht full hgn hUU hW hn (lt_of_le_of_lt (List.le_sum_of_mem hk) n2) hthr
    exact ⟨c', h1⟩

end Verif
