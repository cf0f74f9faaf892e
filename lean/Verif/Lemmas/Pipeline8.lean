/-
Lemmas for circuits with optical elements and time delays: the evaluation of a circuit.
-/
import Verif.Lemmas.Pipeline7

namespace Verif
open Spec Props MvPolynomial

/-- Reading collections of states without photon information that are related one by one. -/
theorem read_fresh {S : AState → AState → Prop} {l0 l : List AState} (h : List.Forall₂ (fun s0 s => s0.aux = none ∧ s.aux = none ∧ s.q.initial = s0.q.initial ∧ S s0 s) l0 l) :
    ∃ G0 G, readGroups l0 = some G0 ∧ readGroups l = some G ∧
      GroupsRel (fun a b => ∃ s0 s, S s0 s ∧ a = groupOfState ⟨s0.q, none⟩ ∧ b = groupOfState ⟨s.q, none⟩) G0 G := by
  have set_rel : ∀ {α β : Type} [DecidableEq α] {R : β → β → Prop} {d d' : Dict α β} (k : α) {v v' : β}, List.Forall₂ (fun (x x' : α × β) => x'.1 = x.1 ∧ R x.2 x'.2) d d' → R v v' →
      List.Forall₂ (fun (x x' : α × β) => x'.1 = x.1 ∧ R x.2 x'.2) (d.set k v) (d'.set k v') := by
    intro α β _ R d d' k v v' hd hv
    induction hd with
    | nil => exact .cons ⟨rfl, hv⟩ .nil
    | @cons x x' d d' a b ih =>
      obtain ⟨k1, v1⟩ := x
      obtain ⟨k2, v2⟩ := x'
      obtain ⟨a1, a2⟩ := a
      simp only at a1 a2
      subst a1
      unfold Dict.set
      split
      · exact .cons ⟨rfl, hv⟩ b
      · exact .cons ⟨rfl, a2⟩ ih
  have get_rel : ∀ {α β : Type} [DecidableEq α] {R : β → β → Prop} {d d' : Dict α β} (k : α) {v v' : β}, List.Forall₂ (fun (x x' : α × β) => x'.1 = x.1 ∧ R x.2 x'.2) d d' → R v v' →
      R ((d.get? k).getD v) ((d'.get? k).getD v') := by
    intro α β _ R d d' k v v' hd hv
    induction hd with
    | nil => exact hv
    | @cons x x' d d' a b ih =>
      obtain ⟨k1, v1⟩ := x
      obtain ⟨k2, v2⟩ := x'
      obtain ⟨a1, a2⟩ := a
      simp only at a1 a2
      subst a1
      unfold Dict.get?
      split
      · exact a2
      · exact ih
  have next_rel : ∀ {R : List Column → List Column → Prop} {d d' : Dict ℕ (List Column)}, List.Forall₂ (fun (x x' : ℕ × List Column) => x'.1 = x.1 ∧ R x.2 x'.2) d d' → nextGroupId d' = nextGroupId d := by
    intro R d d' hd
    have hk : Dict.keys d' = Dict.keys d := by
      unfold Dict.keys
      induction hd with
      | nil => rfl
      | cons a _ ih => rw [List.map_cons, List.map_cons, a.1, ih]
    unfold nextGroupId
    rw [hk, hd.length_eq]
  set R : List Column → List Column → Prop := fun a b => ∃ s0 s, S s0 s ∧ a = groupOfState ⟨s0.q, none⟩ ∧ b = groupOfState ⟨s.q, none⟩ with hR
  have key : ∀ (l0 l : List AState) (G0 G : Groups), List.Forall₂ (fun s0 s => s0.aux = none ∧ s.aux = none ∧ s.q.initial = s0.q.initial ∧ S s0 s) l0 l → GroupsRel R G0 G →
      ∃ G0' G', l0.foldlM readState G0 = some G0' ∧ l.foldlM readState G = some G' ∧ GroupsRel R G0' G' := by
    intro l0 l G0 G h
    induction h generalizing G0 G with
    | nil => intro hG; exact ⟨G0, G, rfl, rfl, hG⟩
    | @cons s0 s l0 l a _ ih =>
      intro hG
      obtain ⟨a1, a2, a3, a4⟩ := a
      have hgs := get_rel (R := List.Forall₂ (fun (x x' : ℕ × List Column) => x'.1 = x.1 ∧ R x.2 x'.2)) s0.q.initial (v := []) (v' := []) hG .nil
      have hnew := set_rel (nextGroupId ((G0.get? s0.q.initial).getD [])) hgs (v := groupOfState ⟨s0.q, none⟩) (v' := groupOfState ⟨s.q, none⟩) ⟨s0, s, a4, rfl, rfl⟩
      have hG1 := set_rel s0.q.initial hG hnew
      obtain ⟨G0', G', e1, e2, e3⟩ := ih _ _ hG1
      refine ⟨G0', G', ?_, ?_, e3⟩
      · rw [List.foldlM_cons]
        obtain ⟨q, aux⟩ := s0
        simp only at a1
        subst a1
        exact e1
      · rw [List.foldlM_cons]
        rw [← next_rel hgs, ← a3] at e2
        obtain ⟨q, aux⟩ := s
        simp only at a2
        subst a2
        exact e2
  exact key l0 l [] [] h .nil

/-! ### The two kinds of collections -/

/-- The group `cols` comes from the group `cols0` of one input state after the elements `es`. -/
def Origin (g : Cfg) (m : ℕ) (es : List Element) (cols0 cols : List Column) : Prop :=
  ∃ q0, FreshState g m ⟨q0, none⟩ ∧ cols0 = groupOfState ⟨q0, none⟩ ∧ LightGroup g q0 (circuitSubst q0.classical es (statePoly g ⟨q0, none⟩)) cols

/-- The last element makes single photons. -/
def EndsSpectral (g : Cfg) (es : List Element) : Prop := ∃ es' e, es = es' ++ [e] ∧ MakesPhotons g e

/-- A collection with photon information. -/
def Lit (g : Cfg) (m : ℕ) (es : List Element) (G0 : Groups) (l : List AState) : Prop :=
  ∃ G, l = writeGroups G ∧ Proper G ∧ GroupsRel (Origin g m es) G0 G ∧ (EndsSpectral g es → ∀ s ∈ l, PhotonState g ⟨s.q, none⟩)

theorem ends_snoc {g : Cfg} {es : List Element} {e : Element} (h : EndsSpectral g (es ++ [e])) : MakesPhotons g e := by
  obtain ⟨es', e', h1, h2⟩ := h
  obtain ⟨_, h3⟩ := List.append_inj' h1 rfl
  obtain ⟨rfl, _⟩ := List.cons.inj h3
  exact h2

/-- A state without photon information before and after the elements `es`. -/
structure FreshStep (g : Cfg) (m : ℕ) (es : List Element) (s0 s : AState) : Prop where
  before : FreshState g m s0
  after : FreshState g m s
  initial : s.q.initial = s0.q.initial
  classical : s.q.classical = s0.q.classical
  cum : s.q.cum = s0.q.cum
  poly : statePoly g ⟨s.q, none⟩ = circuitSubst s0.q.classical es (statePoly g ⟨s0.q, none⟩)

theorem circuitSubst_snoc (cl : List ℝ) (es : List Element) (e : Element) (P : MvPolynomial Mode ℂ) : circuitSubst cl (es ++ [e]) P = elementSubst cl (circuitSubst cl es P) e := by
  unfold circuitSubst
  rw [List.foldl_append]
  rfl

theorem LightGroup.congr {g : Cfg} {q q0 : QState} (h1 : q.classical = q0.classical) (h2 : q.cum = q0.cum) {P : MvPolynomial Mode ℂ} {cols : List Column} (h : LightGroup g q P cols) : LightGroup g q0 P cols := by
  unfold LightGroup KeepsOf at h ⊢
  rw [← h1, ← h2]
  exact h

theorem LightGroup.wf {g : Cfg} {q0 : QState} {P : MvPolynomial Mode ℂ} {cols : List Column} (h : LightGroup g q0 P cols) : WfCols g cols := by
  obtain ⟨W, z, hW, hz, hp, hc⟩ := h
  intro c hc' s hs
  obtain ⟨ns, n1, n2⟩ := (hc c hc').states
  obtain ⟨k, hk, hn⟩ := forall2_left_mem n1.flip s hs
  exact InFrame.wf (W := W) (n := k) hn

/-- A group of which single photons can be made. -/
def Ready (g : Cfg) (m : ℕ) (es : List Element) (cols0 cols : List Column) : Prop :=
  ∃ q0, FreshState g m ⟨q0, none⟩ ∧ cols0 = groupOfState ⟨q0, none⟩ ∧ WfCols g cols ∧
    ∀ fuel, totalWeight cols < fuel → ∃ out, toPhotons g fuel cols = some out ∧ LightGroup g q0 (circuitSubst q0.classical es (statePoly g ⟨q0, none⟩)) out ∧ ∀ c ∈ out, ∀ s ∈ c.states, PhotonState g s

theorem Origin.ready {g : Cfg} (hg : g.Ok) {m : ℕ} {es : List Element} {cols0 cols : List Column} (h : Origin g m es cols0 cols) : Ready g m es cols0 cols := by
  obtain ⟨q0, h1, h2, h3⟩ := h
  exact ⟨q0, h1, h2, h3.wf, fun fuel hf => h3.photons hg (by omega)⟩

/-- A spectral element on a collection. -/
theorem spectral_step {g : Cfg} {m : ℕ} {es : List Element} {e : Element} {G0 G : Groups} {l : List AState} (hr : readGroups l = some G) (hrel : GroupsRel (Ready g m es) G0 G)
    {f : List Column → Option (List Column)} (hf : ∀ (q0 : QState) (P : MvPolynomial Mode ℂ) (cols : List Column), q0.classical.length = m → LightGroup g q0 P cols → (∀ c ∈ cols, ∀ s ∈ c.states, PhotonState g s) →
      ∃ out, f cols = some out ∧ LightGroup g q0 (elementSubst q0.classical P e) out)
    (hpr : ∀ ini cols out, f cols = some out → ProperGroup ini cols → ProperGroup ini out)
    (hph : ∀ cols out, f cols = some out → (∀ c ∈ cols, ∀ s ∈ c.states, PhotonState g s) → ∀ c ∈ out, ∀ s ∈ c.states, PhotonState g s) :
    ∃ N l', (∀ fuel ≥ N, onPhotons g fuel f l = some l') ∧ Lit g m (es ++ [e]) G0 l' := by
  have hG := readGroups_proper hr
  let N := ((allGroups G).map totalWeight).sum + 1
  have hN : ∀ e ∈ G, ∀ x ∈ e.2, totalWeight x.2 < N := by
    intro e he x hx
    have : totalWeight x.2 ∈ (allGroups G).map totalWeight := List.mem_map.2 ⟨x.2, mem_allGroups.2 ⟨e, he, x, hx, rfl⟩, rfl⟩
    have := List.le_sum_of_mem this
    omega
  obtain ⟨G', g1, g2⟩ := groups_exists (f := fun cols => (toPhotons g N cols).bind f)
    (R := fun x y => (∀ y0, Ready g m es y0 x → Origin g m (es ++ [e]) y0 y) ∧ (∀ ini, ProperGroup ini x → ProperGroup ini y) ∧ ∀ c ∈ y, ∀ s ∈ c.states, PhotonState g s) (G := G) (by
      intro e' he' x hx
      obtain ⟨y0, q0, r1, r2, r3, r4⟩ := groupsRel_right hrel e' he' x hx
      obtain ⟨out, o1, o2, o3⟩ := r4 N (hN e' he' x hx)
      obtain ⟨out', p1, p2⟩ := hf q0 _ out r1.classical o2 o3
      refine ⟨out', by rw [o1, Option.bind_some, p1], ?_, ?_, hph _ _ p1 o3⟩
      · rintro y1 ⟨q1, s1, s2, _, s4⟩
        obtain ⟨out2, t1, t2, t3⟩ := s4 N (hN e' he' x hx)
        rw [o1] at t1
        obtain rfl := Option.some.inj t1
        obtain ⟨out3, u1, u2⟩ := hf q1 _ out s1.classical t2 t3
        rw [p1] at u1
        obtain rfl := Option.some.inj u1
        exact ⟨q1, s1, s2, by rw [circuitSubst_snoc]; exact u2⟩
      · intro ini hi
        exact hpr ini out out' p1 (toPhotons_out r3 hi o1).1)
  refine ⟨N, writeGroups G', fun fuel hfuel => onPhotons_mono hfuel ?_, G', rfl, ?_, groupsRel_trans hrel g2 (fun x y z hx hy => hy.1 x hx), fun _ => ?_⟩
  · unfold onPhotons
    rw [hr, Option.bind_some, g1]
    rfl
  · exact groupsRel_proper hG g2 (fun e' he' x hx y hy => hy.2.1 e'.1 ((hG.groups e' he').2.2 x hx))
  · intro s hs
    obtain ⟨e', he', x, hx, c, hc, t, ht, rfl⟩ := mem_writeGroups.1 hs
    obtain ⟨_, _, _, hp⟩ := groupsRel_right g2 e' he' x hx
    exact hp c hc t ht

theorem mapStates_proper {f : PState → Option PState} (hf : ∀ s s', f s = some s' → s'.q = s.q) {ini : List Char} {cols out : List Column} (h : mapStates f cols = some out) (hp : ProperGroup ini cols) :
    ProperGroup ini out :=
  same_proper (fun s s' hs => by rw [hf s s' hs]) (mapStates_some.1 h) hp

theorem mapStates_photon {g : Cfg} {f : PState → Option PState} (hf : ∀ s s', f s = some s' → s'.q = s.q) {cols out : List Column} (h : mapStates f cols = some out)
    (hp : ∀ c ∈ cols, ∀ s ∈ c.states, PhotonState g s) : ∀ c ∈ out, ∀ s ∈ c.states, PhotonState g s := by
  intro c hc s hs
  obtain ⟨c0, hc0, e⟩ := forall2_left_mem (mapStates_some.1 h).flip c hc
  obtain ⟨s0, hs0, e'⟩ := forall2_left_mem e.states.flip s hs
  have := hp c0 hc0 s0 hs0
  unfold PhotonState at this ⊢
  rw [hf _ _ e']
  exact this

/-- A time delay. -/
theorem delay_step {g : Cfg} {m : ℕ} {es : List Element} {G0 G : Groups} {l : List AState} (hr : readGroups l = some G) (hrel : GroupsRel (Ready g m es) G0 G) {chs : List ℕ} {d : DelaySource} (w : ℝ)
    (hch : ∀ ch ∈ chs, ch < g.C) (hd : ∀ ch, d = .classical ch → ch < m) :
    ∃ N l', (∀ fuel ≥ N, timeDelayFull g fuel chs d w l = some l') ∧ Lit g m (es ++ [.delay chs d w]) G0 l' :=
  spectral_step hr hrel (f := mapStates (delayState g chs d w)) (fun _ _ _ hm h hph => h.delay hm hph hch hd w)
    (fun _ _ _ h hp => mapStates_proper (fun _ _ hs => (delayState_some hs).1) h hp) (fun _ _ h hp => mapStates_photon (fun _ _ hs => (delayState_some hs).1) h hp)

/-- A pulse width for some channels. -/
theorem width_step {g : Cfg} {m : ℕ} {es : List Element} {G0 G : Groups} {l : List AState} (hr : readGroups l = some G) (hrel : GroupsRel (Ready g m es) G0 G) {chs : List ℕ} (w : ℝ)
    (hch : ∀ ch ∈ chs, ch < g.C) (hne : chs ≠ []) (hnot : ∃ ch < g.C, ch ∉ chs) :
    ∃ N l', (∀ fuel ≥ N, setPulseWidth g fuel chs w l = some l') ∧ Lit g m (es ++ [.width chs w]) G0 l' := by
  obtain ⟨N, l', h1, h2⟩ := spectral_step (e := .width chs w) hr hrel (f := mapStates (widthState g chs w)) (fun _ _ _ _ h hph => h.width hph hch w)
    (fun _ _ _ h hp => mapStates_proper (fun _ _ hs => (widthState_some hs).1) h hp) (fun _ _ h hp => mapStates_photon (fun _ _ hs => (widthState_some hs).1) h hp)
  refine ⟨N, l', fun fuel hf => ?_, h2⟩
  unfold setPulseWidth
  rw [if_neg hne, if_neg]
  · exact h1 fuel hf
  · rintro ⟨ha, _⟩
    obtain ⟨ch, hc, hn⟩ := hnot
    exact hn (ha ch hc)

theorem Lit.ready {g : Cfg} (hg : g.Ok) {m : ℕ} {es : List Element} {G0 : Groups} {l : List AState} (h : Lit g m es G0 l) : ∃ G, readGroups l = some G ∧ GroupsRel (Ready g m es) G0 G := by
  obtain ⟨G, rfl, hG, hrel, -⟩ := h
  exact ⟨G, read_write hG, hrel.imp (fun _ _ hx => hx.ready hg)⟩

theorem lit_widthAll {g : Cfg} (hg : g.Ok) {m : ℕ} {es : List Element} {G0 : Groups} {l : List AState} (h : Lit g m es G0 l) {chs : List ℕ} (w : ℝ) (hall : ∀ ch < g.C, ch ∈ chs) :
    Lit g m (es ++ [.width chs w]) G0 (l.map (widthAll w)) := by
  obtain ⟨G, rfl, hG, hrel, -⟩ := h
  obtain ⟨G', g1, g2⟩ := write_forall2 (T := fun s s' => s' = widthAll w s) (R := fun s s' => s'.q = s.q ∧ s'.info = some ⟨delayOf s.info, w⟩) (by
    rintro q i ci s' rfl
    refine ⟨q, some ⟨delayOf i, w⟩, ?_, rfl, rfl⟩
    unfold widthAll
    simp only [Option.getD_some]
    cases i <;> rfl) (G := G) (l := (writeGroups G).map (widthAll w)) (by
    rw [List.forall₂_map_right_iff, List.forall₂_same]
    exact fun _ _ => rfl)
  refine ⟨G', g1, groupsRel_proper hG g2 (fun e he x hx y hy => same_proper (fun s s' hs => by rw [hs.1]) hy ((hG.groups e he).2.2 x hx)), groupsRel_trans hrel g2 ?_, ?_⟩
  · rintro x y z ⟨q0, r1, r2, r3⟩ hy
    exact ⟨q0, r1, r2, by rw [circuitSubst_snoc]; exact r3.widthAll hg hall hy⟩
  · intro h
    obtain ⟨ch, h1, h2⟩ := ends_snoc h
    exact absurd (hall ch h1) h2

/-- Optical elements on a collection with photon information. -/
theorem lit_optics {c : Circ} (hg : c.g.Ok) (ht : 0 < c.thr) {es : List Element} {G0 : Groups} {l : List AState} (h : Lit c.g c.m es G0 l) {gates : List Gate} {n : Opt × List ℕ} {ns : List (Opt × List ℕ)}
    (hgn : List.Forall₂ (GateNode c.g) gates (n :: ns)) (hu : ∀ e ∈ gates, e.M ∈ Matrix.unitaryGroup (Fin 2) ℂ) (hnd : NothingDropped c.g c.thr gates l) :
    ∃ l', opticalResolved c n ns l = some l' ∧ Lit c.g c.m (es ++ [.optics gates]) G0 l' := by
  obtain ⟨G, rfl, hG, hrel, -⟩ := h
  have hpass : ∀ s ∈ writeGroups G, CheckValid c.thr c.m s.q ∧ ∃ comps, applyOptical c.g c.thr c.full (standardKeys c.g) n ns s.q.comps = some comps := by
    intro s hs
    have hd := hnd s hs
    obtain ⟨e, he, x, hx, col, hc, t, htt, rfl⟩ := mem_writeGroups.1 hs
    obtain ⟨y0, q0, r1, r2, r3⟩ := groupsRel_right hrel e he x hx
    exact r3.passes hg ht c.full hgn hu r1.classical r1.cum hc htt hd
  obtain ⟨out, o1, o2⟩ := opticalResolved_some (fun s hs => (hpass s hs).1) (fun s hs => (hpass s hs).2)
  refine ⟨out, o1, ?_⟩
  have hT : ∀ (q : QState) (i : Option PInfo) (ci : ColInfo) (s' : AState),
      ((⟨q, some ⟨i, some ci⟩⟩ : AState) ∈ writeGroups G ∧ s'.aux = some ⟨i, some ci⟩ ∧ ∃ comps, applyOptical c.g c.thr c.full (standardKeys c.g) n ns q.comps = some comps ∧ s'.q = { q with comps := comps }) →
      ∃ q' i', s' = ⟨q', some ⟨i', some ci⟩⟩ ∧ OpticsStep c.g c.thr c.full gates n ns ⟨q, i⟩ ⟨q', i'⟩ := by
    rintro q i ci s' ⟨a0, a1, a2⟩
    have hd := hnd _ a0
    refine ⟨s'.q, i, ?_, rfl, a2, hd⟩
    rw [← a1]
  obtain ⟨G', g1, g2⟩ := write_forall2 (R := OpticsStep c.g c.thr c.full gates n ns) hT o2
  have hprop : Proper G' := groupsRel_proper hG g2 (fun e he x hx y hy => same_proper (fun s s' hs => by
    obtain ⟨_, ⟨comps, _, e3⟩, _⟩ := hs
    rw [e3]) hy ((hG.groups e he).2.2 x hx))
  refine ⟨G', g1, hprop, groupsRel_trans hrel g2 ?_, fun h => (ends_snoc h).elim⟩
  intro x y z hxy hy
  obtain ⟨q0, r1, r2, r3⟩ := hxy
  refine ⟨q0, r1, r2, ?_⟩
  rw [circuitSubst_snoc]
  exact r3.optics hg ht hgn hu hy

/-- Optical elements on a collection without photon information. -/
theorem fresh_step {c : Circ} (hg : c.g.Ok) (ht : 0 < c.thr) {es : List Element} {l0 l : List AState} (h : List.Forall₂ (FreshStep c.g c.m es) l0 l) {gates : List Gate} {n : Opt × List ℕ} {ns : List (Opt × List ℕ)}
    (hgn : List.Forall₂ (GateNode c.g) gates (n :: ns)) (hu : ∀ e ∈ gates, e.M ∈ Matrix.unitaryGroup (Fin 2) ℂ) (hnd : NothingDropped c.g c.thr gates l) :
    ∃ l', opticalResolved c n ns l = some l' ∧ List.Forall₂ (FreshStep c.g c.m (es ++ [.optics gates])) l0 l' := by
  have hfr : ∀ s ∈ l, FreshState c.g c.m s := by
    intro s hs
    obtain ⟨_, _, e⟩ := forall2_left_mem h.flip s hs
    exact FreshStep.after e
  have hthr : ∀ s ∈ l, ∀ w, Valid c.g w → ‖amplitudeIn (opticsSubst gates (statePoly c.g ⟨s.q, none⟩)) none w‖ ^ 2 < c.thr → amplitudeIn (opticsSubst gates (statePoly c.g ⟨s.q, none⟩)) none w = 0 := by
    intro s hs
    have := hnd s hs
    unfold infoOf at this
    rw [(hfr s hs).aux] at this
    exact this
  obtain ⟨out, o1, o2⟩ := opticalResolved_some (c := c) (n := n) (l := ns) (coll := l) (by
    intro s hs
    have hf := hfr s hs
    refine ⟨by linarith [hf.cum.1], by linarith [hf.cum.2], ?_, hf.classical⟩
    intro p hp
    rw [hf.probs p hp]
    have h3 : ‖p.2.amp‖ ^ 2 ≤ totalProb s.q.comps := by
      unfold totalProb
      exact List.single_le_sum (by
        intro x hx
        obtain ⟨p, _, rfl⟩ := List.mem_map.1 hx
        positivity) _ (List.mem_map.2 ⟨p, hp, rfl⟩)
    rw [hf.norm] at h3
    have h4 : 0 ≤ ‖p.2.amp‖ ^ 2 := by positivity
    constructor <;> linarith) (by
    intro s hs
    obtain ⟨c', h1, _⟩ := fresh_optics hg ht c.full hgn hu (hfr s hs) (hthr s hs)
    exact ⟨c', h1⟩)
  refine ⟨out, o1, ?_⟩
  have trans : ∀ {α β γ : Type} {A : α → β → Prop} {B : β → γ → Prop} {D : α → γ → Prop} (_ : ∀ x y z, A x y → B y z → D x z) {l1 : List α} {l2 : List β} {l3 : List γ},
      List.Forall₂ A l1 l2 → List.Forall₂ B l2 l3 → List.Forall₂ D l1 l3 := by
    intro α β γ A B D hD l1 l2 l3 h1
    induction h1 generalizing l3 with
    | nil => intro h2; cases h2; exact .nil
    | cons a _ ih =>
      intro h2
      cases h2 with
      | cons b h2 => exact .cons (hD _ _ _ a b) (ih h2)
  refine trans ?_ h o2
  rintro s0 s s' e ⟨hs, a1, comps, a2, a3⟩
  obtain ⟨c', f1, f2, f3⟩ := fresh_optics hg ht c.full hgn hu (hfr s hs) (hthr s hs)
  rw [a2] at f1
  obtain rfl := Option.some.inj f1
  obtain ⟨q', aux'⟩ := s'
  simp only at a1 a3
  subst a1 a3
  rw [e.after.aux]
  refine ⟨e.before, f2, e.initial, e.classical, e.cum, ?_⟩
  rw [f3, e.poly, circuitSubst_snoc]
  rfl

/-- From states without photon information to groups that can be made of single photons. -/
theorem fresh_ready {g : Cfg} (hg : g.Ok) {m : ℕ} {es : List Element} {l0 l : List AState} (h : List.Forall₂ (FreshStep g m es) l0 l) :
    ∃ G0 G, readGroups l0 = some G0 ∧ readGroups l = some G ∧ GroupsRel (Ready g m es) G0 G := by
  obtain ⟨G0, G, h1, h2, h3⟩ := read_fresh (S := FreshStep g m es) (h.imp (fun s0 s e => ⟨e.before.aux, e.after.aux, e.initial, e⟩))
  refine ⟨G0, G, h1, h2, h3.imp ?_⟩
  rintro a b ⟨s0, s, e, rfl, rfl⟩
  have hb : FreshState g m ⟨s0.q, none⟩ := ⟨rfl, e.before.wf, e.before.probs, e.before.norm, e.before.nonzero, e.before.few, e.before.vacuum, e.before.cum, e.before.classical⟩
  refine ⟨s0.q, hb, rfl, ?_, ?_⟩
  · intro c hc t ht
    obtain rfl := List.mem_singleton.1 hc
    obtain rfl := List.mem_singleton.1 ht
    exact e.after.wf
  · intro fuel hf
    obtain ⟨out, o1, o2, o3⟩ := fresh_light hg e.after hf
    refine ⟨out, o1, ?_, o3⟩
    rw [← e.poly]
    exact o2.congr e.classical e.cum

end Verif
