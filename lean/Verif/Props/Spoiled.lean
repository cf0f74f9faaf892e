/-
C97: the collection given to a spectral node is changed.
-/
import Verif.Lemmas.Spoiled
import Verif.Props.Spectral
import Verif.Props.Columns
import Verif.Lemmas.Resolved5

namespace Verif.Props
open Verif Spec

theorem splitColumns_single {g : Cfg} (fuel : ℕ) {cols : List Column} (h : ∀ c ∈ cols, ∀ s ∈ c.states, s.q.comps.length = 1) : leftColumns g (fuel + 1) cols = some cols := by
  unfold leftColumns
  rw [splitColumns_all_single fuel h, Option.map_some, List.take_length]

theorem groups_mapM_self {f : List Column → Option (List Column)} {G : Groups} (h : ∀ e ∈ G, ∀ x ∈ e.2, f x.2 = some x.2) : G.mapM f = some G := by
  rw [groups_mapM]
  exact List.forall₂_same.2 (fun e he => ⟨rfl, List.forall₂_same.2 (fun x hx => ⟨rfl, h e he x hx⟩)⟩)

/-- **C97** (partial: all states have one component) A stored collection of photon-resolved states is unchanged by a time delay, by the pulse width of some channels and by a measurement. -/
theorem C97_single_partial (g : Cfg) (fuel : ℕ) (G : Groups) (hG : Proper G) (h : ∀ s ∈ writeGroups G, s.q.comps.length = 1) :
    spoiled g (fuel + 1) (writeGroups G) = some (writeGroups G) := by
  unfold spoiled
  rw [read_write hG, Option.bind_some, groups_mapM_self]
  · rfl
  · intro e he x hx
    refine splitColumns_single fuel ?_
    intro c hc s hs
    refine h ⟨s.q, some ⟨s.info, some { gid := x.1, cid := c.id, amp := c.amp, boson := c.boson, gprob := c.gprob }⟩⟩ ?_
    unfold writeGroups
    refine List.mem_flatMap.2 ⟨e, he, List.mem_flatMap.2 ⟨x, hx, List.mem_flatMap.2 ⟨c, hc, ?_⟩⟩⟩
    exact List.mem_map_of_mem hs

/-- **C97** The pulse width of no channel changes nothing; for all channels it changes only the photon information of the states, not the quantum state. -/
theorem C97_width (g : Cfg) (fuel : ℕ) (chs : List ℕ) (w : ℝ) (l l' : List AState) (hc : chs = [] ∨ ∀ n, n ∈ chs ↔ n < g.C) (h : spoiledByWidth g fuel chs w l = some l') :
    l'.map (fun s => s.q) = l.map (fun s => s.q) := by
  unfold spoiledByWidth at h
  rcases hc with hc | hc
  · rw [if_pos hc] at h
    obtain rfl := Option.some.inj h
    rfl
  · split at h
    · obtain rfl := Option.some.inj h
      rfl
    · rw [if_pos ⟨fun n hn => (hc n).2 hn, fun n hn => (hc n).1 hn⟩] at h
      obtain rfl := Option.some.inj h
      rw [List.map_map]
      rfl

theorem groupsRel_mem {R : List Column → List Column → Prop} {G G' : Groups} (h : GroupsRel R G G') : ∀ e' ∈ G', ∀ x' ∈ e'.2, ∃ e ∈ G, ∃ x ∈ e.2, e'.1 = e.1 ∧ x'.1 = x.1 ∧ R x.2 x'.2 := by
  intro e' he' x' hx'
  obtain ⟨e, he, h1, h2⟩ := forall2_left_mem (List.Forall₂.flip h) e' he'
  obtain ⟨x, hx, q1, q2⟩ := forall2_left_mem h2.flip x' hx'
  exact ⟨e, he, x, hx, h1, q1, q2⟩

/-- **C97** What is violated: afterwards every state of the given collection has exactly one component, however many it had before. -/
theorem C97_one_component (g : Cfg) (fuel : ℕ) (l l' : List AState) (hw : WellFormedAll g l) (h : spoiled g fuel l = some l') : ∀ s ∈ l', ∃ p, s.q.comps = [p] := by
  unfold spoiled at h
  obtain ⟨G, hG, h⟩ := Option.bind_eq_some_iff.1 h
  obtain ⟨G', h', rfl⟩ := Option.map_eq_some_iff.1 h
  have hrel := groups_mapM.1 h'
  have hst := readGroups_states hG
  intro s hs
  unfold writeGroups at hs
  obtain ⟨e', he', hs⟩ := List.mem_flatMap.1 hs
  obtain ⟨x', hx', hs⟩ := List.mem_flatMap.1 hs
  unfold writeGroup at hs
  obtain ⟨c, hc, hs⟩ := List.mem_flatMap.1 hs
  obtain ⟨t, ht, rfl⟩ := List.mem_map.1 hs
  obtain ⟨e, he, x, hx, _, _, h1⟩ := groupsRel_mem hrel e' he' x' hx'
  exact List.length_eq_one_iff.1 ((leftColumns_spec h1 (fun c hc s hs => by
    obtain ⟨a, ha, h2⟩ := hst e he x hx c hc s hs
    rw [← h2]
    exact hw a ha)).2 c hc t ht)

/-- **C97** The number of states and everything but the components and the column amplitude (classical values, measurement results, probability, labels, photon information, group, column) stays
as it was; here for a collection made by a spectral node. -/
theorem C97_rest (g : Cfg) (fuel : ℕ) (G : Groups) (l' : List AState) (hG : Proper G) (hw : WellFormedAll g (writeGroups G)) (h : spoiled g fuel (writeGroups G) = some l') :
    List.Forall₂ (fun s s' : AState => ∃ (comps : Comps) (i : Option PInfo) (ci : ColInfo) (a : ℂ), s.aux = some ⟨i, some ci⟩ ∧
      s' = ⟨{ s.q with comps := comps }, some ⟨i, some { ci with amp := a }⟩⟩) (writeGroups G) l' := by
  unfold spoiled at h
  rw [read_write hG, Option.bind_some] at h
  obtain ⟨G', h', rfl⟩ := Option.map_eq_some_iff.1 h
  have hrel := groups_mapM.1 h'
  have hwf : ∀ e ∈ G, ∀ x ∈ e.2, WfCols g x.2 := by
    intro e he x hx c hc s hs
    obtain ⟨a, ha, h2⟩ := readGroups_states (read_write hG) e he x hx c hc s hs
    rw [← h2]
    exact hw a ha
  clear h h' hw hG
  unfold writeGroups
  refine List.rel_flatMap (R := fun (e e' : List Char × Dict ℕ (List Column)) => e ∈ G ∧ e'.1 = e.1 ∧ List.Forall₂ (fun (x x' : ℕ × List Column) => x'.1 = x.1 ∧ leftColumns g fuel x.2 = some x'.2) e.2 e'.2) ?_ ?_
  · exact (List.forall₂_iff_zip.2 ⟨hrel.length_eq, fun {a b} hab => ⟨(List.of_mem_zip hab).1, List.forall₂_zip hrel hab⟩⟩)
  · intro e e' ⟨he, _, hr⟩
    refine List.rel_flatMap (R := fun (x x' : ℕ × List Column) => x ∈ e.2 ∧ x'.1 = x.1 ∧ leftColumns g fuel x.2 = some x'.2) ?_ ?_
    · exact (List.forall₂_iff_zip.2 ⟨hr.length_eq, fun {a b} hab => ⟨(List.of_mem_zip hab).1, List.forall₂_zip hr hab⟩⟩)
    · intro x x' ⟨hx, h1, h2⟩
      unfold writeGroup
      beta_reduce
      rw [h1]
      refine List.rel_flatMap (leftColumns_spec h2 (hwf e he x hx)).1 ?_
      intro c c' ⟨b1, b2, b3, b4⟩
      unfold writeColumn
      rw [b1, b2, b3]
      refine List.rel_map ?_ b4
      rintro s s' ⟨comps, rfl⟩
      exact ⟨comps, s.info, _, c'.amp, rfl, rfl⟩

/-- **C97** What is violated: a state without photon information and with several components is left with its last component only. -/
theorem C97_lost (g : Cfg) (fuel : ℕ) (q : QState) (pre : Comps) (p : Name × Comp) (hc : q.comps = pre ++ [p]) (hp : pre ≠ []) (hw : WellFormed g q.comps) (l' : List AState)
    (h : spoiled g fuel [⟨q, none⟩] = some l') :
    l' = [⟨{ q with comps := [(p.1, ⟨1, 1⟩)] }, some ⟨none, some { gid := 0, cid := 0, amp := p.2.amp, boson := 1, gprob := q.cum }⟩⟩] := by
  unfold spoiled at h
  have hG : readGroups [⟨q, none⟩] = some [(q.initial, [(0, groupOfState ⟨q, none⟩)])] := rfl
  rw [hG, Option.bind_some] at h
  obtain ⟨G', h', rfl⟩ := Option.map_eq_some_iff.1 h
  unfold Groups.mapM at h'
  rw [List.mapM_cons, List.mapM_nil, List.mapM_cons, List.mapM_nil] at h'
  simp only [Option.pure_def, Option.bind_eq_bind, Option.bind_some, leftColumns] at h'
  rcases ho : splitColumns g fuel (groupOfState ⟨q, none⟩) with _ | out
  · rw [ho] at h'; cases h'
  · rw [ho] at h'
    obtain rfl := Option.some.inj h'
    obtain ⟨rest, rfl⟩ := split_last fuel _ ⟨q, none⟩ [] out rfl (by
      intro d hd s hs
      obtain rfl := List.mem_singleton.1 hd
      obtain rfl := List.mem_singleton.1 hs
      exact hw) ho pre p hc hp
    simp [groupOfState, writeGroups, writeGroup, writeColumn]

/-- The columns of states with one component of amplitude 1: expanding into photons and delaying succeeds and keeps the column amplitudes. -/
theorem photons_delay {g : Cfg} {cols : List Column} (chs : List ℕ) (t w : ℝ) (hch : ∀ ch ∈ chs, ch < g.C) (hw : WfCols g cols) (hu : ∀ c ∈ cols, SingleUnit c) :
    ∃ out, (cols.mapM (Column.singlePhotonStates g)).bind (mapStates (delayState g chs (.value t) w)) = some out ∧ out.map (fun c => c.amp) = cols.map (fun c => c.amp) := by
  induction cols with
  | nil => exact ⟨[], rfl, rfl⟩
  | cons c cols ih =>
    obtain ⟨out, h1, h2⟩ := ih (fun d hd => hw d (List.mem_cons_of_mem _ hd)) (fun d hd => hu d (List.mem_cons_of_mem _ hd))
    obtain ⟨ph, h3, h4⟩ := Option.bind_eq_some_iff.1 h1
    obtain ⟨c', e1, _, e3, _, e5, e6⟩ := C53_single_photons g c (hw c List.mem_cons_self) (hu c List.mem_cons_self)
    have hd : ∃ sts, c'.states.mapM (delayState g chs (.value t) w) = some sts := by
      refine (mapM_exists (R := fun _ _ => True) ?_).imp (fun _ h => h.1)
      intro s hs
      obtain ⟨p, hp, _⟩ := e5 s hs
      obtain ⟨v, hv, _, hn⟩ := e6 s hs
      have hn := (isName_iff hv).1 (hn p (by rw [hp]; simp))
      have hf : firstValues g s = some v := by
        unfold firstValues
        rw [hp, List.head?_cons, Option.bind_some, hn, g.parse_stdName hv.2]
      obtain ⟨b, hb⟩ := photonIn_defined (v := v) (chs := chs) (fun ch h => by rw [hv.1]; exact hch ch h)
      have hd : ∃ y, delayState g chs (.value t) w s = some y := by
        unfold delayState
        rw [hf]
        simp only [DelaySource.read, Option.bind_some, hb, Option.map_some]
        exact ⟨_, rfl⟩
      exact hd.imp (fun _ h => ⟨h, trivial⟩)
    obtain ⟨sts, hs⟩ := hd
    refine ⟨{ c' with states := sts } :: out, ?_, by simp [h2, e3]⟩
    rw [List.mapM_cons, e1, h3]
    simp only [Option.bind_eq_bind, Option.bind_some, Option.pure_def]
    unfold mapStates at h4 ⊢
    rw [List.mapM_cons, hs, h4]
    rfl

/-- The total weight of the columns of a group. -/
noncomputable def columnWeight (cols : List Column) : ℝ := (cols.map (fun c => ‖c.amp‖ ^ 2)).sum

/-- **C97** What is violated: evaluating the full time delay a second time on the same collection (one state without photon information, several components) gives a different result. The first
evaluation has a column for every component, with the total probability of the state; the second one has a single column, with the probability of the last component only. -/
theorem C97_again (g : Cfg) (q : QState) (pre : Comps) (p : Name × Comp) (hc : q.comps = pre ++ [p]) (hp : pre ≠ []) (hw : WellFormed g q.comps)
    (hn : totalProb q.comps = 1) (ha : ∀ x ∈ q.comps, x.2.amp ≠ 0) (chs : List ℕ) (t w : ℝ) (hch : ∀ ch ∈ chs, ch < g.C) :
    ∃ fuel out l' out' cols cols', timeDelayFull g fuel chs (.value t) w [⟨q, none⟩] = some out ∧ spoiled g fuel [⟨q, none⟩] = some l' ∧
      timeDelayFull g fuel chs (.value t) w l' = some out' ∧ readGroups out = some [(q.initial, [(0, cols)])] ∧ readGroups out' = some [(q.initial, [(0, cols')])] ∧
      cols.length = q.comps.length ∧ columnWeight cols = 1 ∧ cols'.length = 1 ∧ columnWeight cols' = ‖p.2.amp‖ ^ 2 ∧ ‖p.2.amp‖ ^ 2 < 1 := by
  have hlen : q.comps.length ≠ 1 := by
    rw [hc, List.length_append]
    have := List.length_pos_iff.2 hp
    simp; omega
  obtain ⟨cols, L, e1, e2, e3⟩ := split_stands (g := g) (s := ⟨q, none⟩) ⟨hw, (by intro h; rw [h] at hc; simp at hc), fun _ => ⟨hn, ha⟩⟩ (fun h => absurd h hlen)
  have hwg : WfCols g (groupOfState ⟨q, none⟩) := by
    intro d hd s hs
    obtain rfl := List.mem_singleton.1 hd
    obtain rfl := List.mem_singleton.1 hs
    exact hw
  have hwc := (splitColumns_poly _ e1 hwg).2.1
  have hu : ∀ c ∈ cols, SingleUnit c := by
    intro c hcm
    obtain ⟨x, _, ⟨⟨s, h1, ⟨v, _, h2⟩, _⟩, _⟩⟩ := forall2_left_mem e3 c hcm
    intro r hr
    rw [h1] at hr
    obtain rfl := List.mem_singleton.1 hr
    obtain ⟨_, k, h3, h4⟩ := h2
    exact ⟨_, h3, h4⟩
  have hamps : cols.map (fun c => c.amp) = L.map (fun x => x.2.amp) := by
    clear e1 e2 hwc hu
    induction e3 with
    | nil => rfl
    | cons h _ ih => rw [List.map_cons, List.map_cons, ih, h.2.1]
  -- the first evaluation
  obtain ⟨out1, o1, o2⟩ := photons_delay chs t w hch hwc hu
  have hG : readGroups [⟨q, none⟩] = some [(q.initial, [(0, groupOfState ⟨q, none⟩)])] := rfl
  have hmap : ∀ (G0 : List Column) (f : List Column → Option (List Column)) (y : List Column), f G0 = some y →
      Groups.mapM f [(q.initial, [(0, G0)])] = some [(q.initial, [(0, y)])] := by
    intro G0 f y hy
    unfold Groups.mapM
    rw [List.mapM_cons, List.mapM_nil, List.mapM_cons, List.mapM_nil]
    simp [hy]
  have t1 : timeDelayFull g (q.comps.length + 1) chs (.value t) w [⟨q, none⟩] = some (writeGroups [(q.initial, [(0, out1)])]) := by
    unfold timeDelayFull
    rw [hG, Option.bind_some, hmap _ _ out1]
    · rfl
    · unfold toPhotons
      have : splitColumns g (q.comps.length + 1) (groupOfState ⟨q, none⟩) = some cols := e1
      rw [this, Option.bind_some, o1]
  -- the collection afterwards
  have t2 : ∃ l', spoiled g (q.comps.length + 1) [⟨q, none⟩] = some l' := by
    refine ⟨writeGroups [(q.initial, [(0, cols.take 1)])], ?_⟩
    unfold spoiled
    rw [hG, Option.bind_some, hmap _ _ (cols.take 1)]
    · rfl
    · unfold leftColumns
      have : splitColumns g (q.comps.length + 1) (groupOfState ⟨q, none⟩) = some cols := e1
      rw [this]
      rfl
  obtain ⟨l', t2⟩ := t2
  have hl' := C97_lost g _ q pre p hc hp hw l' t2
  -- the second evaluation
  obtain ⟨v, hv, hpv⟩ := hw.named p (by rw [hc]; simp)
  set s' : PState := ⟨{ q with comps := [(p.1, ⟨1, 1⟩)] }, none⟩ with hs'
  set c2 : Column := { states := [s'], amp := p.2.amp, boson := 1, gprob := q.cum, id := 0 } with hc2
  have hG2 : readGroups l' = some [(q.initial, [(0, [c2])])] := by rw [hl']; rfl
  have hw2 : WfCols g [c2] := by
    intro d hd s hs
    obtain rfl := List.mem_singleton.1 hd
    obtain rfl := List.mem_singleton.1 hs
    have := wf_unit 1 ⟨v, hv, hpv⟩
    exact this
  obtain ⟨out2, o3, o4⟩ := photons_delay (cols := [c2]) chs t w hch hw2 (by
    intro d hd s hs
    obtain rfl := List.mem_singleton.1 hd
    obtain rfl := List.mem_singleton.1 hs
    exact ⟨_, rfl, rfl⟩)
  have t3 : timeDelayFull g (q.comps.length + 1) chs (.value t) w l' = some (writeGroups [(q.initial, [(0, out2)])]) := by
    unfold timeDelayFull
    rw [hG2, Option.bind_some, hmap _ _ out2]
    · rfl
    · unfold toPhotons
      rw [splitColumns_all_single _ (by
        intro d hd s hs
        obtain rfl := List.mem_singleton.1 hd
        obtain rfl := List.mem_singleton.1 hs
        rfl), Option.bind_some, o3]
  -- reading the results back
  have rd : ∀ (l : List AState) (G0 out : List Column), WellFormedAll g l → readGroups l = some [(q.initial, [(0, G0)])] →
      timeDelayFull g (q.comps.length + 1) chs (.value t) w l = some (writeGroups [(q.initial, [(0, out)])]) →
      Groups.mapM (fun cols => (toPhotons g (q.comps.length + 1) cols).bind (mapStates (delayState g chs (.value t) w))) [(q.initial, [(0, G0)])] = some [(q.initial, [(0, out)])] →
      readGroups (writeGroups [(q.initial, [(0, out)])]) = some [(q.initial, [(0, out)])] := by
    intro l G0 out hwl hr htd hm
    obtain ⟨G, P, G', h1, h2, _, _, h3, _, _, h5, _⟩ := photon_node hwl (f := delayState g chs (.value t) w) (fun s s' e => (delayState_some e).1) htd
    refine read_write ?_
    have : G' = [(q.initial, [(0, out)])] := by
      rw [hr] at h1
      obtain rfl := Option.some.inj h1
      have h6 := groups_mapM.1 hm
      unfold GroupsRel at h2 h3 h6
      obtain ⟨⟨ip, dp⟩, Pr, ⟨a1, a2⟩, hPr, rfl⟩ := List.forall₂_cons_left_iff.1 h2
      obtain rfl := List.forall₂_nil_left_iff.1 hPr
      obtain ⟨⟨iq, dq⟩, Qr, ⟨a1', a2'⟩, hQr, rfl⟩ := List.forall₂_cons_left_iff.1 h3
      obtain rfl := List.forall₂_nil_left_iff.1 hQr
      have a2'' := (List.forall₂_cons.1 h6).1.2
      simp only at a1 a1' a2 a2' a2''
      obtain ⟨⟨n1, m1⟩, Pr, ⟨b1, b2⟩, hPr, rfl⟩ := List.forall₂_cons_left_iff.1 a2
      obtain rfl := List.forall₂_nil_left_iff.1 hPr
      obtain ⟨⟨n2, m2⟩, Qr, ⟨b1', b2'⟩, hQr, rfl⟩ := List.forall₂_cons_left_iff.1 a2'
      obtain rfl := List.forall₂_nil_left_iff.1 hQr
      have u1 := (List.forall₂_cons.1 a2'').1.2
      simp only at b1 b1' b2 b2' u1
      rw [b2, Option.bind_some, mapStates_some.2 b2'] at u1
      obtain rfl := Option.some.inj u1
      subst a1 a1' b1 b1'
      rfl
    rw [← this]
    exact h5
  refine ⟨q.comps.length + 1, _, l', _, out1, out2, t1, t2, t3, ?_, ?_, ?_, ?_, ?_, ?_, ?_⟩
  · exact rd [⟨q, none⟩] _ out1 (by intro s hs; obtain rfl := List.mem_singleton.1 hs; exact hw) hG t1 (hmap _ _ out1 (by
      unfold toPhotons
      have : splitColumns g (q.comps.length + 1) (groupOfState ⟨q, none⟩) = some cols := e1
      rw [this, Option.bind_some, o1]))
  · exact rd l' _ out2 (by
      rw [hl']
      intro s hs
      obtain rfl := List.mem_singleton.1 hs
      exact wf_unit 1 ⟨v, hv, hpv⟩) hG2 t3 (hmap _ _ out2 (by
      unfold toPhotons
      rw [splitColumns_all_single _ (by
        intro d hd s hs
        obtain rfl := List.mem_singleton.1 hd
        obtain rfl := List.mem_singleton.1 hs
        rfl), Option.bind_some, o3]))
  · have := congrArg List.length (o2.trans hamps)
    simp only [List.length_map] at this
    rw [this, e2.length_eq]
  · have : columnWeight out1 = (L.map (fun x => ‖x.2.amp‖ ^ 2)).sum := by
      unfold columnWeight
      have := congrArg (fun l => (l.map (fun a : ℂ => ‖a‖ ^ 2)).sum) (o2.trans hamps)
      simpa [List.map_map, Function.comp_def] using this
    rw [this, (e2.map _).sum_eq]
    exact hn
  · have := congrArg List.length o4
    simpa using this
  · unfold columnWeight
    have := congrArg (fun l => (l.map (fun a : ℂ => ‖a‖ ^ 2)).sum) o4
    simpa [List.map_map, Function.comp_def] using this
  · rcases pre with _ | ⟨x, pre⟩
    · exact absurd rfl hp
    · have hx : 0 < ‖x.2.amp‖ ^ 2 := by
        have := norm_pos_iff.2 (ha x (by rw [hc]; simp))
        positivity
      have h2 : ‖p.2.amp‖ ^ 2 ≤ totalProb (pre ++ [p]) := amp_le_totalProb (by simp)
      rw [hc, List.cons_append, totalProb_cons] at hn
      linarith

section NonVacuity

/-- **C97** The violation is reachable: a normalised state with three components. Evaluating a time delay changes the components of the given state, and evaluating again gives one column instead of three. -/
theorem C97_fails : ∃ (g : Cfg) (q : QState) (fuel : ℕ) (l' out out' : List AState), WellFormed g q.comps ∧ totalProb q.comps = 1 ∧
    timeDelayFull g fuel [0] (.value 1) 1 [⟨q, none⟩] = some out ∧ spoiled g fuel [⟨q, none⟩] = some l' ∧ timeDelayFull g fuel [0] (.value 1) 1 l' = some out' ∧
    l'.map (fun s => s.q.comps) ≠ [q.comps] ∧ out' ≠ out := by
  have hsplit : colState3.q.comps = colState3.q.comps.dropLast ++ [colState3.q.comps.getLast (by simp [colState3])] := (List.dropLast_append_getLast _).symm
  obtain ⟨fuel, out, l', out', cols, cols', h1, h2, h3, h4, h5, h6, _, h8, _⟩ := C97_again colCfg colState3.q _ _ hsplit (by simp [colState3]) colState3_ok.1 colState3_ok.2.1 colState3_ok.2.2 [0] 1 1
    (by intro ch h; obtain rfl := List.mem_singleton.1 h; decide)
  refine ⟨colCfg, colState3.q, fuel, l', out, out', colState3_ok.1, colState3_ok.2.1, h1, h2, h3, ?_, ?_⟩
  · rw [C97_lost colCfg fuel colState3.q _ _ hsplit (by simp [colState3]) colState3_ok.1 l' h2]
    simp [colState3]
  · intro h
    rw [h, h4] at h5
    have : cols = cols' := by simpa using h5
    rw [this, h8] at h6
    simp [colState3] at h6

/-- A stored group with the single-component column of `colTwo`. -/
noncomputable def colGroups : Groups := [("initial".toList, [(0, [colTwo])])]

theorem colGroups_proper : Proper colGroups := by
  refine ⟨by simp [colGroups], ?_⟩
  intro e he
  obtain rfl := List.mem_singleton.1 he
  refine ⟨by simp, by simp, ?_⟩
  intro x hx
  obtain rfl := List.mem_singleton.1 hx
  refine ⟨by simp, by simp, ?_, ?_⟩
  · intro c hc; obtain rfl := List.mem_singleton.1 hc; simp [colTwo]
  · intro c hc s hs
    obtain rfl := List.mem_singleton.1 hc
    simp only [colTwo, List.mem_cons, List.not_mem_nil, or_false] at hs
    rcases hs with rfl | rfl <;> rfl

theorem colGroups_states : ∀ s ∈ writeGroups colGroups, ∃ t ∈ colTwo.states, s.q = t.q := by
  intro s hs
  simp only [writeGroups, colGroups, writeGroup, writeColumn, List.flatMap_cons, List.flatMap_nil, List.append_nil] at hs
  obtain ⟨t, ht, rfl⟩ := List.mem_map.1 hs
  exact ⟨t, ht, rfl⟩

example : spoiled colCfg 1 (writeGroups colGroups) = some (writeGroups colGroups) ∧ (writeGroups colGroups).length = 2 := by
  refine ⟨C97_single_partial colCfg 0 colGroups colGroups_proper ?_, rfl⟩
  intro s hs
  obtain ⟨t, ht, e⟩ := colGroups_states s hs
  obtain ⟨p, hp, _⟩ := colTwo_ok.2.1 t ht
  rw [e, hp]
  rfl

example : ∃ l', List.Forall₂ (fun s s' : AState => ∃ (comps : Comps) (i : Option PInfo) (ci : ColInfo) (a : ℂ), s.aux = some ⟨i, some ci⟩ ∧
      s' = ⟨{ s.q with comps := comps }, some ⟨i, some { ci with amp := a }⟩⟩) (writeGroups colGroups) l' := by
  refine ⟨_, C97_rest colCfg 1 colGroups _ colGroups_proper ?_ (C97_single_partial colCfg 0 colGroups colGroups_proper ?_)⟩
  · intro s hs
    obtain ⟨t, ht, e⟩ := colGroups_states s hs
    rw [e]
    exact colTwo_ok.1 t ht
  · intro s hs
    obtain ⟨t, ht, e⟩ := colGroups_states s hs
    obtain ⟨p, hp, _⟩ := colTwo_ok.2.1 t ht
    rw [e, hp]
    rfl

example : ∃ l', spoiledByWidth colCfg 1 [0, 1] 2 [⟨colState3.q, none⟩] = some l' ∧ l'.map (fun s => s.q) = [colState3.q] := by
  have h : spoiledByWidth colCfg 1 [0, 1] 2 [⟨colState3.q, none⟩] = some ([⟨colState3.q, none⟩].map (widthAll 2)) := by
    unfold spoiledByWidth
    rw [if_neg (by simp), if_pos ⟨by decide, by decide⟩]
  exact ⟨_, h, C97_width colCfg 1 [0, 1] 2 _ _ (Or.inr (by
    intro n
    have : colCfg.C = 2 := rfl
    rw [this]
    simp
    omega)) h⟩

end NonVacuity

end Verif.Props
