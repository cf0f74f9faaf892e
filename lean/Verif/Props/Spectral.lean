/-
C50, C67 - C69: overlap of photons, interference groups in a collection, time delays and pulse widths.
-/
import Verif.Lemmas.Spectral3

namespace Verif.Props
open Verif Spec

/-! ### C50: the overlap of two photons -/

theorem C50_symmetric (a b : Option PInfo) (_ha : RealWidth a) (_hb : RealWidth b) : photonOverlap a b = photonOverlap b a := photonOverlap_symm a b

theorem C50_range (a b : Option PInfo) (_ha : RealWidth a) (_hb : RealWidth b) : 0 < photonOverlap a b ∧ photonOverlap a b ≤ 1 := ⟨photonOverlap_pos a b, photonOverlap_le a b⟩

/-- **C50** The overlap is 1 exactly when the delays are equal. -/
theorem C50_one_iff (a b : PInfo) (ha : 0 < a.width) (hb : 0 < b.width) : photonOverlap (some a) (some b) = 1 ↔ a.delay = b.delay := by
  have hlog : Real.log 2 ≠ 0 := (Real.log_pos (by norm_num)).ne'
  have hs : Real.sqrt (a.width ^ 2 + b.width ^ 2) ≠ 0 := (Real.sqrt_pos.2 (by positivity)).ne'
  unfold photonOverlap
  simp only
  rw [Real.exp_eq_one_iff]
  constructor
  · intro h
    rcases mul_eq_zero.1 h with h | h
    · rcases mul_eq_zero.1 h with h | h
      · norm_num at h
      · exact absurd h hlog
    · have h := pow_eq_zero_iff (two_ne_zero) |>.1 h
      rcases div_eq_zero_iff.1 h with h | h
      · linarith
      · exact absurd h hs
  · intro h
    rw [h]
    simp

/-- **C50** Without information about one of the photons they overlap fully. -/
theorem C50_unknown (a : Option PInfo) : photonOverlap none a = 1 ∧ photonOverlap a none = 1 := by
  constructor
  · rfl
  · rcases a with _ | a <;> rfl

theorem overlap_shift (a b : PInfo) (t : ℝ) : photonOverlap (some ⟨a.delay + t, a.width⟩) (some ⟨b.delay + t, b.width⟩) = photonOverlap (some a) (some b) := by
  unfold photonOverlap
  simp only [add_sub_add_right_eq_sub]

/-- **C50** The overlap depends on the difference of the delays only. -/
theorem C50_shift (a b : PInfo) (_ha : a.width ≠ 0) (_hb : b.width ≠ 0) (t : ℝ) : photonOverlap (some ⟨a.delay + t, a.width⟩) (some ⟨b.delay + t, b.width⟩) = photonOverlap (some a) (some b) := by
  unfold photonOverlap
  simp only [add_sub_add_right_eq_sub]

/-- **C50** The overlap of the quick time delay is the squared overlap of two photons of this width. -/
theorem C50_quick (t w x : ℝ) (hw : 0 < w) : 0 < quickOverlap t w ∧ quickOverlap t w ≤ 1 ∧ (quickOverlap t w = 1 ↔ t = 0) ∧
    quickOverlap t w = photonOverlap (some ⟨x, w⟩) (some ⟨x + t, w⟩) ^ 2 := by
  have hlog : 0 < Real.log 2 := Real.log_pos (by norm_num)
  have hsq : ((x - (x + t)) / Real.sqrt (w ^ 2 + w ^ 2)) ^ 2 = (t / w) ^ 2 / 2 := by
    rw [div_pow, Real.sq_sqrt (by positivity)]
    field_simp
    ring
  unfold quickOverlap
  refine ⟨Real.exp_pos _, ?_, ?_, ?_⟩
  · rw [Real.exp_le_one_iff]
    have := sq_nonneg (t / w)
    nlinarith
  · rw [Real.exp_eq_one_iff]
    constructor
    · intro h
      rcases mul_eq_zero.1 h with h | h
      · exact absurd h (by linarith)
      · have h := pow_eq_zero_iff (two_ne_zero) |>.1 h
        rcases div_eq_zero_iff.1 h with h | h
        · exact h
        · exact absurd h hw.ne'
    · intro h
      rw [h]; simp
  · unfold photonOverlap
    simp only
    rw [← Real.exp_nat_mul, hsq]
    congr 1
    push_cast
    ring

/-! ### C67: interference groups in a collection -/

/-- **C67** The groups read from a collection can be stored as states of a collection and are read back unchanged. -/
theorem C67_round_trip (l : List AState) (G : Groups) (h : readGroups l = some G) : readGroups (writeGroups G) = some G := read_write (readGroups_proper h)

/-- **C67** This holds for all groups with different identifiers and columns that are not empty. -/
theorem C67_store (G : Groups) (h : Proper G) : readGroups (writeGroups G) = some G := read_write h

/-- **C67** States without photon information: every state is in a group of its own, with one column; the states are not changed. -/
theorem C67_fresh (l : List AState) (h : ∀ s ∈ l, s.aux = none) : ∃ G, readGroups l = some G ∧ (∀ s ∈ l, ∃ e ∈ G, e.1 = s.q.initial ∧ ∃ x ∈ e.2, x.2 = groupOfState ⟨s.q, none⟩) ∧
    ∀ e ∈ G, ∀ x ∈ e.2, ∃ s ∈ l, s.q.initial = e.1 ∧ x.2 = groupOfState ⟨s.q, none⟩ := by
  have fresh : ∀ d : Dict ℕ (List Column), nextGroupId d ∉ Dict.keys d := by
    intro d
    unfold nextGroupId
    rcases h : (List.range (d.length + 1)).find? (fun n => !(Dict.keys d).contains n) with _ | n
    · exfalso
      rw [List.find?_eq_none] at h
      have hsub : List.range (d.length + 1) ⊆ Dict.keys d := by
        intro n hn
        simpa using h n hn
      have hle := (List.nodup_range (n := d.length + 1)).subperm hsub |>.length_le
      simp [Dict.keys] at hle
    · have := List.find?_some h
      rw [Option.getD_some]
      simpa using this
  have key : ∀ (l : List AState) (G0 : Groups), (∀ s ∈ l, s.aux = none) → Proper G0 → ∃ G, l.foldlM readState G0 = some G ∧ (∀ s ∈ l, ∃ e ∈ G, e.1 = s.q.initial ∧ ∃ x ∈ e.2, x.2 = groupOfState ⟨s.q, none⟩) ∧
      (∀ e ∈ G0, ∀ x ∈ e.2, ∃ e' ∈ G, e'.1 = e.1 ∧ x ∈ e'.2) ∧ ∀ e ∈ G, ∀ x ∈ e.2, (∃ e0 ∈ G0, e0.1 = e.1 ∧ x ∈ e0.2) ∨ ∃ s ∈ l, s.q.initial = e.1 ∧ x.2 = groupOfState ⟨s.q, none⟩ := by
    intro l
    induction l with
    | nil =>
      intro G0 _ _
      refine ⟨G0, rfl, by simp, fun e he x hx => ⟨e, he, rfl, hx⟩, fun e he x hx => Or.inl ⟨e, he, rfl, hx⟩⟩
    | cons s l ih =>
      intro G0 hl h0
      set gs : Dict ℕ (List Column) := (G0.get? s.q.initial).getD [] with hgs
      set G1 : Groups := G0.set s.q.initial (gs.set (nextGroupId gs) (groupOfState ⟨s.q, none⟩)) with hG1
      have hr : readState G0 s = some G1 := by
        have hs := hl s List.mem_cons_self
        obtain ⟨q, aux⟩ := s
        simp only at hs
        subst hs
        rfl
      have hset : gs.set (nextGroupId gs) (groupOfState ⟨s.q, none⟩) = gs ++ [(nextGroupId gs, groupOfState ⟨s.q, none⟩)] := Dict.set_of_not_mem _ (fresh gs)
      obtain ⟨G, k1, k2, k3, k4⟩ := ih G1 (fun t ht => hl t (List.mem_cons_of_mem _ ht)) (readState_proper h0 hr)
      have hold : ∀ e0 ∈ G0, e0.1 = s.q.initial → e0.2 = gs := by
        intro e0 he0 e1
        rw [hgs, ← e1, Dict.get?_of_mem h0.initials he0]
        rfl
      have hmem : (s.q.initial, gs.set (nextGroupId gs) (groupOfState ⟨s.q, none⟩)) ∈ G1 := Dict.get?_mem (by rw [hG1, Dict.get?_set, if_pos rfl])
      have hkeep : ∀ e0 ∈ G0, e0.1 ≠ s.q.initial → e0 ∈ G1 := by
        intro e0 he0 hne
        have : G1.get? e0.1 = some e0.2 := by
          rw [hG1, Dict.get?_set, if_neg (fun h => hne h.symm)]
          exact Dict.get?_of_mem h0.initials he0
        exact Dict.get?_mem this
      refine ⟨G, ?_, ?_, ?_, ?_⟩
      · rw [List.foldlM_cons, hr]
        exact k1
      · intro t ht
        rcases List.mem_cons.1 ht with rfl | ht
        · obtain ⟨e', he', h1, h2⟩ := k3 _ hmem (nextGroupId gs, groupOfState ⟨t.q, none⟩) (by rw [hset]; simp)
          exact ⟨e', he', h1, _, h2, rfl⟩
        · exact k2 t ht
      · intro e0 he0 x hx
        by_cases hi : e0.1 = s.q.initial
        · obtain ⟨e', he', h1, h2⟩ := k3 _ hmem x (by rw [hset, ← hold e0 he0 hi]; exact List.mem_append_left _ hx)
          exact ⟨e', he', by rw [h1, hi], h2⟩
        · exact k3 e0 (hkeep e0 he0 hi) x hx
      · intro e he x hx
        rcases k4 e he x hx with ⟨e1, he1, h1, h2⟩ | ⟨t, ht, h1⟩
        · rcases Dict.mem_set (hG1 ▸ he1) with h3 | h3
          · exact Or.inl ⟨e1, h3, h1, h2⟩
          · rw [h3] at h2 h1
            simp only [hset] at h2
            rcases List.mem_append.1 h2 with h2 | h2
            · left
              rcases hg : G0.get? s.q.initial with _ | d
              · rw [hgs, hg] at h2; cases h2
              · rw [hgs, hg] at h2
                exact ⟨(s.q.initial, d), Dict.get?_mem hg, h1, h2⟩
            · right
              rw [List.mem_singleton.1 h2]
              exact ⟨s, List.mem_cons_self, h1, rfl⟩
        · exact Or.inr ⟨t, List.mem_cons_of_mem _ ht, h1⟩
  obtain ⟨G, k1, k2, _, k4⟩ := key l [] h ⟨by simp, by simp⟩
  refine ⟨G, k1, k2, ?_⟩
  intro e he x hx
  rcases k4 e he x hx with ⟨e0, he0, _⟩ | h
  · cases he0
  · exact h

/-! ### C68: the full time delay -/

theorem photon_groups {g : Cfg} {fuel : ℕ} {l : List AState} (hw : WellFormedAll g l) {G P : Groups} (hG : readGroups l = some G) (hP : GroupsRel (fun cols ph => toPhotons g fuel cols = some ph) G P) :
    Proper P ∧ ∀ e ∈ P, ∀ x ∈ e.2, ∀ c ∈ x.2, ∀ s ∈ c.states, PhotonState g s := by
  have hpr := readGroups_proper hG
  have hst := readGroups_states hG
  have hwf : ∀ e ∈ G, ∀ x ∈ e.2, WfCols g x.2 := by
    intro e he x hx c hc t ht
    obtain ⟨s, hs, hq⟩ := hst e he x hx c hc t ht
    rw [← hq]
    exact hw s hs
  have hout : ∀ e ∈ G, ∀ x ∈ e.2, ∀ y, toPhotons g fuel x.2 = some y → ProperGroup e.1 y ∧ ∀ c ∈ y, ∀ s ∈ c.states, PhotonState g s := by
    intro e he x hx y hy
    exact toPhotons_out (hwf e he x hx) ((hpr.groups e he).2.2 x hx) hy
  refine ⟨groupsRel_proper hpr hP (fun e he x hx y hy => (hout e he x hx y hy).1), ?_⟩
  intro e' he' x' hx'
  obtain ⟨e, he, h1, h2⟩ := forall2_left_mem (List.Forall₂.flip hP) e' he'
  obtain ⟨x, hx, q1, q2⟩ := forall2_left_mem h2.flip x' hx'
  exact (hout e he x hx x'.2 q2).2

/-- What a node does that changes the photon information of every photon. -/
theorem photon_node {g : Cfg} {fuel : ℕ} {l l' : List AState} (hw : WellFormedAll g l) {f : PState → Option PState} (hf : ∀ s s', f s = some s' → s'.q = s.q)
    (h : (readGroups l).bind (fun G => (G.mapM (fun cols => (toPhotons g fuel cols).bind (mapStates f))).map writeGroups) = some l') :
    ∃ G P G', readGroups l = some G ∧ GroupsRel (fun cols ph => toPhotons g fuel cols = some ph) G P ∧ Proper P ∧ (∀ e ∈ P, ∀ x ∈ e.2, ∀ c ∈ x.2, ∀ s ∈ c.states, PhotonState g s) ∧
      GroupsRel (List.Forall₂ (SameColumn (fun s s' => f s = some s'))) P G' ∧ l' = writeGroups G' ∧ readGroups l' = some G' ∧ Proper G' ∧
      (∀ e ∈ G', ∀ x ∈ e.2, ∀ c ∈ x.2, ∀ s ∈ c.states, PhotonState g s) := by
  obtain ⟨G, hG, h0⟩ := Option.bind_eq_some_iff.1 h
  clear h
  obtain ⟨G', hG', rfl⟩ := Option.map_eq_some_iff.1 h0
  clear h0
  have hrel := groups_mapM.1 hG'
  -- the intermediate groups
  have hmid : ∃ P, GroupsRel (fun cols ph => toPhotons g fuel cols = some ph) G P ∧ GroupsRel (List.Forall₂ (SameColumn (fun s s' => f s = some s'))) P G' := by
    clear hG hG'
    unfold GroupsRel at hrel ⊢
    induction hrel with
    | nil => exact ⟨[], List.Forall₂.nil, List.Forall₂.nil⟩
    | @cons e e' G G' he _ ih =>
      obtain ⟨P, p1, p2⟩ := ih
      obtain ⟨he1, he2⟩ := he
      have : ∃ d, List.Forall₂ (fun (x x' : ℕ × List Column) => x'.1 = x.1 ∧ toPhotons g fuel x.2 = some x'.2) e.2 d ∧
          List.Forall₂ (fun (x x' : ℕ × List Column) => x'.1 = x.1 ∧ List.Forall₂ (SameColumn (fun s s' => f s = some s')) x.2 x'.2) d e'.2 := by
        clear he1 p1 p2
        generalize e.2 = dd at he2
        generalize e'.2 = dd' at he2
        induction he2 with
        | nil => exact ⟨[], List.Forall₂.nil, List.Forall₂.nil⟩
        | @cons x x' d d' hx _ ih =>
          obtain ⟨d0, q1, q2⟩ := ih
          obtain ⟨hx1, hx2⟩ := hx
          obtain ⟨y, y1, y2⟩ := Option.bind_eq_some_iff.1 hx2
          exact ⟨(x.1, y) :: d0, List.Forall₂.cons ⟨rfl, y1⟩ q1, List.Forall₂.cons ⟨hx1, mapStates_some.1 y2⟩ q2⟩
      obtain ⟨d, d1, d2⟩ := this
      exact ⟨(e.1, d) :: P, List.Forall₂.cons ⟨rfl, d1⟩ p1, List.Forall₂.cons ⟨he1, d2⟩ p2⟩
  obtain ⟨P, hP, hPG⟩ := hmid
  obtain ⟨r1, r2⟩ := photon_groups hw hG hP
  have hout : ∀ e ∈ P, ∀ x ∈ e.2, ∀ y, List.Forall₂ (SameColumn (fun s s' => f s = some s')) x.2 y → ProperGroup e.1 y ∧ ∀ c ∈ y, ∀ s ∈ c.states, PhotonState g s := by
    intro e he x hx y hy
    exact sameColumns_proper hf hy ((r1.groups e he).2.2 x hx) (r2 e he x hx)
  have hpr := groupsRel_proper r1 hPG (fun e he x hx y hy => (hout e he x hx y hy).1)
  refine ⟨G, P, G', hG, hP, r1, r2, hPG, rfl, read_write hpr, hpr, ?_⟩
  intro e' he' x' hx'
  obtain ⟨e, he, h1, h2⟩ := forall2_left_mem (List.Forall₂.flip hPG) e' he'
  obtain ⟨x, hx, q1, q2⟩ := forall2_left_mem h2.flip x' hx'
  exact (hout e he x hx x'.2 q2).2

/-- **C68** After a time delay the groups of the collection are those of before, in single photons; photons in the given channels are delayed, the others not; amplitudes, probabilities and
everything else is as before. -/
theorem C68_delay (g : Cfg) (fuel : ℕ) (chs : List ℕ) (d : DelaySource) (w : ℝ) (l l' : List AState) (hw : WellFormedAll g l) (h : timeDelayFull g fuel chs d w l = some l') :
    ∃ G P G', readGroups l = some G ∧ GroupsRel (fun cols ph => toPhotons g fuel cols = some ph) G P ∧ readGroups l' = some G' ∧
      GroupsRel (List.Forall₂ (SameColumn (DelayedState g chs d w))) P G' := by
  obtain ⟨G, P, G', h1, h2, _, _, h3, _, h4, _⟩ := photon_node hw (f := delayState g chs d w) (fun s s' e => (delayState_some e).1) h
  exact ⟨G, P, G', h1, h2, h4, h3.imp (fun x y hxy => hxy.imp (fun c c' hc => sameColumn_imp hc (fun s s' e => delayState_some e)))⟩

theorem delay_delay {g : Cfg} {chs : List ℕ} {t u w : ℝ} {s s' : PState} (h : delayState g chs (.value t) w s = some s') :
    delayState g chs (.value u) w s' = delayState g chs (.value (t + u)) w s := by
  unfold delayState at h ⊢
  simp only [DelaySource.read, Option.bind_some] at h ⊢
  obtain ⟨v, h2, h⟩ := Option.bind_eq_some_iff.1 h
  obtain ⟨b, h3, h⟩ := Option.map_eq_some_iff.1 h
  subst h
  have : firstValues g { s with info := some ⟨if b then (s.info.getD ⟨0, w⟩).delay + -1 * t else (s.info.getD ⟨0, w⟩).delay, w⟩ } = some v := h2
  rw [this, h2, Option.bind_some, Option.bind_some, h3, Option.map_some, Option.map_some]
  cases b
  · simp
  · simp only [if_true, Option.getD_some, Option.some.injEq, PState.mk.injEq, PInfo.mk.injEq, true_and, and_true]
    ring

theorem forall2_mapM_congr {α β : Type*} {f : α → Option β} {k : α → Option α} {l l' : List α} (h : List.Forall₂ (fun a b => k a = some b) l l') (f' : α → Option β) (hh : ∀ a b, k a = some b → f b = f' a) :
    l'.mapM f = l.mapM f' := by
  induction h with
  | nil => rfl
  | cons h1 _ ih => rw [List.mapM_cons, List.mapM_cons, hh _ _ h1, ih]

/-- **C68** Delays add up: a delay by `t` and then by `u` is a delay by `t + u`. -/
theorem C68_add (g : Cfg) (fuel fuel' : ℕ) (chs : List ℕ) (t u w : ℝ) (l l' : List AState) (hw : WellFormedAll g l) (h : timeDelayFull g fuel chs (.value t) w l = some l') :
    timeDelayFull g (fuel' + 1) chs (.value u) w l' = timeDelayFull g fuel chs (.value (t + u)) w l := by
  obtain ⟨G, P, G', h1, h2, hx1, hx2, h3, hx3, h4, h5, h6⟩ := photon_node hw (f := delayState g chs (.value t) w) (fun s s' e => (delayState_some e).1) h
  unfold timeDelayFull
  rw [h4, h1, Option.bind_some, Option.bind_some]
  congr 1
  have key : ∀ cols ph out : List Column, toPhotons g fuel cols = some ph → List.Forall₂ (SameColumn (fun s s' => delayState g chs (.value t) w s = some s')) ph out → (∀ c ∈ out, ∀ s ∈ c.states, PhotonState g s) →
      (toPhotons g (fuel' + 1) out).bind (mapStates (delayState g chs (.value u) w)) = (toPhotons g fuel cols).bind (mapStates (delayState g chs (.value (t + u)) w)) := by
    intro cols ph out e1 e2 e3
    rw [toPhotons_photon fuel' e3, e1, Option.bind_some, Option.bind_some]
    unfold mapStates
    clear e1 e3
    induction e2 with
    | nil => rfl
    | @cons c c' _ _ hc _ ih =>
      rw [List.mapM_cons, List.mapM_cons, ih]
      congr 1
      rw [forall2_mapM_congr hc.states (delayState g chs (.value (t + u)) w) (fun a b hab => delay_delay hab)]
      congr 1
      funext sts
      obtain ⟨st, a, b, p, i⟩ := c'
      have := hc.amp; have := hc.boson; have := hc.gprob; have := hc.id
      simp_all
  unfold Groups.mapM
  clear h4 h5 h1 h hw hx1 hx2 hx3
  unfold GroupsRel at h2 h3
  induction h2 generalizing G' with
  | nil => cases h3; rfl
  | @cons e p G P he _ ih =>
    cases h3 with
    | @cons _ e' _ G' he' hrest =>
      rw [List.mapM_cons, List.mapM_cons, ih G' hrest (fun x hx => h6 x (List.mem_cons_of_mem _ hx))]
      congr 1
      have h7 := h6 e' List.mem_cons_self
      obtain ⟨i, d⟩ := e
      obtain ⟨ip, dp⟩ := p
      obtain ⟨i', d'⟩ := e'
      obtain ⟨a1, a2⟩ := he
      obtain ⟨b1, b2⟩ := he'
      simp only at a1 a2 b1 b2 h7
      subst a1 b1
      simp only
      congr 1
      clear ih h6 hrest
      induction a2 generalizing d' with
      | nil => cases b2; rfl
      | @cons x y d dp hx _ ih2 =>
        cases b2 with
        | @cons _ x' _ d' hx' hr =>
          rw [List.mapM_cons, List.mapM_cons, ih2 d' (fun z hz => h7 z (List.mem_cons_of_mem _ hz)) hr, key x.2 y.2 x'.2 hx.2 hx'.2 (h7 x' List.mem_cons_self), hx'.1, hx.1]

/-- **C68** A delay by `+t` followed by `-t` is the same as a delay by 0. -/
theorem C68_cancel (g : Cfg) (fuel fuel' : ℕ) (chs : List ℕ) (t w : ℝ) (l l' : List AState) (hw : WellFormedAll g l) (h : timeDelayFull g fuel chs (.value t) w l = some l') :
    timeDelayFull g (fuel' + 1) chs (.value (-t)) w l' = timeDelayFull g fuel chs (.value 0) w l := by
  rw [C68_add g fuel fuel' chs t (-t) w l l' hw h, add_neg_cancel]

end Verif.Props
