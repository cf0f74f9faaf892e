/-
Lemmas for circuits with a quick time delay: the state before, directly after the delay and after the optical elements that follow it.
-/
import Verif.Lemmas.Pipeline9
import Verif.Props.Quick

namespace Verif
open Spec Props MvPolynomial

/-! ### Splitting an input state into columns -/

theorem split_agree {g : Cfg} {c new rem : Column} (h : c.split g = some (some (new, rem))) (hw : ∀ s ∈ c.states, WellFormed g s.q.comps) (hp : ∀ s ∈ c.states, ProbsAgree s.q.comps) :
    (∀ s ∈ new.states, ProbsAgree s.q.comps) ∧ ∀ s ∈ rem.states, ProbsAgree s.q.comps := by
  rcases split_cases h hw with ⟨h0, _⟩ | ⟨pre, s, post, s0, k0, s1, k1, rest, r', e, _, _, hh⟩
  · cases h0
  have key : ∀ (comps : Comps) (d : Column), ProbsAgree comps → d.states = pre ++ { s with q := { s.q with comps := comps } } :: post → ∀ t ∈ d.states, ProbsAgree t.q.comps := by
    intro comps d hc hd t ht
    rw [hd] at ht
    rcases List.mem_append.1 ht with h | h
    · exact hp t (by rw [e]; simp [h])
    · rcases List.mem_cons.1 h with rfl | h
      · exact hc
      · exact hp t (by rw [e]; simp [h])
  have one : ∀ n : Name, ProbsAgree [(n, (⟨1, ‖(1 : ℂ)‖ ^ 2⟩ : Comp))] := by
    intro n p hp
    obtain rfl := List.mem_singleton.1 hp
    rfl
  rcases hh with ⟨f, _, hr, _, _, hr'⟩ | ⟨_, hr, hr'⟩
  · obtain ⟨rfl, rfl⟩ := Prod.mk.inj (Option.some.inj hr)
    refine ⟨key _ _ (one s0) rfl, key r' _ ?_ rfl⟩
    rw [hr']
    intro p hp
    obtain ⟨q, _, rfl⟩ := List.mem_map.1 hp
    rfl
  · obtain ⟨rfl, rfl⟩ := Prod.mk.inj (Option.some.inj hr)
    exact ⟨key _ _ (one s0) rfl, key r' _ (by rw [hr']; exact one s1) rfl⟩

/-- A column with one state, which has one component with amplitude 1 and fewer photons than the cutoff. -/
structure PlainColumn (g : Cfg) (q : QState) (c : Column) : Prop where
  state : ∃ (s : PState) (v : Vals), c.states = [s] ∧ Valid g v ∧ v.sum < g.L ∧ s.q.comps = [(g.stdName v, ⟨1, 1⟩)] ∧ s.info = none ∧ s.q.classical = q.classical ∧ s.q.initial = q.initial ∧ s.q.cum = q.cum
  amp : c.amp ≠ 0
  boson : 0 < c.boson
  gprob : c.gprob = q.cum

/-- The columns of an input state. A state with one component must have amplitude 1. -/
theorem fresh_split {g : Cfg} (_hg : g.Ok) {m : ℕ} {q : QState} (hs : FreshState g m ⟨q, none⟩) (hu : ∀ p, q.comps = [p] → p.2.amp = 1) :
    ∃ N, ∀ fuel ≥ N, ∃ out, splitColumns g fuel (groupOfState ⟨q, none⟩) = some out ∧ groupPoly g out = statePoly g ⟨q, none⟩ ∧ out ≠ [] ∧ ∀ c ∈ out, PlainColumn g q c := by
  have hne : q.comps ≠ [] := by
    intro h0
    have := hs.norm
    simp only [h0] at this
    simp [totalProb] at this
  have hpoly : groupPoly g (groupOfState ⟨q, none⟩) = statePoly g ⟨q, none⟩ := by
    simp [groupPoly, groupOfState, columnPoly]
  have hint : ∀ c ∈ groupOfState ⟨q, none⟩, InterferingColumn g m q.cum (fun _ => 1) c := by
    intro c hc
    obtain rfl := List.mem_singleton.1 hc
    refine ⟨?_, ?_, by simp, by simp, by simp, rfl, ?_⟩
    · intro t ht
      obtain rfl := List.mem_singleton.1 ht
      refine ⟨⟨hs.wf, hne, fun _ => ⟨hs.norm, hs.nonzero⟩⟩, ?_, ?_⟩
      · intro v n k hk _ _
        have := hu (n, k) hk
        exact ⟨by simpa [numbersPhase] using this, Or.inr this⟩
      · intro _ p _ v _ _
        simp [numbersPhase]
    · intro ws hws ch _
      cases hws with
      | cons e1 e2 =>
        cases e2
        obtain ⟨p, hp, hn, hv⟩ := e1
        have := hs.few p hp _ hv hn
        simp only [List.map_cons, List.map_nil, List.sum_cons, List.sum_nil, add_zero]
        rename_i w
        have := getD_le_sum w (h := ch) (c := ch + 1) (by omega)
        omega
    · intro t ht
      obtain rfl := List.mem_singleton.1 ht
      exact hs.classical
  refine ⟨totalWeight (groupOfState ⟨q, none⟩), fun fuel hf => ?_⟩
  obtain ⟨out, o1, o2⟩ := splitColumns_defined fuel (interfering_spl hint) (by simp only [groupOfState, List.length_singleton] at *; omega)
  have hwc : WfCols g (groupOfState ⟨q, none⟩) := fun c hc s hs' => ((hint c hc).states s hs').splits.wf
  obtain ⟨p1, p2, p3⟩ := splitColumns_poly fuel o1 hwc
  have hinv := splitColumns_inv (R := fun c => InterferingColumn g m q.cum (fun _ => 1) c ∧ Chooses g (fun ws => (ws.map List.sum).sum < g.L) c ∧ (∀ s ∈ c.states, ProbsAgree s.q.comps) ∧
      c.states.map skel = [skel ⟨q, none⟩]) (by
    rintro c new rem ⟨h1, h2, h3, h4⟩ hsp
    have hw : ∀ s ∈ c.states, WellFormed g s.q.comps := fun s hs' => (h1.states s hs').splits.wf
    obtain ⟨a1, a2⟩ := interfering_split c new rem h1 hsp
    obtain ⟨b1, b2⟩ := chooses_split hw h2 hsp
    obtain ⟨c1, c2⟩ := split_agree hsp hw h3
    obtain ⟨d1, d2, _⟩ := split_skel hsp hw
    exact ⟨⟨a1, b1, c1, by rw [d1.1, h4]⟩, ⟨a2, b2, c2, by rw [d2.1, h4]⟩⟩)
    (by rintro c n ⟨h1, h2, h3, h4⟩; exact ⟨⟨h1.states, h1.fits, h1.nonempty, h1.amp, h1.boson, h1.gprob, h1.classical⟩, h2, h3, h4⟩) fuel o1 (by
    intro c hc
    refine ⟨hint c hc, ?_, ?_, ?_⟩
    · obtain rfl := List.mem_singleton.1 hc
      intro ws hws
      cases hws with
      | cons e1 e2 =>
        cases e2
        obtain ⟨p, hp, hn, hv⟩ := e1
        simpa using hs.few p hp _ hv hn
    · obtain rfl := List.mem_singleton.1 hc
      intro t ht
      obtain rfl := List.mem_singleton.1 ht
      exact hs.probs
    · obtain rfl := List.mem_singleton.1 hc
      rfl)
  refine ⟨out, o1, by rw [p1, hpoly], ?_, ?_⟩
  · intro h0
    rw [h0] at o2
    have := weight_pos (c := { states := [⟨q, none⟩], amp := 1, boson := 1, gprob := q.cum, id := 0 }) (interfering_spl hint _ (List.mem_singleton.2 rfl))
    simp only [List.length_nil, totalWeight, groupOfState, List.map_cons, List.map_nil, List.sum_cons, List.sum_nil] at o2
    omega
  · intro c hc
    obtain ⟨h1, h2, h3, h4⟩ := hinv c hc
    refine ⟨?_, h1.amp, h1.boson, h1.gprob⟩
    obtain ⟨s, hst, hsk⟩ : ∃ s, c.states = [s] ∧ skel s = skel ⟨q, none⟩ := by
      have hl : c.states.length = 1 := by rw [← List.length_map (f := skel), h4]; rfl
      obtain ⟨s, hs'⟩ := List.length_eq_one_iff.1 hl
      rw [hs'] at h4
      exact ⟨s, hs', (List.cons.inj h4).1⟩
    have hsm : s ∈ c.states := by rw [hst]; simp
    obtain ⟨⟨nm, k⟩, hp⟩ := List.length_eq_one_iff.1 (p3 c hc s hsm)
    obtain ⟨v, hv, hn⟩ := (wf_iff.1 (h1.states s hsm).splits.wf).2 (nm, k) (by rw [hp]; simp)
    simp only at hn
    subst hn
    have hname := (isName_iff hv).2 rfl
    have hk := ((h1.states s hsm).single v _ k hp hv hname).1
    have hk1 : k.amp = 1 := by rw [hk]; simp [numbersPhase]
    have hkp : k.prob = 1 := by
      have := h3 s hsm _ (by rw [hp]; exact List.mem_singleton.2 rfl)
      simp only at this
      rw [this, hk1]
      simp
    refine ⟨s, v, hst, hv, ?_, ?_, (Prod.mk.inj hsk).2, ?_, ?_, ?_⟩
    · have := h2 [v] (by rw [hst]; exact .cons ⟨_, by rw [hp]; exact List.mem_singleton.2 rfl, hname, hv⟩ .nil)
      simpa using this
    · rw [hp]
      obtain ⟨a, p⟩ := k
      simp only at hk1 hkp
      rw [hk1, hkp]
    · exact congrArg (fun x => x.1.classical) hsk
    · exact congrArg (fun x => x.1.initial) hsk
    · exact congrArg (fun x => x.1.cum) hsk

/-! ### The quick delay -/

/-- A state with one component, with photon numbers `v` and amplitude 1. -/
structure PlainState (g : Cfg) (q : QState) (p : ℝ) (s : PState) (v : Vals) : Prop where
  valid : Valid g v
  comps : s.q.comps = [(g.stdName v, ⟨1, 1⟩)]
  classical : s.q.classical = q.classical
  initial : s.q.initial = q.initial
  cum : s.q.cum = q.cum * p

/-- A column of such states with fewer photons than the cutoff. -/
structure QuickColumn (g : Cfg) (q : QState) (p : ℝ) (c : Column) : Prop where
  states : ∃ vs : List Vals, List.Forall₂ (PlainState g q p) c.states vs ∧ (vs.map List.sum).sum < g.L
  nonempty : c.states ≠ []
  amp : c.amp ≠ 0
  boson : 0 < c.boson
  gprob : c.gprob = q.cum * p

/-- The mode of a photon in the overlap part. -/
noncomputable def overMode (m : Mode) : Mode := (m.1, some ⟨0, 1⟩)

/-- The mode of a photon in the separated part. -/
noncomputable def apartMode (chs : List ℕ) (m : Mode) : Mode := (m.1, some ⟨if m.1 ∈ chs then 100 else -100, 1⟩)

theorem rename_ket (f : Mode → Mode) (i : Option PInfo) (v : Vals) :
    rename f (ketPoly i v) = ∏ j ∈ Finset.range v.length, (C (1 / (Real.sqrt (Nat.factorial (v.getD j 0)) : ℂ)) * X (f (j, i)) ^ (v.getD j 0) : MvPolynomial Mode ℂ) := by
  rw [ketPoly_range, map_prod]
  refine Finset.prod_congr rfl (fun j _ => ?_)
  rw [map_mul, map_pow, rename_X, rename_C]

theorem ket_over (v : Vals) : ketPoly (some ⟨0, 1⟩) v = rename overMode (ketPoly none v) := by
  rw [rename_ket, ketPoly_range]
  rfl

theorem ket_apart (chs : List ℕ) {v vb va : Vals} (hb : vb.length = v.length) (ha : va.length = v.length) (eb : ∀ ch : ℕ, vb.getD ch 0 = if ch ∉ chs then v.getD ch 0 else 0)
    (ea : ∀ ch : ℕ, va.getD ch 0 = if ch ∈ chs then v.getD ch 0 else 0) :
    ketPoly (some ⟨-100, 1⟩) vb * ketPoly (some ⟨100, 1⟩) va = rename (apartMode chs) (ketPoly none v) := by
  rw [rename_ket, ketPoly_range, ketPoly_range, hb, ha, ← Finset.prod_mul_distrib]
  refine Finset.prod_congr rfl (fun j _ => ?_)
  rw [eb j, ea j]
  unfold apartMode
  by_cases h : j ∈ chs <;> simp [h]

theorem poly_group {g : Cfg} (f : Mode → Mode) {cols out : List Column}
    (h : List.Forall₂ (fun c c' => c'.amp = c.amp ∧ c'.boson = c.boson ∧ (c'.states.map (statePoly g)).prod = rename f (c.states.map (statePoly g)).prod) cols out) :
    groupPoly g out = rename f (groupPoly g cols) := by
  unfold groupPoly
  induction h with
  | nil => simp
  | @cons c c' cols out e _ ih =>
    rw [List.map_cons, List.map_cons, List.sum_cons, List.sum_cons, ih, map_add]
    congr 1
    unfold columnPoly
    rw [e.1, e.2.1, e.2.2, map_mul, rename_C]

theorem partState_defined {g : Cfg} {q : QState} {p t : ℝ} {keep : ℕ → Bool} {s : PState} {v : Vals} (hv : Valid g v) (hs : s.q.comps = [(g.stdName v, ⟨1, 1⟩)]) (h0 : s.q.classical = q.classical)
    (h1 : s.q.initial = q.initial) (h2 : s.q.cum = q.cum) (hq : 0 ≤ q.cum ∧ q.cum ≤ 1)
    (hp : 0 ≤ p ∧ p ≤ 1) : ∃ s', partState g keep t p s = some s' ∧ PlainState g q p s' (keepChannels keep v) ∧ s'.info = some ⟨t, 1⟩ := by
  have hc : setCum (s.q.cum * p) = some (s.q.cum * p) := by
    unfold setCum
    rw [if_pos]
    rw [h2]
    exact ⟨mul_nonneg hq.1 hp.1, by nlinarith [hq.1, hq.2, hp.1, hp.2]⟩
  have hkv := keepChannels_valid (keep := keep) hv
  unfold partState
  rw [hs, List.mapM_cons]
  simp only
  rw [g.parse_stdName hv.2, Option.bind_some, g.render_of_valid hkv, hc]
  have := setFromList_nodup (g := g) [(g.stdName (keepChannels keep v), (1 : ℂ))] (by
    intro p hp
    obtain rfl := List.mem_singleton.1 hp
    exact ⟨_, hkv, (isName_iff hkv).2 rfl⟩) (by simp)
  simp only [Option.map_some, List.mapM_nil, Option.bind_eq_bind, Option.bind_some, Option.pure_def, this]
  refine ⟨_, rfl, ⟨hkv, ?_, h0, h1, by simp only [h2]⟩, rfl⟩
  simp

theorem plain_poly {g : Cfg} {s : PState} {v : Vals} (hv : Valid g v) (hs : s.q.comps = [(g.stdName v, ⟨1, 1⟩)]) : statePoly g s = ketPoly s.info v := by
  rw [statePoly_single s hv hs]
  simp

theorem keep_sum (keep : ℕ → Bool) (v : Vals) : (keepChannels (fun ch => !keep ch) v).sum + (keepChannels keep v).sum = v.sum := by
  unfold keepChannels
  have : ∀ k : ℕ, ((v.zipIdx k).map (fun x => if !keep x.2 then x.1 else 0)).sum + ((v.zipIdx k).map (fun x => if keep x.2 then x.1 else 0)).sum = v.sum := by
    induction v with
    | nil => intro k; rfl
    | cons n v ih =>
      intro k
      simp only [List.zipIdx_cons, List.map_cons, List.sum_cons]
      have := ih (k + 1)
      by_cases h : keep k = true <;> simp only [h] <;> simp at this ⊢ <;> omega
  exact this 0

theorem overlap_column {g : Cfg} {q : QState} {p : ℝ} {c : Column} (h : PlainColumn g q c) (hq : 0 ≤ q.cum ∧ q.cum ≤ 1) (hp : 0 ≤ p ∧ p ≤ 1) :
    ∃ c', overlapColumn p c = some c' ∧ QuickColumn g q p c' ∧ c'.amp = c.amp ∧ c'.boson = c.boson ∧ (c'.states.map (statePoly g)).prod = rename overMode (c.states.map (statePoly g)).prod := by
  obtain ⟨s, v, h1, h2, h3, h4, h5, h6, h7, h8⟩ := h.state
  have hc : setCum (s.q.cum * p) = some (s.q.cum * p) := by
    unfold setCum
    rw [if_pos]
    rw [h8]
    exact ⟨mul_nonneg hq.1 hp.1, by nlinarith [hq.1, hq.2, hp.1, hp.2]⟩
  have he : overlapColumn p c = some { c with states := [{ q := { s.q with cum := s.q.cum * p }, info := some ⟨0, 1⟩ }], gprob := c.gprob * p } := by
    unfold overlapColumn
    rw [h1, List.mapM_cons, hc]
    rfl
  refine ⟨_, he, ⟨⟨[v], .cons ⟨h2, h4, h6, h7, by simp only [h8]⟩ .nil, by simpa using h3⟩, by simp, h.amp, h.boson, by simp only [h.gprob]⟩, rfl, rfl, ?_⟩
  rw [h1]
  simp only [List.map_cons, List.map_nil, List.prod_cons, List.prod_nil, mul_one]
  rw [plain_poly h2 h4, plain_poly (s := { q := { s.q with cum := s.q.cum * p }, info := some ⟨0, 1⟩ }) h2 h4, h5]
  exact ket_over v

theorem separate_column {g : Cfg} {q : QState} {p : ℝ} (chs : List ℕ) {c : Column} (h : PlainColumn g q c) (hq : 0 ≤ q.cum ∧ q.cum ≤ 1) (hp : 0 ≤ p ∧ p ≤ 1) :
    ∃ c', separateColumn g chs p c = some c' ∧ QuickColumn g q p c' ∧ c'.amp = c.amp ∧ c'.boson = c.boson ∧ (c'.states.map (statePoly g)).prod = rename (apartMode chs) (c.states.map (statePoly g)).prod := by
  obtain ⟨s, v, h1, h2, h3, h4, h5, h6, h7, h8⟩ := h.state
  obtain ⟨b, b1, b2, b3⟩ := partState_defined (p := p) (t := -100) (keep := fun ch => !chs.contains ch) h2 h4 h6 h7 h8 hq hp
  obtain ⟨a, a1, a2, a3⟩ := partState_defined (p := p) (t := 100) (keep := fun ch => chs.contains ch) h2 h4 h6 h7 h8 hq hp
  have he : separateColumn g chs p c = some { c with states := [b, a], gprob := c.gprob * p } := by
    unfold separateColumn
    rw [h1, List.mapM_cons, b1]
    simp only [Option.bind_some, a1]
    rfl
  refine ⟨_, he, ⟨⟨[_, _], .cons b2 (.cons a2 .nil), ?_⟩, by simp, h.amp, h.boson, by simp only [h.gprob]⟩, rfl, rfl, ?_⟩
  · simp only [List.map_cons, List.map_nil, List.sum_cons, List.sum_nil, add_zero]
    rw [keep_sum (fun ch => chs.contains ch) v]
    exact h3
  · rw [h1]
    simp only [List.map_cons, List.map_nil, List.prod_cons, List.prod_nil, mul_one]
    rw [plain_poly h2 h4, plain_poly b2.valid b2.comps, plain_poly a2.valid a2.comps, h5, b3, a3]
    refine ket_apart chs (by rw [b2.valid.1, h2.1]) (by rw [a2.valid.1, h2.1]) ?_ ?_
    · intro ch
      rw [keepChannels_getD]
      simp
    · intro ch
      rw [keepChannels_getD]
      simp

theorem quickOverlap_range (t w : ℝ) : (0 ≤ quickOverlap t w ∧ quickOverlap t w ≤ 1) ∧ 0 ≤ 1 - quickOverlap t w ∧ 1 - quickOverlap t w ≤ 1 := by
  have h1 : 0 < quickOverlap t w := Real.exp_pos _
  have h2 : quickOverlap t w ≤ 1 := by
    rw [quickOverlap_eq, Real.exp_le_one_iff]
    have : 0 < Real.log 2 := Real.log_pos (by norm_num)
    nlinarith [sq_nonneg (t / w)]
  exact ⟨⟨h1.le, h2⟩, by linarith, by linarith⟩

theorem quick_group {g : Cfg} (hg : g.Ok) {m : ℕ} {q : QState} (hs : FreshState g m ⟨q, none⟩) (hu : ∀ p, q.comps = [p] → p.2.amp = 1) (chs : List ℕ) {d : DelaySource} (hd : ∀ ch, d = .classical ch → ch < m)
    {w : ℝ} (hw : w ≠ 0) : ∃ N, ∀ fuel ≥ N, ∃ over sep, quickGroup g fuel chs d w (groupOfState ⟨q, none⟩) = some (over, sep) ∧
      groupPoly g over = rename overMode (statePoly g ⟨q, none⟩) ∧ groupPoly g sep = rename (apartMode chs) (statePoly g ⟨q, none⟩) ∧
      (∀ c ∈ over, QuickColumn g q (quickOverlap (delayFor q.classical d) w) c) ∧ ∀ c ∈ sep, QuickColumn g q (1 - quickOverlap (delayFor q.classical d) w) c := by
  obtain ⟨N, hN⟩ := fresh_split hg hs hu
  refine ⟨N, fun fuel hf => ?_⟩
  obtain ⟨sp, h1, h2, h3, h4⟩ := hN fuel hf
  have hr := quickOverlap_range (delayFor q.classical d) w
  obtain ⟨s0, t0, ht⟩ : ∃ s0, ((sp.flatMap (fun c => c.states)).head?) = some s0 ∧ d.read s0.q = some (delayFor q.classical d) := by
    cases sp with
    | nil => exact absurd rfl h3
    | cons c sp =>
      obtain ⟨s, v, a1, a2, a3, a4, a5, a6, a7, a8⟩ := (h4 c List.mem_cons_self).state
      refine ⟨s, by rw [List.flatMap_cons, a1]; rfl, ?_⟩
      cases d with
      | value t => rfl
      | classical ch =>
        have : ch < q.classical.length := by
          have h5 : q.classical.length = m := hs.classical
          rw [h5]
          exact hd ch rfl
        show s.q.classical[ch]? = some (q.classical.getD ch 0)
        rw [a6, List.getD_eq_getElem?_getD, List.getElem?_eq_getElem this]
        rfl
  have key : ∀ {f : Column → Option Column} {p : ℝ} {φ : Mode → Mode}, (∀ c, PlainColumn g q c → ∃ c', f c = some c' ∧ QuickColumn g q p c' ∧ c'.amp = c.amp ∧ c'.boson = c.boson ∧
      (c'.states.map (statePoly g)).prod = rename φ (c.states.map (statePoly g)).prod) →
      ∃ out, sp.mapM f = some out ∧ (∀ c ∈ out, QuickColumn g q p c) ∧ groupPoly g out = rename φ (groupPoly g sp) := by
    intro f p φ hf
    have : ∃ out, List.Forall₂ (fun c c' => f c = some c') sp out ∧ (∀ c ∈ out, QuickColumn g q p c) ∧ List.Forall₂ (fun c c' => c'.amp = c.amp ∧ c'.boson = c.boson ∧ (c'.states.map (statePoly g)).prod = rename φ (c.states.map (statePoly g)).prod) sp out := by
      clear h1 h2 h3 t0
      induction sp with
      | nil => exact ⟨[], .nil, by simp, .nil⟩
      | cons c sp ih =>
        obtain ⟨out, o1, o2, o3⟩ := ih (fun c hc => h4 c (List.mem_cons_of_mem _ hc))
        obtain ⟨c', e1, e2, e3⟩ := hf c (h4 c List.mem_cons_self)
        refine ⟨c' :: out, .cons e1 o1, ?_, .cons e3 o3⟩
        intro x hx
        rcases List.mem_cons.1 hx with rfl | hx
        · exact e2
        · exact o2 x hx
    obtain ⟨out, o1, o2, o3⟩ := this
    exact ⟨out, mapM_some_iff.2 o1, o2, poly_group φ o3⟩
  obtain ⟨over, a1, a2, a3⟩ := key (fun c hc => overlap_column hc hs.cum hr.1)
  obtain ⟨sep, b1, b2, b3⟩ := key (fun c hc => separate_column chs hc hs.cum hr.2)
  refine ⟨over, sep, ?_, by rw [a3, h2], by rw [b3, h2], a2, b2⟩
  unfold quickGroup
  rw [h1, Option.bind_some, t0, Option.bind_some, ht, Option.bind_some, if_neg hw, a1, Option.bind_some, b1]
  rfl

end Verif
