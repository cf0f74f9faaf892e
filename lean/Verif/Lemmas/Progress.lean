/-
Helper lemmas: circuits evaluate without exceptions.
-/
import Verif.Lemmas.Conserve

namespace Verif
open Spec Props

/-- every state keeps at least total probability `t`, and has no components with amplitude 0 -/
structure Alive (t : ℝ) (coll : Coll) : Prop where
  total : ∀ p ∈ coll, t ≤ totalProb p.2.comps
  nz : NoZeros coll

theorem fromVector_nonzero {g : Cfg} (hL : 1 ≤ g.L) {thr : ℝ} (ht : 0 < thr) {y : ℕ → ℂ} {c : Comps} (h : fromVector g thr y = some c) :
    ∀ e ∈ c, e.2.amp ≠ 0 := by
  obtain ⟨c', hc', hw, hp, hgt⟩ := fromVector_spec hL thr y
  rw [h] at hc'
  obtain rfl := Option.some.inj hc'
  intro e he h0
  obtain ⟨v, hv, hn⟩ := hw.named e he
  rw [isName_iff hv] at hn
  have h1 := Dict.get?_of_mem hw.nodup (show (e.1, e.2) ∈ c from he)
  have h2 := hgt (g.indexOf v) (g.indexOf_lt hv)
  rw [show g.nm (g.indexOf v) = e.1 by rw [hn]; exact nm_indexOf hv, h1] at h2
  split at h2
  · cases h2
  · rename_i hlt
    have := Option.some.inj h2
    rw [this] at h0
    simp only at h0
    rw [h0] at hlt
    simp at hlt
    linarith

theorem forall₂_exists {α β : Type*} {R : α → β → Prop} : ∀ {l : List α}, (∀ a ∈ l, ∃ b, R a b) → ∃ m, List.Forall₂ R l m
  | [], _ => ⟨[], List.Forall₂.nil⟩
  | a :: l, h => by
    obtain ⟨b, hb⟩ := h a (by simp)
    obtain ⟨m, hm⟩ := forall₂_exists (l := l) (fun a' ha' => h a' (by simp [ha']))
    exact ⟨b :: m, List.Forall₂.cons hb hm⟩

theorem ne_nil_of_total {c : Comps} {t : ℝ} (ht : 0 < t) (h : t ≤ totalProb c) : c ≠ [] := by
  rintro rfl
  simp [totalProb] at h
  linarith

theorem runs_optical {c : Circ} (hg : c.g.Ok) (ht : 0 < c.thr) {n : Opt × List ℕ} {l : List (Opt × List ℕ)}
    (hn : ∀ m ∈ n :: l, OnChannels c.g m ∧ m.1 ∈ Matrix.unitaryGroup (Fin 2) ℂ) {coll : Coll} (hc : Sound c.g c.m coll) {t : ℝ} (h0 : 0 < t)
    (ha : Alive t coll) : ∃ out, opticalColl c n l coll = some out ∧ Sound c.g c.m out ∧ Alive (t - c.g.size * c.thr) out := by
  have step : ∀ p ∈ coll, ∃ p' : List Char × QState, ∃ comps, applyOptical c.g c.thr c.full (basisKeys c.g) n l p.2.comps = some comps ∧
      p' = (p.1, { p.2 with comps := comps }) := by
    intro p hp
    obtain ⟨c', hc', -⟩ := fromVector_spec hg.1 c.thr (oneByOne c.g (n :: l) (vec c.g p.2.comps))
    exact ⟨_, c', (applyOptical_eq hg c.thr c.full n l (hn n (by simp)).1 (fun m hm => (hn m (by simp [hm])).1) (hc.states p hp).wf
      (ne_nil_of_total h0 (ha.total p hp))).trans hc', rfl⟩
  obtain ⟨out, hf⟩ := forall₂_exists step
  have ho := (opticalColl_iff c n l coll hc.ids out).2 ⟨fun p hp => measurable_check (hc.states p hp) ht.le, hf⟩
  refine ⟨out, ho, (conserves_optical hg ht.le hn hc ho).sound, ?_, ?_⟩
  · intro p' hp'
    obtain ⟨p, hp, comps, h1, rfl⟩ := forall₂_mem_right hf hp'
    have := (keeps_optical hg ht.le hn (hc.states p hp) h1).ge
    have := ha.total p hp
    simp only at *
    linarith
  · intro p' hp'
    obtain ⟨p, hp, comps, h1, rfl⟩ := forall₂_mem_right hf hp'
    exact fromVector_nonzero hg.1 ht ((applyOptical_eq hg c.thr c.full n l (hn n (by simp)).1 (fun m hm => (hn m (by simp [hm])).1)
      (hc.states p hp).wf (ne_nil_of_total h0 (ha.total p hp))).symm.trans h1)

theorem runs_custom {c : Circ} (hg : c.g.Ok) (ht : 0 < c.thr) {F : SqArr} (hF : IsUnitary F) (hs : F.size = c.g.size) (r : ℕ → ℕ → ℕ)
    {coll : Coll} (hc : Sound c.g c.m coll) {t : ℝ} (ha : Alive t coll) :
    ∃ out, customColl c F r coll = some out ∧ Sound c.g c.m out ∧ Alive (t - c.g.size * c.thr) out := by
  have key : ∀ (coll acc : Coll), (∀ p ∈ coll, Measurable c.g c.m p.2) → Alive t coll → Alive (t - c.g.size * c.thr) acc →
      ∃ out, coll.foldlM (fun (out : Coll) p => do
        let q ← copyState c.thr c.m p.2
        if F.size ≠ c.g.size then none
        let comps ← applyCustom c.g c.thr F p.2.comps
        some (addState out { q with comps := comps } none (r out.length))) acc = some out ∧ Alive (t - c.g.size * c.thr) out := by
    intro coll
    induction coll with
    | nil => intro acc _ _ h; exact ⟨acc, rfl, h⟩
    | cons p coll ih =>
      intro acc hm hal hacc
      have hp := hm p (by simp)
      obtain ⟨x, hx, hxi⟩ := toVector_spec hg.1 hp.wf
      obtain ⟨c', hc', -⟩ := fromVector_spec hg.1 c.thr (F.mulVec x)
      obtain ⟨i, hi, hadd⟩ := C33_random_identifier acc { p.2 with comps := c' } (r acc.length)
      obtain ⟨-, -, -, e2⟩ := fromVector_total hg.1 ht.le hc'
      have hnorm : ∑ i ∈ Finset.range c.g.size, ‖F.mulVec x i‖ ^ 2 = totalProb p.2.comps := by
        have := unitary_mulVec_norm hF x
        rw [hs] at this
        rw [this, totalProb_eq hg.1 hp.wf]
        exact Finset.sum_congr rfl fun i hi => by rw [hxi i (Finset.mem_range.1 hi)]
      rw [hnorm] at e2
      obtain ⟨out, h1, h2⟩ := ih (acc ++ [(i, { p.2 with comps := c' })]) (fun q hq => hm q (by simp [hq]))
        ⟨fun q hq => hal.total q (by simp [hq]), fun q hq => hal.nz q (by simp [hq])⟩ ⟨by
          intro q hq
          rcases List.mem_append.1 hq with hq | hq
          · exact hacc.total q hq
          · obtain rfl := List.mem_singleton.1 hq
            have := hal.total p (by simp)
            simp only at *
            linarith, by
          intro q hq
          rcases List.mem_append.1 hq with hq | hq
          · exact hacc.nz q hq
          · obtain rfl := List.mem_singleton.1 hq
            exact fromVector_nonzero hg.1 ht hc'⟩
      refine ⟨out, ?_, h2⟩
      rw [List.foldlM_cons, copyState, if_pos (measurable_check hp ht.le)]
      simp only [Option.bind_eq_bind, Option.bind_some, hs, ne_eq, not_true, if_false, applyCustom, hx, hc', hadd]
      rw [← h1]
      simp only [Option.bind_eq_bind, hs, ne_eq, not_true, if_false, applyCustom]
  obtain ⟨out, h1, h2⟩ := key coll [] hc.states ha ⟨by simp, by intro p hp; cases hp⟩
  exact ⟨out, h1, (conserves_custom hg ht.le hF r hc h1).sound, h2⟩

theorem runs_classical {c : Circ} {f : List ℝ → List ℝ → List ℤ → Option (List ℝ)} {v : List ℝ} {a : List ℤ}
    (hf : ∀ vals : List ℝ, vals.length = c.m → ∃ out, f vals v a = some out ∧ out.length = c.m)
    {coll : Coll} (hc : Sound c.g c.m coll) {t : ℝ} (ha : Alive t coll) :
    ∃ out, classicalColl c f v a coll = some out ∧ Sound c.g c.m out ∧ Alive t out := by
  have step : ∀ p ∈ coll, ∃ p' : List Char × QState, (do
      let vals ← f p.2.classical v a
      if vals.length = c.m then some (p.1, { p.2 with classical := vals }) else none) = some p' ∧ p'.2.comps = p.2.comps := by
    intro p hp
    obtain ⟨out, h1, h2⟩ := hf p.2.classical (hc.states p hp).classical
    exact ⟨(p.1, { p.2 with classical := out }), by simp [h1, h2], rfl⟩
  obtain ⟨out, hfo⟩ := forall₂_exists step
  have h : classicalColl c f v a coll = some out := mapM_some_iff.2 (hfo.imp fun _ _ h => h.1)
  refine ⟨out, h, (conserves_classical hc h).sound, ?_, ?_⟩
  · intro p' hp'
    obtain ⟨p, hp, -, e⟩ := forall₂_mem_right hfo hp'
    rw [e]; exact ha.total p hp
  · intro p' hp'
    obtain ⟨p, hp, -, e⟩ := forall₂_mem_right hfo hp'
    rw [e]; exact ha.nz p hp

theorem runs_measure {c : Circ} (ht : 0 ≤ c.thr) {kinds : List Bool} {idx : ℕ} {opt cls : List ℕ} (hlen : cls.length = opt.length)
    (hcls : ∀ n ∈ cls, n < c.m) {coll : Coll} (hc : Sound c.g c.m coll) {t : ℝ} (ha : Alive t coll) (h1 : t ≤ 1) :
    ∃ out, measureColl c.g c.thr c.m (measurementId kinds idx) opt cls coll = some out ∧ Sound c.g c.m out ∧ Alive t out := by
  have step : ∀ p ∈ coll, ∃ qs : List QState, measure c.g c.thr c.m p.2 opt cls = some qs := by
    intro p hp
    refine C26_success c.g c.thr ht c.m p.2 opt cls (hc.states p hp) hlen hcls ?_
    rintro o ⟨v, s, hv, hn, hs, hr⟩ h0
    obtain ⟨e, he, rfl⟩ := List.mem_map.1 hs
    have hle : ‖e.2.amp‖ ^ 2 ≤ outcomeProb c.g opt p.2.comps o := by
      unfold outcomeProb
      apply List.single_le_sum
      · intro x hx
        obtain ⟨r, _, rfl⟩ := List.mem_map.1 hx
        split
        · positivity
        · exact le_rfl
      · refine List.mem_map.2 ⟨e, he, ?_⟩
        rw [if_pos ⟨v, hv, hn, hr⟩]
    rw [h0] at hle
    have := ha.nz p hp e he
    have : 0 < ‖e.2.amp‖ ^ 2 := by positivity
    linarith
  obtain ⟨out, h⟩ : ∃ out, measureColl c.g c.thr c.m (measurementId kinds idx) opt cls coll = some out := by
    have gen : ∀ (coll acc : Coll), (∀ p ∈ coll, ∃ qs : List QState, measure c.g c.thr c.m p.2 opt cls = some qs) →
        ∃ out, coll.foldlM (fun out iq => do
          let qs ← measure c.g c.thr c.m iq.2 opt cls
          some (qs.zipIdx.foldl (fun (out : Coll) qk => out.set (iq.1 ++ ['-', 'M'] ++ measurementId kinds idx ++ marker qk.2) qk.1) out)) acc
            = some out := by
      intro coll
      induction coll with
      | nil => intro acc _; exact ⟨acc, rfl⟩
      | cons p coll ih =>
        intro acc hs
        obtain ⟨qs, hq⟩ := hs p (by simp)
        obtain ⟨out, ho⟩ := ih (qs.zipIdx.foldl (fun (out : Coll) qk => out.set (p.1 ++ ['-', 'M'] ++ measurementId kinds idx ++ marker qk.2) qk.1) acc)
          (fun q hq => hs q (by simp [hq]))
        refine ⟨out, ?_⟩
        rw [List.foldlM_cons, hq]
        exact ho
    exact gen coll [] step
  refine ⟨out, h, (conserves_measure hlen hc h).sound, ?_⟩
  obtain ⟨-, qss', hf', e⟩ := C29_no_state_lost c.g c.thr c.m kinds idx opt cls coll out hc.ids h
  have key : ∀ p' ∈ out, ∃ p ∈ coll, ∃ o, Produced c.g opt cls p.2 o p'.2 := by
    intro p' hp'
    have : p'.2 ∈ qss'.flatten := e ▸ List.mem_map.2 ⟨p', hp', rfl⟩
    obtain ⟨qs, hqs, hq⟩ := List.mem_flatten.1 this
    obtain ⟨p, hp, hme⟩ := forall₂_mem_right hf' hqs
    obtain ⟨outs, -, -, hP⟩ := C26_outcomes c.g c.thr c.m p.2 opt cls (hc.states p hp) hlen qs hme
    obtain ⟨o, -, hPo⟩ := forall₂_mem_right hP hq
    exact ⟨p, hp, o, hPo⟩
  refine ⟨?_, ?_⟩
  · intro p' hp'
    obtain ⟨p, hp, o, hPo⟩ := key p' hp'
    rw [hPo.norm]; exact h1
  · intro p' hp' x hx
    obtain ⟨p, hp, o, hPo⟩ := key p' hp'
    obtain ⟨v, hv, hn⟩ := hPo.wf.named x hx
    have hmem := (hPo.mem v x.1 hv hn).1 (List.mem_map.2 ⟨x, hx, rfl⟩)
    have ha' := hPo.amp v x.1 hv hn hmem.2
    obtain ⟨y, hy, hxy⟩ := List.mem_map.1 hmem.1
    rw [ampOf_of_mem hPo.wf.nodup (show (x.1, x.2) ∈ p'.2.comps from hx), ← hxy,
      ampOf_of_mem (hc.states p hp).wf.nodup (show (y.1, y.2) ∈ p.2.comps from hy)] at ha'
    rw [ha']
    refine div_ne_zero (ha.nz p hp y hy) ?_
    have h2 : 0 ≤ outcomeProb c.g opt p.2.comps o := by
      obtain ⟨l, hl, e⟩ := exists_enc (hc.states p hp).wf
      rw [e, outcomeProb_eq hl]; exact probAt_nonneg _ _ _
    have h3 : 0 < outcomeProb c.g opt p.2.comps o := lt_of_le_of_ne h2 (Ne.symm hPo.pos)
    exact_mod_cast (Real.sqrt_pos.2 h3).ne'

theorem setAngles_some (l : List (Angle × ℝ)) (tp : Option ℝ × Option ℝ)
    (h : ∀ a : Angle, a ∈ l.map Prod.fst ∨ (match a with | .theta => tp.1.isSome | .phi => tp.2.isSome) = true) :
    (setAngles l tp).1.isSome ∧ (setAngles l tp).2.isSome := by
  induction l generalizing tp with
  | nil =>
    have h1 := h .theta
    have h2 := h .phi
    simpa [setAngles] using And.intro (by simpa using h1) (by simpa using h2)
  | cons e l ih =>
    unfold setAngles
    rw [List.foldl_cons]
    refine ih _ ?_
    intro a
    obtain ⟨b, x⟩ := e
    rcases h a with h1 | h1
    · rw [List.map_cons, List.mem_cons] at h1
      rcases h1 with h1 | h1
      · right; simp only at h1; subst h1; cases a <;> simp
      · exact Or.inl h1
    · right
      cases a <;> cases b <;> simp_all

theorem runs_controlled {c : Circ} (hg : c.g.Ok) (ht : 0 < c.thr) {vars : List Angle} {channels : List ℤ}
    {defaults : List (Angle × ℝ)} {tl : List ℕ} (htl : TwoChannels c.g tl) (hlen : vars.length = channels.length)
    (hch : ∀ ch ∈ channels, 0 ≤ ch ∧ ch < c.m) (hang : ∀ a : Angle, a ∈ vars ∨ a ∈ defaults.map Prod.fst)
    {coll : Coll} (hc : Sound c.g c.m coll) {t : ℝ} (h0 : 0 < t) (ha : Alive t coll) :
    ∃ out, controlledColl c vars channels defaults tl coll = some out ∧ Sound c.g c.m out ∧ Alive (t - c.g.size * c.thr) out := by
  -- what stays true of the angles: those that are not read again are set
  let T : Option ℝ × Option ℝ → Prop := fun tp => ∀ a : Angle, a ∈ vars ∨ (match a with | .theta => tp.1.isSome | .phi => tp.2.isSome) = true
  have setMono : ∀ (l : List (Angle × ℝ)) (tp : Option ℝ × Option ℝ) (a : Angle),
      (a ∈ l.map Prod.fst ∨ (match a with | .theta => tp.1.isSome | .phi => tp.2.isSome) = true) →
      (match a with | .theta => (setAngles l tp).1.isSome | .phi => (setAngles l tp).2.isSome) = true := by
    intro l
    induction l with
    | nil => intro tp a h; simpa [setAngles] using h
    | cons e l ih =>
      intro tp a h
      obtain ⟨b, x⟩ := e
      unfold setAngles
      rw [List.foldl_cons]
      refine ih _ a ?_
      rcases h with h1 | h1
      · rw [List.map_cons, List.mem_cons] at h1
        rcases h1 with h1 | h1
        · right; simp only at h1; subst h1; cases a <;> simp
        · exact Or.inl h1
      · right
        cases a <;> cases b <;> simp_all
  have hT0 : T (setAngles defaults (none, none)) := by
    intro a
    rcases hang a with h | h
    · exact Or.inl h
    · exact Or.inr (setMono _ _ a (Or.inl h))
  have hread : ∀ q : QState, q.classical.length = c.m → ∃ read, (vars.zip channels).mapM (m := Option)
      (fun vc => (pyGet q.classical vc.2).map (fun x => (vc.1, x))) = some read ∧ read.map Prod.fst = vars := by
    intro q hq
    have h1 : ∀ vc ∈ vars.zip channels, ∃ e : Angle × ℝ, (pyGet q.classical vc.2).map (fun x => (vc.1, x)) = some e ∧ e.1 = vc.1 := by
      intro vc hvc
      have hm := hch vc.2 (List.of_mem_zip hvc).2
      rw [pyGet, pyIndex_nonneg hm.1 (by rw [hq]; exact hm.2), Option.bind_some]
      have : vc.2.toNat < q.classical.length := by rw [hq]; omega
      rw [List.getElem?_eq_getElem this]
      exact ⟨_, rfl, rfl⟩
    obtain ⟨read, hf⟩ := forall₂_exists h1
    refine ⟨read, mapM_some_iff.2 (hf.imp fun _ _ h => h.1), ?_⟩
    have : read.map Prod.fst = (vars.zip channels).map Prod.fst := by
      have gen : ∀ (l : List (Angle × ℤ)) (r : List (Angle × ℝ)), List.Forall₂ (fun vc e =>
          (pyGet q.classical vc.2).map (fun x => (vc.1, x)) = some e ∧ e.1 = vc.1) l r → r.map Prod.fst = l.map Prod.fst := by
        intro l r hf
        induction hf with
        | nil => rfl
        | cons h _ ih => simp [h.2, ih]
      exact gen _ _ hf
    rw [this, List.map_fst_zip (by omega)]
  have key : ∀ (coll acc : Coll) (tp : Option ℝ × Option ℝ), (∀ p ∈ coll, Measurable c.g c.m p.2) → Alive t coll → T tp →
      Alive (t - c.g.size * c.thr) acc →
      ∃ r, coll.foldlM (fun (s : Coll × (Option ℝ × Option ℝ)) p =>
          ((vars.zip channels).mapM (m := Option) (fun vc => (pyGet p.2.classical vc.2).map (fun x => (vc.1, x)))).bind (fun read =>
          (setAngles read s.2).1.bind (fun th => (setAngles read s.2).2.bind (fun ph =>
          (opticalColl c (genericMatrix th ph, tl) [] [p]).bind (fun single =>
          some (single.foldl (fun (out : Coll) e => out.set e.1 e.2) s.1, setAngles read s.2)))))) (acc, tp) = some r ∧
        Alive (t - c.g.size * c.thr) r.1 := by
    intro coll
    induction coll with
    | nil => intro acc tp _ _ _ h; exact ⟨(acc, tp), rfl, h⟩
    | cons p coll ih =>
      intro acc tp hm hal htp hacc
      obtain ⟨read, hr1, hr2⟩ := hread p.2 (hm p (by simp)).classical
      have hset : ∀ a : Angle, (match a with | .theta => (setAngles read tp).1.isSome | .phi => (setAngles read tp).2.isSome) = true :=
        fun a => setMono read tp a (by rw [hr2]; exact htp a)
      obtain ⟨th, hth⟩ := Option.isSome_iff_exists.1 (hset .theta)
      obtain ⟨ph, hph⟩ := Option.isSome_iff_exists.1 (hset .phi)
      obtain ⟨single, hs1, -, hs3⟩ := runs_optical hg ht (n := (genericMatrix th ph, tl)) (l := []) (coll := [p]) (by
        intro m' hm'
        obtain rfl : m' = (genericMatrix th ph, tl) := by simpa using hm'
        exact ⟨htl, (C17_wave_plate th ph 0).1⟩) ⟨by simp, by intro q hq; obtain rfl := List.mem_singleton.1 hq; exact hm q (by simp)⟩ h0
        ⟨by intro q hq; obtain rfl := List.mem_singleton.1 hq; exact hal.total q (by simp),
         by intro q hq; obtain rfl := List.mem_singleton.1 hq; exact hal.nz q (by simp)⟩
      have hacc' : ∀ (single acc : Coll), Alive (t - c.g.size * c.thr) single → Alive (t - c.g.size * c.thr) acc →
          Alive (t - c.g.size * c.thr) (single.foldl (fun (out : Coll) e => out.set e.1 e.2) acc) := by
        intro single
        induction single with
        | nil => intro acc _ h; exact h
        | cons e single ih =>
          intro acc h1 h2
          rw [List.foldl_cons]
          refine ih _ ⟨fun q hq => h1.total q (by simp [hq]), fun q hq => h1.nz q (by simp [hq])⟩ ?_
          have hset : ∀ q ∈ Dict.set acc e.1 e.2, q ∈ acc ∨ q.2 = e.2 := by
            intro q hq
            exact (Dict.mem_set hq).imp id (fun h => by rw [h])
          refine ⟨?_, ?_⟩
          · intro q hq
            rcases hset q hq with h | h
            · exact h2.total q h
            · rw [h]; exact h1.total e (by simp)
          · intro q hq
            rcases hset q hq with h | h
            · exact h2.nz q h
            · rw [h]; exact h1.nz e (by simp)
      obtain ⟨r, h1, h2⟩ := ih (single.foldl (fun (out : Coll) e => out.set e.1 e.2) acc) (setAngles read tp)
        (fun q hq => hm q (by simp [hq])) ⟨fun q hq => hal.total q (by simp [hq]), fun q hq => hal.nz q (by simp [hq])⟩
        (fun a => Or.inr (hset a)) (hacc' single acc hs3 hacc)
      refine ⟨r, ?_, h2⟩
      rw [List.foldlM_cons]
      simp only [Option.bind_eq_bind, hr1, Option.bind_some, hth, hph, hs1]
      exact h1
  obtain ⟨r, h1, h2⟩ := key coll [] _ hc.states ha hT0 ⟨by simp, by intro p hp; cases hp⟩
  have h : controlledColl c vars channels defaults tl coll = some r.1 := by
    unfold controlledColl
    simp only [Option.bind_eq_bind]
    rw [if_neg (not_not.2 hlen), h1]; rfl
  exact ⟨r.1, h, (conserves_controlled hg ht.le htl hc h).sound, h2⟩

end Verif
