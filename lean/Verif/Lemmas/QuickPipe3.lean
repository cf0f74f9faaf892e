/-
Lemmas for circuits with a quick time delay: the whole circuit.
-/
import Verif.Lemmas.QuickPipe2
import Verif.Props.HongOuMandel

namespace Verif
open Spec Props MvPolynomial

theorem fresh_check {g : Cfg} {m : ℕ} {thr : ℝ} (ht : 0 < thr) {s : AState} (hf : FreshState g m s) : CheckValid thr m s.q := by
  refine ⟨by linarith [hf.cum.1], by linarith [hf.cum.2], ?_, hf.classical⟩
  intro p hp
  rw [hf.probs p hp]
  have h3 : ‖p.2.amp‖ ^ 2 ≤ totalProb s.q.comps := by
    unfold totalProb
    exact List.single_le_sum (by
      intro x hx
      obtain ⟨p, _, rfl⟩ := List.mem_map.1 hx
      positivity) _ (List.mem_map.2 ⟨p, hp, rfl⟩)
  rw [hf.norm] at h3
  have h4 : 0 ≤ ‖p.2.amp‖ ^ 2 := by positivity
  constructor <;> linarith

/-- A column after the optical elements that follow the quick delay. -/
structure MixedColumn (g : Cfg) (m : ℕ) (q : QState) (p : ℝ) (c : Column) : Prop where
  states : ∃ ks : List ℕ, List.Forall₂ (MixedState g m q p) c.states ks ∧ ks.sum < g.L
  nonempty : c.states ≠ []
  amp : c.amp ≠ 0
  boson : 0 < c.boson
  gprob : c.gprob = q.cum * p

theorem mixed_interfering {g : Cfg} {m : ℕ} {q : QState} {p : ℝ} {cols : List Column} (h : ∀ c ∈ cols, MixedColumn g m q p c) : InterferingGroup g m (q.cum * p) cols := by
  refine ⟨⟨fun _ => 1, by simp, ?_⟩, ?_, fun c hc => (h c hc).nonempty, fun c hc => (h c hc).amp, fun c hc => (h c hc).boson, fun c hc => (h c hc).gprob, ?_⟩
  · intro c hc s hs
    obtain ⟨ks, k1, _⟩ := (h c hc).states
    obtain ⟨k, _, hk⟩ := forall2_left_mem k1 s hs
    have hf := hk.fresh
    refine ⟨⟨hf.wf, ?_, fun _ => ⟨hf.norm, hf.nonzero⟩⟩, ?_, ?_⟩
    · intro h0
      have := hf.norm
      simp only [h0] at this
      simp [totalProb] at this
    · intro v nm k e _ _
      have := hk.unit _ e
      exact ⟨by simpa [numbersPhase] using this, Or.inr this⟩
    · intro _ x _ v _ _
      simp [numbersPhase]
  · intro c hc ws hws ch _
    obtain ⟨ks, k1, k2⟩ := (h c hc).states
    have key : ∀ (sts : List PState) (ks : List ℕ) (ws : List Vals), List.Forall₂ (MixedState g m q p) sts ks → List.Forall₂ (fun (s : PState) w => ∃ p ∈ s.q.comps, IsName g w p.1 ∧ Valid g w) sts ws →
        (ws.map (fun w => w.getD ch 0)).sum ≤ ks.sum := by
      intro sts ks ws h1
      induction h1 generalizing ws with
      | nil => intro h2; cases h2; simp
      | @cons s k sts ks a _ ih =>
        intro h2
        cases h2 with
        | @cons _ w _ ws b h2 =>
          rw [List.map_cons, List.sum_cons, List.sum_cons]
          obtain ⟨x, hx, hn, hv⟩ := b
          have h3 := a.number x hx w hv hn
          have := getD_le_sum w (h := ch) (c := ch + 1) (by omega)
          have := ih ws h2
          omega
    exact lt_of_le_of_lt (key _ _ _ k1 hws) k2
  · intro c hc s hs
    obtain ⟨ks, k1, _⟩ := (h c hc).states
    obtain ⟨k, _, hk⟩ := forall2_left_mem k1 s hs
    exact hk.fresh.classical

/-- What optical elements do to a state. -/
def OpticsOf (c : Circ) (n : Opt × List ℕ) (l : List (Opt × List ℕ)) (s s' : PState) : Prop :=
  s'.info = s.info ∧ ∃ comps, applyOptical c.g c.thr c.full (standardKeys c.g) n l s.q.comps = some comps ∧ s'.q = { s.q with comps := comps }

/-- Optical elements after the quick delay. -/
theorem mixed_optics {c : Circ} (hg : c.g.Ok) (ht : 0 < c.thr) {gates : List Gate} {n : Opt × List ℕ} {ns : List (Opt × List ℕ)} (hgn : List.Forall₂ (GateNode c.g) gates (n :: ns))
    (hun : ∀ e ∈ gates, e.M ∈ Matrix.unitaryGroup (Fin 2) ℂ) (hkk : KetsKeep c.g c.thr gates) (hbp : NoBarePhase c.g gates) {q : QState} (hq : FreshState c.g c.m ⟨q, none⟩) {G : Groups} (hG : Proper G)
    (h : ∀ e ∈ G, ∀ x ∈ e.2, ∃ p : ℝ, (0 ≤ p ∧ p ≤ 1) ∧ ∀ col ∈ x.2, QuickColumn c.g q p col) :
    ∃ G', opticalResolved c n ns (writeGroups G) = some (writeGroups G') ∧ Proper G' ∧
      GroupsRel (fun cols out => groupPoly c.g out = opticsSubst gates (groupPoly c.g cols) ∧ ∀ p : ℝ, (0 ≤ p ∧ p ≤ 1) → (∀ col ∈ cols, QuickColumn c.g q p col) → ∀ col ∈ out, MixedColumn c.g c.m q p col) G G' := by
  have hst : ∀ {p : ℝ} {col : Column} {s : PState}, (0 ≤ p ∧ p ≤ 1) → QuickColumn c.g q p col → s ∈ col.states → ∃ v, PlainState c.g q p s v ∧ v.sum < c.g.L := by
    intro p col s _ hc hs
    obtain ⟨vs, v1, v2⟩ := hc.states
    obtain ⟨v, hv, e⟩ := forall2_left_mem v1 s hs
    exact ⟨v, e, lt_of_le_of_lt (List.le_sum_of_mem (List.mem_map.2 ⟨v, hv, rfl⟩)) v2⟩
  have hpass : ∀ s ∈ writeGroups G, CheckValid c.thr c.m s.q ∧ ∃ comps, applyOptical c.g c.thr c.full (standardKeys c.g) n ns s.q.comps = some comps := by
    intro s hs
    obtain ⟨e, he, x, hx, col, hc, t, htt, rfl⟩ := mem_writeGroups.1 hs
    obtain ⟨p, hp, hcol⟩ := h e he x hx
    obtain ⟨v, hv, hv2⟩ := hst hp (hcol col hc) htt
    obtain ⟨comps, c1, _⟩ := plain_optics hg ht c.full hgn hun hkk hbp hq hp hv hv2
    exact ⟨fresh_check (s := ⟨t.q, none⟩) ht (hv.fresh hq hp hv2), comps, c1⟩
  obtain ⟨out, o1, o2⟩ := opticalResolved_some (fun s hs => (hpass s hs).1) (fun s hs => (hpass s hs).2)
  have hT : ∀ (q : QState) (i : Option PInfo) (ci : ColInfo) (s' : AState),
      ((⟨q, some ⟨i, some ci⟩⟩ : AState) ∈ writeGroups G ∧ s'.aux = some ⟨i, some ci⟩ ∧ ∃ comps, applyOptical c.g c.thr c.full (standardKeys c.g) n ns q.comps = some comps ∧ s'.q = { q with comps := comps }) →
      ∃ q' i', s' = ⟨q', some ⟨i', some ci⟩⟩ ∧ OpticsOf c n ns ⟨q, i⟩ ⟨q', i'⟩ := by
    rintro q i ci s' ⟨a0, a1, a2⟩
    refine ⟨s'.q, i, ?_, rfl, a2⟩
    rw [← a1]
  obtain ⟨G', g1, g2⟩ := write_forall2 (R := OpticsOf c n ns) hT o2
  have hprop : Proper G' := groupsRel_proper hG g2 (fun e he x hx y hy => same_proper (fun s s' hs => by
    obtain ⟨_, comps, _, e3⟩ := hs
    rw [e3]) hy ((hG.groups e he).2.2 x hx))
  refine ⟨G', by rw [o1, g1], hprop, ?_⟩
  have hone : ∀ {p : ℝ} {s s' : PState} {v : Vals}, (0 ≤ p ∧ p ≤ 1) → PlainState c.g q p s v → v.sum < c.g.L → OpticsOf c n ns s s' → MixedState c.g c.m q p s' v.sum ∧ statePoly c.g s' = opticsSubst gates (statePoly c.g s) := by
    rintro p s s' v hp hs hv ⟨e1, comps, e2, e3⟩
    obtain ⟨comps', c1, c2, c3⟩ := plain_optics hg ht c.full hgn hun hkk hbp hq hp hs hv
    rw [e2] at c1
    obtain rfl := Option.some.inj c1
    have : s' = ⟨{ s.q with comps := comps }, s.info⟩ := by
      obtain ⟨q', i'⟩ := s'
      simp only at e1 e3
      rw [e1, e3]
    rw [this]
    exact ⟨c2, c3⟩
  have g3 := groupsRel_and g2 (P := fun _ cols => ∃ p : ℝ, (0 ≤ p ∧ p ≤ 1) ∧ ∀ col ∈ cols, QuickColumn c.g q p col) h
  have g4 : GroupsRel (fun cols out => (∃ p : ℝ, (0 ≤ p ∧ p ≤ 1) ∧ ∀ col ∈ cols, QuickColumn c.g q p col) ∧ List.Forall₂ (SameColumn (OpticsOf c n ns)) cols out) G G' := g3
  refine GroupsRel.imp g4 ?_
  rintro cols out ⟨⟨p0, hp0, hcol0⟩, hy⟩
  refine ⟨?_, ?_⟩
  · refine groupPoly_map (φ := opticsSubst gates) (opticsSubst_zero gates) (opticsSubst_one gates) (opticsSubst_add gates) (opticsSubst_mul gates) (opticsSubst_C gates) hy ?_
    intro col hc s hs s' hs'
    obtain ⟨v, hv, hv2⟩ := hst hp0 (hcol0 col hc) hs
    exact (hone hp0 hv hv2 hs').2
  · intro p hp hcol col' hc'
    obtain ⟨col, hc, e⟩ := forall2_left_mem hy.flip col' hc'
    have hqc := hcol col hc
    refine ⟨?_, ?_, by rw [e.amp]; exact hqc.amp, by rw [e.boson]; exact hqc.boson, by rw [e.gprob]; exact hqc.gprob⟩
    · obtain ⟨vs, v1, v2⟩ := hqc.states
      refine ⟨vs.map List.sum, ?_, v2⟩
      have key : ∀ (sts sts' : List PState) (vs : List Vals), List.Forall₂ (OpticsOf c n ns) sts sts' → List.Forall₂ (PlainState c.g q p) sts vs → (vs.map List.sum).sum < c.g.L →
          List.Forall₂ (MixedState c.g c.m q p) sts' (vs.map List.sum) := by
        intro sts sts' vs h1
        induction h1 generalizing vs with
        | nil => intro h2 _; cases h2; exact .nil
        | @cons s s' sts sts' a _ ih =>
          intro h2 h3
          cases h2 with
          | @cons _ v _ vs b h2 =>
            rw [List.map_cons, List.sum_cons] at h3
            exact .cons (hone hp b (by omega) a).1 (ih vs h2 (by omega))
      exact key _ _ _ e.states v1 v2
    · intro h0
      have := e.states
      rw [h0] at this
      exact hqc.nonempty (List.forall₂_nil_right_iff.1 this)

/-- The quick delay of one input state. -/
theorem quick_state {g : Cfg} (hg : g.Ok) {m : ℕ} {q : QState} (hs : FreshState g m ⟨q, none⟩) (hu : ∀ p, q.comps = [p] → p.2.amp = 1) (chs : List ℕ) {d : DelaySource} (hd : ∀ ch, d = .classical ch → ch < m)
    {w : ℝ} (hw : w ≠ 0) : ∃ N, ∀ fuel ≥ N, ∃ over sep, timeDelayQuick g fuel chs d w [⟨q, none⟩] = some (writeGroups [(q.initial, [(1, over), (2, sep)])]) ∧ Proper [(q.initial, [(1, over), (2, sep)])] ∧
      groupPoly g over = rename overMode (statePoly g ⟨q, none⟩) ∧ groupPoly g sep = rename (apartMode chs) (statePoly g ⟨q, none⟩) ∧
      (∀ c ∈ over, QuickColumn g q (quickOverlap (delayFor q.classical d) w) c) ∧ ∀ c ∈ sep, QuickColumn g q (1 - quickOverlap (delayFor q.classical d) w) c := by
  obtain ⟨N, hN⟩ := quick_group hg hs hu chs hd hw
  refine ⟨N, fun fuel hf => ?_⟩
  obtain ⟨over, sep, h1, h2, h3, h4, h5⟩ := hN fuel hf
  have hwf : WfCols g (groupOfState ⟨q, none⟩) := by
    intro c hc s hs'
    obtain rfl := List.mem_singleton.1 hc
    obtain rfl := List.mem_singleton.1 hs'
    exact hs.wf
  have hpg : ProperGroup q.initial (groupOfState ⟨q, none⟩) := by
    refine ⟨by simp [groupOfState], by simp [groupOfState], ?_, ?_⟩
    · intro c hc
      obtain rfl := List.mem_singleton.1 hc
      simp
    · intro c hc s hs'
      obtain rfl := List.mem_singleton.1 hc
      obtain rfl := List.mem_singleton.1 hs'
      rfl
  obtain ⟨p1, p2⟩ := quickParts_proper hwf hpg (quickGroup_some hwf h1)
  refine ⟨over, sep, ?_, ⟨by simp, ?_⟩, h2, h3, h4, h5⟩
  · have hr : readGroups [⟨q, none⟩] = some [(q.initial, [(0, groupOfState ⟨q, none⟩)])] := rfl
    unfold timeDelayQuick
    rw [hr, Option.bind_some]
    have : List.flatMap (fun (e : List Char × Dict ℕ (List Column)) => e.2.map Prod.snd) [(q.initial, [(0, groupOfState ⟨q, none⟩)])] = [groupOfState ⟨q, none⟩] := rfl
    rw [this, List.mapM_cons, h1]
    simp [writeGroups]
  · intro e he
    obtain rfl := List.mem_singleton.1 he
    refine ⟨by simp, by simp, ?_⟩
    intro x hx
    rcases List.mem_cons.1 hx with rfl | hx
    · exact p1
    · obtain rfl := List.mem_singleton.1 hx
      exact p2

/-- Probability of an outcome in several groups. -/
theorem outcome_total {g : Cfg} {opt cls : List ℕ} {gp : ℝ} {P : MvPolynomial Mode ℂ} {ys : List (List Column)} (hcls : cls.length = opt.length) (hnd : cls.Nodup) (h : BornGroups g opt cls gp P ys)
    (o : List ℕ) (ho : o.length = opt.length) : OutcomeTotal ys cls o (gp * bornOutcome g opt o P) := by
  classical
  obtain ⟨outs, o1, o2, o3, o4⟩ := h
  have hrec : ∀ o' ∈ outs, ∀ grp : List Column, grp ≠ [] → (∀ c ∈ grp, c.gprob = gp * bornOutcome g opt o' P ∧ c.states ≠ [] ∧ ∀ s ∈ c.states, Records cls o' s.q.classical) → (GroupRecords cls o grp ↔ o' = o) := by
    intro o' ho' grp hne hc
    constructor
    · intro hr
      obtain ⟨c, hcm⟩ := List.exists_mem_of_ne_nil _ hne
      obtain ⟨_, hsn, hsr⟩ := hc c hcm
      obtain ⟨s, hs⟩ := List.exists_mem_of_ne_nil _ hsn
      have r1 := hsr s hs
      have r2 := hr c hcm s hs
      refine List.ext_getElem? (fun i => ?_)
      by_cases hi : i < cls.length
      · have hlast : ∀ j : ℕ, i < j → cls[j]? ≠ some cls[i] := by
          intro j hj hjj
          obtain ⟨hjl, hje⟩ := List.getElem?_eq_some_iff.1 hjj
          exact absurd ((List.Nodup.getElem_inj_iff hnd).1 hje) (by omega)
        have e1 := r1 i cls[i] (List.getElem?_eq_getElem hi) hlast
        have e2 := r2 i cls[i] (List.getElem?_eq_getElem hi) hlast
        rw [e1] at e2
        have l1 : i < o'.length := by rw [o2 o' ho', ← hcls]; exact hi
        have l2 : i < o.length := by rw [ho, ← hcls]; exact hi
        rw [List.getElem?_eq_getElem l1, List.getElem?_eq_getElem l2] at e2 ⊢
        simp only [Option.map_some, Option.some.injEq, Nat.cast_inj] at e2
        rw [e2]
      · rw [List.getElem?_eq_none (by rw [o2 o' ho', ← hcls]; omega), List.getElem?_eq_none (by rw [ho, ← hcls]; omega)]
    · rintro rfl
      exact fun c hcm s hs => (hc c hcm).2.2 s hs
  have key : ∀ (outs : List (List ℕ)) (ys : List (List Column)), outs.Nodup → (∀ o' ∈ outs, ∀ grp : List Column, grp ≠ [] → (∀ c ∈ grp, c.gprob = gp * bornOutcome g opt o' P ∧ c.states ≠ [] ∧ ∀ s ∈ c.states, Records cls o' s.q.classical) → (GroupRecords cls o grp ↔ o' = o)) →
      List.Forall₂ (fun o grp => grp ≠ [] ∧ ∀ c ∈ grp, c.gprob = gp * bornOutcome g opt o P ∧ c.states ≠ [] ∧ ∀ s ∈ c.states, Records cls o s.q.classical) outs ys →
      OutcomeTotal ys cls o (if o ∈ outs then gp * bornOutcome g opt o P else 0) := by
    intro outs ys hn hrec h
    induction h with
    | nil => exact ⟨[], .nil, by simp⟩
    | @cons o' grp outs ys a _ ih =>
      obtain ⟨ps, p1, p2⟩ := ih (List.nodup_cons.1 hn).2 (fun o' ho' => hrec o' (List.mem_cons_of_mem _ ho'))
      have hiff := hrec o' List.mem_cons_self grp a.1 a.2
      by_cases he : o' = o
      · subst he
        refine ⟨gp * bornOutcome g opt o' P :: ps, .cons (Or.inl ⟨hiff.2 rfl, a.1, fun c hc => (a.2 c hc).1⟩) p1, ?_⟩
        rw [List.sum_cons, p2, if_neg (List.nodup_cons.1 hn).1, if_pos List.mem_cons_self, add_zero]
      · refine ⟨0 :: ps, .cons (Or.inr ⟨a.1, fun hr => he (hiff.1 hr), rfl⟩) p1, ?_⟩
        rw [List.sum_cons, p2, zero_add]
        congr 1
        rw [List.mem_cons]
        simp [Ne.symm he]
  have := key outs ys o1 hrec o4
  by_cases hm : o ∈ outs
  · rw [if_pos hm] at this
    exact this
  · rw [if_neg hm] at this
    rw [o3 o hm, mul_zero]
    exact this

theorem _root_.Verif.Spec.OutcomeTotal.append {ys zs : List (List Column)} {cls o : List ℕ} {p r : ℝ} (h1 : OutcomeTotal ys cls o p) (h2 : OutcomeTotal zs cls o r) : OutcomeTotal (ys ++ zs) cls o (p + r) := by
  obtain ⟨ps, a1, rfl⟩ := h1
  obtain ⟨rs, b1, rfl⟩ := h2
  exact ⟨ps ++ rs, List.rel_append a1 b1, List.sum_append⟩

end Verif
