/-
Quick delay, optical elements and measurement: the result is a mixture of two photon-resolved measurements.
-/
import Verif.Lemmas.QuickPipe3
import Verif.Lemmas.FockForm6
import Verif.Props.Pipeline

namespace Verif
open Spec Props MvPolynomial

theorem quickGroup_mono {g : Cfg} {a b : ℕ} (hab : a ≤ b) {chs : List ℕ} {d : DelaySource} {w : ℝ} {cols : List Column} {r : List Column × List Column} (h : quickGroup g a chs d w cols = some r) :
    quickGroup g b chs d w cols = some r := by
  unfold quickGroup at h ⊢
  obtain ⟨sp, h1, h2⟩ := Option.bind_eq_some_iff.1 h
  rw [splitColumns_mono hab h1, Option.bind_some]
  exact h2

theorem timeDelayQuick_mono {g : Cfg} {a b : ℕ} (hab : a ≤ b) {chs : List ℕ} {d : DelaySource} {w : ℝ} {l l' : List AState} (h : timeDelayQuick g a chs d w l = some l') :
    timeDelayQuick g b chs d w l = some l' := by
  unfold timeDelayQuick at h ⊢
  obtain ⟨G, h1, h2⟩ := Option.bind_eq_some_iff.1 h
  obtain ⟨r, h3, h4⟩ := Option.map_eq_some_iff.1 h2
  rw [h1, Option.bind_some, Option.map_eq_some_iff]
  refine ⟨r, ?_, h4⟩
  rw [mapM_some_iff] at h3 ⊢
  exact h3.imp (fun x y hxy => quickGroup_mono hab hxy)

/-- Optical elements do not look at the photon information. -/
theorem optics_info (f : Option PInfo → Option PInfo) (gates : List Gate) (P : MvPolynomial Mode ℂ) :
    opticsSubst gates (rename (fun m : Mode => ((m.1, f m.2) : Mode)) P) = rename (fun m : Mode => ((m.1, f m.2) : Mode)) (opticsSubst gates P) := by
  have gate : ∀ (M : Opt) (h c : ℕ) (P : MvPolynomial Mode ℂ), gateSubst M h c (rename (fun m : Mode => ((m.1, f m.2) : Mode)) P) = rename (fun m : Mode => ((m.1, f m.2) : Mode)) (gateSubst M h c P) := by
    intro M h c P
    suffices hh : (gateSubst M h c).comp (rename (fun m : Mode => ((m.1, f m.2) : Mode))) =
        ((rename (fun m : Mode => ((m.1, f m.2) : Mode))).comp (gateSubst M h c) : MvPolynomial Mode ℂ →ₐ[ℂ] MvPolynomial Mode ℂ) from DFunLike.congr_fun hh P
    apply MvPolynomial.algHom_ext
    intro m
    rw [AlgHom.comp_apply, AlgHom.comp_apply, rename_X]
    unfold gateSubst
    rw [aeval_X, aeval_X]
    by_cases a : m.1 = h
    · simp only [a, if_true, map_add, map_mul, rename_C, rename_X]
    · by_cases b : m.1 = c
      · simp only [b, if_true]
        split <;> simp only [map_add, map_mul, rename_C, rename_X]
      · simp only [if_neg a, if_neg b, rename_X]
  unfold opticsSubst
  induction gates generalizing P with
  | nil => rfl
  | cons e gates ih => rw [List.foldl_cons, List.foldl_cons, gate, ih]

/-- On states without photon information only the values of a renaming on such modes matter. -/
theorem rename_state {g : Cfg} {f f' : Mode → Mode} (h : ∀ ch : ℕ, f (ch, none) = f' (ch, none)) (q : QState) : rename f (statePoly g ⟨q, none⟩) = rename f' (statePoly g ⟨q, none⟩) := by
  have hk : ∀ v : Vals, rename f (ketPoly none v) = rename f' (ketPoly none v) := by
    intro v
    rw [rename_ket, rename_ket]
    simp only [h]
  unfold statePoly
  rw [map_list_sum, map_list_sum, List.map_map, List.map_map]
  congr 1
  refine List.map_congr_left (fun p _ => ?_)
  simp only [Function.comp_apply]
  rw [map_mul, map_mul, rename_C, rename_C]
  cases g.parse p.1 with
  | none => simp
  | some v => simp only [Option.map_some, Option.getD_some, hk]

theorem over_delay {g : Cfg} (chs : List ℕ) (q : QState) : rename overMode (statePoly g ⟨q, none⟩) = rename (delayMode chs 0 1) (statePoly g ⟨q, none⟩) := by
  refine rename_state (fun ch => ?_) q
  unfold overMode delayMode delayOf
  simp

/-- Photons at +100 and -100 or at -200 and 0: the same probabilities. -/
theorem bornOutcome_apart {g : Cfg} (chs : List ℕ) (q : QState) (gates : List Gate) (opt o : List ℕ) :
    bornOutcome g opt o (opticsSubst gates (rename (apartMode chs) (statePoly g ⟨q, none⟩))) = bornOutcome g opt o (opticsSubst gates (rename (delayMode chs 200 1) (statePoly g ⟨q, none⟩))) := by
  let tag : Mode → Mode := fun m => (m.1, some ⟨if m.1 ∈ chs then 1 else 0, 1⟩)
  let f : Option PInfo → Option PInfo := fun i => some ⟨if delayOf i = 1 then 100 else -100, 1⟩
  let f' : Option PInfo → Option PInfo := fun i => some ⟨0 - (if delayOf i = 1 then 200 else 0), 1⟩
  have h1 : rename (apartMode chs) (statePoly g ⟨q, none⟩) = rename (fun m : Mode => ((m.1, f m.2) : Mode)) (rename tag (statePoly g ⟨q, none⟩)) := by
    rw [rename_rename]
    refine rename_state (fun ch => ?_) q
    simp only [apartMode, Function.comp_apply, tag, f, delayOf, Option.map_some, Option.getD_some]
    by_cases h : ch ∈ chs <;> simp [h]
  have h2 : rename (delayMode chs 200 1) (statePoly g ⟨q, none⟩) = rename (fun m : Mode => ((m.1, f' m.2) : Mode)) (rename tag (statePoly g ⟨q, none⟩)) := by
    rw [rename_rename]
    refine rename_state (fun ch => ?_) q
    simp only [delayMode, Function.comp_apply, tag, f', delayOf, Option.map_some, Option.getD_some]
    by_cases h : ch ∈ chs <;> simp [h]
  rw [h1, h2, optics_info, optics_info]
  unfold bornOutcome
  refine finsum_congr (fun v => finsum_congr (fun _ => ?_))
  rw [Fockform.bornProb_rename (K := fun m m' => Fockform.innerK (m.1, f m.2) (m'.1, f m'.2)) (fun m : Mode => ((m.1, f m.2) : Mode)) (fun _ => rfl) (fun _ _ => rfl),
    Fockform.bornProb_rename (K := fun m m' => Fockform.innerK (m.1, f m.2) (m'.1, f m'.2)) (fun m : Mode => ((m.1, f' m.2) : Mode)) (fun _ => rfl) ?_]
  intro m m'
  unfold Fockform.innerK photonInner
  by_cases h : m.1 = m'.1
  · simp only [h, if_true, f, f', photonOverlap, delayOf]
    by_cases a : (Option.map PInfo.delay m.2).getD 0 = 1 <;> by_cases b : (Option.map PInfo.delay m'.2).getD 0 = 1 <;> simp only [a, b, if_true, if_false] <;> norm_num [neg_div, neg_sq]
  · simp only [h, if_false]

theorem _root_.Verif.QuickColumn.mixed {g : Cfg} {m : ℕ} {q : QState} (hq : FreshState g m ⟨q, none⟩) {p : ℝ} (hp : 0 ≤ p ∧ p ≤ 1) {c : Column} (h : QuickColumn g q p c) : MixedColumn g m q p c := by
  obtain ⟨vs, h1, h2⟩ := h.states
  have key : ∀ (l : List PState) (vs : List Vals), List.Forall₂ (PlainState g q p) l vs → (vs.map List.sum).sum < g.L → List.Forall₂ (MixedState g m q p) l (vs.map List.sum) := by
    intro l vs hh
    induction hh with
    | nil => intro _; exact .nil
    | @cons s v l vs a _ ih =>
      intro hsum
      rw [List.map_cons, List.sum_cons] at hsum
      refine .cons ⟨a.fresh hq hp (by omega), ?_, ?_, a.classical, a.initial, a.cum⟩ (ih (by omega))
      · intro x hx w hw hn
        rw [a.comps] at hx
        obtain rfl := List.mem_singleton.1 hx
        have : w = v := g.stdName_inj hw.2 a.valid.2 ((isName_iff hw).1 hn).symm
        rw [this]
      · intro x hx
        rw [a.comps, List.singleton_inj] at hx
        rw [← hx]
  exact ⟨⟨_, key _ _ h1 h2, h2⟩, h.nonempty, h.amp, h.boson, h.gprob⟩

/-- The measurement of the two groups after a quick delay. -/
theorem mixed_measure {c : Circ} (hL : c.g.L ≤ 10) {q : QState} {pa pb : ℝ} {A B : List Column} {x y : ℕ} (hG : Proper [(q.initial, [(x, A), (y, B)])]) (hA : ∀ col ∈ A, MixedColumn c.g c.m q pa col)
    (hB : ∀ col ∈ B, MixedColumn c.g c.m q pb col) {opt cls : List ℕ} (hopt : ∀ ch ∈ opt, ch < c.g.C) (hcls : cls.length = opt.length) (hnd : cls.Nodup) (hclm : ∀ n ∈ cls, n < c.m) :
    ∃ N, ∀ fuel ≥ N, ∃ l' d', runStage c fuel (writeGroups [(q.initial, [(x, A), (y, B)])]) (.measure opt cls) = some l' ∧ readGroups l' = some [(q.initial, d')] ∧
      ∀ o : List ℕ, o.length = opt.length →
        OutcomeTotal (d'.map Prod.snd) cls o (q.cum * pa * bornOutcome c.g opt o (groupPoly c.g A) + q.cum * pb * bornOutcome c.g opt o (groupPoly c.g B)) := by
  let gp : List Column → ℝ := fun cols => ((cols.head?).map (fun c => c.gprob)).getD 0
  have hAne : A ≠ [] := ((hG.groups _ List.mem_cons_self).2.2 (x, A) List.mem_cons_self).nonempty
  have hBne : B ≠ [] := ((hG.groups _ List.mem_cons_self).2.2 (y, B) (List.mem_cons_of_mem _ List.mem_cons_self)).nonempty
  have hgp : ∀ (p : ℝ) (cols : List Column), cols ≠ [] → InterferingGroup c.g c.m p cols → gp cols = p := by
    intro p cols hne hi
    cases cols with
    | nil => exact absurd rfl hne
    | cons c' cols => exact hi.gprob c' List.mem_cons_self
  have iA := mixed_interfering hA
  have iB := mixed_interfering hB
  obtain ⟨N, hN⟩ := born_collection c.g hL c.m opt cls _ hG gp (by
    intro e he z hz
    obtain rfl := List.mem_singleton.1 he
    rcases List.mem_cons.1 hz with rfl | hz
    · rw [hgp _ _ hAne iA]; exact iA
    · obtain rfl := List.mem_singleton.1 hz
      rw [hgp _ _ hBne iB]; exact iB) hopt hcls hclm
  refine ⟨N, fun fuel hf => ?_⟩
  obtain ⟨l', G', a1, a2, _, a4⟩ := hN fuel hf
  cases a4 with
  | @cons _ e' _ G'' b hrest =>
    cases hrest
    obtain ⟨b1, ys, b2, b3⟩ := b
    simp only [List.map_cons, List.map_nil] at b2
    cases b2 with
    | @cons _ ya _ ys' ha hx =>
      cases hx with
      | @cons _ yb _ ys'' hb hy =>
        cases hy
        refine ⟨l', e'.2, ?_, ?_, fun o ho => ?_⟩
        · unfold runStage
          simp only [isPhotonResolved_write]
          exact a1
        · simp only at b1
          rw [a2, ← b1]
        · rw [b3]
          rw [hgp _ _ hAne iA] at ha
          rw [hgp _ _ hBne iB] at hb
          have h1 := outcome_total hcls hnd ha o ho
          have h2 := outcome_total hcls hnd hb o ho
          simpa using h1.append h2

/-- The stages of a list of optical nodes. -/
theorem stages_optical (n : Opt × List ℕ) : ∀ ns : List (Opt × List ℕ), stagesOf ((n :: ns).map (fun x => .optical x.1 x.2)) = [.optics n ns]
  | [] => rfl
  | n' :: ns => by
    have := stages_optical n' ns
    rw [List.map_cons, stagesOf, this]

/-- Quick delay, optical elements, measurement. -/
theorem quick_run {c : Circ} (hg : c.g.Ok) (hL : c.g.L ≤ 10) (ht : 0 < c.thr) {chs : List ℕ} {d : DelaySource} (hd : ∀ ch, d = .classical ch → ch < c.m) {w : ℝ} (hw : w ≠ 0) {gates : List Gate}
    {post : List (Opt × List ℕ)} (hgn : List.Forall₂ (GateNode c.g) gates post) (hun : ∀ e ∈ gates, e.M ∈ Matrix.unitaryGroup (Fin 2) ℂ) (hkk : KetsKeep c.g c.thr gates)
    (hbp : NoBarePhase c.g gates) {q : QState} (hq : FreshState c.g c.m ⟨q, none⟩) (hu : ∀ p, q.comps = [p] → p.2.amp = 1) {opt cls : List ℕ} (hopt : ∀ ch ∈ opt, ch < c.g.C)
    (hcls : cls.length = opt.length) (hnd : cls.Nodup) (hclm : ∀ n ∈ cls, n < c.m) :
    ∃ N, ∀ fuel ≥ N, ∃ l' d', runStages c fuel (stagesOf (.quick chs d w :: post.map (fun x => .optical x.1 x.2) ++ [.measure opt cls])) [⟨q, none⟩] = some l' ∧
      readGroups l' = some [(q.initial, d')] ∧ ∀ o : List ℕ, o.length = opt.length →
        OutcomeTotal (d'.map Prod.snd) cls o (q.cum * quickOverlap (delayFor q.classical d) w * bornOutcome c.g opt o (opticsSubst gates (rename (delayMode chs 0 1) (statePoly c.g ⟨q, none⟩))) +
          q.cum * (1 - quickOverlap (delayFor q.classical d) w) * bornOutcome c.g opt o (opticsSubst gates (rename (delayMode chs 200 1) (statePoly c.g ⟨q, none⟩)))) := by
  obtain ⟨N1, hN1⟩ := quick_state hg hq hu chs hd hw
  obtain ⟨over, sep, h1, h2, h3, h4, h5, h6⟩ := hN1 N1 le_rfl
  obtain ⟨hr, hr1⟩ := quickOverlap_range (delayFor q.classical d) w
  have hfirst : ∀ fuel ≥ N1, runStage c fuel [⟨q, none⟩] (.quick chs d w) = some (writeGroups [(q.initial, [(1, over), (2, sep)])]) := fun fuel hf => timeDelayQuick_mono hf h1
  obtain ⟨A, B, hmid, hP, pA, pB, mA, mB⟩ : ∃ A B, (∀ fuel, runStages c fuel (stagesOf (post.map (fun x => .optical x.1 x.2))) (writeGroups [(q.initial, [(1, over), (2, sep)])]) =
      some (writeGroups [(q.initial, [(1, A), (2, B)])])) ∧ Proper [(q.initial, [(1, A), (2, B)])] ∧ groupPoly c.g A = opticsSubst gates (groupPoly c.g over) ∧
      groupPoly c.g B = opticsSubst gates (groupPoly c.g sep) ∧ (∀ col ∈ A, MixedColumn c.g c.m q (quickOverlap (delayFor q.classical d) w) col) ∧
      ∀ col ∈ B, MixedColumn c.g c.m q (1 - quickOverlap (delayFor q.classical d) w) col := by
    cases hgn with
    | nil => exact ⟨over, sep, fun _ => rfl, h2, rfl, rfl, fun col hc => (h5 col hc).mixed hq hr, fun col hc => (h6 col hc).mixed hq hr1⟩
    | @cons g0 n gs ns hg0 hgs =>
      obtain ⟨G', e1, e2, e3⟩ := mixed_optics hg ht (.cons hg0 hgs) hun hkk hbp hq h2 (by
        intro e he z hz
        obtain rfl := List.mem_singleton.1 he
        rcases List.mem_cons.1 hz with rfl | hz
        · exact ⟨_, hr, h5⟩
        · obtain rfl := List.mem_singleton.1 hz
          exact ⟨_, hr1, h6⟩)
      cases e3 with
      | @cons _ e' _ G'' b hrest =>
        cases hrest
        obtain ⟨en, ed⟩ := e'
        obtain ⟨b1, b2⟩ := b
        cases b2 with
        | @cons _ ya _ ys' ha hx =>
          cases hx with
          | @cons _ yb _ ys'' hb hy =>
            cases hy
            obtain ⟨ia, A⟩ := ya
            obtain ⟨ib, B⟩ := yb
            obtain ⟨rfl, ha1, ha2⟩ := ha
            obtain ⟨rfl, hb1, hb2⟩ := hb
            simp only at b1
            subst b1
            refine ⟨A, B, fun fuel => ?_, e2, ha1, hb1, ha2 _ hr h5, hb2 _ hr1 h6⟩
            rw [stages_optical]
            unfold runStages
            rw [List.foldlM_cons]
            show ((opticalResolved c n ns _).bind _) = _
            rw [e1]
            rfl
  obtain ⟨N2, hN2⟩ := mixed_measure hL hP mA mB hopt hcls hnd hclm
  refine ⟨max N1 N2, fun fuel hf => ?_⟩
  obtain ⟨l', d', a1, a2, a3⟩ := hN2 fuel (le_trans (le_max_right _ _) hf)
  refine ⟨l', d', ?_, a2, fun o ho => ?_⟩
  · rw [List.cons_append, stagesOf, stagesOf_measure]
    unfold runStages at hmid ⊢
    rw [List.foldlM_cons, hfirst fuel (le_trans (le_max_left _ _) hf)]
    simp only [Option.bind_eq_bind, Option.bind_some]
    rw [List.foldlM_append, hmid fuel]
    simp only [Option.bind_eq_bind, Option.bind_some, List.foldlM_cons, List.foldlM_nil, a1]
    rfl
  · have := a3 o ho
    rw [pA, pB, h3, h4, over_delay chs, bornOutcome_apart] at this
    exact this

end Verif
