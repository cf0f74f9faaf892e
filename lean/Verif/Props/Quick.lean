/-
C70: the quick time delay. C64, C66 for collections.
-/
import Verif.Props.Spectral2
import Verif.Lemmas.Spectral4

namespace Verif.Props
open Verif Spec

theorem quickOverlap_eq (t w : ℝ) : quickOverlap t w = Real.exp (-(Real.log 2) * (t / w) ^ 2) := by
  unfold quickOverlap
  rw [neg_one_mul]

/-- The states of a group after splitting. -/
theorem split_states {g : Cfg} {fuel : ℕ} {cols sp : List Column} (hw : WfCols g cols) (h : splitColumns g fuel cols = some sp) :
    ∀ c ∈ sp, ∀ s ∈ c.states, WellFormed g s.q.comps ∧ s.q.comps.length = 1 := by
  obtain ⟨_, h2, h3⟩ := splitColumns_poly fuel h hw
  exact fun c hc s hs => ⟨h2 c hc s hs, h3 c hc s hs⟩

theorem quickGroup_some {g : Cfg} {fuel : ℕ} {chs : List ℕ} {d : DelaySource} {w : ℝ} {cols A B : List Column} (hw : WfCols g cols) (h : quickGroup g fuel chs d w cols = some (A, B)) :
    QuickParts g fuel chs d w cols A B := by
  unfold quickGroup at h
  obtain ⟨sp, h1, h⟩ := Option.bind_eq_some_iff.1 h
  obtain ⟨s, h2, h⟩ := Option.bind_eq_some_iff.1 h
  obtain ⟨t, h3, h⟩ := Option.bind_eq_some_iff.1 h
  by_cases h0 : w = 0
  · rw [if_pos h0] at h; cases h
  rw [if_neg h0] at h
  obtain ⟨A', h4, h⟩ := Option.bind_eq_some_iff.1 h
  obtain ⟨B', h5, h⟩ := Option.map_eq_some_iff.1 h
  obtain ⟨rfl, rfl⟩ := Prod.mk.inj h
  rw [mapM_some_iff] at h4 h5
  have hst := split_states hw h1
  refine ⟨sp, t, h1, ?_, ?_, ?_⟩
  · obtain ⟨c, hc, hs⟩ := List.mem_flatMap.1 (List.mem_of_mem_head? h2)
    exact ⟨c, hc, s, hs, delayIs_iff.1 h3⟩
  · rw [← quickOverlap_eq]
    exact h4.imp (fun _ _ e => overlapColumn_some e)
  · rw [← quickOverlap_eq]
    refine ((List.forall₂_and_left (p := fun c : Column => (∀ s ∈ c.states, WellFormed g s.q.comps) ∧ ∀ s ∈ c.states, s.q.comps.length = 1) sp B').2 ⟨?_, h5⟩).imp (fun c c' e => separateColumn_some e.1.1 e.1.2 e.2)
    exact fun c hc => ⟨fun s hs => (hst c hc s hs).1, fun s hs => (hst c hc s hs).2⟩

theorem quickParts_proper {g : Cfg} {fuel : ℕ} {chs : List ℕ} {d : DelaySource} {w : ℝ} {cols A B : List Column} {ini : List Char} (hw : WfCols g cols) (hp : ProperGroup ini cols)
    (h : QuickParts g fuel chs d w cols A B) : ProperGroup ini A ∧ ProperGroup ini B := by
  obtain ⟨sp, t, h1, hd, hA, hB⟩ := h
  obtain ⟨k1, k2, k3⟩ := splitColumns_skel fuel h1 hw hp.ids
  have hini : ∀ c ∈ sp, c.states ≠ [] ∧ ∀ s ∈ c.states, s.q.initial = ini := by
    intro c hc
    obtain ⟨c0, hc0, e, _⟩ := k1 c hc
    refine ⟨?_, ?_⟩
    · intro h0
      rw [h0] at e
      exact hp.columns c0 hc0 (List.map_eq_nil_iff.1 e.symm)
    · intro s hs
      have hm : skel s ∈ c0.states.map skel := by rw [← e]; exact List.mem_map_of_mem hs
      obtain ⟨s0, hs0, e0⟩ := List.mem_map.1 hm
      have := hp.initial c0 hc0 s0 hs0
      rw [← this]
      exact (congrArg (fun x => x.1.initial) e0).symm
  have hne : sp ≠ [] := by
    intro h0
    rw [h0] at k3
    exact hp.nonempty (List.length_eq_zero_iff.1 (by simpa using k3))
  have hids : ∀ {R : Column → Column → Prop} {X : List Column}, List.Forall₂ R sp X → (∀ c c', R c c' → c'.id = c.id) → X.map (fun c => c.id) = sp.map (fun c => c.id) := by
    intro R X hf hR
    clear k1 k2 k3 hini hne hA hB h1 hd
    induction hf with
    | nil => rfl
    | cons h _ ih => rw [List.map_cons, List.map_cons, ih, hR _ _ h]
  constructor
  · refine ⟨?_, ?_, ?_, ?_⟩
    · intro h0; rw [h0] at hA; exact hne (List.forall₂_nil_right_iff.1 hA)
    · rw [hids hA (fun _ _ e => e.id)]; exact k2
    · intro c' hc'
      obtain ⟨c, hc, e⟩ := forall2_left_mem hA.flip c' hc'
      intro h0
      have := e.states
      rw [h0] at this
      exact (hini c hc).1 (List.forall₂_nil_right_iff.1 this)
    · intro c' hc' s' hs'
      obtain ⟨c, hc, e⟩ := forall2_left_mem hA.flip c' hc'
      obtain ⟨s, hs, es⟩ := forall2_left_mem e.states.flip s' hs'
      rw [es.2.2.1]
      exact (hini c hc).2 s hs
  · refine ⟨?_, ?_, ?_, ?_⟩
    · intro h0; rw [h0] at hB; exact hne (List.forall₂_nil_right_iff.1 hB)
    · rw [hids hB (fun _ _ e => e.id)]; exact k2
    · intro c' hc'
      obtain ⟨c, hc, e⟩ := forall2_left_mem hB.flip c' hc'
      obtain ⟨pairs, e1, e2⟩ := e.states
      intro h0
      rw [h0] at e1
      rcases pairs with _ | ⟨x, pairs⟩
      · exact (hini c hc).1 (List.forall₂_nil_right_iff.1 e2)
      · simp at e1
    · intro c' hc' s' hs'
      obtain ⟨c, hc, e⟩ := forall2_left_mem hB.flip c' hc'
      obtain ⟨pairs, e1, e2⟩ := e.states
      rw [e1] at hs'
      obtain ⟨x, hx, hs'⟩ := List.mem_flatMap.1 hs'
      obtain ⟨s, hs, es⟩ := forall2_left_mem e2.flip x hx
      rcases List.mem_cons.1 hs' with rfl | hs'
      · rw [es.1.initial]; exact (hini c hc).2 s hs
      · obtain rfl := List.mem_singleton.1 hs'
        rw [es.2.initial]; exact (hini c hc).2 s hs

theorem wfCols_of_read {g : Cfg} {l : List AState} (hw : WellFormedAll g l) {G : Groups} (hG : readGroups l = some G) : ∀ e ∈ G, ∀ x ∈ e.2, WfCols g x.2 := by
  intro e he x hx c hc t ht
  obtain ⟨s, hs, hq⟩ := readGroups_states hG e he x hx c hc t ht
  rw [← hq]
  exact hw s hs

/-- Replacing every group by several groups, which are numbered. -/
theorem replaced_read {R : List Column → List (List Column) → Prop} {G : Groups} (hG : Proper G) {r : List (List (List Column))} (hr : List.Forall₂ R (allGroups G) r)
    (hR : ∀ e ∈ G, ∀ x ∈ e.2, ∀ y, R x.2 y → y ≠ [] ∧ ∀ cols ∈ y, ProperGroup e.1 cols) (b : ℕ) :
    ∃ G', readGroups ((r.flatten.zipIdx b).flatMap (fun x => writeGroup x.2 x.1)) = some G' ∧ Proper G' ∧ GroupsReplaced R G G' := by
  have hsplit : ∃ rs : List (List (List (List Column))), rs.flatten = r ∧ List.Forall₂ (fun (e : List Char × Dict ℕ (List Column)) ys => List.Forall₂ R (e.2.map Prod.snd) ys) G rs := by
    clear hR hG
    unfold allGroups at hr
    induction G generalizing r with
    | nil =>
      obtain rfl : r = [] := List.forall₂_nil_left_iff.1 hr
      exact ⟨[], rfl, List.Forall₂.nil⟩
    | cons e G ih =>
      rw [List.flatMap_cons] at hr
      have h1 := List.forall₂_take (e.2.map Prod.snd).length hr
      have h2 := List.forall₂_drop (e.2.map Prod.snd).length hr
      rw [List.take_left] at h1
      rw [List.drop_left] at h2
      obtain ⟨rs, q1, q2⟩ := ih h2
      exact ⟨r.take (e.2.map Prod.snd).length :: rs, by rw [List.flatten_cons, q1, List.take_append_drop], List.Forall₂.cons h1 q2⟩
  obtain ⟨rs, rfl, hrs⟩ := hsplit
  have hE : ∃ E : List (List Char × List (List Column)), (E.flatMap Prod.snd) = rs.flatten.flatten ∧ E.map Prod.fst = List.map Prod.fst G ∧
      (∀ e ∈ E, e.2 ≠ [] ∧ ∀ cols ∈ e.2, ProperGroup e.1 cols) ∧
      List.Forall₂ (fun (e : List Char × Dict ℕ (List Column)) (e' : List Char × List (List Column)) => e'.1 = e.1 ∧ ∃ ys, List.Forall₂ R (e.2.map Prod.snd) ys ∧ e'.2 = ys.flatten) G E := by
    have hne := hG.groups
    clear hG hr
    induction hrs with
    | nil => exact ⟨[], rfl, rfl, by simp, List.Forall₂.nil⟩
    | @cons e ys G rs h _ ih =>
      obtain ⟨E, e1, e2, e3, e4⟩ := ih (fun e he => hR e (List.mem_cons_of_mem _ he)) (fun e he => hne e (List.mem_cons_of_mem _ he))
      refine ⟨(e.1, ys.flatten) :: E, ?_, ?_, ?_, List.Forall₂.cons ⟨rfl, ys, h, rfl⟩ e4⟩
      · rw [List.flatMap_cons, e1, List.flatten_cons, List.flatten_append]
      · rw [List.map_cons, List.map_cons, e2]
      · intro x hx
        rcases List.mem_cons.1 hx with rfl | hx
        · have hy : ∀ y ∈ ys, y ≠ [] ∧ ∀ cols ∈ y, ProperGroup e.1 cols := by
            intro y hy
            obtain ⟨c, hc, hRc⟩ := forall2_left_mem h.flip y hy
            obtain ⟨x, hx, rfl⟩ := List.mem_map.1 hc
            exact hR e List.mem_cons_self x hx y hRc
          refine ⟨?_, ?_⟩
          · intro h0
            have hl := h.length_eq
            rcases ys with _ | ⟨y, ys⟩
            · exact (hne e List.mem_cons_self).1 (List.map_eq_nil_iff.1 (List.length_eq_zero_iff.1 hl))
            · have h0 : (y :: ys).flatten = [] := h0
              rw [List.flatten_cons, List.append_eq_nil_iff] at h0
              exact (hy y List.mem_cons_self).1 h0.1
          · intro cols hcols
            obtain ⟨y, hyy, hc⟩ := List.mem_flatten.1 hcols
            exact (hy y hyy).2 cols hc
        · exact e3 x hx
  obtain ⟨E, e1, e2, e3, e4⟩ := hE
  obtain ⟨G', q1, q2, q3⟩ := assemble E b (by rw [e2]; exact hG.initials) e3
  refine ⟨G', ?_, q1, ?_⟩
  · rw [← e1, ← q3]
    exact read_write q1
  · unfold GroupsReplaced
    rw [← q2, List.forall₂_map_right_iff] at e4
    exact e4

/-- **C70** The quick time delay: every interference group is replaced by two groups, one for overlapping pulses and one for separated pulses. -/
theorem C70_quick (g : Cfg) (fuel : ℕ) (chs : List ℕ) (d : DelaySource) (w : ℝ) (l l' : List AState) (hw : WellFormedAll g l) (h : timeDelayQuick g fuel chs d w l = some l') :
    ∃ G G', readGroups l = some G ∧ readGroups l' = some G' ∧ GroupsReplaced (fun cols ys => ∃ over sep, ys = [over, sep] ∧ QuickParts g fuel chs d w cols over sep) G G' := by
  unfold timeDelayQuick at h
  obtain ⟨G, hG, h⟩ := Option.bind_eq_some_iff.1 h
  obtain ⟨r, hr, h⟩ := Option.map_eq_some_iff.1 h
  have hwf := wfCols_of_read hw hG
  have hpr := readGroups_proper hG
  have hr' : List.Forall₂ (fun cols (y : List Column × List Column) => quickGroup g fuel chs d w cols = some y) (allGroups G) r := mapM_some_iff.1 hr
  have hq : List.Forall₂ (fun cols ys => ∃ over sep, ys = [over, sep] ∧ QuickParts g fuel chs d w cols over sep) (allGroups G) (r.map (fun y => [y.1, y.2])) := by
    rw [List.forall₂_map_right_iff]
    refine ((List.forall₂_and_left (allGroups G) r).2 ⟨?_, hr'⟩).imp (fun cols y e => ⟨y.1, y.2, rfl, quickGroup_some (A := y.1) (B := y.2) e.1 e.2⟩)
    intro cols hc
    obtain ⟨e, he, x, hx, rfl⟩ := mem_allGroups.1 hc
    exact hwf e he x hx
  obtain ⟨G', q1, _, q3⟩ := replaced_read hpr hq (by
    rintro e he x hx y ⟨A, B, rfl, hy⟩
    obtain ⟨p1, p2⟩ := quickParts_proper (hwf e he x hx) ((hpr.groups e he).2.2 x hx) hy
    refine ⟨by simp, ?_⟩
    intro cols hc
    rcases List.mem_cons.1 hc with rfl | hc
    · exact p1
    · obtain rfl := List.mem_singleton.1 hc
      exact p2) 1
  refine ⟨G, G', hG, ?_, q3⟩
  rw [← List.flatMap_def] at q1
  rw [← h, ← q1]
  congr 1
  exact zipIdx_pairs r writeGroup 0

/-- **C70** The probabilities of the two parts of a column add up to that of the column; both are not negative if it is not. -/
theorem C70_prob (g : Cfg) (fuel : ℕ) (chs : List ℕ) (d : DelaySource) (w : ℝ) (cols over sep : List Column) (h : QuickParts g fuel chs d w cols over sep) :
    ∃ split, splitColumns g fuel cols = some split ∧ over.length = split.length ∧ sep.length = split.length ∧
      ∀ (i : ℕ) (h0 : i < split.length) (h1 : i < over.length) (h2 : i < sep.length), over[i].gprob + sep[i].gprob = split[i].gprob ∧ (0 ≤ split[i].gprob → 0 ≤ over[i].gprob ∧ 0 ≤ sep[i].gprob) := by
  obtain ⟨sp, t, h1, _, hA, hB⟩ := h
  refine ⟨sp, h1, hA.length_eq.symm, hB.length_eq.symm, ?_⟩
  intro i h0 h2 h3
  have ha := (List.forall₂_iff_get.1 hA).2 i h0 h2
  have hb := (List.forall₂_iff_get.1 hB).2 i h0 h3
  simp only [List.get_eq_getElem] at ha hb
  rw [ha.gprob, hb.gprob]
  refine ⟨by ring, fun hp => ⟨?_, ?_⟩⟩
  · positivity
  · refine mul_nonneg hp ?_
    rw [sub_nonneg, Real.exp_le_one_iff]
    have : 0 < Real.log 2 := Real.log_pos (by norm_num)
    nlinarith [sq_nonneg (t / w)]

/-- **C70** The photons of the two parts of a state together are the photons of the state. -/
theorem C70_photons (g : Cfg) (chs : List ℕ) (t t' p : ℝ) (s b a : PState) (hb : StatePart g (· ∉ chs) t p s b) (ha : StatePart g (· ∈ chs) t' p s a) :
    ∃ v vb va, firstValues g s = some v ∧ firstValues g b = some vb ∧ firstValues g a = some va ∧ ∀ ch : ℕ, vb.getD ch 0 + va.getD ch 0 = v.getD ch 0 ∧ (ch ∈ chs → vb.getD ch 0 = 0) ∧
      (ch ∉ chs → va.getD ch 0 = 0) := by
  obtain ⟨v, vb, n, nb, k, kb, hv, hvb, hn, hnb, c1, c2, _, e1⟩ := hb.comps
  obtain ⟨u, va, m, na, j, ka, hu, hva, hm, hna, d1, d2, _, e2⟩ := ha.comps
  have hfirst : ∀ {x : PState} {v : Vals} {n : Name} {k : Comp}, x.q.comps = [(n, k)] → Valid g v → IsName g v n → firstValues g x = some v := by
    intro x v n k hc hv hn
    unfold firstValues
    rw [hc, (isName_iff hv).1 hn]
    simp [g.parse_stdName hv.2]
  have hvu : v = u := by
    have h1 := hfirst c1 hv hn
    have h2 := hfirst d1 hu hm
    rw [h1] at h2
    exact Option.some.inj h2
  subst hvu
  refine ⟨v, vb, va, hfirst c1 hv hn, hfirst c2 hvb hnb, hfirst d2 hva hna, ?_⟩
  intro ch
  rw [e1 ch, e2 ch]
  by_cases h : ch ∈ chs <;> simp [h]

/-- **C70** The photons of the two parts practically do not overlap. -/
theorem C70_apart : photonOverlap (some ⟨-100, 1⟩) (some ⟨100, 1⟩) = (2 : ℝ)⁻¹ ^ 20000 := by
  have h2 : ((-100 - 100 : ℝ) / Real.sqrt (1 ^ 2 + 1 ^ 2)) ^ 2 = 20000 := by
    rw [div_pow, Real.sq_sqrt (by norm_num)]
    norm_num
  unfold photonOverlap
  simp only
  rw [h2]
  rw [show (-1 : ℝ) * Real.log 2 * 20000 = -((20000 : ℕ) * Real.log 2) by push_cast; ring, Real.exp_neg, Real.exp_nat_mul, Real.exp_log (by norm_num), inv_pow]

end Verif.Props
