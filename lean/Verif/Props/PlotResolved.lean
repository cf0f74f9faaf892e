/-
C99: histograms of photon-resolved collections.
-/
import Verif.Lemmas.PlotResolved
import Verif.Props.Plot
import Verif.Props.Spoiled
import Verif.Props.Quick3
import Verif.Props.Resolved3
import Verif.Props.Quick2

namespace Verif.Props
open Verif Spec

theorem ignores_initial (k : List Char) : IgnoresComps (fun s => s.initial = k) := fun _ _ => Iff.rfl

theorem ignores_outcome (g : Cfg) (k : List Char) (ch : List ℤ) (o : Name) : IgnoresComps (fun s => s.initial = k ∧ ∃ v, Shown ch s v ∧ outcomeName g v = o) := fun _ _ => Iff.rfl

/-- **C99** A collection in which some state has no photon information is shown as usual. -/
theorem C99_unresolved (g : Cfg) (m fuel : ℕ) (initials : List (List Char)) (channels : List ℤ) (l : List AState) (s : AState) (hs : s ∈ l) (h : s.aux = none) :
    histogramAll g m fuel initials channels l = histogram g m initials channels (l.map (fun s => ([], s.q))) ∧ leftByPlot g fuel l = some l := by
  have : isPhotonResolved l = false := by
    unfold isPhotonResolved
    rw [List.all_eq_false]
    exact ⟨s, hs, by simp [h]⟩
  unfold histogramAll leftByPlot
  rw [this]
  exact ⟨rfl, rfl⟩

/-- **C99** The histogram of a photon-resolved collection: the labels of the bars of an initial state are distinct, the height of a bar is the summed probability of the columns with
this initial state and outcome (the probability of the interference group times the squared column amplitude), and the bars of an initial state add up to the probability of its columns. -/
theorem C99_bars (g : Cfg) (m fuel : ℕ) (initials : List (List Char)) (channels : List ℤ) (l : List AState) (d : Dict (List Char) (List (Name × ℝ))) (G : Groups)
    (hr : isPhotonResolved l = true) (hG : readGroups l = some G) (hs : ∀ s ∈ l, Splits g s.q.comps) (h : histogramAll g m fuel initials channels l = some d) :
    d.keys.Nodup ∧ ∀ k bars, (k, bars) ∈ d → (bars.map Prod.fst).Nodup ∧
      (∀ o x, (o, x) ∈ bars → x = columnsProb G (fun s => s.initial = k ∧ ∃ v, Shown (shownChannels m channels) s v ∧ outcomeName g v = o)) ∧
      (bars.map Prod.snd).sum = columnsProb G (fun s => s.initial = k) := by
  unfold histogramAll at h
  rw [if_pos hr] at h
  obtain ⟨qs, h1, h2⟩ := Option.bind_eq_some_iff.1 h
  obtain ⟨b1, _, b3⟩ := C48_bars h2
  refine ⟨b1, ?_⟩
  intro k bars hk
  obtain ⟨c1, _, c3, c4⟩ := b3 k bars hk
  refine ⟨c1, ?_, ?_⟩
  · intro o x hx
    rw [c3 o x hx]
    exact prePlot_prob hG h1 hs _ (ignores_outcome g k _ o) (fun _ _ => Iff.rfl)
  · rw [c4]
    exact prePlot_prob hG h1 hs _ (ignores_initial k) (fun _ _ => Iff.rfl)

theorem settled_sum {ch : List ℤ} {cols : List Column} {p : ℝ} {v : List ℝ} {ini : List Char} (hp : ProperGroup ini cols) (h : SettledGroup ch cols p v) (g : Cfg) (k : List Char) (o : Name) :
    (cols.map (columnProb (fun s => s.initial = k ∧ ∃ v, Shown ch s v ∧ outcomeName g v = o))).sum = (if ini = k ∧ outcomeName g v = o then p else 0) := by
  have key : ∀ c ∈ cols, columnProb (fun s => s.initial = k ∧ ∃ v, Shown ch s v ∧ outcomeName g v = o) c = (if ini = k ∧ outcomeName g v = o then p else 0) * ‖c.amp‖ ^ 2 := by
    intro c hc
    obtain ⟨h1, h2⟩ := h.states c hc
    obtain ⟨t, ht⟩ := Option.ne_none_iff_exists'.1 (fun hn : c.states.getLast? = none => h1 (List.getLast?_eq_none_iff.1 hn))
    have htm := List.mem_of_getLast? ht
    have hini := hp.initial c hc t htm
    unfold columnProb
    by_cases hx : ini = k ∧ outcomeName g v = o
    · rw [if_pos hx, if_pos ⟨t, ht, by rw [hini]; exact hx.1, v, h2 t htm, hx.2⟩, h.prob c hc]
    · rw [if_neg hx, if_neg, zero_mul]
      rintro ⟨t', ht', h3, v', h4, h5⟩
      rw [ht] at ht'
      obtain rfl := Option.some.inj ht'
      rw [shown_unique h4 (h2 t htm)] at h5
      exact hx ⟨by rw [← hini]; exact h3, h5⟩
  rw [List.map_congr_left key, List.sum_map_mul_left, h.norm, mul_one]

/-- **C99** If the groups are as a measurement leaves them (one probability and one set of classical values per group, amplitudes normalised), the height of a bar is the summed
probability of the interference groups with this initial state and outcome. -/
theorem C99_settled (g : Cfg) (m fuel : ℕ) (initials : List (List Char)) (channels : List ℤ) (l : List AState) (d : Dict (List Char) (List (Name × ℝ))) (G : Groups)
    (hr : isPhotonResolved l = true) (hG : readGroups l = some G) (hs : ∀ s ∈ l, Splits g s.q.comps) (h : histogramAll g m fuel initials channels l = some d)
    (p : List Column → ℝ) (v : List Column → List ℝ) (hset : ∀ e ∈ G, ∀ x ∈ e.2, SettledGroup (shownChannels m channels) x.2 (p x.2) (v x.2))
    (k : List Char) (bars : List (Name × ℝ)) (hk : (k, bars) ∈ d) (o : Name) (y : ℝ) (hy : (o, y) ∈ bars) :
    y = (G.map (fun e => (e.2.map (fun x => if e.1 = k ∧ outcomeName g (v x.2) = o then p x.2 else 0)).sum)).sum := by
  obtain ⟨_, h2⟩ := C99_bars g m fuel initials channels l d G hr hG hs h
  rw [(h2 k bars hk).2.1 o y hy]
  unfold columnsProb
  have hpr := readGroups_proper hG
  congr 1
  refine List.map_congr_left ?_
  intro e he
  congr 1
  refine List.map_congr_left ?_
  intro x hx
  exact settled_sum ((hpr.groups e he).2.2 x hx) (hset e he x hx) g k o

theorem written_all {cls o : List ℕ} {p : ℝ} {s s' t t' : PState} (h : MeasuredState cls o p s s') (h' : MeasuredState cls o p t t') (he : s.q.classical = t.q.classical) :
    s'.q.classical = t'.q.classical := by
  refine List.ext_getElem? ?_
  intro n
  by_cases hn : n ∈ cls
  · obtain ⟨i, hi, hmax⟩ : ∃ i, cls[i]? = some n ∧ ∀ j : ℕ, i < j → cls[j]? ≠ some n := by
      clear h h' he
      induction cls with
      | nil => cases hn
      | cons a cls ih =>
        by_cases hm : n ∈ cls
        · obtain ⟨i, h1, h2⟩ := ih hm
          refine ⟨i + 1, by simpa using h1, ?_⟩
          intro j hj
          rcases j with _ | j
          · omega
          · simpa using h2 j (by omega)
        · have : n = a := by
            rcases List.mem_cons.1 hn with h | h
            · exact h
            · exact absurd h hm
          subst this
          refine ⟨0, by simp, ?_⟩
          intro j hj
          rcases j with _ | j
          · omega
          · intro h0
            rw [List.getElem?_cons_succ] at h0
            exact hm (List.mem_of_getElem? h0)
    rw [h.written i n hi hmax, h'.written i n hi hmax]
  · rw [h.kept n hn, h'.kept n hn, he]

/-- **C99** A photon-resolved measurement leaves such groups, with the probability of the old group times the probability of the outcome, if the states of the group had the same
classical values before. -/
theorem C99_measured (g : Cfg) (m : ℕ) (opt cls : List ℕ) (channels : List ℤ) (cols grp : List Column) (o : List ℕ) (gp : ℝ) (cl : List ℝ) (hm : MeasurableGroup g m cols) (hwid : RealWidths cols) (hgp : ∀ c ∈ cols, c.gprob = gp)
    (hcl : ∀ c ∈ cols, c.states ≠ [] ∧ ∀ s ∈ c.states, s.q.classical = cl) (hne : grp ≠ []) (h : MeasuredGroup g opt cls cols o grp)
    (hch : ∀ c ∈ grp, ∀ s ∈ c.states, ∃ v, Shown channels s.q v) :
    ∃ p v, TotalDetection g (columnsReading g opt o cols) p ∧ SettledGroup channels grp (gp * p) v := by
  have hnorm := (C65_rescaled g m opt cls cols hm hwid o grp hne h).1
  obtain ⟨p, t1, t2⟩ := h
  have hsub : ∀ c ∈ columnsReading g opt o cols, c ∈ cols := fun c hc => (mem_columnsReading.1 hc).1
  have hst : ∀ c' ∈ grp, c'.states ≠ [] ∧ ∀ s' ∈ c'.states, ∃ s, s.q.classical = cl ∧ MeasuredState cls o p s s' := by
    intro c' hc'
    obtain ⟨c, hcm, hcc⟩ := forall2_left_mem t2.flip c' hc'
    obtain ⟨q1, q2⟩ := hcl c (hsub c hcm)
    refine ⟨?_, ?_⟩
    · intro h0
      have := hcc.states
      rw [h0] at this
      exact q1 (List.forall₂_nil_right_iff.1 this)
    · intro s' hs'
      obtain ⟨s, hs, hh⟩ := forall2_left_mem hcc.states.flip s' hs'
      exact ⟨s, q2 s hs, hh⟩
  obtain ⟨c0, hc0⟩ := List.exists_mem_of_ne_nil _ hne
  obtain ⟨s0', hs0'⟩ := List.exists_mem_of_ne_nil _ (hst c0 hc0).1
  obtain ⟨v, hv⟩ := hch c0 hc0 s0' hs0'
  obtain ⟨s0, e0, m0⟩ := (hst c0 hc0).2 s0' hs0'
  refine ⟨p, v, t1, ?_, hnorm, ?_⟩
  · intro c' hc'
    obtain ⟨c, hcm, hcc⟩ := forall2_left_mem t2.flip c' hc'
    rw [hcc.gprob, hgp c (hsub c hcm)]
  · intro c' hc'
    refine ⟨(hst c' hc').1, ?_⟩
    intro s' hs'
    obtain ⟨s, e1, m1⟩ := (hst c' hc').2 s' hs'
    have := written_all m1 m0 (e1.trans e0.symm)
    unfold Shown at hv ⊢
    rw [this]
    exact hv

theorem splitColumns_any {g : Cfg} {cols : List Column} (hs : ∀ c ∈ cols, ∀ s ∈ c.states, Splits g s.q.comps) : ∀ fuel, totalWeight cols < fuel → ∃ out, splitColumns g fuel cols = some out := by
  intro fuel hf
  obtain ⟨out, h, _⟩ := splitColumns_defined (g := g) fuel (cols := cols) (fun c hc s hsm => splits_spl (hs c hc s hsm)) (by omega)
  exact ⟨out, h⟩

/-- **C99** The histogram is defined if the columns can be shown and have the channels asked for. -/
theorem C99_defined (g : Cfg) (m : ℕ) (initials : List (List Char)) (channels : List ℤ) (l : List AState) (G : Groups) (hr : isPhotonResolved l = true) (hG : readGroups l = some G)
    (hs : ∀ s ∈ l, Splits g s.q.comps) (hsh : ∀ e ∈ G, ∀ x ∈ e.2, ∀ c ∈ x.2, Showable g c) (hch : ∀ s ∈ l, ∃ v, Shown (shownChannels m channels) s.q v) :
    ∃ N, ∀ fuel ≥ N, ∃ d, histogramAll g m fuel initials channels l = some d := by
  have hst := readGroups_states hG
  have hspl : ∀ e ∈ G, ∀ x ∈ e.2, ∀ c ∈ x.2, ∀ s ∈ c.states, Splits g s.q.comps ∧ ∃ v, Shown (shownChannels m channels) s.q v := by
    intro e he x hx c hc s hsm
    obtain ⟨a, ha, h2⟩ := hst e he x hx c hc s hsm
    rw [← h2]
    exact ⟨hs a ha, hch a ha⟩
  refine ⟨(G.map (fun e => (e.2.map (fun x => totalWeight x.2)).sum)).sum + 1, ?_⟩
  intro fuel hfuel
  have hle : ∀ e ∈ G, ∀ x ∈ e.2, totalWeight x.2 < fuel := by
    intro e he x hx
    have h1 := List.single_le_sum (l := e.2.map (fun x => totalWeight x.2)) (by simp) _ (List.mem_map_of_mem hx)
    have h2 := List.single_le_sum (l := G.map (fun e => (e.2.map (fun x => totalWeight x.2)).sum)) (by simp) _ (List.mem_map_of_mem he)
    omega
  have hex : ∃ G', G.mapM (splitColumns g fuel) = some G' := by
    unfold Groups.mapM
    refine mapM_defined _ ?_
    intro e he
    obtain ⟨r, hr⟩ := mapM_defined (f := fun (x : ℕ × List Column) => (splitColumns g fuel x.2).map (fun y => (x.1, y))) e.2 (by
      intro x hx
      obtain ⟨out, ho⟩ := splitColumns_any (fun c hc s hsm => (hspl e he x hx c hc s hsm).1) fuel (hle e he x hx)
      exact ⟨_, by rw [ho]; rfl⟩)
    exact ⟨_, by rw [hr]; rfl⟩
  obtain ⟨G', hG'⟩ := hex
  have hrel := groups_mapM.1 hG'
  -- invariant of the columns
  have hinv : ∀ c ∈ allColumns G', (∀ s ∈ c.states, Splits g s.q.comps ∧ ∃ v, Shown (shownChannels m channels) s.q v) ∧ Showable g c := by
    intro c hc
    unfold allColumns at hc
    obtain ⟨e', he', hc⟩ := List.mem_flatMap.1 hc
    obtain ⟨x', hx', hc⟩ := List.mem_flatMap.1 hc
    obtain ⟨e, he, x, hx, _, _, h3⟩ := groupsRel_mem hrel e' he' x' hx'
    refine splitColumns_inv (R := fun c => (∀ s ∈ c.states, Splits g s.q.comps ∧ ∃ v, Shown (shownChannels m channels) s.q v) ∧ Showable g c) ?_ ?_ fuel h3 ?_ c hc
    · rintro c new rem ⟨h1, h2⟩ hsp
      obtain ⟨a1, a2, _⟩ := split_prob hsp (fun s hsm => (h1 s hsm).1) (fun _ => True) splits_ignore
      obtain ⟨b1, b2⟩ := split_showable (fun s hsm => (h1 s hsm).1) h2 hsp
      have hshown : (∀ s ∈ new.states, ∃ v, Shown (shownChannels m channels) s.q v) ∧ ∀ s ∈ rem.states, ∃ v, Shown (shownChannels m channels) s.q v := by
        rcases split_cases hsp (fun s hs' => (h1 s hs').1.wf) with ⟨h0, _⟩ | ⟨pre, s, post, s0, k0, s1, k1, rest, r', e, _, hcc, hcase⟩
        · cases h0
        have hmid : ∀ comps : Comps, ∀ u ∈ pre ++ { s with q := { s.q with comps := comps } } :: post, ∃ v, Shown (shownChannels m channels) u.q v := by
          intro comps u hu
          rcases List.mem_append.1 hu with h | h
          · exact (h1 u (by rw [e]; simp [h])).2
          · rcases List.mem_cons.1 h with rfl | h
            · exact (h1 s (by rw [e]; simp)).2
            · exact (h1 u (by rw [e]; simp [h])).2
        rcases hcase with ⟨f, _, hr, _⟩ | ⟨_, hr, _⟩
        · obtain ⟨rfl, rfl⟩ := Prod.mk.inj (Option.some.inj hr)
          exact ⟨hmid _, hmid _⟩
        · obtain ⟨rfl, rfl⟩ := Prod.mk.inj (Option.some.inj hr)
          exact ⟨hmid _, hmid _⟩
      exact ⟨⟨fun s hsm => ⟨a1 s hsm, hshown.1 s hsm⟩, b1⟩, fun s hsm => ⟨a2 s hsm, hshown.2 s hsm⟩, b2⟩
    · rintro c n ⟨h1, h2⟩
      exact ⟨h1, h2.ne, h2.fits, h2.prob⟩
    · exact fun c hc => ⟨fun s hsm => hspl e he x hx c hc s hsm, hsh e he x hx c hc⟩
  obtain ⟨qs, hqs⟩ := mapM_defined (f := columnState g) (allColumns G') (fun c hc => columnState_defined (fun s hsm => ((hinv c hc).1 s hsm).1) (hinv c hc).2)
  unfold histogramAll
  rw [if_pos hr]
  unfold prePlot
  rw [hG, Option.bind_some, hG', Option.bind_some, hqs, Option.bind_some]
  refine (C48_defined g m initials channels _).2 ?_
  intro p hp _
  obtain ⟨q, hq, rfl⟩ := List.mem_map.1 hp
  obtain ⟨c, hc, hcq⟩ := forall2_left_mem (mapM_some_iff.1 hqs).flip q hq
  obtain ⟨last, comps, h4, rfl⟩ := columnState_some hcq
  exact ((hinv c hc).1 last (List.mem_of_getLast? h4)).2

theorem fits_single {g : Cfg} {c : Column} {s : PState} (hs : c.states = [s]) (hw : WellFormed g s.q.comps) : ∀ (v : Vals) (vs : List Vals),
    List.Forall₂ (fun (s : PState) w => ∃ p ∈ s.q.comps, g.parse p.1 = some w) c.states (v :: vs) → Valid g (vs.foldl (fun acc w => List.zipWith (· + ·) w acc) v) := by
  intro v vs h
  rw [hs] at h
  cases h with
  | cons h1 h2 =>
    obtain rfl := List.forall₂_nil_left_iff.1 h2
    obtain ⟨p, hp, hv⟩ := h1
    obtain ⟨w, hw', e⟩ := hw.named' hp
    rw [e, g.parse_stdName hw'.2] at hv
    obtain rfl := Option.some.inj hv
    exact hw'

/-- The histogram of one photon-resolved state that is alone in its column: one bar, with the probability of the column. -/
theorem histogram_one (g : Cfg) (m : ℕ) (channels : List ℤ) (q : QState) (i : Option PInfo) (ci : ColInfo) (v : List ℝ) (hv : Shown (shownChannels m channels) q v) (hs : Splits g q.comps)
    (hp : 0 ≤ ci.gprob ∧ ci.gprob * ‖ci.amp‖ ^ 2 ≤ 1) :
    ∃ N, ∀ fuel ≥ N, ∃ d, histogramAll g m fuel [] channels [⟨q, some ⟨i, some ci⟩⟩] = some d ∧
      ∀ bars, (q.initial, bars) ∈ d → ∀ x, (outcomeName g v, x) ∈ bars → x = ci.gprob * ‖ci.amp‖ ^ 2 := by
  have hG : readGroups [⟨q, some ⟨i, some ci⟩⟩] = some [(q.initial, [(ci.gid, [{ states := [⟨q, i⟩], amp := ci.amp, boson := ci.boson, gprob := ci.gprob, id := ci.cid }])])] := rfl
  have hsl : ∀ s ∈ [(⟨q, some ⟨i, some ci⟩⟩ : AState)], Splits g s.q.comps := by
    intro s h; obtain rfl := List.mem_singleton.1 h; exact hs
  obtain ⟨N, hN⟩ := C99_defined g m [] channels [⟨q, some ⟨i, some ci⟩⟩] _ rfl hG hsl (by
    intro e he x hx c hc
    obtain rfl := List.mem_singleton.1 he
    obtain rfl := List.mem_singleton.1 hx
    obtain rfl := List.mem_singleton.1 hc
    exact ⟨by simp, fits_single rfl hs.wf, hp⟩) (by
    intro s h; obtain rfl := List.mem_singleton.1 h; exact ⟨v, hv⟩)
  refine ⟨N, fun fuel hf => ?_⟩
  obtain ⟨d, hd⟩ := hN fuel hf
  refine ⟨d, hd, ?_⟩
  intro bars hb x hx
  rw [((C99_bars g m fuel [] channels _ d _ rfl hG hsl hd).2 q.initial bars hb).2.1 _ x hx]
  unfold columnsProb columnProb
  simp only [List.map_cons, List.map_nil, List.sum_cons, List.sum_nil, add_zero]
  rw [if_pos ⟨⟨q, i⟩, rfl, rfl, v, hv, rfl⟩]

/-- **C99** What is violated: plotting changes the collection. For a photon-resolved state with several components that is alone in its group, the first histogram shows the probability of
the column; the collection is left with the last component only, and a second histogram of the same collection shows a smaller probability. -/
theorem C99_again (g : Cfg) (m : ℕ) (channels : List ℤ) (q : QState) (i : Option PInfo) (ci : ColInfo) (pre : Comps) (p : Name × Comp) (hc : q.comps = pre ++ [p]) (hp : pre ≠ [])
    (hs : Splits g q.comps) (hpr : 0 < ci.gprob ∧ ci.gprob * ‖ci.amp‖ ^ 2 ≤ 1) (ha : ci.amp ≠ 0) (v : List ℝ) (hv : Shown (shownChannels m channels) q v) :
    ∃ fuel d l' d', histogramAll g m fuel [] channels [⟨q, some ⟨i, some ci⟩⟩] = some d ∧ leftByPlot g fuel [⟨q, some ⟨i, some ci⟩⟩] = some l' ∧ histogramAll g m fuel [] channels l' = some d' ∧
      (∀ bars, (q.initial, bars) ∈ d → ∀ x, (outcomeName g v, x) ∈ bars → x = ci.gprob * ‖ci.amp‖ ^ 2) ∧
      (∀ bars, (q.initial, bars) ∈ d' → ∀ x, (outcomeName g v, x) ∈ bars → x = ci.gprob * ‖ci.amp‖ ^ 2 * ‖p.2.amp‖ ^ 2) ∧
      ci.gprob * ‖ci.amp‖ ^ 2 * ‖p.2.amp‖ ^ 2 < ci.gprob * ‖ci.amp‖ ^ 2 := by
  have hlen : 2 ≤ q.comps.length := by
    rw [hc, List.length_append]
    have := List.length_pos_iff.2 hp
    simp; omega
  obtain ⟨hn, hne⟩ := hs.norm hlen
  have hlt : ‖p.2.amp‖ ^ 2 < 1 := by
    rcases pre with _ | ⟨x, pre⟩
    · exact absurd rfl hp
    · have hx : 0 < ‖x.2.amp‖ ^ 2 := by
        have := norm_pos_iff.2 (hne x (by rw [hc]; simp))
        positivity
      have h2 : ‖p.2.amp‖ ^ 2 ≤ totalProb (pre ++ [p]) := amp_le_totalProb (by simp)
      rw [hc, List.cons_append, totalProb_cons] at hn
      linarith
  have hpos : 0 < ci.gprob * ‖ci.amp‖ ^ 2 := by
    have := norm_pos_iff.2 ha
    have := hpr.1
    positivity
  set c0 : Column := { states := [⟨q, i⟩], amp := ci.amp, boson := ci.boson, gprob := ci.gprob, id := ci.cid } with hc0
  have hG : readGroups [⟨q, some ⟨i, some ci⟩⟩] = some [(q.initial, [(ci.gid, [c0])])] := rfl
  have hspl : ∀ c ∈ [c0], ∀ s ∈ c.states, Splits g s.q.comps := by
    intro c h s h'
    obtain rfl := List.mem_singleton.1 h
    obtain rfl := List.mem_singleton.1 h'
    exact hs
  obtain ⟨N1, hN1⟩ := histogram_one g m channels q i ci v hv hs ⟨hpr.1.le, hpr.2⟩
  obtain ⟨N2, hN2⟩ := histogram_one g m channels { q with comps := [(p.1, ⟨1, 1⟩)] } i { ci with amp := ci.amp * p.2.amp } v hv
    (splits_unit 1 (hs.wf.named p (by rw [hc]; simp))) ⟨hpr.1.le, by
      simp only [norm_mul]
      nlinarith [norm_nonneg p.2.amp, norm_nonneg ci.amp]⟩
  obtain ⟨out, ho⟩ := splitColumns_any hspl (max (max N1 N2) (totalWeight [c0] + 1)) (by omega)
  obtain ⟨rest, hout⟩ := split_last _ c0 ⟨q, i⟩ [] out rfl (fun c h s h' => (hspl c h s h').wf) ho pre p hc hp
  obtain ⟨d, hd, hd2⟩ := hN1 (max (max N1 N2) (totalWeight [c0] + 1)) (by omega)
  obtain ⟨d', hd', hd2'⟩ := hN2 (max (max N1 N2) (totalWeight [c0] + 1)) (by omega)
  refine ⟨_, d, _, d', hd, ?_, hd', hd2, ?_, ?_⟩
  · unfold leftByPlot
    have hr : isPhotonResolved [⟨q, some ⟨i, some ci⟩⟩] = true := rfl
    rw [if_pos hr]
    unfold spoiled
    rw [hG, Option.bind_some]
    unfold Groups.mapM leftColumns
    rw [List.mapM_cons, List.mapM_nil, List.mapM_cons, List.mapM_nil, ho]
    simp only [Option.map_some, Option.bind_eq_bind, Option.bind_some, Option.pure_def, Option.some.injEq]
    rw [hout]
    simp [writeGroups, writeGroup, writeColumn, hc0]
  · intro bars hb x hx
    rw [hd2' bars hb x hx]
    simp only [norm_mul]
    ring
  · nlinarith

/-- Columns that can be measured can be shown. -/
theorem showable_of_with {g : Cfg} {c : Column} {v : Vals} (h : ColumnWith g c v) (hp : 0 ≤ c.gprob ∧ c.gprob * ‖c.amp‖ ^ 2 ≤ 1) : Showable g c := by
  refine ⟨?_, ?_, hp⟩
  · intro h0
    have := h.values
    unfold columnValues at this
    rw [h0] at this
    cases this
  · intro w ws hf
    have hm : c.states.mapM (firstValues g) = some (w :: ws) := by
      rw [mapM_some_iff]
      have hu : ∀ s ∈ c.states, ∃ p : Name × Comp, s.q.comps = [p] := h.single
      generalize c.states = l at hf hu
      generalize w :: ws = r at hf
      induction hf with
      | nil => exact .nil
      | @cons s x l r h1 _ ih =>
        refine .cons ?_ (ih (fun t ht => hu t (List.mem_cons_of_mem _ ht)))
        obtain ⟨p, hp, hx⟩ := h1
        obtain ⟨p', e⟩ := hu s List.mem_cons_self
        rw [e] at hp
        obtain rfl := List.mem_singleton.1 hp
        unfold firstValues
        rw [e]
        exact hx
    have hv := h.values
    unfold columnValues at hv
    rw [hm] at hv
    have := Option.some.inj hv
    rw [this]
    exact h.valid

section NonVacuity

theorem homStates {s : AState} (hs : s ∈ writeGroups homGroups) : ∃ c ∈ homGroup, ∃ t ∈ c.states, s.q = t.q ∧ s.aux.isSome := by
  simp only [writeGroups, homGroups, writeGroup, List.flatMap_cons, List.flatMap_nil, List.append_nil] at hs
  obtain ⟨c, hc, hs⟩ := List.mem_flatMap.1 hs
  obtain ⟨t, ht, rfl⟩ := List.mem_map.1 hs
  exact ⟨c, hc, t, ht, rfl, rfl⟩

theorem homClassical {c : Column} (hc : c ∈ homGroup) : c.states ≠ [] ∧ ∀ t ∈ c.states, t.q.classical = [0, 0] := by
  rcases homMem hc with rfl | rfl | rfl | rfl <;>
  · refine ⟨by simp [homColumn], ?_⟩
    intro t ht
    simp only [homColumn, List.mem_cons, List.not_mem_nil, or_false] at ht
    rcases ht with rfl | rfl <;> rfl

theorem shown_two {q : QState} {a b : ℝ} (h : q.classical = [a, b]) : Shown (shownChannels 2 []) q [a, b] := by
  have : shownChannels 2 [] = [0, 1] := rfl
  unfold Shown
  rw [this]
  refine .cons ?_ (.cons ?_ .nil) <;> rw [h] <;> simp [pyGet, pyIndex]

theorem homShown {q : QState} (h : q.classical = [0, 0]) : Shown (shownChannels 2 []) q [0, 0] := shown_two h

theorem homSettled : SettledGroup (shownChannels 2 []) homGroup 1 [0, 0] := by
  refine ⟨?_, ?_, ?_⟩
  · intro c hc
    rcases homMem hc with rfl | rfl | rfl | rfl <;> rfl
  · simp [homGroup, homColumn]
    norm_num
  · intro c hc
    obtain ⟨h1, h2⟩ := homClassical hc
    exact ⟨h1, fun s hs => homShown (h2 s hs)⟩

/-- The two photons behind the beam splitter, before the measurement: one bar of height 1. -/
example : ∃ fuel d, histogramAll colCfg 2 fuel [] [] (writeGroups homGroups) = some d ∧
    ∀ bars, ("initial".toList, bars) ∈ d → ∀ y, (outcomeName colCfg [0, 0], y) ∈ bars → y = 1 := by
  have hr : isPhotonResolved (writeGroups homGroups) = true := by
    unfold isPhotonResolved
    rw [List.all_eq_true]
    intro s hs
    obtain ⟨_, _, _, _, _, h⟩ := homStates hs
    exact h
  have hG := read_write homProper
  have hs : ∀ s ∈ writeGroups homGroups, Splits colCfg s.q.comps := by
    intro s hs
    obtain ⟨c, hc, t, ht, e, _⟩ := homStates hs
    obtain ⟨v, hv⟩ := homMeasurable.columns c hc
    obtain ⟨p, hp⟩ := hv.single t ht
    rw [e]
    refine ⟨hv.wf t ht, by rw [hp]; simp, ?_⟩
    intro h2
    rw [hp] at h2
    simp at h2
  obtain ⟨N, hN⟩ := C99_defined colCfg 2 [] [] _ _ hr hG hs (by
    intro e he x hx c hc
    obtain rfl := List.mem_singleton.1 he
    obtain rfl := List.mem_singleton.1 hx
    obtain ⟨v, hv⟩ := homMeasurable.columns c hc
    refine showable_of_with hv ?_
    rcases homMem hc with rfl | rfl | rfl | rfl <;> simp [homColumn] <;> norm_num) (by
    intro s hs
    obtain ⟨c, hc, t, ht, e, _⟩ := homStates hs
    exact ⟨[0, 0], homShown (by rw [e]; exact (homClassical hc).2 t ht)⟩)
  obtain ⟨d, hd⟩ := hN N le_rfl
  refine ⟨N, d, hd, ?_⟩
  intro bars hb y hy
  rw [C99_settled colCfg 2 N [] [] _ d _ hr hG hs hd (fun _ => 1) (fun _ => [0, 0]) (by
    intro e he x hx
    obtain rfl := List.mem_singleton.1 he
    obtain rfl := List.mem_singleton.1 hx
    exact homSettled) _ bars hb _ y hy]
  simp [homGroups]

/-- Measuring them gives a group that is settled. -/
example : ∃ grp p v, MeasuredGroup colCfg [0, 1] [0, 1] homGroup [1, 1] grp ∧ SettledGroup (shownChannels 2 []) grp (1 * p) v := by
  obtain ⟨groups, grp, h1, h2, h3⟩ := hom_first
  have hne : grp ≠ [] := by
    intro h0
    obtain ⟨p, _, t2⟩ := h3
    rw [h0, homReading] at t2
    cases t2
  obtain ⟨p, v, _, h4⟩ := C99_measured colCfg 2 [0, 1] [0, 1] (shownChannels 2 []) homGroup grp [1, 1] 1 [0, 0] homMeasurable homWidths
    (by intro c hc; rcases homMem hc with rfl | rfl | rfl | rfl <;> rfl) (fun c hc => homClassical hc) hne h3 (by
      intro c hc s hs
      have hl := (measurable_again homMeasurable h3).classical c hc s hs
      obtain ⟨a, b, e⟩ := List.length_eq_two.1 hl
      exact ⟨[a, b], shown_two e⟩)
  exact ⟨grp, p, v, h3, h4⟩

/-- **C99** The violation is reachable: a state with one classical channel and three components. -/
theorem C99_fails : ∃ (g : Cfg) (s : AState) (fuel : ℕ) (d d' : Dict (List Char) (List (Name × ℝ))) (l' : List AState), Splits g s.q.comps ∧
    histogramAll g 1 fuel [] [] [s] = some d ∧ leftByPlot g fuel [s] = some l' ∧ histogramAll g 1 fuel [] [] l' = some d' ∧ d ≠ d' ∧ l' ≠ [s] := by
  have hsplit : colState3.q.comps = colState3.q.comps.dropLast ++ [colState3.q.comps.getLast (by simp [colState3])] := (List.dropLast_append_getLast _).symm
  have hs : Splits colCfg colState3.q.comps := ⟨colState3_ok.1, by simp [colState3], fun _ => colState3_ok.2⟩
  have hv : Shown (shownChannels 1 []) colState3.q [1] := by
    unfold Shown shownChannels
    simp [colState3, pyGet, pyIndex]
  have hci : (0 : ℝ) < (⟨0, 0, 1, 1, 1 / 2⟩ : ColInfo).gprob ∧ (⟨0, 0, 1, 1, 1 / 2⟩ : ColInfo).gprob * ‖(⟨0, 0, 1, 1, 1 / 2⟩ : ColInfo).amp‖ ^ 2 ≤ 1 := by norm_num
  obtain ⟨fuel, d, l', d', h1, h2, h3, h4, h5, h6⟩ := C99_again colCfg 1 [] colState3.q (some ⟨0, 1⟩) ⟨0, 0, 1, 1, 1 / 2⟩ _ _ hsplit (by simp [colState3]) hs hci (by simp) [1] hv
  have hdd : d ≠ d' := by
    rintro rfl
    unfold histogramAll at h1
    rw [if_pos (by rfl)] at h1
    obtain ⟨qs, hq, hh⟩ := Option.bind_eq_some_iff.1 h1
    obtain ⟨_, hkeys, hbars⟩ := C48_bars hh
    -- a state that is shown
    have hG : readGroups [⟨colState3.q, some ⟨some ⟨0, 1⟩, some ⟨0, 0, 1, 1, 1 / 2⟩⟩⟩] =
      some [(colState3.q.initial, [(0, [{ states := [⟨colState3.q, some ⟨0, 1⟩⟩], amp := 1, boson := 1, gprob := 1 / 2, id := 0 }])])] := rfl
    have htot := prePlot_prob hG hq (by intro s h; obtain rfl := List.mem_singleton.1 h; exact hs) (fun s => s.initial = colState3.q.initial ∧ ∃ v, Shown (shownChannels 1 []) s v ∧ outcomeName colCfg v = outcomeName colCfg [1])
      (ignores_outcome _ _ _ _) (fun _ _ => Iff.rfl)
    have hpos : columnsProb [(colState3.q.initial, [(0, [{ states := [⟨colState3.q, some ⟨0, 1⟩⟩], amp := 1, boson := 1, gprob := 1 / 2, id := 0 }])])]
      (fun s => s.initial = colState3.q.initial ∧ ∃ v, Shown (shownChannels 1 []) s v ∧ outcomeName colCfg v = outcomeName colCfg [1]) = 1 / 2 := by
      unfold columnsProb columnProb
      simp only [List.map_cons, List.map_nil, List.sum_cons, List.sum_nil, add_zero]
      rw [if_pos ⟨_, rfl, rfl, [1], hv, rfl⟩]
      norm_num
    rw [hpos] at htot
    obtain ⟨e, he, hP⟩ : ∃ e ∈ qs.map (fun q => (([] : Name), q)), e.2.initial = colState3.q.initial ∧ ∃ v, Shown (shownChannels 1 []) e.2 v ∧ outcomeName colCfg v = outcomeName colCfg [1] := by
      by_contra hno
      push Not at hno
      have : probOf (qs.map (fun q => (([] : Name), q))) (fun s => s.initial = colState3.q.initial ∧ ∃ v, Shown (shownChannels 1 []) s v ∧ outcomeName colCfg v = outcomeName colCfg [1]) = 0 := by
        unfold probOf
        rw [List.filter_eq_nil_iff.2 (by
          intro a ha
          simp only [decide_eq_true_eq]
          rintro ⟨x1, v, x2, x3⟩
          exact hno a ha x1 v x2 x3)]
        rfl
      rw [this] at htot
      norm_num at htot
    have hk := (hkeys colState3.q.initial).2 ⟨e, he, Or.inl rfl, hP.1⟩
    obtain ⟨⟨k, bars⟩, hb, rfl⟩ := List.mem_map.1 hk
    obtain ⟨_, hlab, _, _⟩ := hbars _ bars hb
    obtain ⟨⟨o, x⟩, hx, ho⟩ := List.mem_map.1 ((hlab (outcomeName colCfg [1])).2 ⟨e, he, Or.inl rfl, hP.2⟩)
    simp only at ho hb
    subst ho
    have a1 := h4 bars hb x hx
    have a2 := h5 bars hb x hx
    linarith
  refine ⟨colCfg, _, fuel, d, d', l', hs, h1, h2, h3, hdd, ?_⟩
  rintro rfl
  rw [h1] at h3
  exact hdd (Option.some.inj h3)

end NonVacuity

end Verif.Props
