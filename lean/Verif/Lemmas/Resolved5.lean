/- Helper lemmas about photon-resolved measurement: the groups of a measurement. -/
import Verif.Lemmas.Resolved4

namespace Verif
open Spec Props

theorem _root_.Verif.Spec.ColumnWith.congr {g : Cfg} {c c' : Column} {v : Vals} (h : ColumnWith g c v) (e : c'.states = c.states) : ColumnWith g c' v := by
  obtain ⟨h1, h2, h3, h4⟩ := h
  refine ⟨by rw [e]; exact h1, ?_, ?_, h4⟩
  · unfold SingleComponents at *
    rw [e]; exact h2
  · unfold columnValues at *
    rw [e]; exact h3

theorem photonsOf_congr {g : Cfg} {c c' : Column} (e : c'.states = c.states) : photonsOf g c' = photonsOf g c := by
  unfold photonsOf listOfPhotons
  rw [e]

theorem writeState_some {cls o : List ℕ} {p : ℝ} {s : PState} (hl : cls.length = o.length) (hc : ∀ n ∈ cls, n < s.q.classical.length) :
    ∃ s', writeState cls o p s = some s' ∧ MeasuredState cls o p s s' := by
  obtain ⟨vals, hv⟩ := writeClassical_ok (o := o) hc (by omega)
  obtain ⟨w1, _, _, w4, w5⟩ := writeClassical_spec hv
  refine ⟨{ s with q := { s.q with classical := vals, results := s.q.results ++ List.replicate o.length ⟨vals, p⟩ } }, ?_, rfl, rfl, rfl, rfl, w1, w4, w5, rfl⟩
  unfold writeState
  rw [writeMeasured_eq _ _ _ hl, hv]
  rfl

theorem mapM_exists {α β : Type*} {f : α → Option β} {R : α → β → Prop} {l : List α} (h : ∀ x ∈ l, ∃ y, f x = some y ∧ R x y) : ∃ l', l.mapM f = some l' ∧ List.Forall₂ R l l' := by
  induction l with
  | nil => exact ⟨[], rfl, List.Forall₂.nil⟩
  | cons a l ih =>
    obtain ⟨l', h1, h2⟩ := ih (fun x hx => h x (List.mem_cons_of_mem _ hx))
    obtain ⟨y, e1, e2⟩ := h a List.mem_cons_self
    exact ⟨y :: l', mapM_some_iff.2 (List.Forall₂.cons e1 (mapM_some_iff.1 h1)), List.Forall₂.cons e2 h2⟩

theorem outcomeGroup_spec {g : Cfg} {m : ℕ} {opt cls o : List ℕ} {sub : List (Column × Vals)} (hne : sub ≠ []) (hcw : ∀ x ∈ sub, ColumnWith g x.1 x.2)
    (hm : MeasurableGroup g m (sub.map Prod.fst)) (hopt : ∀ ch ∈ opt, ch < g.C) (ho : ∀ x ∈ sub.head?, outcomeOf opt x.2 = o) (hcls : cls.length = opt.length) (hclm : ∀ n ∈ cls, n < m) :
    ∃ grp p, outcomeGroup g opt cls sub = some grp ∧ TotalDetection g (sub.map Prod.fst) p ∧
      List.Forall₂ (MeasuredColumn g cls o p ((sub.map Prod.fst).map (fun c => ‖c.amp‖ ^ 2)).sum) (sub.map Prod.fst) grp := by
  rcases sub with _ | ⟨⟨c0, v0⟩, rest⟩
  · exact absurd rfl hne
  set sub := (c0, v0) :: rest with hsub
  have h0 : (c0, v0) ∈ sub := by simp [hsub]
  -- the probabilities
  have hprob : ((groupBy (fun x : Column × Vals => g.render x.2) sub).mapM (fun (e : Option Name × List (Column × Vals)) => e.1.bind (fun _ => (e.2.head?).bind (fun x => columnListProbability g x.2 (e.2.map Prod.fst))))) =
      some ((groupBy (fun x : Column × Vals => g.render x.2) sub).map (fun e => detectionProb g (e.2.map Prod.fst))) := by
    refine mapM_some_of ?_
    rintro ⟨k, xs⟩ he
    rw [groupBy_eq] at he
    obtain ⟨k', hk', hkx⟩ := List.mem_map.1 he
    obtain ⟨rfl, rfl⟩ := Prod.mk.inj hkx
    rw [groupBy_mem_keys] at hk'
    obtain ⟨y, hy, rfl⟩ := List.mem_map.1 hk'
    rw [g.render_of_valid (hcw y hy).valid, Option.bind_some]
    have hmem : y ∈ sub.filter (fun a => g.render a.2 = some (g.stdName y.2)) := by
      rw [List.mem_filter]
      exact ⟨hy, by simp [g.render_of_valid (hcw y hy).valid]⟩
    rcases hf : sub.filter (fun a => g.render a.2 = some (g.stdName y.2)) with _ | ⟨z, zs⟩
    · rw [hf] at hmem; cases hmem
    · simp only [hf, List.head?_cons, Option.bind_some]
      refine columnList_detection ?_
      intro c hc
      obtain ⟨w, hw, rfl⟩ := List.mem_map.1 hc
      have hall : ∀ w ∈ z :: zs, w ∈ sub ∧ w.2 = y.2 := by
        intro w hw
        rw [← hf, List.mem_filter] at hw
        have h1 := hw.2
        rw [decide_eq_true_eq, g.render_of_valid (hcw w hw.1).valid] at h1
        exact ⟨hw.1, g.stdName_inj (hcw w hw.1).valid.2 (hcw y hy).valid.2 (Option.some.inj h1)⟩
      obtain ⟨w1, w2⟩ := hall w hw
      obtain ⟨_, z2⟩ := hall z List.mem_cons_self
      have := hcw w w1
      rw [w2] at this
      rw [z2]
      exact this
  set p := ((groupBy (fun x : Column × Vals => g.render x.2) sub).map (fun e => detectionProb g (e.2.map Prod.fst))).sum with hp
  have htot : TotalDetection g (sub.map Prod.fst) p := by
    -- keys of the grouping are the names of the photon numbers
    have hval : ∀ x ∈ sub, columnValues g x.1 = some x.2 := fun x hx => (hcw x hx).values
    refine ⟨(Dict.keys (groupBy (fun x : Column × Vals => x.2) sub)), groupBy_nodup _ _, ?_, ?_⟩
    · intro v
      rw [groupBy_mem_keys]
      constructor
      · intro h
        obtain ⟨x, hx, rfl⟩ := List.mem_map.1 h
        exact ⟨x.1, List.mem_map_of_mem hx, hval x hx⟩
      · rintro ⟨c, hc, hv⟩
        obtain ⟨x, hx, rfl⟩ := List.mem_map.1 hc
        rw [hval x hx] at hv
        exact List.mem_map.2 ⟨x, hx, Option.some.inj hv⟩
    · have hkeys : (Dict.keys (groupBy (fun x : Column × Vals => x.2) sub)).map g.render = Dict.keys (groupBy (fun x : Column × Vals => g.render x.2) sub) := by
        have hgen : ∀ l : List (Column × Vals), (∀ x ∈ l, Valid g x.2) → (Dict.keys (groupBy (fun x : Column × Vals => x.2) l)).map g.render = Dict.keys (groupBy (fun x : Column × Vals => g.render x.2) l) := by
          intro l
          induction l using List.reverseRecOn with
          | nil => intro _; rfl
          | append_singleton l a ih =>
            intro hl
            have ih := ih (fun x hx => hl x (by simp [hx]))
            rw [groupBy_append, groupBy_append]
            have ha := hl a (by simp)
            by_cases hmem : a.2 ∈ Dict.keys (groupBy (fun x : Column × Vals => x.2) l)
            · rw [Dict.keys_set_of_mem _ hmem, Dict.keys_set_of_mem, ih]
              rw [← ih]
              exact List.mem_map_of_mem hmem
            · rw [Dict.keys_set_of_not_mem _ hmem, Dict.keys_set_of_not_mem, List.map_append, ih]
              · rfl
              · rw [groupBy_mem_keys] at hmem ⊢
                intro h
                obtain ⟨x, hx, hxe⟩ := List.mem_map.1 h
                apply hmem
                have hxv := hl x (by simp [hx])
                rw [g.render_of_valid hxv, g.render_of_valid ha] at hxe
                exact List.mem_map.2 ⟨x, hx, g.stdName_inj hxv.2 ha.2 (Option.some.inj hxe)⟩
        exact hgen sub (fun x hx => (hcw x hx).valid)
      rw [hp, groupBy_eq, List.map_map, ← hkeys, List.map_map]
      congr 1
      refine List.map_congr_left ?_
      intro v hv
      rw [groupBy_mem_keys] at hv
      obtain ⟨y, hy, rfl⟩ := List.mem_map.1 hv
      simp only [Function.comp]
      congr 1
      rw [List.filter_map]
      congr 1
      refine List.filter_congr ?_
      intro x hx
      simp only [Function.comp, hval x hx, g.render_of_valid (hcw x hx).valid, g.render_of_valid (hcw y hy).valid, Option.some.injEq, decide_eq_decide]
      constructor
      · exact fun h => g.stdName_inj (hcw x hx).valid.2 (hcw y hy).valid.2 h
      · intro h; rw [h]
  set S := ((sub.map Prod.fst).map (fun c => ‖c.amp‖ ^ 2)).sum with hS
  have hSpos : 0 < S := by
    have h1 : 0 < ‖c0.amp‖ ^ 2 := by
      have := hm.amp c0 (List.mem_map_of_mem h0)
      positivity
    have : ‖c0.amp‖ ^ 2 ≤ S := by
      refine List.single_le_sum ?_ _ ?_
      · intro x hx
        obtain ⟨c, _, rfl⟩ := List.mem_map.1 hx
        positivity
      · exact List.mem_map.2 ⟨c0, List.mem_map_of_mem h0, rfl⟩
    linarith
  set sub1 : List Column := sub.map (fun x => { x.1 with gprob := c0.gprob * p }) with hsub1
  have hres1 : rescaleAmplitudes sub1 = some (sub1.map (fun c => { c with amp := c.amp / ((Real.sqrt S : ℝ) : ℂ) })) := by
    have e : (sub1.map (fun c => ‖c.amp‖ ^ 2)).sum = S := by
      rw [hS, hsub1, List.map_map, List.map_map]; rfl
    unfold rescaleAmplitudes
    simp only [e]
    rw [if_neg hSpos.ne']
  have hres2 := rescaleBosons_some (g := g) (cols := sub1.map (fun c => { c with amp := c.amp / ((Real.sqrt S : ℝ) : ℂ) })) (by
      intro c hc
      obtain ⟨c1, hc1, rfl⟩ := List.mem_map.1 hc
      obtain ⟨x, hx, rfl⟩ := List.mem_map.1 hc1
      exact ⟨x.2, (hcw x hx).congr rfl⟩) (by
      intro c hc
      obtain ⟨c1, hc1, rfl⟩ := List.mem_map.1 hc
      obtain ⟨x, hx, rfl⟩ := List.mem_map.1 hc1
      refine div_ne_zero (hm.amp x.1 (List.mem_map_of_mem hx)) ?_
      exact_mod_cast (Real.sqrt_pos.2 hSpos).ne') (by
      intro c hc
      obtain ⟨c1, hc1, rfl⟩ := List.mem_map.1 hc
      obtain ⟨x, hx, rfl⟩ := List.mem_map.1 hc1
      exact hm.boson x.1 (List.mem_map_of_mem hx))
  rw [hsub1, List.map_map, List.map_map] at hres2
  have hlen0 : ∀ ch ∈ opt, ch < v0.length := by
    intro ch hch
    rw [(hcw _ h0).valid.1]
    exact hopt ch hch
  have hov : opt.mapM (fun ch => v0[ch]?) = some o := by
    rw [mapM_getElem? hlen0, ho (c0, v0) (by simp [hsub])]
  have hol : cls.length = o.length := by
    rw [← ho (c0, v0) (by simp [hsub]), hcls]; simp [outcomeOf]
  obtain ⟨grp, hg1, hg2⟩ := mapM_exists (l := sub) (f := fun x : Column × Vals => (x.1.states.mapM (writeState cls o p)).map (fun sts =>
      ({ x.1 with states := sts, amp := x.1.amp / ((Real.sqrt S : ℝ) : ℂ), boson := Real.sqrt (overlapPermanent (photonsOf g x.1) (photonsOf g x.1)), gprob := c0.gprob * p } : Column)))
      (R := fun x c' => MeasuredColumn g cls o p S x.1 c') (by
    intro x hx
    obtain ⟨sts, hs1, hs2⟩ := mapM_exists (l := x.1.states) (f := writeState cls o p) (R := MeasuredState cls o p) (by
      intro s hs
      exact writeState_some hol (by
        intro n hn
        rw [hm.classical x.1 (List.mem_map_of_mem hx) s hs]
        exact hclm n hn))
    refine ⟨{ x.1 with states := sts, amp := x.1.amp / ((Real.sqrt S : ℝ) : ℂ), boson := Real.sqrt (overlapPermanent (photonsOf g x.1) (photonsOf g x.1)), gprob := c0.gprob * p }, by rw [hs1]; rfl, rfl, ?_, rfl, rfl, hs2⟩
    show c0.gprob * p = _
    rw [hm.gprob c0 (List.mem_map_of_mem h0) x.1 (List.mem_map_of_mem hx)])
  refine ⟨grp, p, ?_, htot, List.forall₂_map_left_iff.2 hg2⟩
  unfold outcomeGroup
  rw [hsub]
  simp only
  rw [← hsub, hprob, Option.bind_some, ← hp, ← hsub1, hres1, Option.bind_some, hsub1, List.map_map, hres2, Option.bind_some, hov, Option.bind_some, ← hg1, List.mapM_map]
  rfl

end Verif

namespace Verif
open Spec Props

theorem groupBy_inj {α κ κ' : Type*} [DecidableEq κ] [DecidableEq κ'] (f : α → κ) (h : κ → κ') (l : List α) (hi : ∀ x ∈ l, ∀ y ∈ l, h (f x) = h (f y) → f x = f y) :
    groupBy (fun x => h (f x)) l = (groupBy f l).map (fun e => (h e.1, e.2)) := by
  have hkeys : Dict.keys (groupBy (fun x => h (f x)) l) = (Dict.keys (groupBy f l)).map h := by
    induction l using List.reverseRecOn with
    | nil => rfl
    | append_singleton l a ih =>
      have ih := ih (fun x hx y hy => hi x (by simp [hx]) y (by simp [hy]))
      rw [groupBy_append, groupBy_append]
      by_cases hmem : f a ∈ Dict.keys (groupBy f l)
      · rw [Dict.keys_set_of_mem _ hmem, Dict.keys_set_of_mem, ih]
        rw [ih]
        exact List.mem_map_of_mem hmem
      · rw [Dict.keys_set_of_not_mem _ hmem, Dict.keys_set_of_not_mem, List.map_append, ih]
        · rfl
        · rw [groupBy_mem_keys] at hmem ⊢
          intro hh
          obtain ⟨x, hx, hxe⟩ := List.mem_map.1 hh
          exact hmem (List.mem_map.2 ⟨x, hx, hi x (by simp [hx]) a (by simp) hxe⟩)
  rw [groupBy_eq, hkeys, List.map_map]
  conv_rhs => rw [groupBy_eq, List.map_map]
  refine List.map_congr_left ?_
  intro k hk
  rw [groupBy_mem_keys] at hk
  obtain ⟨y, hy, rfl⟩ := List.mem_map.1 hk
  simp only [Function.comp]
  congr 1
  refine List.filter_congr ?_
  intro x hx
  rw [decide_eq_decide]
  exact ⟨hi x hx y hy, fun e => by rw [e]⟩

theorem outcomeLabel_inj {g : Cfg} (hL : g.L ≤ 10) {opt : List ℕ} {v w : Vals} (hv : Valid g v) (hw : Valid g w) 
    (h : ((outcomeOf opt v).map pyStr).flatten = ((outcomeOf opt w).map pyStr).flatten) : outcomeOf opt v = outcomeOf opt w := by
  have hlt : ∀ u : Vals, Valid g u → ∀ x ∈ outcomeOf opt u, x < 10 := by
    intro u hu x hx
    obtain ⟨n, _, rfl⟩ := List.mem_map.1 hx
    by_cases hn : n < u.length
    · rw [List.getD_eq_getElem _ _ hn]
      have := hu.2 _ (List.getElem_mem hn)
      omega
    · rw [List.getD_eq_default _ _ (by omega)]; norm_num
  exact flatten_pyStr_inj (by simp [outcomeOf]) (hlt v hv) (hlt w hw) h

theorem measureGroup_spec {g : Cfg} (hL : g.L ≤ 10) {m : ℕ} {opt cls : List ℕ} {cols : List Column} (hm : MeasurableGroup g m cols) (hopt : ∀ ch ∈ opt, ch < g.C)
    (hcls : cls.length = opt.length) (hclm : ∀ n ∈ cls, n < m) :
    ∃ groups outs, measureGroup g opt cls cols = some groups ∧ outs.Nodup ∧
      (∀ o, o ∈ outs ↔ ∃ c ∈ cols, ∃ v, columnValues g c = some v ∧ o = opt.map (fun n => v.getD n 0)) ∧ List.Forall₂ (MeasuredGroup g opt cls cols) outs groups := by
  let vf : Column → Vals := fun c => (columnValues g c).getD []
  have hcw : ∀ c ∈ cols, ColumnWith g c (vf c) := by
    intro c hc
    obtain ⟨v, hv⟩ := hm.columns c hc
    have : vf c = v := by simp only [vf, hv.values]; rfl
    rw [this]; exact hv
  have hlt : ∀ c ∈ cols, ∀ ch ∈ opt, ch < (vf c).length := by
    intro c hc ch hch
    rw [(hcw c hc).valid.1]; exact hopt ch hch
  let lab : Vals → List Char := fun v => ((outcomeOf opt v).map pyStr).flatten
  have h1 : cols.mapM (fun c => (columnValues g c).bind (fun v => (outcomeLabel opt v).map (fun lab => (lab, c, v)))) = some (cols.map (fun c => (lab (vf c), c, vf c))) := by
    refine mapM_some_of ?_
    intro c hc
    rw [(hcw c hc).values, Option.bind_some, outcomeLabel_eq (hlt c hc)]
    rfl
  let F : Column → List Char × Column × Vals := fun c => (lab (vf c), c, vf c)
  have h2 : groupBy (fun x : List Char × Column × Vals => x.1) (cols.map F) =
      (groupBy (fun c => outcomeOf opt (vf c)) cols).map (fun e => ((e.1.map pyStr).flatten, e.2.map F)) := by
    have e1 : groupBy (fun x : List Char × Column × Vals => x.1) (cols.map F) = (groupBy (fun c => lab (vf c)) cols).map (fun e => (e.1, e.2.map F)) := by
      have hkeys : ∀ l : List Column, Dict.keys (groupBy (fun x : List Char × Column × Vals => x.1) (l.map F)) = Dict.keys (groupBy (fun c => lab (vf c)) l) := by
        intro l
        induction l using List.reverseRecOn with
        | nil => rfl
        | append_singleton l a ih =>
          rw [List.map_append, List.map_singleton, groupBy_append, groupBy_append]
          by_cases hmem : lab (vf a) ∈ Dict.keys (groupBy (fun c => lab (vf c)) l)
          · rw [Dict.keys_set_of_mem _ hmem, Dict.keys_set_of_mem, ih]
            rw [ih]; exact hmem
          · rw [Dict.keys_set_of_not_mem _ hmem, Dict.keys_set_of_not_mem, ih]
            rw [ih]; exact hmem
      rw [groupBy_eq, hkeys]
      conv_rhs => rw [groupBy_eq, List.map_map]
      refine List.map_congr_left ?_
      intro k _
      simp only [Function.comp]
      congr 1
      rw [List.filter_map]
      rfl
    rw [e1, groupBy_inj (fun c => outcomeOf opt (vf c)) (fun o => (o.map pyStr).flatten) cols, List.map_map]
    · rfl
    · intro x hx y hy hxy
      exact outcomeLabel_inj hL (hcw x hx).valid (hcw y hy).valid hxy
  obtain ⟨groups, g1, g2⟩ := mapM_exists (l := Dict.keys (groupBy (fun c => outcomeOf opt (vf c)) cols))
      (f := fun o => outcomeGroup g opt cls ((cols.filter (fun c => outcomeOf opt (vf c) = o)).map (fun c => (c, vf c))))
      (R := MeasuredGroup g opt cls cols) (by
    intro o ho
    rw [groupBy_mem_keys] at ho
    obtain ⟨y, hy, hyo⟩ := List.mem_map.1 ho
    have hfst : ((cols.filter (fun c => outcomeOf opt (vf c) = o)).map (fun c => (c, vf c))).map Prod.fst = columnsReading g opt o cols := by
      rw [List.map_map]
      have : (Prod.fst ∘ fun c => (c, vf c)) = id := rfl
      rw [this, List.map_id]
      unfold columnsReading
      refine List.filter_congr ?_
      intro c hc
      rw [(hcw c hc).values]
      simp only [Option.map_some, Option.some.injEq]
      rfl
    have hsub : ∀ c ∈ columnsReading g opt o cols, c ∈ cols := fun c hc => (List.mem_filter.1 hc).1
    obtain ⟨grp, p, k1, k2, k3⟩ := outcomeGroup_spec (g := g) (m := m) (opt := opt) (cls := cls) (o := o) (sub := (cols.filter (fun c => outcomeOf opt (vf c) = o)).map (fun c => (c, vf c)))
      (by
        intro h0
        have hym : y ∈ cols.filter (fun c => outcomeOf opt (vf c) = o) := List.mem_filter.2 ⟨hy, by simpa using hyo⟩
        rw [List.map_eq_nil_iff.1 h0] at hym
        cases hym)
      (by
        intro x hx
        obtain ⟨c, hc, rfl⟩ := List.mem_map.1 hx
        exact hcw c (List.mem_filter.1 hc).1)
      (by
        rw [hfst]
        exact ⟨fun c hc => hm.columns c (hsub c hc), fun c hc => hm.amp c (hsub c hc), fun c hc => hm.boson c (hsub c hc),
          fun c hc c' hc' => hm.gprob c (hsub c hc) c' (hsub c' hc'), fun c hc => hm.classical c (hsub c hc)⟩)
      hopt
      (by
        intro x hx
        obtain ⟨c, hc, rfl⟩ := List.mem_map.1 (List.mem_of_mem_head? hx)
        simpa using (List.mem_filter.1 hc).2)
      hcls hclm
    rw [hfst] at k2 k3
    exact ⟨grp, k1, p, k2, k3⟩)
  refine ⟨groups, Dict.keys (groupBy (fun c => outcomeOf opt (vf c)) cols), ?_, groupBy_nodup _ _, ?_, g2⟩
  · unfold measureGroup
    rw [h1, Option.bind_some]
    show (groupBy (fun x : List Char × Column × Vals => x.1) (cols.map F)).mapM _ = _
    rw [h2, groupBy_eq, List.map_map, List.mapM_map, ← g1]
    refine mapM_congr_left ?_
    intro o _
    simp only [Function.comp, List.map_map]
    rfl
  · intro o
    rw [groupBy_mem_keys, List.mem_map]
    constructor
    · rintro ⟨c, hc, rfl⟩
      exact ⟨c, hc, vf c, (hcw c hc).values, rfl⟩
    · rintro ⟨c, hc, v, hv, rfl⟩
      refine ⟨c, hc, ?_⟩
      rw [(hcw c hc).values] at hv
      rw [Option.some.inj hv]
      rfl

end Verif
