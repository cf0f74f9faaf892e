/-
Measurement and nodes on other channels (properties C112, C113).
-/
import Verif.Lemmas.Locality
import Verif.Lemmas.Evaluate
import Verif.Lemmas.HeapEval
import Verif.Props.Evaluate

namespace Verif
open Spec Props

theorem norm_part_sq (g : Cfg) (opt o : List ℕ) (x : ℕ → ℂ) (i : ℕ) :
    ‖part g opt o x i‖ ^ 2 = if outcomeOf opt (g.valuesFromIndex i) = o then ‖x i‖ ^ 2 else 0 := by
  unfold part; split <;> simp

/-- the outcome probabilities, read off from the vector after the nodes -/
theorem outcomeProb_before {g : Cfg} (hg : g.Ok) {opt : List ℕ} (hr : ∀ j ∈ opt, j < g.C) {nodes : List (Opt × List ℕ)}
    (hn : Elsewhere g opt nodes) {c : Comps} (h : WellFormed g c) (o : List ℕ) :
    outcomeProb g opt c o = ∑ i ∈ Finset.range g.size, ‖part g opt o (oneByOne g nodes (vec g c)) i‖ ^ 2 := by
  rw [outcomeProb_vec hg.1 h, ← oneByOne_norm hg nodes _ (fun k hk => ⟨(hn k hk).1.onChannels, (hn k hk).2⟩)]
  refine Finset.sum_congr rfl fun i hi => ?_
  rw [part_oneByOne hg hr nodes (fun k hk => (hn k hk).1) o _ i (Finset.mem_range.1 hi)]

theorem totalProb_before {g : Cfg} (hg : g.Ok) {opt : List ℕ} {nodes : List (Opt × List ℕ)}
    (hn : Elsewhere g opt nodes) {c : Comps} (h : WellFormed g c) :
    totalProb c = ∑ i ∈ Finset.range g.size, ‖oneByOne g nodes (vec g c) i‖ ^ 2 := by
  rw [totalProb_eq hg.1 h, oneByOne_norm hg nodes _ (fun k hk => ⟨(hn k hk).1.onChannels, (hn k hk).2⟩)]

/-- if no probability is lost, only zeros have been pruned -/
theorem pruned_zero {g : Cfg} (hg : g.Ok) {thr : ℝ} {y : ℕ → ℂ} {c' : Comps} (hc : fromVector g thr y = some c')
    (hloss : totalProb c' = ∑ i ∈ Finset.range g.size, ‖y i‖ ^ 2) : ∀ i < g.size, ‖y i‖ ^ 2 < thr → y i = 0 := by
  obtain ⟨c'', hc'', hw, -, -⟩ := fromVector_spec hg.1 thr y
  rw [hc] at hc''
  obtain rfl := Option.some.inj hc''
  rw [totalProb_eq hg.1 hw] at hloss
  have h0 : ∑ i ∈ Finset.range g.size, (‖y i‖ ^ 2 - ‖vec g c' i‖ ^ 2) = 0 := by
    rw [Finset.sum_sub_distrib, hloss, sub_self]
  have hnn : ∀ i ∈ Finset.range g.size, 0 ≤ ‖y i‖ ^ 2 - ‖vec g c' i‖ ^ 2 := by
    intro i hi
    rw [vec_fromVector hg.1 hc (Finset.mem_range.1 hi)]
    split
    · simp
    · simp
  intro i hi hlt
  have := (Finset.sum_eq_zero_iff_of_nonneg hnn).1 h0 i (Finset.mem_range.2 hi)
  rw [vec_fromVector hg.1 hc hi, if_pos hlt] at this
  simpa using this

/-- the two descriptions of the components with outcome `o` after the nodes -/
theorem vlist_part {g : Cfg} {thr : ℝ} (ht : 0 < thr) (opt o : List ℕ) {y : ℕ → ℂ} (hy : ∀ i < g.size, ‖y i‖ ^ 2 < thr → y i = 0)
    {P : ℝ} (hP0 : 0 < P) (hP1 : P ≤ 1) :
    vlist g thr (fun i => part g opt o y i / (Real.sqrt P : ℂ)) g.size = (itemsAt opt (vlist g thr y g.size) o).map (scaled P) := by
  have e1 : itemsAt opt (vlist g thr y g.size) o
      = ((List.range g.size).filter (fun i => ¬ ‖part g opt o y i / (Real.sqrt P : ℂ)‖ ^ 2 < thr)).map
        (fun i => (g.valuesFromIndex i, y i)) := by
    unfold itemsAt itemsOf vlist
    rw [List.map_map, List.filter_map, List.filter_filter]
    congr 1
    apply List.filter_congr
    intro i hi
    show (decide (outcomeOf opt (g.valuesFromIndex i) = o) && decide (¬ ‖y i‖ ^ 2 < thr)) = _
    rw [← Bool.decide_and]
    apply decide_eq_decide.2
    have hd : ‖part g opt o y i / (Real.sqrt P : ℂ)‖ ^ 2 = ‖part g opt o y i‖ ^ 2 / P := by
      rw [Complex.norm_div, Complex.norm_real, Real.norm_eq_abs, div_pow, sq_abs, Real.sq_sqrt hP0.le]
    rw [hd, norm_part_sq]
    by_cases ho : outcomeOf opt (g.valuesFromIndex i) = o
    · rw [if_pos ho]
      constructor
      · rintro ⟨-, h2⟩ hlt
        have h3 : ‖y i‖ ^ 2 ≤ ‖y i‖ ^ 2 / P := le_div_self (by positivity) hP0 hP1
        exact h2 (lt_of_le_of_lt h3 hlt)
      · intro h
        refine ⟨ho, ?_⟩
        intro hlt
        apply h
        rw [hy i (List.mem_range.1 hi) hlt]
        simpa using ht
    · rw [if_neg ho]
      simp [ho, ht]
  rw [e1, List.map_map, vlist]
  apply List.map_congr_left
  intro i hi
  have hi := (List.mem_filter.1 hi).2
  simp only [decide_eq_true_eq] at hi
  have ho : outcomeOf opt (g.valuesFromIndex i) = o := by
    by_contra hno
    apply hi
    simp [part, hno, ht]
  simp [scaled, part, ho]

/-- one state: measuring and then applying the nodes gives the same states as applying the nodes and then measuring -/
theorem defer_state {g : Cfg} (hg : g.Ok) {thr : ℝ} (ht : 0 < thr) (full : Bool) {m : ℕ} {q : QState} {opt cls : List ℕ}
    (hr : ∀ j ∈ opt, j < g.C) (n : Opt × List ℕ) (l : List (Opt × List ℕ)) (hn : Elsewhere g opt (n :: l)) (hq : Measurable g m q)
    (hne : q.comps ≠ []) {qs : List QState} (hqs : measure g thr m q opt cls = some qs) {c' : Comps}
    (hc : applyOptical g thr full (standardKeys g) n l q.comps = some c') (hloss : totalProb c' = totalProb q.comps) :
    ∃ qs1 qs2, measure g thr m { q with comps := c' } opt cls = some qs1 ∧
      List.Forall₂ (fun a b => CheckValid thr m a ∧ ∃ d, applyOptical g thr full (standardKeys g) n l a.comps = some d ∧
        b = { a with comps := d }) qs qs2 ∧ qs1.Perm qs2 := by
  have hon : ∀ k ∈ n :: l, OnChannels g k := fun k hk => (hn k hk).1.onChannels
  have hgate : ∀ {c : Comps}, WellFormed g c → c ≠ [] →
      applyOptical g thr full (standardKeys g) n l c = fromVector g thr (oneByOne g (n :: l) (vec g c)) := fun hw hne =>
    applyOptical_eq hg thr full n l (hon n (by simp)) (fun k hk => hon k (by simp [hk])) hw hne
  rw [hgate hq.wf hne] at hc
  set y := oneByOne g (n :: l) (vec g q.comps) with hydef
  have hy : ∀ i < g.size, ‖y i‖ ^ 2 < thr → y i = 0 := by
    apply pruned_zero hg hc
    rw [hloss, totalProb_before hg hn hq.wf]
  obtain ⟨c'', hc'', hw', hp', -⟩ := fromVector_spec hg.1 thr y
  rw [hc] at hc''
  obtain rfl := Option.some.inj hc''
  have henc : c' = enc g (vlist g thr y g.size) := by
    rw [fromVector_vlist hg.1] at hc
    exact (Option.some.inj hc).symm
  have hlok := vlist_ok hg.1 thr y (le_refl g.size)
  set l' := vlist g thr y g.size with hl'
  obtain ⟨lq, hlq, eq⟩ := exists_enc hq.wf
  have hvec : ∀ i < g.size, vec g c' i = y i := by
    intro i hi
    rw [vec_fromVector hg.1 hc hi]
    split
    · rename_i hlt; exact (hy i hi hlt).symm
    · rfl
  have hPP : ∀ o, probAt opt l' o = probAt opt lq o := by
    intro o
    rw [← outcomeProb_eq hlok, ← outcomeProb_eq hlq, ← henc, ← eq, outcomeProb_vec hg.1 hw', outcomeProb_before hg hr hn hq.wf]
    refine Finset.sum_congr rfl fun i hi => ?_
    rw [norm_part_sq, norm_part_sq, hvec i (Finset.mem_range.1 hi)]
  have hmeas := (measure_enc hlq eq).1 hqs
  set cls' := (if cls.length > opt.length then cls.take opt.length else cls) with hcls
  have hcum : ∀ o, mulCum q.cum (probAt opt lq o) = some (q.cum * probAt opt lq o) := by
    intro o
    have h1 := probAt_le opt lq o
    have h2 := hq.total
    rw [eq, totalProb_enc] at h2
    have h3 := probAt_nonneg opt lq o
    have h4 := hq.cum0
    have h5 := hq.cum1
    exact mulCum_of_le (mul_nonneg h4 h3) (by nlinarith)
  have hP1 : ∀ o, probAt opt lq o ≤ 1 := by
    intro o
    have h1 := probAt_le opt lq o
    have h2 := hq.total
    rw [eq, totalProb_enc] at h2
    linarith
  have hmq : Measurable g m { q with comps := c' } :=
    ⟨hw', hp', by rw [hloss]; exact hq.total, hq.cum0, hq.cum1, hq.classical⟩
  let b : List ℕ → QState := fun o => ⟨q.initial, q.cum * probAt opt lq o, enc g ((itemsAt opt l' o).map (scaled (probAt opt lq o))),
    (writeClassical cls' o q.classical).getD [],
    q.results ++ [⟨(writeClassical cls' o q.classical).getD [], probAt opt lq o⟩]⟩
  have hall : ∀ o ∈ outcomes opt lq, ∃ a, collapse g thr m q cls' o (itemsAt opt lq o) = some a := by
    intro o ho
    obtain ⟨a, -, ha⟩ := forall₂_mem_left' hmeas ho
    exact ⟨a, ha⟩
  have hpos : ∀ o ∈ outcomes opt lq, probAt opt lq o ≠ 0 ∧ ∃ cl, writeClassical cls' o q.classical = some cl := by
    intro o ho
    obtain ⟨a, ha⟩ := hall o ho
    obtain ⟨h0, -, -, cl, -, h2, -⟩ := (collapse_iff (itemsAt_nodup hlq o) (itemsAt_valid hlq o) (rfl : probAt opt lq o = _)).1 ha
    exact ⟨h0, cl, h2⟩
  have hmem : ∀ o, o ∈ outcomes opt l' ↔ o ∈ outcomes opt lq := by
    intro o
    constructor
    · intro ho
      by_contra hno
      have hz : probAt opt lq o = 0 := by
        have : itemsAt opt lq o = [] := by
          rw [itemsAt, List.filter_eq_nil_iff]
          intro p hp
          obtain ⟨r, hr', rfl⟩ := List.mem_map.1 hp
          simp only [decide_eq_true_eq]
          intro e
          exact hno (mem_outcomes.2 ⟨r, hr', e⟩)
        rw [probAt, this]; rfl
      obtain ⟨p, hp, e⟩ := mem_outcomes.1 ho
      have hpp : (p.1, p.2.amp) ∈ itemsAt opt l' o :=
        List.mem_filter.2 ⟨List.mem_map.2 ⟨p, hp, rfl⟩, decide_eq_true e⟩
      have hle : ‖p.2.amp‖ ^ 2 ≤ probAt opt l' o := by
        apply List.single_le_sum
        · intro x hx
          obtain ⟨r, -, rfl⟩ := List.mem_map.1 hx
          positivity
        · exact List.mem_map.2 ⟨_, hpp, rfl⟩
      rw [hPP o, hz] at hle
      obtain ⟨i, hi, rfl⟩ := List.mem_map.1 hp
      have := (List.mem_filter.1 hi).2
      simp only [decide_eq_true_eq] at this
      have hle : ‖y i‖ ^ 2 ≤ 0 := hle
      exact this (lt_of_le_of_lt hle ht)
    · intro ho
      by_contra hno
      apply (hpos o ho).1
      rw [← hPP o]
      have : itemsAt opt l' o = [] := by
        rw [itemsAt, List.filter_eq_nil_iff]
        intro p hp
        obtain ⟨r, hr', rfl⟩ := List.mem_map.1 hp
        simp only [decide_eq_true_eq]
        intro e
        exact hno (mem_outcomes.2 ⟨r, hr', e⟩)
      rw [probAt, this]; rfl
  refine ⟨(outcomes opt l').map b, (outcomes opt lq).map b, ?_, ?_, ?_⟩
  · refine (measure_enc hlok henc).2 ?_
    rw [← hcls, List.forall₂_map_right_iff, List.forall₂_same]
    intro o ho
    obtain ⟨h0, cl, hcl⟩ := hpos o ((hmem o).1 ho)
    refine (collapse_iff (itemsAt_nodup hlok o) (itemsAt_valid hlok o) (rfl : probAt opt l' o = _)).2 ?_
    rw [hPP o]
    refine ⟨h0, measurable_check hmq ht.le, _, cl, hcum o, hcl, ?_⟩
    simp only [b, hcl, Option.getD_some]
  · rw [List.forall₂_map_right_iff]
    apply List.Forall₂.flip
    refine forall₂_imp_mem ?_ hmeas
    intro o a ho ha
    obtain ⟨h0, -, cum, cl, h1, h2, rfl⟩ := (collapse_iff (itemsAt_nodup hlq o) (itemsAt_valid hlq o) (rfl : probAt opt lq o = _)).1 ha
    rw [hcum o] at h1
    obtain rfl := Option.some.inj h1
    have hP0 : 0 < probAt opt lq o := lt_of_le_of_ne (probAt_nonneg _ _ _) (Ne.symm h0)
    have hPr := produced_of_collapse hlq eq hq.cum0 (by
      have := hP1 o; have := hq.cum0; have := hq.cum1; nlinarith) ha
    have hcv : CheckValid thr m (⟨q.initial, q.cum * probAt opt lq o, enc g ((itemsAt opt lq o).map (scaled (probAt opt lq o))), cl,
        q.results ++ [⟨cl, probAt opt lq o⟩]⟩ : QState) := by
      refine measurable_check ⟨hPr.wf, hPr.probs, hPr.norm.le, ?_, ?_, ?_⟩ ht.le
      · exact mul_nonneg hq.cum0 hP0.le
      · have := hP1 o; have := hq.cum0; have := hq.cum1
        show q.cum * probAt opt lq o ≤ 1
        nlinarith
      · show cl.length = m
        rw [(writeClassical_spec h2).1, hq.classical]
    refine ⟨hcv, enc g ((itemsAt opt l' o).map (scaled (probAt opt lq o))), ?_, ?_⟩
    · have hne' : enc g ((itemsAt opt lq o).map (scaled (probAt opt lq o))) ≠ [] := by
        intro e
        have := hPr.norm
        simp only at this
        rw [e] at this
        simp [totalProb] at this
      rw [hgate hPr.wf hne']
      have hv : ∀ i < g.size, vec g (enc g ((itemsAt opt lq o).map (scaled (probAt opt lq o)))) i
          = part g opt o (vec g q.comps) i / (Real.sqrt (probAt opt lq o) : ℂ) := by
        intro i hi
        have hv := g.valid_valuesFromIndex hg.1 i
        have hok := scaled_ok (opt := opt) hlq o (probAt opt lq o)
        show ampOf _ (g.stdName _) = _
        rw [ampOf_enc hok.valid hv, ampV_scaled hlq]
        unfold part
        split
        · rw [eq]
          show _ = ampOf _ (g.stdName _) / _
          rw [ampOf_enc hlq.valid hv]
        · simp
      have hvec2 : ∀ i < g.size, oneByOne g (n :: l) (vec g (enc g ((itemsAt opt lq o).map (scaled (probAt opt lq o))))) i
          = part g opt o y i / (Real.sqrt (probAt opt lq o) : ℂ) := by
        intro i hi
        rw [oneByOne_congr (n :: l) hv i hi, oneByOne_smul]
        simp only
        rw [part_oneByOne hg hr (n :: l) (fun k hk => (hn k hk).1) o _ i hi]
      rw [fromVector_congr thr hvec2, fromVector_vlist hg.1, vlist_part ht opt o hy hP0 (hP1 o)]
    · simp only [b, h2, Option.getD_some]
  · apply List.Perm.map
    exact (List.perm_ext_iff_of_nodup (nodup_outcomes _ _) (nodup_outcomes _ _)).2 hmem

theorem flatten_perm {α : Type*} {l l' : List (List α)} (h : List.Forall₂ List.Perm l l') : l.flatten.Perm l'.flatten := by
  induction h with
  | nil => exact List.Perm.refl _
  | cons h1 _ ih => rw [List.flatten_cons, List.flatten_cons]; exact h1.append ih

/-- a relation on the parts gives one on the flattened list -/
theorem forall₂_flatten {α β : Type*} {R : α → β → Prop} {l : List (List α)} {l' : List (List β)} (h : List.Forall₂ (List.Forall₂ R) l l') :
    List.Forall₂ R l.flatten l'.flatten := by
  induction h with
  | nil => exact List.Forall₂.nil
  | cons h1 _ ih => rw [List.flatten_cons, List.flatten_cons]; exact List.rel_append h1 ih

/-- a collection: measuring and then applying the nodes, or the other way round -/
theorem defer_coll {c : Circ} (hg : c.g.Ok) (ht : 0 < c.thr) {opt cls : List ℕ} (hr : ∀ j ∈ opt, j < c.g.C) (n : Opt × List ℕ)
    (l : List (Opt × List ℕ)) (hn : Elsewhere c.g opt (n :: l)) {coll : Coll} (hid : (coll.map Prod.fst).Nodup)
    (hq : ∀ p ∈ coll, Measurable c.g c.m p.2 ∧ p.2.comps ≠ [])
    (hloss : ∀ p ∈ coll, ∀ d, applyOptical c.g c.thr c.full (standardKeys c.g) n l p.2.comps = some d → totalProb d = totalProb p.2.comps)
    (kinds kinds' : List Bool) (idx idx' : ℕ) {mid : Coll} (hm : measureColl c.g c.thr c.m (measurementId kinds idx) opt cls coll = some mid) :
    ∃ gated outA outB, opticalColl c n l coll = some gated ∧
      measureColl c.g c.thr c.m (measurementId kinds' idx') opt cls gated = some outA ∧
      opticalColl c n l mid = some outB ∧ (outA.map Prod.snd).Perm (outB.map Prod.snd) := by
  have hon : ∀ k ∈ n :: l, OnChannels c.g k := fun k hk => (hn k hk).1.onChannels
  have hgex : ∀ p ∈ coll, ∃ d, applyOptical c.g c.thr c.full (standardKeys c.g) n l p.2.comps = some d := by
    intro p hp
    rw [applyOptical_eq hg c.thr c.full n l (hon n (by simp)) (fun k hk => hon k (by simp [hk])) (hq p hp).1.wf (hq p hp).2]
    obtain ⟨d, hd, -⟩ := fromVector_spec hg.1 c.thr (oneByOne c.g (n :: l) (vec c.g p.2.comps))
    exact ⟨d, hd⟩
  obtain ⟨hm0, hd0⟩ := measurementId_digits kinds idx
  obtain ⟨hm1, hd1⟩ := measurementId_digits kinds' idx'
  obtain ⟨hmid, qss, hf, hflat⟩ := C29_no_state_lost c.g c.thr c.m kinds idx opt cls coll mid hid hm
  -- the gated collection
  have hgated : ∃ gated : Coll, List.Forall₂ (fun p p' => ∃ comps, applyOptical c.g c.thr c.full (basisKeys c.g) n l p.2.comps = some comps ∧
        p' = (p.1, { p.2 with comps := comps })) coll gated := by
    have : ∀ cs : Coll, (∀ p ∈ cs, p ∈ coll) → ∃ gated : Coll, List.Forall₂ (fun p p' => ∃ comps,
        applyOptical c.g c.thr c.full (basisKeys c.g) n l p.2.comps = some comps ∧
        p' = (p.1, { p.2 with comps := comps })) cs gated := by
      intro cs
      induction cs with
      | nil => intro _; exact ⟨[], List.Forall₂.nil⟩
      | cons p cs ih =>
        intro hcs
        obtain ⟨gd, hgd⟩ := ih (fun p hp => hcs p (by simp [hp]))
        obtain ⟨d, hd⟩ := hgex p (hcs p (by simp))
        exact ⟨(p.1, { p.2 with comps := d }) :: gd, List.Forall₂.cons ⟨d, hd, rfl⟩ hgd⟩
    exact this coll (fun p hp => hp)
  obtain ⟨gated, hgated⟩ := hgated
  have hopt : opticalColl c n l coll = some gated :=
    (opticalColl_iff c n l coll hid gated).2 ⟨fun p hp => measurable_check (hq p hp).1 ht.le, hgated⟩
  have hidg : (gated.map Prod.fst).Nodup := by
    have : gated.map Prod.fst = coll.map Prod.fst := by
      clear hopt hm hf hflat hmid hgex hloss hq hid
      induction hgated with
      | nil => rfl
      | cons h1 _ ih =>
        obtain ⟨d, -, rfl⟩ := h1
        simp [ih]
    rw [this]; exact hid
  -- the parts
  have hparts : ∃ qss1 qss2 : List (List QState), List.Forall₂ (fun p' qs1 => measure c.g c.thr c.m p'.2 opt cls = some qs1) gated qss1 ∧
      List.Forall₂ (List.Forall₂ (fun a b => CheckValid c.thr c.m a ∧ ∃ d,
        applyOptical c.g c.thr c.full (standardKeys c.g) n l a.comps = some d ∧ b = { a with comps := d })) qss qss2 ∧
      List.Forall₂ List.Perm qss1 qss2 := by
    clear hopt hm hflat hmid hgex hid hidg
    induction hf generalizing gated with
    | nil => cases hgated; exact ⟨[], [], List.Forall₂.nil, List.Forall₂.nil, List.Forall₂.nil⟩
    | cons h1 hf ih =>
      cases hgated with
      | cons hg1 hgs =>
        obtain ⟨d, hd, rfl⟩ := hg1
        obtain ⟨qss1, qss2, i1, i2, i3⟩ := ih (fun p hp => hq p (by simp [hp])) (fun p hp => hloss p (by simp [hp])) _ hgs
        obtain ⟨qs1, qs2, j1, j2, j3⟩ := defer_state hg ht c.full hr n l hn (hq _ List.mem_cons_self).1 (hq _ List.mem_cons_self).2 h1 hd
          (hloss _ List.mem_cons_self d hd)
        exact ⟨qs1 :: qss1, qs2 :: qss2, List.Forall₂.cons j1 i1, List.Forall₂.cons j2 i2, List.Forall₂.cons j3 i3⟩
  obtain ⟨qss1, qss2, k1, k2, k3⟩ := hparts
  -- measuring the gated collection
  have hA : ∃ outA, measureColl c.g c.thr c.m (measurementId kinds' idx') opt cls gated = some outA := by
    unfold measureColl
    have : ∀ (gs : Coll) (qs : List (List QState)) (acc : Coll), List.Forall₂ (fun p' qs1 => measure c.g c.thr c.m p'.2 opt cls = some qs1) gs qs →
        ∃ out, gs.foldlM (fun out iq => do
          let qs ← measure c.g c.thr c.m iq.2 opt cls
          some (qs.zipIdx.foldl (fun (out : Coll) qk => out.set (iq.1 ++ ['-', 'M'] ++ (measurementId kinds' idx') ++ marker qk.2) qk.1) out)) acc
          = some out := by
      intro gs qs acc h
      induction h generalizing acc with
      | nil => exact ⟨acc, rfl⟩
      | cons h1 _ ih =>
        rw [List.foldlM_cons]
        simp only [h1, Option.bind_eq_bind, Option.bind_some]
        exact ih _
    exact this gated qss1 [] k1
  obtain ⟨outA, hA⟩ := hA
  obtain ⟨-, qssA, hfA, eA⟩ := C29_no_state_lost c.g c.thr c.m kinds' idx' opt cls gated outA hidg hA
  have hqA : qssA = qss1 := by
    clear hA eA hopt hgated hidg k2 k3
    induction hfA generalizing qss1 with
    | nil => cases k1; rfl
    | cons h1 _ ih =>
      cases k1 with
      | cons h2 k1 =>
        rw [h1] at h2
        rw [Option.some.inj h2, ih _ k1]
  subst hqA
  -- applying the nodes to the measured collection
  have hB : ∃ outB, opticalColl c n l mid = some outB ∧ outB.map Prod.snd = qss2.flatten := by
    have hfl := forall₂_flatten k2
    rw [← hflat] at hfl
    have : ∀ (md : Coll) (fl : List QState), List.Forall₂ (fun a b => CheckValid c.thr c.m a ∧ ∃ d,
        applyOptical c.g c.thr c.full (standardKeys c.g) n l a.comps = some d ∧ b = { a with comps := d }) (md.map Prod.snd) fl →
        ∃ out : Coll, (∀ p ∈ md, CheckValid c.thr c.m p.2) ∧ List.Forall₂ (fun p p' => ∃ comps,
          applyOptical c.g c.thr c.full (basisKeys c.g) n l p.2.comps = some comps ∧
          p' = (p.1, { p.2 with comps := comps })) md out ∧ out.map Prod.snd = fl := by
      intro md
      induction md with
      | nil => intro fl h; cases h; exact ⟨[], by simp, List.Forall₂.nil, rfl⟩
      | cons p md ih =>
        intro fl h
        cases h with
        | cons h1 h2 =>
          obtain ⟨hcv, d, hd, rfl⟩ := h1
          obtain ⟨out, o1, o2, o3⟩ := ih _ h2
          refine ⟨(p.1, { p.2 with comps := d }) :: out, ?_, List.Forall₂.cons ⟨d, hd, rfl⟩ o2, by simp [o3]⟩
          intro p' hp'
          rcases List.mem_cons.1 hp' with rfl | hp'
          · exact hcv
          · exact o1 p' hp'
    obtain ⟨out, o1, o2, o3⟩ := this mid _ hfl
    exact ⟨out, (opticalColl_iff c n l mid hmid out).2 ⟨o1, o2⟩, o3⟩
  obtain ⟨outB, hB, eB⟩ := hB
  exact ⟨gated, outA, outB, hopt, hA, hB, by rw [eA, eB]; exact flatten_perm k3⟩

end Verif
