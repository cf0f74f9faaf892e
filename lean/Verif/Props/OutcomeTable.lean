/-
Properties C126, C127: probabilities of all outcomes of a group; photon information.
-/
import Verif.Spec.OutcomeTable
import Verif.Props.TotalProbability

namespace Verif.Props
open Verif Spec MvPolynomial Fockform

/-! ### C126 -/

/-- `UpToDate` with the standard name. -/
def UpToStd (g : Cfg) (c : StoredColumn) : Prop := ∃ v, ColumnWith g c.col v ∧ c.stored = some (some (g.stdName v))

theorem upToStd {g : Cfg} {c : StoredColumn} (h : UpToDate g c) : UpToStd g c := by
  obtain ⟨v, nm, h1, h2, h3⟩ := h
  exact ⟨v, h1, by rw [h3, (isName_iff h1.valid).1 h2]⟩

/-- `ListsProbabilities` with the standard names. -/
structure ListsStd (g : Cfg) (vs : List Vals) (p : Vals → ℝ) (d : Dict (Option Name) ℝ) : Prop where
  once : d.keys.Nodup
  names : ∀ k, k ∈ d.keys ↔ ∃ v ∈ vs, k = some (g.stdName v)
  probs : ∀ v ∈ vs, d.get? (some (g.stdName v)) = some (p v)

theorem ListsStd.lists {g : Cfg} {vs : List Vals} {p : Vals → ℝ} {d : Dict (Option Name) ℝ} (h : ListsStd g vs p d) (hv : ∀ v ∈ vs, Valid g v) : ListsProbabilities g vs p d := by
  refine ⟨h.once, fun k => ?_, fun v hvv nm hn => ?_⟩
  · rw [h.names]
    constructor
    · rintro ⟨v, hvv, rfl⟩; exact ⟨v, hvv, _, (isName_iff (hv v hvv)).2 rfl, rfl⟩
    · rintro ⟨v, hvv, nm, hn, rfl⟩; exact ⟨v, hvv, by rw [(isName_iff (hv v hvv)).1 hn]⟩
  · rw [(isName_iff (hv v hvv)).1 hn]; exact h.probs v hvv

theorem dedup_reverse_mem {α : Type*} [DecidableEq α] (l : List α) (x : α) : x ∈ l.reverse.dedup.reverse ↔ x ∈ l := by simp

theorem stored_mapM {g : Cfg} {cols : List StoredColumn} (h : ∀ c ∈ cols, UpToStd g c) :
    ∃ l, cols.mapM (fun (c : StoredColumn) => c.stored.map (fun s => (s, c.col))) = some l ∧
      ∀ v, Valid g v → (l.filter (fun x => x.1 == some (g.stdName v))).map Prod.snd = columnsWith g v cols := by
  induction cols with
  | nil => exact ⟨[], rfl, fun v _ => rfl⟩
  | cons c cols ih =>
    obtain ⟨l, h1, h2⟩ := ih (fun d hd => h d (List.mem_cons_of_mem _ hd))
    obtain ⟨w, hw, e⟩ := h c List.mem_cons_self
    refine ⟨(some (g.stdName w), c.col) :: l, mapM_some_iff.2 (.cons (by rw [e]; rfl) (mapM_some_iff.1 h1)), fun v hv => ?_⟩
    unfold columnsWith
    rw [List.map_cons, List.filter_cons, List.filter_cons]
    have : ((some (g.stdName w) == some (g.stdName v)) = true) ↔ (decide (columnValues g c.col = some v)) = true := by
      rw [hw.values, decide_eq_true_iff, beq_iff_eq, Option.some.injEq, Option.some.injEq]
      exact ⟨fun e => g.stdName_inj hw.valid.2 hv.2 e, fun e => by rw [e]⟩
    by_cases hc : decide (columnValues g c.col = some v) = true
    · rw [if_pos (this.2 hc), if_pos hc, List.map_cons, h2 v hv]; rfl
    · rw [if_neg (fun x => hc (this.1 x)), if_neg hc, h2 v hv]; rfl

theorem outcomeEntry_eq {g : Cfg} {cols : List StoredColumn} (hne : cols ≠ []) (h : ∀ c ∈ cols, UpToStd g c) {v : Vals} (hv : Valid g v) :
    outcomeEntry g cols (some (g.stdName v)) = some (detectionProb g (columnsWith g v cols)) := by
  obtain ⟨l, h1, h2⟩ := stored_mapM h
  have hs : cols.all (fun c => c.col.states.isEmpty) = false := by
    cases cols with
    | nil => exact absurd rfl hne
    | cons c cols =>
      obtain ⟨w, hw, -⟩ := h c List.mem_cons_self
      have : c.col.states ≠ [] := by
        intro e
        have := hw.values
        unfold columnValues at this
        rw [e] at this
        cases this
      cases e : c.col.states with
      | nil => exact absurd e this
      | cons _ _ => simp [List.all_cons, e]
  unfold outcomeEntry
  rw [hs, h1]
  simp only [Bool.false_eq_true, if_false, Option.bind_some, g.parse_stdName hv.2, h2 v hv]
  refine columnList_detection (fun c hc => ?_)
  unfold columnsWith at hc
  obtain ⟨hc1, hc2⟩ := List.mem_filter.1 hc
  obtain ⟨d, hd, rfl⟩ := List.mem_map.1 hc1
  obtain ⟨w, hw, -⟩ := h d hd
  have := hw.values.symm.trans (decide_eq_true_iff.1 hc2)
  rw [← Option.some.inj this]
  exact hw

theorem table_fold {g : Cfg} {cols : List StoredColumn} {p : Vals → ℝ} (vs : List Vals) (hp : ∀ v ∈ vs, outcomeEntry g cols (some (g.stdName v)) = some (p v)) (hv : ∀ v ∈ vs, Valid g v)
    (d : Dict (Option Name) ℝ) (vs0 : List Vals) (hv0 : ∀ v ∈ vs0, Valid g v) (hd : ListsStd g vs0 p d) :
    ∃ d', (vs.map (fun v => some (g.stdName v))).foldlM (fun (d : Dict (Option Name) ℝ) nm => (outcomeEntry g cols nm).map (fun p => d.set nm p)) d = some d' ∧
      ListsStd g (vs0 ++ vs) p d' := by
  induction vs generalizing d vs0 with
  | nil => exact ⟨d, rfl, by simpa using hd⟩
  | cons v vs ih =>
    have hvv := hv v List.mem_cons_self
    have hnext : ListsStd g (vs0 ++ [v]) p (d.set (some (g.stdName v)) (p v)) := by
      refine ⟨Dict.nodup_keys_set hd.once _ _, fun k => ?_, fun w hw => ?_⟩
      · rw [Dict.mem_keys_set, hd.names]
        constructor
        · rintro (rfl | ⟨w, hw, rfl⟩)
          · exact ⟨v, by simp, rfl⟩
          · exact ⟨w, by simp [hw], rfl⟩
        · rintro ⟨w, hw, rfl⟩
          rcases List.mem_append.1 hw with h | h
          · exact .inr ⟨w, h, rfl⟩
          · exact .inl (by rw [List.mem_singleton.1 h])
      · rw [Dict.get?_set]
        by_cases e : w = v
        · subst e; simp
        · rcases List.mem_append.1 hw with h | h
          · rw [if_neg]
            · exact hd.probs w h
            · intro e'
              exact e (g.stdName_inj (hv0 w h).2 hvv.2 (Option.some.inj e'.symm))
          · exact absurd (List.mem_singleton.1 h) e
    obtain ⟨d', e1, e2⟩ := ih (fun w hw => hp w (List.mem_cons_of_mem _ hw)) (fun w hw => hv w (List.mem_cons_of_mem _ hw)) (d.set (some (g.stdName v)) (p v)) (vs0 ++ [v])
      (by intro w hw; rcases List.mem_append.1 hw with h | h; exacts [hv0 w h, by rw [List.mem_singleton.1 h]; exact hvv]) hnext
    refine ⟨d', ?_, by simpa using e2⟩
    simp only [List.map_cons, List.foldlM_cons, hp v List.mem_cons_self, Option.map_some, Option.bind_eq_bind, Option.bind_some]
    exact e1

theorem all_outcomes {g : Cfg} {cols : List StoredColumn} (h0 : ∀ c ∈ cols, UpToDate g c) :
    ∃ vs d, vs.Nodup ∧ (∀ v, v ∈ vs ↔ ∃ c ∈ cols, columnValues g c.col = some v) ∧ outcomeTable g cols none = some d ∧
      ListsProbabilities g vs (fun v => detectionProb g (columnsWith g v cols)) d := by
  classical
  have h : ∀ c ∈ cols, UpToStd g c := fun c hc => upToStd (h0 c hc)
  have hf : ∀ c : StoredColumn, ∃ v : Vals, c ∈ cols → ColumnWith g c.col v ∧ c.stored = some (some (g.stdName v)) := by
    intro c
    by_cases hc : c ∈ cols
    · obtain ⟨v, hv⟩ := h c hc
      exact ⟨v, fun _ => hv⟩
    · exact ⟨[], fun h => absurd h hc⟩
  choose val hval using hf
  have hst : cols.mapM (fun (c : StoredColumn) => c.stored) = some (cols.map (fun c => some (g.stdName (val c)))) := by
    rw [mapM_some_iff, List.forall₂_map_right_iff]
    exact List.forall₂_same.2 (fun c hc => (hval c hc).2)
  set ns := (cols.map (fun c => some (g.stdName (val c)))).reverse.dedup.reverse with hns
  have hmem : ∀ k, k ∈ ns ↔ ∃ c ∈ cols, k = some (g.stdName (val c)) := by
    intro k
    rw [hns, dedup_reverse_mem, List.mem_map]
    exact ⟨fun ⟨c, hc, e⟩ => ⟨c, hc, e.symm⟩, fun ⟨c, hc, e⟩ => ⟨c, hc, e.symm⟩⟩
  have hvalid : ∀ c ∈ cols, Valid g (val c) := fun c hc => (hval c hc).1.valid
  set vs := ns.map (fun k => (k.bind g.parse).getD []) with hvs
  have hback : ∀ k ∈ ns, some (g.stdName ((k.bind g.parse).getD [])) = k := by
    intro k hk
    obtain ⟨c, hc, rfl⟩ := (hmem k).1 hk
    simp [g.parse_stdName (hvalid c hc).2]
  have hnames : vs.map (fun v => some (g.stdName v)) = ns := by
    rw [hvs, List.map_map]
    exact (List.map_congr_left (fun k hk => hback k hk)).trans (List.map_id _)
  have hvm : ∀ v, v ∈ vs ↔ ∃ c ∈ cols, columnValues g c.col = some v := by
    intro v
    rw [hvs, List.mem_map]
    constructor
    · rintro ⟨k, hk, rfl⟩
      obtain ⟨c, hc, rfl⟩ := (hmem k).1 hk
      refine ⟨c, hc, ?_⟩
      simp [g.parse_stdName (hvalid c hc).2, (hval c hc).1.values]
    · rintro ⟨c, hc, e⟩
      have : v = val c := Option.some.inj (e.symm.trans (hval c hc).1.values)
      refine ⟨some (g.stdName (val c)), (hmem _).2 ⟨c, hc, rfl⟩, ?_⟩
      simp [g.parse_stdName (hvalid c hc).2, this]
  have hvv : ∀ v ∈ vs, Valid g v := by
    intro v hv
    obtain ⟨c, hc, e⟩ := (hvm v).1 hv
    rw [Option.some.inj (e.symm.trans (hval c hc).1.values)]
    exact hvalid c hc
  have hnd : vs.Nodup := by
    have : (vs.map (fun v => some (g.stdName v))).Nodup := by rw [hnames, hns, List.nodup_reverse]; exact List.nodup_dedup _
    exact List.Nodup.of_map _ this
  obtain ⟨d, e1, e2⟩ := table_fold (g := g) (cols := cols) (p := fun v => detectionProb g (columnsWith g v cols)) vs (fun v hv => outcomeEntry_eq (by
      intro e
      obtain ⟨c, hc, -⟩ := (hvm v).1 hv
      rw [e] at hc; cases hc) h (hvv v hv)) hvv [] [] (by simp) ⟨by simp [Dict.keys], by simp [Dict.keys], by simp⟩
  refine ⟨vs, d, hnd, hvm, ?_, (by simpa using e2 : ListsStd g vs _ d).lists hvv⟩
  unfold outcomeTable outcomeNames
  rw [hst]
  simp only [Option.map_some, Option.bind_some]
  rw [← hns, ← hnames]
  exact e1

/-- **C126 (partial)** All outcomes: the table has one entry for each list of photon numbers that some column of the group has, and its value is the detection probability of C63 of the columns
with these photon numbers.
Missing: columns whose component was not generated before, or changed since (`C126_fresh_fails`, `C126_stale_fails`). -/
theorem C126_all_outcomes_partial (g : Cfg) (cols : List StoredColumn) (h0 : ∀ c ∈ cols, UpToDate g c) (_hwid : RealWidths (cols.map (·.col))) :
    ∃ vs d, vs.Nodup ∧ (∀ v, v ∈ vs ↔ ∃ c ∈ cols, columnValues g c.col = some v) ∧ outcomeTable g cols none = some d ∧
      ListsProbabilities g vs (fun v => detectionProb g (columnsWith g v cols)) d := all_outcomes h0

/-- **C126 (partial)** With a list of projections the table has one entry for each projection; it is 0 if no column of the group has these photon numbers. -/
theorem C126_projections_partial (g : Cfg) (cols : List StoredColumn) (hne : cols ≠ []) (h0 : ∀ c ∈ cols, UpToDate g c) (_hwid : RealWidths (cols.map (·.col))) (vs : List Vals) (hv : ∀ v ∈ vs, Valid g v)
    (names : List Name) (hn : List.Forall₂ (IsName g) vs names) :
    ∃ d, outcomeTable g cols (some names) = some d ∧ ListsProbabilities g vs (fun v => detectionProb g (columnsWith g v cols)) d ∧
      ∀ v ∈ vs, (∀ c ∈ cols, columnValues g c.col ≠ some v) → ∀ nm, IsName g v nm → d.get? (some nm) = some 0 := by
  have h : ∀ c ∈ cols, UpToStd g c := fun c hc => upToStd (h0 c hc)
  have hnames : names = vs.map g.stdName := by
    induction hn with
    | nil => rfl
    | cons a _ ih => rw [(isName_iff (hv _ List.mem_cons_self)).1 a, List.map_cons, ← ih (fun v h => hv v (List.mem_cons_of_mem _ h))]
  obtain ⟨d, e1, e2⟩ := table_fold (g := g) (cols := cols) (p := fun v => detectionProb g (columnsWith g v cols)) vs (fun v hvv => outcomeEntry_eq hne h (hv v hvv)) hv [] [] (by simp)
    ⟨by simp [Dict.keys], by simp [Dict.keys], by simp⟩
  have e3 : ListsStd g vs (fun v => detectionProb g (columnsWith g v cols)) d := by simpa using e2
  refine ⟨d, ?_, e3.lists hv, fun v hvv hc nm hnm => ?_⟩
  · unfold outcomeTable
    rw [hnames]
    simp only [Option.bind_some, List.map_map]
    exact e1
  · rw [(isName_iff (hv v hvv)).1 hnm, e3.probs v hvv]
    have : columnsWith g v cols = [] := by
      unfold columnsWith
      rw [List.filter_eq_nil_iff]
      intro c hc' e
      obtain ⟨x, hx, rfl⟩ := List.mem_map.1 hc'
      exact hc x hx (decide_eq_true_iff.1 e)
    rw [this, detectionProb_nil]

/-- The values of the table, added. -/
theorem lists_sum {g : Cfg} {vs : List Vals} {p : Vals → ℝ} {d : Dict (Option Name) ℝ} (h : ListsProbabilities g vs p d) (hnd : vs.Nodup) (hv : ∀ v ∈ vs, Valid g v) :
    (d.map Prod.snd).sum = (vs.map p).sum := by
  have h1 : d.map Prod.snd = d.keys.map (fun k => (d.get? k).getD 0) := by
    unfold Dict.keys
    rw [List.map_map]
    refine List.map_congr_left (fun x hx => ?_)
    have : d.get? x.1 = some x.2 := Dict.get?_of_mem h.once hx
    simp [this]
  have h2 : d.keys.Perm (vs.map (fun v => some (g.stdName v))) := by
    rw [List.perm_ext_iff_of_nodup h.once (hnd.map_on (fun a ha b hb e => g.stdName_inj (hv a ha).2 (hv b hb).2 (Option.some.inj e)))]
    intro k
    rw [h.names, List.mem_map]
    constructor
    · rintro ⟨v, hvv, nm, hn, rfl⟩; exact ⟨v, hvv, by rw [(isName_iff (hv v hvv)).1 hn]⟩
    · rintro ⟨v, hvv, rfl⟩; exact ⟨v, hvv, _, (isName_iff (hv v hvv)).2 rfl, rfl⟩
  rw [h1, (h2.map _).sum_eq, List.map_map]
  refine congrArg List.sum (List.map_congr_left (fun v hvv => ?_))
  simp [h.probs v hvv _ ((isName_iff (hv v hvv)).2 rfl)]

theorem generate_fresh {g : Cfg} {cols : List Column} (h : ∀ c ∈ cols, ∃ v, ColumnWith g c v) :
    ∃ st, (cols.map StoredColumn.fresh).mapM (StoredColumn.generate g false) = some st ∧ (st.map Prod.snd).map (·.col) = cols ∧ (∀ x ∈ st, UpToDate g x.2) ∧
      ∀ x ∈ st, x.2.stored = some x.1 := by
  induction cols with
  | nil => exact ⟨[], rfl, rfl, by simp, by simp⟩
  | cons c cols ih =>
    obtain ⟨v, hv⟩ := h c List.mem_cons_self
    obtain ⟨st, h1, h2, h3, h4⟩ := ih (fun d hd => h d (List.mem_cons_of_mem _ hd))
    have e : StoredColumn.generate g false (StoredColumn.fresh c) = some (some (g.stdName v), ⟨c, some (some (g.stdName v))⟩) := by
      simp [StoredColumn.generate, StoredColumn.fresh, hv.values, g.render_of_valid hv.valid]
    refine ⟨_ :: st, mapM_some_iff.2 (.cons e (mapM_some_iff.1 h1)), by simp [← h2], ?_, ?_⟩
    · intro x hx
      rcases List.mem_cons.1 hx with rfl | hx
      · exact ⟨v, _, hv, (isName_iff hv.valid).2 rfl, rfl⟩
      · exact h3 x hx
    · intro x hx
      rcases List.mem_cons.1 hx with rfl | hx
      · rfl
      · exact h4 x hx

theorem born_table {g : Cfg} {m : ℕ} {gp : ℝ} {cols : List Column} (h : InterferingGroup g m gp cols) :
    ∃ N, ∀ fuel ≥ N, ∃ photons st vs d, toPhotons g fuel cols = some photons ∧ (photons.map StoredColumn.fresh).mapM (StoredColumn.generate g false) = some st ∧
      outcomeTable g (st.map Prod.snd) none = some d ∧ vs.Nodup ∧ (∀ v ∈ vs, Valid g v) ∧ ListsProbabilities g vs (fun v => bornProb v (groupPoly g cols)) d ∧
      (∀ v, Valid g v → v ∉ vs → bornProb v (groupPoly g cols) = 0) ∧
      ∀ V : Finset Vals, (∀ v, v ∈ V ↔ Valid g v) → (d.map Prod.snd).sum = ∑ v ∈ V, bornProb v (groupPoly g cols) := by
  classical
  refine ⟨totalWeight cols + 1, fun fuel hf => ?_⟩
  obtain ⟨α, hα, hst⟩ := h.phases
  have hcol : ∀ c ∈ cols, InterferingColumn g m gp α c := fun c hc =>
    ⟨hst c hc, h.fits c hc, h.nonempty c hc, h.amp c hc, h.boson c hc, h.gprob c hc, h.classical c hc⟩
  obtain ⟨out, o1, o2⟩ := photon_split hcol (fuel := fuel) (by omega)
  obtain ⟨st, s1, s2, s3, -⟩ := generate_fresh (fun c hc => (o2.phases c hc).imp (fun _ x => x.1))
  have hup : ∀ c ∈ st.map Prod.snd, UpToDate g c := by
    intro c hc
    obtain ⟨x, hx, rfl⟩ := List.mem_map.1 hc
    exact s3 x hx
  obtain ⟨vs, d, hnd, hvs, htab, hl⟩ := all_outcomes hup
  have hval : ∀ v ∈ vs, Valid g v := by
    intro v hv
    obtain ⟨c, hc, e⟩ := (hvs v).1 hv
    obtain ⟨w, nm, hw, -, -⟩ := hup c hc
    rw [Option.some.inj (e.symm.trans hw.values)]
    exact hw.valid
  have hborn : ∀ v, Valid g v → detectionProb g (columnsWith g v (st.map Prod.snd)) = bornProb v (groupPoly g cols) := by
    intro v hv
    rw [o2.born hα hv]
    unfold columnsWith
    rw [s2]
  have hl' : ListsProbabilities g vs (fun v => bornProb v (groupPoly g cols)) d :=
    ⟨hl.once, hl.names, fun v hv nm hn => by rw [hl.probs v hv nm hn, hborn v (hval v hv)]⟩
  have hz : ∀ v, Valid g v → v ∉ vs → bornProb v (groupPoly g cols) = 0 := by
    intro v hv hnv
    rw [← hborn v hv]
    have : columnsWith g v (st.map Prod.snd) = [] := by
      unfold columnsWith
      rw [List.filter_eq_nil_iff]
      intro c hc' e
      obtain ⟨x, hx, rfl⟩ := List.mem_map.1 hc'
      exact hnv ((hvs v).2 ⟨x, hx, decide_eq_true_iff.1 e⟩)
    rw [this, detectionProb_nil]
  refine ⟨out, st, vs, d, o1, s1, htab, hnd, hval, hl', hz, fun V hV => ?_⟩
  rw [lists_sum hl' hnd hval, ← List.sum_toFinset _ hnd]
  refine Finset.sum_subset (fun v hv => (hV v).2 (hval v (List.mem_toFinset.1 hv))) (fun v hv hnv => ?_)
  exact hz v ((hV v).1 hv) (fun h => hnv (List.mem_toFinset.2 h))

/-- **C126 (partial)** Born rule and total: when the columns of an interference group are split into single photons and their components are generated, the table lists the probabilities of
the Born rule for the light of the group; photon numbers that are not listed have probability 0, and the values add up to the total probability of all photon numbers. -/
theorem C126_born_partial (g : Cfg) (m : ℕ) (gp : ℝ) (cols : List Column) (h : InterferingGroup g m gp cols) (_hwid : RealWidths cols) :
    ∃ N, ∀ fuel ≥ N, ∃ photons st vs d, toPhotons g fuel cols = some photons ∧ (photons.map StoredColumn.fresh).mapM (StoredColumn.generate g false) = some st ∧
      outcomeTable g (st.map Prod.snd) none = some d ∧ vs.Nodup ∧ (∀ v ∈ vs, Valid g v) ∧ ListsProbabilities g vs (fun v => bornProb v (groupPoly g cols)) d ∧
      (∀ v, Valid g v → v ∉ vs → bornProb v (groupPoly g cols) = 0) ∧
      ∀ V : Finset Vals, (∀ v, v ∈ V ↔ Valid g v) → (d.map Prod.snd).sum = ∑ v ∈ V, bornProb v (groupPoly g cols) := born_table h

/-- **C126 (partial)** The probabilities add up to 1: for every interference group that a photon-resolved circuit of lossless elements makes of normalised input states (as in C104). -/
theorem C126_circuit_partial (c : Circ) (hg : c.g.Ok) (ht : 0 < c.thr) (nodes : List SNode) (es : List Element) (hes : List.Forall₂ (ElementStage c.g c.m) es (stagesOf nodes))
    (hst : StartsResolved c.g es) (hw : ∀ chs w, .width chs w ∈ es → ∀ ch < c.g.C, ch ∈ chs) (l : List AState) (hl : ∀ s ∈ l, FreshState c.g c.m s) (hk : KeepsAll c es (stagesOf nodes) l) :
    ∃ N, ∀ fuel ≥ N, ∃ l' G, evalSpectral c fuel nodes l = some l' ∧ readGroups l' = some G ∧ ∀ e ∈ G, ∀ x ∈ e.2, ∃ M, ∀ fuel' ≥ M, ∃ photons st d,
      toPhotons c.g fuel' x.2 = some photons ∧ (photons.map StoredColumn.fresh).mapM (StoredColumn.generate c.g false) = some st ∧
      outcomeTable c.g (st.map Prod.snd) none = some d ∧ (d.map Prod.snd).sum = 1 := by
  obtain ⟨V, hV⟩ := valid_finset c.g hg.1
  obtain ⟨G0, N1, l1, h1, h2, h3⟩ := fresh_run hg ht hes hst (fresh_start hl) (N0 := 0) (fun k gates h fuel _ l' hl' => hk k gates h fuel l' hl')
  obtain ⟨G, rfl, hG, hrel, -⟩ := h3
  refine ⟨N1, fun fuel hf => ⟨_, G, h2 fuel hf, read_write hG, fun e he x hx => ?_⟩⟩
  obtain ⟨y0, q0, r1, r2, r3⟩ := groupsRel_right hrel e he x hx
  obtain ⟨hi, z, hz, hp⟩ := r3.interfering hg
  obtain ⟨M, hM⟩ := born_table hi
  refine ⟨M, fun fuel' hf' => ?_⟩
  obtain ⟨photons, st, vs, d, a1, a2, a3, -, -, -, -, a4⟩ := hM fuel' hf'
  refine ⟨photons, st, d, a1, a2, a3, ?_⟩
  rw [a4 V hV, hp, Finset.sum_congr rfl (fun v _ => bornProb_phase hz v _)]
  exact total_one hg r1.wf r1.norm r1.few _ (fun e he => (stage_elements hes hw e he).1) (fun e he => (stage_elements hes hw e he).2) (starts_sets hst) hV

/-- **C126** fails when no component was generated before: every column is fresh, and the function raises an exception (AttributeError). -/
theorem C126_fresh_fails (g : Cfg) (cols : List Column) (hne : cols ≠ []) : outcomeTable g (cols.map StoredColumn.fresh) none = none := by
  cases cols with
  | nil => exact absurd rfl hne
  | cons c cols => simp [outcomeTable, outcomeNames, StoredColumn.fresh, List.mapM_cons]

/-- One photon in the given channel. -/
noncomputable def staleColumn (n : String) : Column := ⟨[homPhoton n 0], 1, 1, 1, 0⟩

/-- **C126** fails when the column changed since its component was generated: a photon in channel 0, its component is generated, then the photon is moved to channel 1; the table lists the photon
numbers (1, 0) with probability 0 and not (0, 1). -/
theorem C126_stale_fails : ∃ c : StoredColumn, StoredColumn.generate colCfg false (StoredColumn.fresh (staleColumn "10")) = some (some "10".toList, c) ∧
    outcomeTable colCfg [{ c with col := staleColumn "01" }] none = some [(some "10".toList, 0)] ∧ columnValues colCfg (staleColumn "01") = some [0, 1] := by
  have hf : ∀ (n : String) (v : Vals), Valid colCfg v → colCfg.stdName v = n.toList → columnValues colCfg (staleColumn n) = some v := by
    intro n v hv hn
    simp [columnValues, staleColumn, homFirst 0 hv hn]
  refine ⟨⟨staleColumn "10", some (some "10".toList)⟩, ?_, ?_, hf _ _ val01 name01⟩
  · simp only [StoredColumn.generate, StoredColumn.fresh, hf _ _ val10 name10, Bool.false_eq_true, if_false, Option.map_some]
    rw [colCfg.render_of_valid val10, name10]
  · have hp : colCfg.parse "10".toList = some [1, 0] := by rw [← name10]; exact colCfg.parse_stdName val10.2
    have hl : listOfPhotons colCfg (staleColumn "01") = some [(1, some ⟨0, 1⟩)] := by
      simp [listOfPhotons, staleColumn, homFirst 0 val01 name01]
      exact ⟨by decide, rfl⟩
    have hpair : pairProbability colCfg [1, 0] (staleColumn "01") (staleColumn "01") = some none := by
      unfold pairProbability
      rw [hl]
      simp only [Option.bind_some, Option.map_some, List.map_cons, List.map_nil]
      rw [if_pos (by decide)]
    have he : outcomeEntry colCfg [⟨staleColumn "01", some (some "10".toList)⟩] (some "10".toList) = some 0 := by
      unfold outcomeEntry
      rw [if_neg (by simp [staleColumn])]
      generalize hx : "10".toList = x at hp ⊢
      simp [hp, columnListProbability, hpair]
    generalize hx : "10".toList = x at he ⊢
    simp [outcomeTable, outcomeNames, he, Dict.set]

/-! ### C127 -/

theorem firstNumbers_values {g : Cfg} {s : PState} {v : Vals} (h : FirstNumbers g s v) : firstValues g s = some v := by
  obtain ⟨n, k, rest, h1, h2, h3⟩ := h
  unfold firstValues
  rw [h1, (isName_iff h2).1 h3]
  exact g.parse_stdName h2.2

theorem onlyInfo_values {g : Cfg} {s s' : PState} {i : Option PInfo} (h : OnlyInfo i s s') : firstValues g s' = firstValues g s := by
  unfold firstValues; rw [h.1]

/-- **C127** Photon information for all states: every state of the column gets it; the states are otherwise unchanged and in the same order, and so are the parameters of the column. -/
theorem C127_all (g : Cfg) (info : PInfo) (default : Option PInfo) (c : Column) :
    ∃ c', c.setPhotonInformation g info none default = some c' ∧ List.Forall₂ (OnlyInfo (some info)) c.states c'.states ∧ SameButStates c c' := by
  refine ⟨{ c with states := c.states.map (fun s => { s with info := some info }) }, ?_, ?_, ⟨rfl, rfl, rfl, rfl⟩⟩
  · have : c.states.mapM (setInfoState g info none default) = some (c.states.map (fun s => { s with info := some info })) := by
      rw [mapM_some_iff, List.forall₂_map_right_iff]
      exact List.forall₂_same.2 (fun s _ => rfl)
    simp [Column.setPhotonInformation, this]
  · rw [List.forall₂_map_right_iff]
    exact List.forall₂_same.2 (fun s _ => ⟨rfl, rfl⟩)

/-- **C127** Photon information with a filter: the states whose (first) component has photon numbers in the filter get it, the other ones get the default or, without a default, stay as they
are; nothing else changes, and the photon numbers of the column stay the same. -/
theorem C127_filter (g : Cfg) (info : PInfo) (filter : List Vals) (default : Option PInfo) (c : Column) (h : ∀ s ∈ c.states, ∃ v, FirstNumbers g s v) :
    ∃ c', c.setPhotonInformation g info (some filter) default = some c' ∧ SameButStates c c' ∧ columnValues g c' = columnValues g c ∧
      List.Forall₂ (fun s s' => ∀ v, FirstNumbers g s v → (v ∈ filter → OnlyInfo (some info) s s') ∧ (v ∉ filter → ∀ d, default = some d → OnlyInfo (some d) s s') ∧ (v ∉ filter → default = none → s' = s))
        c.states c'.states := by
  have key : ∀ l : List PState, (∀ s ∈ l, ∃ v, FirstNumbers g s v) → ∃ l', l.mapM (setInfoState g info (some filter) default) = some l' ∧
      l'.mapM (firstValues g) = l.mapM (firstValues g) ∧
      List.Forall₂ (fun s s' => ∀ v, FirstNumbers g s v → (v ∈ filter → OnlyInfo (some info) s s') ∧ (v ∉ filter → ∀ d, default = some d → OnlyInfo (some d) s s') ∧ (v ∉ filter → default = none → s' = s)) l l' := by
    intro l hl
    induction l with
    | nil => exact ⟨[], rfl, rfl, .nil⟩
    | cons s l ih =>
      obtain ⟨l', e1, e2, e3⟩ := ih (fun t ht => hl t (List.mem_cons_of_mem _ ht))
      obtain ⟨v, hv⟩ := hl s List.mem_cons_self
      have hu : ∀ w, FirstNumbers g s w → w = v := fun w hw => Option.some.inj ((firstNumbers_values hw).symm.trans (firstNumbers_values hv))
      have hs : ∃ s', setInfoState g info (some filter) default s = some s' ∧ firstValues g s' = firstValues g s ∧
          (v ∈ filter → OnlyInfo (some info) s s') ∧ (v ∉ filter → ∀ d, default = some d → OnlyInfo (some d) s s') ∧ (v ∉ filter → default = none → s' = s) := by
        simp only [setInfoState, firstNumbers_values hv, Option.map_some, Option.some.injEq, exists_eq_left']
        by_cases hm : v ∈ filter
        · rw [if_pos hm]
          exact ⟨firstNumbers_values hv, fun _ => ⟨rfl, rfl⟩, fun h => absurd hm h, fun h => absurd hm h⟩
        · rw [if_neg hm]
          cases default with
          | none => exact ⟨firstNumbers_values hv, fun h => absurd h hm, (fun _ d hd => by cases hd), fun _ _ => rfl⟩
          | some d => exact ⟨firstNumbers_values hv, fun h => absurd h hm, (fun _ d' hd => by cases hd; exact ⟨rfl, rfl⟩), (fun _ h => by cases h)⟩
      obtain ⟨s', a1, a2, a3⟩ := hs
      refine ⟨s' :: l', mapM_some_iff.2 (.cons a1 (mapM_some_iff.1 e1)), by simp only [List.mapM_cons, a2, e2], .cons (fun w hw => ?_) e3⟩
      rw [hu w hw]
      exact a3
  obtain ⟨l', e1, e2, e3⟩ := key c.states h
  exact ⟨{ c with states := l' }, by simp [Column.setPhotonInformation, e1], ⟨rfl, rfl, rfl, rfl⟩, by simp [columnValues, e2], e3⟩

/-! ### The hypotheses are met -/

section NonVacuity

/-- The four columns behind a beam splitter (C63), with their components stored. -/
noncomputable def homStored : List StoredColumn :=
  [⟨homColumn "10" "10" (1/2) 0, some (some "20".toList)⟩, ⟨homColumn "10" "01" (-1/2) 1, some (some "11".toList)⟩, ⟨homColumn "01" "10" (1/2) 2, some (some "11".toList)⟩,
    ⟨homColumn "01" "01" (-1/2) 3, some (some "02".toList)⟩]

theorem homStored_up : ∀ c ∈ homStored, UpToDate colCfg c := by
  intro c hc
  simp only [homStored, List.mem_cons, List.not_mem_nil, or_false] at hc
  rcases hc with rfl | rfl | rfl | rfl
  · exact ⟨[2, 0], _, hom0, (isName_iff hom0.valid).2 (by decide), rfl⟩
  · exact ⟨[1, 1], _, hom1, (isName_iff hom1.valid).2 (by decide), rfl⟩
  · exact ⟨[1, 1], _, hom2, (isName_iff hom2.valid).2 (by decide), rfl⟩
  · exact ⟨[0, 2], _, hom3, (isName_iff hom3.valid).2 (by decide), rfl⟩

/-- C126: two photons that overlap partly, behind a beam splitter. -/
example : ∃ vs d, vs.Nodup ∧ (∀ v, v ∈ vs ↔ ∃ c ∈ homStored, columnValues colCfg c.col = some v) ∧ outcomeTable colCfg homStored none = some d ∧
    ListsProbabilities colCfg vs (fun v => detectionProb colCfg (columnsWith colCfg v homStored)) d := C126_all_outcomes_partial colCfg homStored homStored_up homWidths
example : ∃ d, outcomeTable colCfg homStored (some ["11".toList, "22".toList]) = some d ∧
    ListsProbabilities colCfg [[1, 1], [2, 2]] (fun v => detectionProb colCfg (columnsWith colCfg v homStored)) d ∧
    ∀ v ∈ [[1, 1], [2, 2]], (∀ c ∈ homStored, columnValues colCfg c.col ≠ some v) → ∀ nm, IsName colCfg v nm → d.get? (some nm) = some 0 :=
  C126_projections_partial colCfg homStored (by simp [homStored]) homStored_up homWidths [[1, 1], [2, 2]] (by decide) _
    (.cons ((isName_iff (by decide)).2 (by decide)) (.cons ((isName_iff (by decide)).2 (by decide)) .nil))
example : ∃ N, ∀ fuel ≥ N, ∃ photons st vs d, toPhotons colCfg fuel homGroup = some photons ∧ (photons.map StoredColumn.fresh).mapM (StoredColumn.generate colCfg false) = some st ∧
    outcomeTable colCfg (st.map Prod.snd) none = some d ∧ vs.Nodup ∧ (∀ v ∈ vs, Valid colCfg v) ∧ ListsProbabilities colCfg vs (fun v => bornProb v (groupPoly colCfg homGroup)) d ∧
    (∀ v, Valid colCfg v → v ∉ vs → bornProb v (groupPoly colCfg homGroup) = 0) ∧
    ∀ V : Finset Vals, (∀ v, v ∈ V ↔ Valid colCfg v) → (d.map Prod.snd).sum = ∑ v ∈ V, bornProb v (groupPoly colCfg homGroup) :=
  C126_born_partial colCfg 2 1 homGroup homInterfering homWidths
/-- C126: a delay, a beam splitter and another delay. -/
example : ∃ N, ∀ fuel ≥ N, ∃ l' G, evalSpectral dipCirc fuel [.delay [0] (.value 1) 1, .optical (genericMatrix (Real.pi / 8) Real.pi) [0, 1], .delay [1] (.classical 1) 3] [⟨stretchState, none⟩] = some l' ∧
    readGroups l' = some G ∧ ∀ e ∈ G, ∀ x ∈ e.2, ∃ M, ∀ fuel' ≥ M, ∃ photons st d, toPhotons dipCirc.g fuel' x.2 = some photons ∧
      (photons.map StoredColumn.fresh).mapM (StoredColumn.generate dipCirc.g false) = some st ∧ outcomeTable dipCirc.g (st.map Prod.snd) none = some d ∧ (d.map Prod.snd).sum = 1 := by
  have hf : FreshState colCfg 2 ⟨stretchState, none⟩ := fresh_one (v := [1, 1]) (a := 1) (by decide) (by decide) (by decide) (by simp) rfl (by norm_num [stretchState]) rfl
  have hes : List.Forall₂ (ElementStage dipCirc.g dipCirc.m) [.delay [0] (.value 1) 1, .optics [⟨genericMatrix (Real.pi / 8) Real.pi, 0, 1⟩], .delay [1] (.classical 1) 3]
      (stagesOf [.delay [0] (.value 1) 1, .optical (genericMatrix (Real.pi / 8) Real.pi) [0, 1], .delay [1] (.classical 1) 3]) := by
    refine .cons ⟨rfl, rfl, rfl, by decide, (by intro ch e; cases e), one_ne_zero⟩ (.cons ⟨.cons ⟨by decide, by decide, by decide, by decide, rfl, by decide⟩ .nil, ?_⟩
      (.cons ⟨rfl, rfl, rfl, by decide, (by intro ch e; cases e; decide), three_ne_zero⟩ .nil))
    intro e he
    obtain rfl := List.mem_singleton.1 he
    exact (C17_wave_plate _ _ 0).1
  refine C126_circuit_partial dipCirc (by decide) (by norm_num [dipCirc]) _ _ hes trivial (by intro chs w h; simp at h) _ (by intro s hs; obtain rfl := List.mem_singleton.1 hs; exact hf) ?_
  refine keepsAll_of (by decide) (by norm_num [dipCirc]) (by norm_num [dipCirc]) hes trivial (by intro s hs; obtain rfl := List.mem_singleton.1 hs; exact hf) (by intro gates e; cases e) ?_
  intro i gates e
  rcases i with _ | i
  · obtain rfl := Element.optics.inj (Option.some.inj e)
    refine ⟨mix_keeps, ?_⟩
    intro e' he'
    obtain rfl := Option.some.inj he'
    exact trivial
  · rcases i with _ | i <;> simp at e
/-- C127: two photons, the information is for the one in channel 1. -/
example : ∃ c', (homColumn "10" "01" 1 0).setPhotonInformation colCfg ⟨5, 2⟩ (some [[0, 1]]) none = some c' ∧ SameButStates (homColumn "10" "01" 1 0) c' ∧
    columnValues colCfg c' = columnValues colCfg (homColumn "10" "01" 1 0) ∧ List.Forall₂ (fun s s' => ∀ v, FirstNumbers colCfg s v → (v ∈ [[0, 1]] → OnlyInfo (some ⟨5, 2⟩) s s') ∧
      (v ∉ [[0, 1]] → ∀ d, (none : Option PInfo) = some d → OnlyInfo (some d) s s') ∧ (v ∉ [[0, 1]] → (none : Option PInfo) = none → s' = s)) (homColumn "10" "01" 1 0).states c'.states :=
  C127_filter colCfg _ _ _ _ (by
    intro s hs
    simp only [homColumn, List.mem_cons, List.not_mem_nil, or_false] at hs
    rcases hs with rfl | rfl
    · exact ⟨[1, 0], _, _, [], rfl, val10, (isName_iff val10).2 name10.symm⟩
    · exact ⟨[0, 1], _, _, [], rfl, val01, (isName_iff val01).2 name01.symm⟩)

end NonVacuity

end Verif.Props
