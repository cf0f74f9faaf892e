/- Helper lemmas about histograms of photon-resolved collections. -/
import Verif.Model.PlotResolved
import Verif.Spec.PlotResolved
import Verif.Lemmas.Spectral3
import Verif.Lemmas.Columns4
import Verif.Lemmas.Resolved5

namespace Verif
open Spec

theorem splits_spl {g : Cfg} {c : Comps} (h : Splits g c) : Splittable g c := ⟨h.wf, h.ne, fun h3 => h.norm (by omega)⟩

theorem splits_unit {g : Cfg} {nm : Name} (q : ℝ) (h : ∃ v, Valid g v ∧ IsName g v nm) : Splits g [(nm, ⟨1, q⟩)] :=
  ⟨wf_unit q h, by simp, by simp⟩

/-- The property does not look at the components. -/
def IgnoresComps (P : QState → Prop) : Prop := ∀ (q : QState) (comps : Comps), P { q with comps := comps } ↔ P q

theorem getLast_mid (P : QState → Prop) (hP : IgnoresComps P) (pre post : List PState) (s : PState) (comps : Comps) :
    (∃ t, (pre ++ { s with q := { s.q with comps := comps } } :: post).getLast? = some t ∧ P t.q) ↔ ∃ t, (pre ++ s :: post).getLast? = some t ∧ P t.q := by
  rcases List.eq_nil_or_concat post with rfl | ⟨post, x, rfl⟩
  · simp only [List.getLast?_append_cons, List.getLast?_singleton, Option.some.injEq, exists_eq_left']
    exact hP s.q comps
  · have : ∀ y : PState, (pre ++ y :: (post.concat x)).getLast? = some x := by
      intro y
      rw [List.concat_eq_append, ← List.cons_append, ← List.append_assoc, List.getLast?_concat]
    rw [this, this]

theorem split_prob {g : Cfg} {c new rem : Column} (h : c.split g = some (some (new, rem))) (hs : ∀ s ∈ c.states, Splits g s.q.comps) (P : QState → Prop) (hP : IgnoresComps P) :
    (∀ s ∈ new.states, Splits g s.q.comps) ∧ (∀ s ∈ rem.states, Splits g s.q.comps) ∧ columnProb P new + columnProb P rem = columnProb P c := by
  rcases split_cases h (fun s hs' => (hs s hs').wf) with ⟨h0, _⟩ | ⟨pre, s, post, s0, k0, s1, k1, rest, r', e, _, hc, hcase⟩
  · cases h0
  have hsp : Splits g ((s0, k0) :: (s1, k1) :: rest) := by rw [← hc]; exact hs s (by rw [e]; simp)
  have hws := hsp.wf
  obtain ⟨ht, ha⟩ := hsp.norm (by simp)
  have hmid : ∀ t : PState, Splits g t.q.comps → ∀ u ∈ pre ++ t :: post, Splits g u.q.comps := by
    intro t ht u hu
    rcases List.mem_append.1 hu with h | h
    · exact hs u (by rw [e]; simp [h])
    · rcases List.mem_cons.1 h with rfl | h
      · exact ht
      · exact hs u (by rw [e]; simp [h])
  have w0 : Splits g [(s0, (⟨1, ‖(1 : ℂ)‖ ^ 2⟩ : Comp))] := splits_unit _ (hws.named (s0, k0) (by simp))
  have hprob : ∀ f : ℂ, ‖k0.amp‖ ^ 2 + ‖f‖ ^ 2 = 1 → ∀ (r' : Comps),
      columnProb P { c with states := pre ++ { s with q := { s.q with comps := [(s0, ⟨1, ‖(1 : ℂ)‖ ^ 2⟩)] } } :: post, amp := c.amp * k0.amp } +
      columnProb P { c with states := pre ++ { s with q := { s.q with comps := r' } } :: post, amp := c.amp * f } = columnProb P c := by
    intro f hf r'
    unfold columnProb
    have i1 := getLast_mid P hP pre post s [(s0, ⟨1, ‖(1 : ℂ)‖ ^ 2⟩)]
    have i2 := getLast_mid P hP pre post s r'
    rw [← e] at i1 i2
    by_cases hx : ∃ t, c.states.getLast? = some t ∧ P t.q
    · rw [if_pos (i1.2 hx), if_pos (i2.2 hx), if_pos hx]
      simp only [norm_mul]
      linear_combination c.gprob * ‖c.amp‖ ^ 2 * hf
    · rw [if_neg (fun h => hx (i1.1 h)), if_neg (fun h => hx (i2.1 h)), if_neg hx]
      simp
  rw [totalProb_cons] at ht
  have hnn := totalProb_nonneg ((s1, k1) :: rest)
  rcases hcase with ⟨f, hf, hr, hrest, hfe, hr'⟩ | ⟨hrest, hr, hr'⟩
  · obtain ⟨rfl, rfl⟩ := Prod.mk.inj (Option.some.inj hr)
    have hfn : ‖f‖ ^ 2 = 1 - ‖k0.amp‖ ^ 2 := by
      rw [hfe, Complex.norm_real, Real.norm_eq_abs, sq_abs, Real.sq_sqrt]
      simp only at ht
      linarith
    refine ⟨hmid _ w0, hmid _ ?_, hprob f (by linarith) r'⟩
    show Splits g r'
    rw [hr']
    refine ⟨⟨?_, ?_⟩, by simp, fun _ => ⟨?_, ?_⟩⟩
    · rw [List.map_map]
      exact (List.nodup_cons.1 hws.nodup).2
    · intro p hp
      obtain ⟨q, hq, rfl⟩ := List.mem_map.1 hp
      exact hws.named q (List.mem_cons_of_mem _ hq)
    · rw [totalProb_div]
      have : totalProb ((s1, k1) :: rest) = ‖f‖ ^ 2 := by rw [hfn]; simp only at ht; linarith
      rw [this, div_self]
      have := norm_pos_iff.2 hf
      positivity
    · intro p hp
      obtain ⟨q, hq, rfl⟩ := List.mem_map.1 hp
      exact div_ne_zero (ha q (List.mem_cons_of_mem _ hq)) hf
  · subst hrest
    obtain ⟨rfl, rfl⟩ := Prod.mk.inj (Option.some.inj hr)
    refine ⟨hmid _ w0, hmid _ ?_, hprob k1.amp ?_ r'⟩
    · show Splits g r'
      rw [hr']
      exact splits_unit _ (hws.named (s1, k1) (by simp))
    · simpa [totalProb] using ht

theorem splitOnce_prob {g : Cfg} {cols cols' : List Column} {new : Column} (h : splitOnce g cols = some (some (cols', new))) (hs : ∀ c ∈ cols, ∀ s ∈ c.states, Splits g s.q.comps)
    (P : QState → Prop) (hP : IgnoresComps P) :
    (∀ c ∈ cols', ∀ s ∈ c.states, Splits g s.q.comps) ∧ (∀ s ∈ new.states, Splits g s.q.comps) ∧ (cols'.map (columnProb P)).sum + columnProb P new = (cols.map (columnProb P)).sum := by
  induction cols generalizing cols' with
  | nil => cases h
  | cons c cols ih =>
    have hs0 := hs c List.mem_cons_self
    have hsc : ∀ c ∈ cols, ∀ s ∈ c.states, Splits g s.q.comps := fun d hd => hs d (List.mem_cons_of_mem _ hd)
    unfold splitOnce at h
    rcases hc : c.split g with _ | _ | ⟨n, rem⟩
    · rw [hc] at h; cases h
    · rw [hc] at h
      simp only [Option.bind_some] at h
      rcases ho : splitOnce g cols with _ | _ | ⟨d, n⟩
      · rw [ho] at h; cases h
      · rw [ho] at h; cases h
      · rw [ho] at h
        obtain ⟨rfl, rfl⟩ := Prod.mk.inj (Option.some.inj (Option.some.inj h))
        obtain ⟨h1, h2, h3⟩ := ih ho hsc
        refine ⟨?_, h2, ?_⟩
        · intro x hx
          rcases List.mem_cons.1 hx with rfl | hx
          · exact hs0
          · exact h1 x hx
        · simp only [List.map_cons, List.sum_cons]
          linarith
    · rw [hc] at h
      obtain ⟨rfl, rfl⟩ := Prod.mk.inj (Option.some.inj (Option.some.inj h))
      obtain ⟨h1, h2, h3⟩ := split_prob hc hs0 P hP
      refine ⟨?_, h1, ?_⟩
      · intro x hx
        rcases List.mem_cons.1 hx with rfl | hx
        · exact h2
        · exact hsc x hx
      · simp only [List.map_cons, List.sum_cons]
        linarith

/-- Splitting keeps the probability of the columns. -/
theorem splitColumns_prob {g : Cfg} (fuel : ℕ) {cols out : List Column} (h : splitColumns g fuel cols = some out) (hs : ∀ c ∈ cols, ∀ s ∈ c.states, Splits g s.q.comps)
    (P : QState → Prop) (hP : IgnoresComps P) : (out.map (columnProb P)).sum = (cols.map (columnProb P)).sum := by
  induction fuel generalizing cols with
  | zero => cases h
  | succ fuel ih =>
    unfold splitColumns at h
    rcases ho : splitOnce g cols with _ | _ | ⟨cols', new⟩
    · rw [ho] at h; cases h
    · rw [ho] at h
      obtain rfl := Option.some.inj h
      rfl
    · rw [ho] at h
      simp only [Option.bind_some] at h
      obtain ⟨h1, h2, h3⟩ := splitOnce_prob ho hs P hP
      rw [ih h (by
        intro d hd
        rcases List.mem_append.1 hd with hd | hd
        · exact h1 d hd
        · obtain rfl := List.mem_singleton.1 hd
          exact h2), ← h3]
      simp [columnProb]

theorem columnState_some {g : Cfg} {c : Column} {q : QState} (h : columnState g c = some q) :
    ∃ last comps, c.states.getLast? = some last ∧ q = { last.q with comps := comps, cum := c.gprob * ‖c.amp‖ ^ 2 } := by
  unfold columnState at h
  obtain ⟨c', h1, h2⟩ := Option.bind_eq_some_iff.1 h
  obtain ⟨_, _, _, last, comps, cum, _, _, _, h4, _, h6, rfl⟩ := condense_some h1
  simp only [List.head?_cons, Option.map_some, Option.some.injEq] at h2
  refine ⟨last, comps, h4, ?_⟩
  rw [← h2]
  unfold setCum at h6
  split at h6
  · obtain rfl := Option.some.inj h6
    rfl
  · cases h6

theorem probOf_columns {g : Cfg} {cols : List Column} {qs : List QState} (h : cols.mapM (columnState g) = some qs) (P : QState → Prop) (hP : IgnoresComps P)
    (hc : ∀ (q : QState) (x : ℝ), P { q with cum := x } ↔ P q) : probOf (qs.map (fun q => (([] : Name), q))) P = (cols.map (columnProb P)).sum := by
  classical
  rw [mapM_some_iff] at h
  induction h with
  | nil => simp [probOf]
  | @cons c q cols qs h1 _ ih =>
    obtain ⟨last, comps, h4, rfl⟩ := columnState_some h1
    have hiff : P { last.q with comps := comps, cum := c.gprob * ‖c.amp‖ ^ 2 } ↔ P last.q := (hc { last.q with comps := comps } _).trans (hP _ _)
    rw [List.map_cons, List.map_cons, List.sum_cons, ← ih]
    unfold probOf columnProb
    rw [List.filter_cons, h4]
    simp only [Option.some.injEq, exists_eq_left']
    by_cases hp : P last.q
    · rw [if_pos (by simpa using hiff.2 hp), if_pos hp]
      simp
    · rw [if_neg (by simpa using fun h => hp (hiff.1 h)), if_neg hp]
      simp

theorem columnsProb_flat (G : Groups) (P : QState → Prop) : columnsProb G P = ((allColumns G).map (columnProb P)).sum := by
  unfold columnsProb allColumns
  induction G with
  | nil => rfl
  | cons e G ih =>
    rw [List.map_cons, List.sum_cons, ih, List.flatMap_cons, List.map_append, List.sum_append]
    congr 1
    induction e.2 with
    | nil => rfl
    | cons x xs ih => rw [List.map_cons, List.sum_cons, ih, List.flatMap_cons, List.map_append, List.sum_append]

theorem columnsProb_split {g : Cfg} {fuel : ℕ} {G G' : Groups} (h : G.mapM (splitColumns g fuel) = some G') (hs : ∀ e ∈ G, ∀ x ∈ e.2, ∀ c ∈ x.2, ∀ s ∈ c.states, Splits g s.q.comps)
    (P : QState → Prop) (hP : IgnoresComps P) : columnsProb G' P = columnsProb G P := by
  have hrel := groups_mapM.1 h
  unfold columnsProb
  clear h
  unfold GroupsRel at hrel
  induction hrel with
  | nil => rfl
  | @cons e e' G G' h1 _ ih =>
    rw [List.map_cons, List.map_cons, List.sum_cons, List.sum_cons, ih (fun d hd => hs d (List.mem_cons_of_mem _ hd))]
    congr 1
    have hse := hs e List.mem_cons_self
    obtain ⟨_, h2⟩ := h1
    generalize e.2 = a at h2 hse
    generalize e'.2 = b at h2
    induction h2 with
    | nil => rfl
    | @cons x x' a b q1 _ ih =>
      rw [List.map_cons, List.map_cons, List.sum_cons, List.sum_cons, ih (fun d hd => hse d (List.mem_cons_of_mem _ hd)), splitColumns_prob fuel q1.2 (hse x List.mem_cons_self) P hP]

theorem prePlot_prob {g : Cfg} {fuel : ℕ} {l : List AState} {qs : List QState} {G : Groups} (hG : readGroups l = some G) (h : prePlot g fuel l = some qs)
    (hs : ∀ s ∈ l, Splits g s.q.comps) (P : QState → Prop) (hP : IgnoresComps P) (hc : ∀ (q : QState) (x : ℝ), P { q with cum := x } ↔ P q) :
    probOf (qs.map (fun q => (([] : Name), q))) P = columnsProb G P := by
  unfold prePlot at h
  rw [hG, Option.bind_some] at h
  obtain ⟨G', h1, h2⟩ := Option.bind_eq_some_iff.1 h
  rw [probOf_columns h2 P hP hc, ← columnsProb_flat, columnsProb_split h1 ?_ P hP]
  intro e he x hx c hcc s hsm
  obtain ⟨a, ha, h2⟩ := readGroups_states hG e he x hx c hcc s hsm
  rw [← h2]
  exact hs a ha

/-- A property of columns that splitting keeps holds for all columns of the result. -/
theorem splitOnce_inv {g : Cfg} {R : Column → Prop} (hR : ∀ c new rem, R c → c.split g = some (some (new, rem)) → R new ∧ R rem) {cols cols' : List Column} {new : Column}
    (h : splitOnce g cols = some (some (cols', new))) (hs : ∀ c ∈ cols, R c) : (∀ c ∈ cols', R c) ∧ R new := by
  induction cols generalizing cols' with
  | nil => cases h
  | cons c cols ih =>
    have hs0 := hs c List.mem_cons_self
    have hsc : ∀ c ∈ cols, R c := fun d hd => hs d (List.mem_cons_of_mem _ hd)
    unfold splitOnce at h
    rcases hc : c.split g with _ | _ | ⟨n, rem⟩
    · rw [hc] at h; cases h
    · rw [hc] at h
      simp only [Option.bind_some] at h
      rcases ho : splitOnce g cols with _ | _ | ⟨d, n⟩
      · rw [ho] at h; cases h
      · rw [ho] at h; cases h
      · rw [ho] at h
        obtain ⟨rfl, rfl⟩ := Prod.mk.inj (Option.some.inj (Option.some.inj h))
        obtain ⟨h1, h2⟩ := ih ho hsc
        refine ⟨?_, h2⟩
        intro x hx
        rcases List.mem_cons.1 hx with rfl | hx
        · exact hs0
        · exact h1 x hx
    · rw [hc] at h
      obtain ⟨rfl, rfl⟩ := Prod.mk.inj (Option.some.inj (Option.some.inj h))
      obtain ⟨h1, h2⟩ := hR _ _ _ hs0 hc
      refine ⟨?_, h1⟩
      intro x hx
      rcases List.mem_cons.1 hx with rfl | hx
      · exact h2
      · exact hsc x hx

theorem splitColumns_inv {g : Cfg} {R : Column → Prop} (hR : ∀ c new rem, R c → c.split g = some (some (new, rem)) → R new ∧ R rem) (hid : ∀ (c : Column) (n : ℕ), R c → R { c with id := n })
    (fuel : ℕ) {cols out : List Column} (h : splitColumns g fuel cols = some out) (hs : ∀ c ∈ cols, R c) : ∀ c ∈ out, R c := by
  induction fuel generalizing cols with
  | zero => cases h
  | succ fuel ih =>
    unfold splitColumns at h
    rcases ho : splitOnce g cols with _ | _ | ⟨cols', new⟩
    · rw [ho] at h; cases h
    · rw [ho] at h
      obtain rfl := Option.some.inj h
      exact hs
    · rw [ho] at h
      simp only [Option.bind_some] at h
      obtain ⟨h1, h2⟩ := splitOnce_inv hR ho hs
      refine ih h ?_
      intro d hd
      rcases List.mem_append.1 hd with hd | hd
      · exact h1 d hd
      · obtain rfl := List.mem_singleton.1 hd
        exact hid _ _ h2

theorem splits_ignore : IgnoresComps (fun _ => True) := fun _ _ => Iff.rfl

theorem columnProb_true {c : Column} (h : c.states ≠ []) : columnProb (fun _ => True) c = c.gprob * ‖c.amp‖ ^ 2 := by
  unfold columnProb
  rw [if_pos]
  obtain ⟨t, ht⟩ := Option.ne_none_iff_exists'.1 (fun hn : c.states.getLast? = none => h (List.getLast?_eq_none_iff.1 hn))
  exact ⟨t, ht, trivial⟩

theorem forall₂_mid {α β : Type*} {R : α → β → Prop} {pre post : List α} {x y : α} (hxy : ∀ b, R y b → R x b) {l : List β} (h : List.Forall₂ R (pre ++ y :: post) l) :
    List.Forall₂ R (pre ++ x :: post) l := by
  induction pre generalizing l with
  | nil =>
    cases h with
    | cons h1 h2 => exact .cons (hxy _ h1) h2
  | cons a pre ih =>
    cases h with
    | cons h1 h2 => exact .cons h1 (ih h2)

theorem split_showable {g : Cfg} {c new rem : Column} (hs : ∀ s ∈ c.states, Splits g s.q.comps) (hc : Showable g c) (h : c.split g = some (some (new, rem))) :
    Showable g new ∧ Showable g rem := by
  obtain ⟨_, _, hp⟩ := split_prob h hs (fun _ => True) splits_ignore
  rcases split_cases h (fun s hs' => (hs s hs').wf) with ⟨h0, _⟩ | ⟨pre, s, post, s0, k0, s1, k1, rest, r', e, _, hcc, hcase⟩
  · cases h0
  have key : ∀ (comps : Comps), (∀ p ∈ comps, ∃ p' ∈ s.q.comps, p'.1 = p.1) → ∀ d : Column, d.gprob = c.gprob → d.states = pre ++ { s with q := { s.q with comps := comps } } :: post →
      c.gprob * ‖d.amp‖ ^ 2 ≤ c.gprob * ‖c.amp‖ ^ 2 → Showable g d := by
    intro comps hcomp d hd hst ha
    refine ⟨by rw [hst]; simp, ?_, by rw [hd]; exact hc.prob.1, by rw [hd]; exact ha.trans hc.prob.2⟩
    intro v vs hf
    refine hc.fits v vs ?_
    rw [e]
    rw [hst] at hf
    refine forall₂_mid ?_ hf
    rintro w ⟨p, hp, hw⟩
    obtain ⟨p', hp', hn⟩ := hcomp p hp
    exact ⟨p', hp', by rw [hn]; exact hw⟩
  have hns : ∀ (x : PState), pre ++ x :: post ≠ [] := by simp
  have hg := hc.prob.1
  rcases hcase with ⟨f, hf, hr, hrest, hfe, hr'⟩ | ⟨hrest, hr, hr'⟩
  · obtain ⟨rfl, rfl⟩ := Prod.mk.inj (Option.some.inj hr)
    rw [columnProb_true (hns _), columnProb_true (hns _), columnProb_true hc.ne] at hp
    simp only at hp
    refine ⟨key _ ?_ _ rfl rfl ?_, key r' ?_ _ rfl rfl ?_⟩
    · intro p hp
      obtain rfl := List.mem_singleton.1 hp
      exact ⟨(s0, k0), by rw [hcc]; simp, rfl⟩
    · have := mul_nonneg hg (sq_nonneg ‖c.amp * f‖)
      simp only
      linarith
    · intro p hp
      rw [hr'] at hp
      obtain ⟨q, hq, rfl⟩ := List.mem_map.1 hp
      exact ⟨q, by rw [hcc]; exact List.mem_cons_of_mem _ hq, rfl⟩
    · have := mul_nonneg hg (sq_nonneg ‖c.amp * k0.amp‖)
      simp only
      linarith
  · obtain ⟨rfl, rfl⟩ := Prod.mk.inj (Option.some.inj hr)
    rw [columnProb_true (hns _), columnProb_true (hns _), columnProb_true hc.ne] at hp
    simp only at hp
    refine ⟨key _ ?_ _ rfl rfl ?_, key r' ?_ _ rfl rfl ?_⟩
    · intro p hp
      obtain rfl := List.mem_singleton.1 hp
      exact ⟨(s0, k0), by rw [hcc]; simp, rfl⟩
    · have := mul_nonneg hg (sq_nonneg ‖c.amp * k1.amp‖)
      simp only
      linarith
    · intro p hp
      rw [hr'] at hp
      obtain rfl := List.mem_singleton.1 hp
      exact ⟨(s1, k1), by rw [hcc]; simp, rfl⟩
    · have := mul_nonneg hg (sq_nonneg ‖c.amp * k0.amp‖)
      simp only
      linarith

/-- A showable column of states with one component each gives a state. -/
theorem columnState_defined {g : Cfg} {c : Column} (hs : ∀ s ∈ c.states, Splits g s.q.comps) (hc : Showable g c) : ∃ q, columnState g c = some q := by
  have hv : ∃ vs, c.states.mapM (firstValues g) = some vs := by
    refine (mapM_exists (R := fun _ _ => True) ?_).imp (fun _ h => h.1)
    intro s hsm
    rcases hcc : s.q.comps with _ | ⟨p, rest⟩
    · exact absurd hcc (hs s hsm).ne
    · obtain ⟨v, hv, e⟩ := (hs s hsm).wf.named' (p := p) (by rw [hcc]; simp)
      refine ⟨v, ?_, trivial⟩
      unfold firstValues
      rw [hcc, List.head?_cons, Option.bind_some, e, g.parse_stdName hv.2]
  obtain ⟨vs, hvs⟩ := hv
  have hf : List.Forall₂ (fun (s : PState) w => ∃ p ∈ s.q.comps, g.parse p.1 = some w) c.states vs := by
    rw [mapM_some_iff] at hvs
    refine hvs.imp ?_
    intro s w hw
    unfold firstValues at hw
    obtain ⟨p, hp, hw⟩ := Option.bind_eq_some_iff.1 hw
    exact ⟨p, List.mem_of_mem_head? hp, hw⟩
  rcases vs with _ | ⟨v, vs⟩
  · exact absurd (List.forall₂_nil_right_iff.1 hf) hc.ne
  · have hval := hc.fits v vs hf
    obtain ⟨last, hlast⟩ := Option.ne_none_iff_exists'.1 (fun hn : c.states.getLast? = none => hc.ne (List.getLast?_eq_none_iff.1 hn))
    have hcv : columnValues g c = some (vs.foldl (fun acc w => List.zipWith (· + ·) w acc) v) := by
      unfold columnValues
      rw [hvs]
      rfl
    unfold columnState
    rw [condense_eq hvs hcv hval hlast ⟨mul_nonneg hc.prob.1 (sq_nonneg _), hc.prob.2⟩]
    exact ⟨_, rfl⟩

end Verif
