/- Helper lemmas about photon-resolved measurement: the rescaling and the groups of a measurement. -/
import Verif.Lemmas.Resolved3
import Verif.Lemmas.Measurement

namespace Verif
open Spec Props

theorem _root_.Verif.Spec.ColumnWith.hasVals {g : Cfg} {c : Column} {v : Vals} (h : ColumnWith g c v) : ∀ s ∈ c.states, ∃ w, HasNums g s w := hasNums_of_single h.wf h.single

theorem _root_.Verif.Spec.ColumnWith.photons {g : Cfg} {c : Column} {v : Vals} (h : ColumnWith g c v) : listOfPhotons g c = some (photonsOf g c) ∧ PhotonsIn v (photonsOf g c) ∧
    ∀ p ∈ photonsOf g c, ∃ s ∈ c.states, p.2 = s.info := by
  obtain ⟨l, h1, h2, h3⟩ := column_photons h.hasVals h.values
  have e : photonsOf g c = l := by unfold photonsOf; rw [h1]; rfl
  rw [e]
  exact ⟨h1, h2, h3⟩

theorem columnList_detection {g : Cfg} {v : Vals} {cols : List Column} (h : ∀ c ∈ cols, ColumnWith g c v) : columnListProbability g v cols = some (detectionProb g cols) :=
  columnListProbability_eq (photonsOf g) (fun c hc => ⟨(h c hc).photons.1, (h c hc).photons.2.1⟩)

/-! ### Classical values -/

theorem writeMeasured_append (cls o : List ℕ) (n y : ℕ) (vals : List ℝ) (hl : cls.length = o.length) :
    writeMeasured (cls ++ [n]) (o ++ [y]) vals = (writeMeasured cls o vals).bind (fun vals => if n < vals.length then some (vals.set n (y : ℝ)) else none) := by
  unfold writeMeasured
  rw [List.zipIdx_append, List.foldlM_append]
  have e : ∀ (l : List (ℕ × ℕ)) (vals : List ℝ), (∀ x ∈ l, x.2 < cls.length) →
      l.foldlM (fun (vals : List ℝ) xi => ((cls ++ [n])[xi.2]?).bind (fun ch => if ch < vals.length then some (vals.set ch (xi.1 : ℝ)) else none)) vals =
      l.foldlM (m := Option) (fun (vals : List ℝ) xi => (cls[xi.2]?).bind (fun ch => if ch < vals.length then some (vals.set ch (xi.1 : ℝ)) else none)) vals := by
    intro l
    induction l with
    | nil => intros; rfl
    | cons x l ih =>
      intro vals hx
      rw [List.foldlM_cons, List.foldlM_cons, List.getElem?_append_left (hx x List.mem_cons_self)]
      congr 1
      funext vals'
      exact ih vals' (fun x hx' => hx x (List.mem_cons_of_mem _ hx'))
  rw [e]
  · simp [← hl]
  · intro x hx
    obtain ⟨a, b⟩ := x
    have := List.mem_zipIdx hx
    simp only
    omega

theorem writeMeasured_eq (cls o : List ℕ) (vals : List ℝ) (hl : cls.length = o.length) : writeMeasured cls o vals = writeClassical cls o vals := by
  induction cls using List.reverseRecOn generalizing o with
  | nil =>
    have : o = [] := by simpa using hl.symm
    subst this
    simp [writeMeasured, writeClassical]
  | append_singleton cls n ih =>
    obtain ⟨o, y, rfl⟩ : ∃ o' y, o = o' ++ [y] := by
      rcases List.eq_nil_or_concat o with rfl | ⟨o', y, rfl⟩
      · simp at hl
      · exact ⟨o', y, by simp⟩
    have hl' : cls.length = o.length := by simpa using hl
    rw [writeMeasured_append _ _ _ _ _ hl', ih o hl', writeClassical_append]
    have h1 : writeClassical cls (o ++ [y]) vals = writeClassical cls o vals := by
      rw [← ih o hl']
      unfold writeClassical
      have e : ∀ (l : List (ℕ × ℕ)) (vals : List ℝ), (∀ x ∈ l, x.2 < o.length) →
          l.foldlM (fun (vals : List ℝ) ni => if ni.1 < vals.length then ((o ++ [y])[ni.2]?).map (fun (x : ℕ) => vals.set ni.1 (x : ℝ)) else none) vals =
          l.foldlM (m := Option) (fun (vals : List ℝ) ni => if ni.1 < vals.length then (o[ni.2]?).map (fun (x : ℕ) => vals.set ni.1 (x : ℝ)) else none) vals := by
        intro l
        induction l with
        | nil => intros; rfl
        | cons x l ih =>
          intro vals hx
          rw [List.foldlM_cons, List.foldlM_cons, List.getElem?_append_left (hx x List.mem_cons_self)]
          congr 1
          funext vals'
          exact ih vals' (fun x hx' => hx x (List.mem_cons_of_mem _ hx'))
      rw [e]
      · have := ih o hl'
        unfold writeClassical at this
        exact this.symm
      · intro x hx
        obtain ⟨a, b⟩ := x
        have := List.mem_zipIdx hx
        simp only
        omega
    rw [h1]
    congr 1
    funext vals'
    rw [hl']
    simp

/-! ### Labels -/

theorem mapM_getElem? {opt : List ℕ} {v : Vals} (h : ∀ ch ∈ opt, ch < v.length) : opt.mapM (fun ch => v[ch]?) = some (outcomeOf opt v) := by
  unfold outcomeOf
  refine mapM_some_of ?_
  intro ch hch
  rw [List.getElem?_eq_getElem (h ch hch), List.getD_eq_getElem _ _ (h ch hch)]

theorem outcomeLabel_eq {opt : List ℕ} {v : Vals} (h : ∀ ch ∈ opt, ch < v.length) : outcomeLabel opt v = some ((outcomeOf opt v).map pyStr).flatten := by
  unfold outcomeLabel outcomeOf
  rw [mapM_some_of (g := fun ch => pyStr (v.getD ch 0))]
  · rw [List.map_map]; rfl
  · intro ch hch
    rw [List.getElem?_eq_getElem (h ch hch), List.getD_eq_getElem _ _ (h ch hch)]
    rfl

theorem pyStr_inj {a b : ℕ} (h : pyStr a = pyStr b) : a = b := by rw [← digVal_pyStr a, h, digVal_pyStr]

theorem flatten_pyStr_inj {a b : List ℕ} (hl : a.length = b.length) (ha : ∀ x ∈ a, x < 10) (hb : ∀ x ∈ b, x < 10) (h : (a.map pyStr).flatten = (b.map pyStr).flatten) : a = b := by
  induction a generalizing b with
  | nil => exact (List.length_eq_zero_iff.1 hl.symm).symm
  | cons x a ih =>
    rcases b with _ | ⟨y, b⟩
    · simp at hl
    · have e : ∀ n : ℕ, n < 10 → (pyStr n).length = 1 := by
        intro n hn; unfold pyStr; rw [Nat.toDigits_of_lt_base hn]; rfl
      rw [List.map_cons, List.map_cons, List.flatten_cons, List.flatten_cons] at h
      obtain ⟨h1, h2⟩ := List.append_inj h (by rw [e x (ha x List.mem_cons_self), e y (hb y List.mem_cons_self)])
      rw [pyStr_inj h1, ih (by simpa using hl) (fun z hz => ha z (List.mem_cons_of_mem _ hz)) (fun z hz => hb z (List.mem_cons_of_mem _ hz)) h2]

/-! ### Rescaling -/

theorem rescaleAmplitudes_some {cols out : List Column} (h : rescaleAmplitudes cols = some out) :
    (cols.map (fun c => ‖c.amp‖ ^ 2)).sum ≠ 0 ∧ out = cols.map (fun c => { c with amp := c.amp / ((Real.sqrt (cols.map (fun c => ‖c.amp‖ ^ 2)).sum : ℝ) : ℂ) }) := by
  unfold rescaleAmplitudes at h
  simp only at h
  by_cases hs : (cols.map (fun c => ‖c.amp‖ ^ 2)).sum = 0
  · rw [if_pos hs] at h; cases h
  · rw [if_neg hs] at h
    exact ⟨hs, (Option.some.inj h).symm⟩

theorem sum_rescaled {cols : List Column} (hs : (cols.map (fun c => ‖c.amp‖ ^ 2)).sum ≠ 0) :
    (cols.map (fun c => ‖c.amp / ((Real.sqrt (cols.map (fun c => ‖c.amp‖ ^ 2)).sum : ℝ) : ℂ)‖ ^ 2)).sum = 1 := by
  set S := (cols.map (fun c => ‖c.amp‖ ^ 2)).sum with hS
  have h0 : 0 ≤ S := by
    rw [hS]
    exact List.sum_nonneg (by intro x hx; obtain ⟨c, _, rfl⟩ := List.mem_map.1 hx; positivity)
  have : ∀ c : Column, ‖c.amp / ((Real.sqrt S : ℝ) : ℂ)‖ ^ 2 = ‖c.amp‖ ^ 2 * (1 / S) := by
    intro c
    rw [norm_div, div_pow, Complex.norm_real, Real.norm_eq_abs, sq_abs, Real.sq_sqrt h0]
    ring
  simp only [this]
  rw [List.sum_map_mul_right, ← hS]
  field_simp

theorem rescaleBoson_some {g : Cfg} {c : Column} {v : Vals} (hc : ColumnWith g c v) (ha : c.amp ≠ 0) (hb : 0 < c.boson) :
    rescaleBoson g c = some { c with boson := Real.sqrt (overlapPermanent (photonsOf g c) (photonsOf g c)) } := by
  unfold rescaleBoson
  obtain ⟨h1, h2, _⟩ := hc.photons
  rw [hc.values, Option.bind_some, g.render_of_valid hc.valid, Option.bind_some, pairProbability_eq h1 h1 h2 h2, Option.bind_some, Option.bind_some]
  set P := overlapPermanent (photonsOf g c) (photonsOf g c) with hP
  have hP1 : 1 ≤ P := one_le_overlapPermanent _
  have hn : 0 < ‖c.amp‖ ^ 2 := by positivity
  have e : starRingEnd ℂ c.amp * c.amp / ((c.boson * c.boson : ℝ) : ℂ) * ((P : ℝ) : ℂ) = ((‖c.amp‖ ^ 2 / (c.boson * c.boson) * P : ℝ) : ℂ) := by
    rw [mul_comm (starRingEnd ℂ c.amp), Complex.mul_conj, Complex.normSq_eq_norm_sq]
    push_cast
    ring
  rw [e]
  have hq : 0 < ‖c.amp‖ ^ 2 / (c.boson * c.boson) * P := by positivity
  rw [if_neg]
  · rw [Complex.ofReal_re]
    congr 2
    have : ‖c.amp‖ ^ 2 / (‖c.amp‖ ^ 2 / (c.boson * c.boson) * P) = c.boson ^ 2 / P := by field_simp
    rw [this, Real.sqrt_div (by positivity), Real.sqrt_sq hb.le]
    field_simp
  · push Not
    refine ⟨by exact_mod_cast hq.ne', ha, ?_⟩
    rw [Complex.ofReal_re]
    positivity

theorem rescaleBosons_some {g : Cfg} {cols : List Column} (hc : ∀ c ∈ cols, ∃ v, ColumnWith g c v) (ha : ∀ c ∈ cols, c.amp ≠ 0) (hb : ∀ c ∈ cols, 0 < c.boson) :
    rescaleBosons g cols = some (cols.map (fun c => { c with boson := Real.sqrt (overlapPermanent (photonsOf g c) (photonsOf g c)) })) := by
  unfold rescaleBosons
  refine mapM_some_of ?_
  intro c h
  obtain ⟨v, hv⟩ := hc c h
  exact rescaleBoson_some hv (ha c h) (hb c h)

end Verif
