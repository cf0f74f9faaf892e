/-
Lemmas for the Born rule: a group as columns of single photons.
-/
import Verif.Lemmas.Interference2

namespace Verif
open Spec Props MvPolynomial

/-- A column of single photons made from `c`. -/
structure PhotonColumn (g : Cfg) (m : ℕ) (gp : ℝ) (α : ℕ → ℂ) (c c' : Column) : Prop where
  photons : ∀ s ∈ c'.states, PhotonState g s
  poly : columnPoly g c' = columnPoly g c
  withs : ∃ V, ColumnWith g c' V ∧ phaseOf c' = numbersPhase α V
  amp : c'.amp = c.amp
  gprob : c'.gprob = gp
  boson : 0 < c'.boson
  id : c'.id = c.id
  classical : ∀ s ∈ c'.states, s.q.classical.length = m
  skel : ∀ s ∈ c'.states, ∃ t ∈ c.states, Verif.skel s = Verif.skel t

theorem photonState_wf {g : Cfg} {s : PState} (h : PhotonState g s) : WellFormed g s.q.comps := by
  obtain ⟨v, a, hv, _, hc⟩ := h
  rw [hc]
  refine ⟨by simp, ?_⟩
  intro p hp
  obtain rfl := List.mem_singleton.1 hp
  exact ⟨v, hv, (isName_iff hv).2 rfl⟩

theorem photon_columns {g : Cfg} {m : ℕ} {gp : ℝ} {α : ℕ → ℂ} {c : Column} (hc : InterferingColumn g m gp α c) (h1 : ∀ s ∈ c.states, s.q.comps.length = 1) :
    ∃ c', c.singlePhotonStates g = some c' ∧ PhotonColumn g m gp α c c' := by
  have key : ∀ l : List PState, (∀ s ∈ l, InterferingState g α s ∧ s.q.comps.length = 1) →
      ∃ (r : List (List PState × ℝ)) (vs ws : List Vals), l.mapM (singlePhotons g) = some r ∧ List.Forall₂ (HasNums g) l vs ∧ 0 < (r.map Prod.snd).prod ∧
        (l ≠ [] → (r.map Prod.fst).flatten ≠ []) ∧
        (((r.map Prod.fst).flatten).map (statePoly g)).prod = C (((r.map Prod.snd).prod : ℝ) : ℂ) * (l.map (statePoly g)).prod ∧
        (((r.map Prod.fst).flatten).map headAmp).prod = (vs.map (numbersPhase α)).prod ∧ ((r.map Prod.fst).flatten).mapM (firstValues g) = some ws ∧
        (∀ w ∈ ws, w.length = g.C) ∧ (∀ ch, (vs.map (fun w => w.getD ch 0)).sum = (ws.map (fun w => w.getD ch 0)).sum) ∧
        ∀ t ∈ (r.map Prod.fst).flatten, PhotonState g t ∧ ∃ s ∈ l, skel t = skel s := by
    intro l
    induction l with
    | nil => intro _; exact ⟨[], [], [], rfl, .nil, by simp, by simp, by simp, rfl, rfl, by simp, by simp, by simp⟩
    | cons s l ih =>
      intro hl
      obtain ⟨r, vs, ws, a1, a2, a3, a4, a5, a6, a7, a8, a9, a10⟩ := ih (fun s hs => hl s (List.mem_cons_of_mem _ hs))
      obtain ⟨v, ls, b, us, b1, b2, b3, b4, b5, b6, b7, b8, b9, b10⟩ := singlePhotons_all (hl s List.mem_cons_self).1 (hl s List.mem_cons_self).2
      refine ⟨(ls, b) :: r, v :: vs, us ++ ws, by rw [List.mapM_cons, b2, a1]; rfl, .cons b1 a2, ?_, ?_, ?_, ?_, ?_, ?_, ?_, ?_⟩
      · rw [List.map_cons, List.prod_cons]; exact mul_pos b3 a3
      · intro _; simp [b4]
      · simp only [List.map_cons, List.flatten_cons, List.map_append, List.prod_append, List.prod_cons, a5, b5]
        push_cast
        rw [C_mul]
        ring
      · simp only [List.map_cons, List.flatten_cons, List.map_append, List.prod_append, List.prod_cons, a6, b6]
      · rw [List.map_cons, List.flatten_cons]
        have : ∀ (x y : List PState) (p q : List Vals), x.mapM (firstValues g) = some p → y.mapM (firstValues g) = some q → (x ++ y).mapM (firstValues g) = some (p ++ q) := by
          intro x y p q hx hy
          rw [mapM_some_iff] at hx hy ⊢
          exact List.rel_append hx hy
        exact this _ _ _ _ b7 a7
      · intro w hw
        rcases List.mem_append.1 hw with hw | hw
        · exact b8 w hw
        · exact a8 w hw
      · intro ch
        rw [List.map_cons, List.sum_cons, a9, b9, List.map_append, List.sum_append]
      · intro t ht
        rw [List.map_cons, List.flatten_cons] at ht
        rcases List.mem_append.1 ht with ht | ht
        · exact ⟨(b10 t ht).1, s, List.mem_cons_self, (b10 t ht).2⟩
        · obtain ⟨q1, u, hu, q2⟩ := a10 t ht
          exact ⟨q1, u, List.mem_cons_of_mem _ hu, q2⟩
  obtain ⟨r, vs, ws, a1, a2, a3, a4, a5, a6, a7, a8, a9, a10⟩ := key c.states (fun s hs => ⟨hc.states s hs, h1 s hs⟩)
  have hfit : ∀ ch < g.C, (vs.map (fun w => w.getD ch 0)).sum < g.L := by
    refine hc.fits vs (a2.imp ?_)
    rintro s w ⟨hw, k, hk⟩
    exact ⟨(g.stdName w, k), by rw [hk]; simp, (isName_iff hw).2 rfl, hw⟩
  let c' : Column := { c with states := (r.map Prod.fst).flatten, boson := c.boson * (r.map Prod.snd).prod }
  have hne := a4 hc.nonempty
  have hwne : ws ≠ [] := by
    intro h0
    rw [h0, mapM_some_iff] at a7
    exact hne (List.forall₂_nil_right_iff.1 a7)
  obtain ⟨V, v1, v2, v3⟩ := columnValues_sum (g := g) (c := c') a7 hwne a8
  have hV : Valid g V := valid_of_lt v2 (fun ch hch => by rw [v3, ← a9]; exact hfit ch hch)
  have hvl : ∀ w ∈ vs, w.length = g.C := by
    intro w hw
    obtain ⟨s, hs⟩ := forall2_right a2 w hw
    exact hs.1.1
  refine ⟨c', by unfold Column.singlePhotonStates; rw [a1]; rfl, ⟨fun s hs => (a10 s hs).1, ?_, ⟨V, ⟨?_, ?_, v1, hV⟩, ?_⟩, rfl, hc.gprob, mul_pos hc.boson a3, rfl, ?_, fun s hs => (a10 s hs).2⟩⟩
  · show C (c.amp / ((c.boson * (r.map Prod.snd).prod : ℝ) : ℂ)) * (((r.map Prod.fst).flatten).map (statePoly g)).prod = C (c.amp / (c.boson : ℂ)) * (c.states.map (statePoly g)).prod
    rw [a5, ← mul_assoc, ← C_mul]
    congr 2
    have h1 : (c.boson : ℂ) ≠ 0 := by exact_mod_cast hc.boson.ne'
    have h2 : (((r.map Prod.snd).prod : ℝ) : ℂ) ≠ 0 := by exact_mod_cast a3.ne'
    rw [Complex.ofReal_mul]
    field_simp
  · exact fun s hs => photonState_wf (a10 s hs).1
  · intro s hs
    obtain ⟨v, a, _, _, e⟩ := (a10 s hs).1
    exact ⟨_, e⟩
  · show (((r.map Prod.fst).flatten).map headAmp).prod = _
    rw [a6, numbersPhase_sum α v2 hvl (fun ch _ => by rw [v3, a9])]
  · intro s hs
    obtain ⟨_, t, ht, e⟩ := a10 s hs
    have : s.q.classical = t.q.classical := congrArg (fun x : QState × Option PInfo => x.1.classical) e
    rw [this]
    exact hc.classical t ht

theorem interfering_spl {g : Cfg} {m : ℕ} {gp : ℝ} {α : ℕ → ℂ} {cols : List Column} (hs : ∀ c ∈ cols, InterferingColumn g m gp α c) : SplCols g cols :=
  fun c hc s hs' => splits_spl ((hs c hc).states s hs').splits

/-- A group as columns of single photons. -/
structure PhotonGroup (g : Cfg) (m : ℕ) (gp : ℝ) (α : ℕ → ℂ) (cols out : List Column) : Prop where
  photons : ∀ c ∈ out, ∀ s ∈ c.states, PhotonState g s
  poly : groupPoly g out = groupPoly g cols
  phases : ∀ c ∈ out, ∃ V, ColumnWith g c V ∧ phaseOf c = numbersPhase α V
  measurable : MeasurableGroup g m out
  gprob : ∀ c ∈ out, c.gprob = gp

theorem photon_split {g : Cfg} {m : ℕ} {gp : ℝ} {α : ℕ → ℂ} {cols : List Column} (hs : ∀ c ∈ cols, InterferingColumn g m gp α c) {fuel : ℕ} (hf : totalWeight cols < fuel + cols.length) :
    ∃ out, toPhotons g fuel cols = some out ∧ PhotonGroup g m gp α cols out := by
  have hspl := interfering_spl hs
  obtain ⟨out, ho, _⟩ := splitColumns_defined fuel hspl hf
  have hint := interfering_columns fuel ho hs
  obtain ⟨p1, _, p3⟩ := splitColumns_poly fuel ho (fun c hc s hs' => ((hs c hc).states s hs').splits.wf)
  obtain ⟨out', o1, o2⟩ := mapM_exists (f := Column.singlePhotonStates g) (R := PhotonColumn g m gp α) (fun c hc => photon_columns (hint c hc) (p3 c hc))
  have hcol : ∀ c' ∈ out', ∃ c ∈ out, PhotonColumn g m gp α c c' := fun c' hc' => forall2_left_mem o2.flip c' hc'
  refine ⟨out', by unfold toPhotons; rw [ho, Option.bind_some, o1], ?_, ?_, ?_, ?_, ?_⟩
  · intro c hc
    obtain ⟨_, _, h⟩ := hcol c hc
    exact h.photons
  · rw [← p1]
    unfold groupPoly
    have hsum : ∀ {a b : List Column}, List.Forall₂ (PhotonColumn g m gp α) a b → (b.map (columnPoly g)).sum = (a.map (columnPoly g)).sum := by
      intro a b h
      induction h with
      | nil => rfl
      | cons h1 _ ih => rw [List.map_cons, List.map_cons, List.sum_cons, List.sum_cons, ih, h1.poly]
    exact hsum o2
  · intro c hc
    obtain ⟨_, _, h⟩ := hcol c hc
    exact h.withs
  · refine ⟨?_, ?_, ?_, ?_, ?_⟩
    · intro c hc
      obtain ⟨_, _, h⟩ := hcol c hc
      obtain ⟨V, h, _⟩ := h.withs
      exact ⟨V, h⟩
    · intro c hc
      obtain ⟨d, hd, h⟩ := hcol c hc
      rw [h.amp]
      exact (hint d hd).amp
    · intro c hc
      obtain ⟨_, _, h⟩ := hcol c hc
      exact h.boson
    · intro c hc c' hc'
      obtain ⟨_, _, h⟩ := hcol c hc
      obtain ⟨_, _, h'⟩ := hcol c' hc'
      rw [h.gprob, h'.gprob]
    · intro c hc
      obtain ⟨_, _, h⟩ := hcol c hc
      exact h.classical
  · intro c hc
    obtain ⟨_, _, h⟩ := hcol c hc
    exact h.gprob

end Verif
