/- Helper lemmas about photon columns: single-photon columns, condensing, the round trip. -/
import Verif.Lemmas.Columns2

namespace Verif
open Spec MvPolynomial Props

/-- Names of the states of a column: each state has exactly one component, with valid photon numbers. -/
def HasVals (g : Cfg) (s : PState) (v : Vals) : Prop := Valid g v ∧ ∃ k : Comp, s.q.comps = [(g.stdName v, k)] ∧ k.amp = 1

theorem hasVals_of_single {g : Cfg} {c : Column} (hw : ∀ s ∈ c.states, WellFormed g s.q.comps) (hs : SingleUnit c) :
    ∀ s ∈ c.states, ∃ v, HasVals g s v := by
  intro s h
  obtain ⟨⟨nm, k⟩, hp, hk⟩ := hs s h
  obtain ⟨v, hv, e⟩ := (hw s h).named' (p := (nm, k)) (by rw [hp]; simp)
  exact ⟨v, hv, k, by rw [hp, ← e], hk⟩

theorem singles_poly {g : Cfg} {l : List PState} (hs : ∀ s ∈ l, ∃ v, HasVals g s v) {r : List (List PState × ℝ)} (h : l.mapM (singlePhotons g) = some r) :
    (((r.map Prod.fst).flatten).map (statePoly g)).prod = C (((r.map Prod.snd).prod : ℝ) : ℂ) * (l.map (statePoly g)).prod ∧ (r.map Prod.snd).prod ≠ 0 := by
  have h' := mapM_some_iff.1 h
  clear h
  induction h' with
  | nil => simp
  | @cons s r l rs h1 _ ih =>
    obtain ⟨e1, e2⟩ := ih (fun s hs' => hs s (List.mem_cons_of_mem _ hs'))
    obtain ⟨v, hv, k, hc, hk⟩ := hs s List.mem_cons_self
    obtain ⟨f1, f2⟩ := singlePhotons_poly hv hc hk (l := r.1) (b := r.2) h1
    refine ⟨?_, ?_⟩
    · rw [List.map_cons, List.flatten_cons, List.map_append, List.prod_append, e1, f1, List.map_cons, List.prod_cons, List.map_cons, List.prod_cons]
      push_cast
      rw [C_mul]
      ring
    · rw [List.map_cons, List.prod_cons]
      exact mul_ne_zero f2 e2

/-- One component with the photon numbers `v`. -/
def HasNums (g : Cfg) (s : PState) (v : Vals) : Prop := Valid g v ∧ ∃ k : Comp, s.q.comps = [(g.stdName v, k)]

theorem HasVals.nums {g : Cfg} {s : PState} {v : Vals} (h : HasVals g s v) : HasNums g s v := by
  obtain ⟨hv, k, hc, _⟩ := h
  exact ⟨hv, k, hc⟩

theorem hasNums_of_single {g : Cfg} {c : Column} (hw : ∀ s ∈ c.states, WellFormed g s.q.comps) (hs : SingleComponents c) :
    ∀ s ∈ c.states, ∃ v, HasNums g s v := by
  intro s h
  obtain ⟨⟨nm, k⟩, hp⟩ := hs s h
  obtain ⟨v, hv, e⟩ := (hw s h).named' (p := (nm, k)) (by rw [hp]; simp)
  exact ⟨v, hv, k, by rw [hp]; simp only at e; rw [e]⟩

theorem single_of_unit {c : Column} (h : SingleUnit c) : SingleComponents c := fun s hs => by
  obtain ⟨p, hp, _⟩ := h s hs
  exact ⟨p, hp⟩

theorem firstValues_nums {g : Cfg} {s : PState} {v : Vals} (h : HasNums g s v) : firstValues g s = some v := by
  obtain ⟨hv, k, hc⟩ := h
  unfold firstValues
  rw [hc]
  simp [g.parse_stdName hv.2]

theorem forall2_nums {g : Cfg} {l : List PState} (hs : ∀ s ∈ l, ∃ v, HasNums g s v) : ∃ vs, List.Forall₂ (HasNums g) l vs ∧ l.mapM (firstValues g) = some vs := by
  induction l with
  | nil => exact ⟨[], List.Forall₂.nil, rfl⟩
  | cons s l ih =>
    obtain ⟨vs, h1, h2⟩ := ih (fun s hs' => hs s (List.mem_cons_of_mem _ hs'))
    obtain ⟨v, hv⟩ := hs s List.mem_cons_self
    refine ⟨v :: vs, List.Forall₂.cons hv h1, ?_⟩
    rw [mapM_some_iff] at h2 ⊢
    exact List.Forall₂.cons (firstValues_nums hv) h2

theorem firstValues_of {g : Cfg} {s : PState} {v : Vals} (h : HasVals g s v) : firstValues g s = some v := by
  obtain ⟨hv, k, hc, _⟩ := h
  unfold firstValues
  rw [hc]
  simp [g.parse_stdName hv.2]

theorem monoX_fold {g : Cfg} (info : Option PInfo) (l : List Vals) (v : Vals) (hv : v.length = g.C) (hl : ∀ w ∈ l, w.length = g.C) :
    monoX info (l.foldl (fun acc w => List.zipWith (· + ·) w acc) v) = monoX info v * (l.map (fun w => monoX info w)).prod ∧
      (l.foldl (fun acc w => List.zipWith (· + ·) w acc) v).length = g.C := by
  induction l generalizing v with
  | nil => simp [hv]
  | cons w l ih =>
    have hw := hl w List.mem_cons_self
    obtain ⟨e1, e2⟩ := ih (List.zipWith (· + ·) w v) (by simp [hv, hw]) (fun x hx => hl x (List.mem_cons_of_mem _ hx))
    refine ⟨?_, e2⟩
    rw [List.foldl_cons, e1, monoX_add info w v 0 (by rw [hw, hv]), List.map_cons, List.prod_cons]
    ring

theorem states_poly {g : Cfg} (info : Option PInfo) {l : List PState} {vs : List Vals} (h : List.Forall₂ (HasVals g) l vs) (hi : ∀ s ∈ l, s.info = info) :
    (l.map (statePoly g)).prod = C (1 / (((vs.map bosonOf).prod : ℝ) : ℂ)) * (vs.map (fun w => monoX info w)).prod := by
  induction h with
  | nil => simp
  | @cons s v l vs h1 _ ih =>
    obtain ⟨hv, k, hc, hk⟩ := h1
    rw [List.map_cons, List.prod_cons, ih (fun s hs => hi s (List.mem_cons_of_mem _ hs)), statePoly_single s hv hc, hk, ketPoly_eq, hi s List.mem_cons_self]
    simp only [List.map_cons, List.prod_cons]
    push_cast
    rw [one_div, one_div, one_div, mul_inv, C_mul, C_1]
    ring

theorem prod_boson_pos (vs : List Vals) : 0 < (vs.map bosonOf).prod := by
  refine List.prod_pos ?_
  intro x hx
  obtain ⟨v, _, rfl⟩ := List.mem_map.1 hx
  exact bosonOf_pos v

theorem forall2_mapM {g : Cfg} {l : List PState} (hs : ∀ s ∈ l, ∃ v, HasVals g s v) : ∃ vs, List.Forall₂ (HasVals g) l vs ∧ l.mapM (firstValues g) = some vs := by
  induction l with
  | nil => exact ⟨[], List.Forall₂.nil, rfl⟩
  | cons s l ih =>
    obtain ⟨vs, h1, h2⟩ := ih (fun s hs' => hs s (List.mem_cons_of_mem _ hs'))
    obtain ⟨v, hv⟩ := hs s List.mem_cons_self
    refine ⟨v :: vs, List.Forall₂.cons hv h1, ?_⟩
    rw [mapM_some_iff] at h2 ⊢
    exact List.Forall₂.cons (firstValues_of hv) h2

theorem forall2_right {α β : Type*} {R : α → β → Prop} {l : List α} {vs : List β} (h : List.Forall₂ R l vs) : ∀ x ∈ vs, ∃ s, R s x := by
  induction h with
  | nil => simp
  | cons h1 _ ih =>
    intro x hx
    rcases List.mem_cons.1 hx with rfl | hx
    · exact ⟨_, h1⟩
    · exact ih x hx

/-- What `condense` returns. -/
theorem condense_eq {g : Cfg} {c : Column} {v : Vals} {vs : List Vals} {last : PState} (hl : c.states.mapM (firstValues g) = some vs)
    (hv : columnValues g c = some v) (hval : Valid g v) (hlast : c.states.getLast? = some last) (hp : 0 ≤ c.gprob * ‖c.amp‖ ^ 2 ∧ c.gprob * ‖c.amp‖ ^ 2 ≤ 1) :
    c.condense g = some { c with states := [{ last with q := { last.q with comps := [(g.stdName v, ⟨1, ‖(1 : ℂ)‖ ^ 2⟩)], cum := c.gprob * ‖c.amp‖ ^ 2 } }],
                                 boson := c.boson * (vs.map bosonOf).prod / bosonOf v } := by
  unfold Column.condense
  rw [hl, hv]
  simp only [Option.bind_some, g.render_of_valid hval, hlast, setFromList_one hval]
  unfold setCum
  rw [if_pos hp]
  rfl

theorem condense_some {g : Cfg} {c c' : Column} (h : c.condense g = some c') : ∃ vs v nm last comps cum, c.states.mapM (firstValues g) = some vs ∧
    columnValues g c = some v ∧ g.render v = some nm ∧ c.states.getLast? = some last ∧ setFromList g [(nm, 1)] = some comps ∧
    setCum (c.gprob * ‖c.amp‖ ^ 2) = some cum ∧
    c' = { c with states := [{ last with q := { last.q with comps := comps, cum := cum } }], boson := c.boson * (vs.map bosonOf).prod / bosonOf v } := by
  unfold Column.condense at h
  rcases h1 : c.states.mapM (firstValues g) with _ | vs
  · rw [h1] at h; cases h
  rw [h1, Option.bind_some] at h
  rcases h2 : columnValues g c with _ | v
  · rw [h2] at h; cases h
  rw [h2, Option.bind_some] at h
  rcases h3 : g.render v with _ | nm
  · rw [h3] at h; cases h
  rw [h3, Option.bind_some] at h
  rcases h4 : c.states.getLast? with _ | last
  · rw [h4] at h; cases h
  rw [h4, Option.bind_some] at h
  rcases h5 : setFromList g [(nm, 1)] with _ | comps
  · rw [h5] at h; cases h
  rw [h5, Option.bind_some] at h
  rcases h6 : setCum (c.gprob * ‖c.amp‖ ^ 2) with _ | cum
  · rw [h6] at h; cases h
  rw [h6] at h
  exact ⟨vs, v, nm, last, comps, cum, rfl, rfl, h3, rfl, h5, rfl, (Option.some.inj h).symm⟩

theorem columnValues_eq {g : Cfg} {c : Column} {v : Vals} {vs : List Vals} (h : c.states.mapM (firstValues g) = some (v :: vs)) :
    columnValues g c = some (vs.foldl (fun acc w => List.zipWith (· + ·) w acc) v) := by
  unfold columnValues
  rw [h]
  rfl

theorem render_lt {g : Cfg} {v : Vals} {nm : Name} (h : g.render v = some nm) : ∀ x ∈ v, x < g.L := (g.render_some h).1

theorem condense_poly {g : Cfg} {c c' : Column} (hs : ∀ s ∈ c.states, ∃ v, HasVals g s v) (info : Option PInfo) (hi : ∀ s ∈ c.states, s.info = info)
    (h : c.condense g = some c') : columnPoly g c' = columnPoly g c := by
  obtain ⟨vs, v, nm, last, comps, cum, h1, h2, h3, h4, h5, _, rfl⟩ := condense_some h
  obtain ⟨vs', hf, h1'⟩ := forall2_mapM hs
  rw [h1'] at h1
  obtain rfl := Option.some.inj h1
  have hlast : last ∈ c.states := List.mem_of_getLast? h4
  rcases vs' with _ | ⟨w, vs⟩
  · rw [List.forall₂_nil_right_iff.1 hf] at hlast
    cases hlast
  have hlen : ∀ x ∈ w :: vs, x.length = g.C := by
    intro x hx
    obtain ⟨s, hv⟩ := forall2_right hf x hx
    exact hv.1.1
  rw [columnValues_eq h1'] at h2
  obtain rfl := Option.some.inj h2
  obtain ⟨e1, e2⟩ := monoX_fold (g := g) info vs w (hlen w List.mem_cons_self) (fun x hx => hlen x (List.mem_cons_of_mem _ hx))
  set V := vs.foldl (fun acc w => List.zipWith (· + ·) w acc) w with hV
  have hval : Valid g V := ⟨e2, render_lt h3⟩
  rw [g.render_of_valid hval] at h3
  obtain rfl := Option.some.inj h3
  rw [setFromList_one hval] at h5
  obtain rfl := Option.some.inj h5
  unfold columnPoly
  rw [states_poly info hf hi, List.map_singleton, List.prod_singleton, statePoly_single _ hval rfl, ketPoly_eq]
  simp only [hi last hlast]
  rw [e1, C_1, one_mul, List.map_cons (f := fun w => monoX info w), List.prod_cons, ← mul_assoc, ← C_mul, ← mul_assoc (C (c.amp / (c.boson : ℂ))), ← C_mul]
  congr 2
  have hb1 := (prod_boson_pos (w :: vs)).ne'
  have hb2 := (bosonOf_pos V).ne'
  have hb1' : ((List.map bosonOf (w :: vs)).prod : ℂ) ≠ 0 := by exact_mod_cast hb1
  have hb2' : (bosonOf V : ℂ) ≠ 0 := by exact_mod_cast hb2
  push_cast
  by_cases hb : (c.boson : ℂ) = 0
  · rw [hb]; simp
  · field_simp

/-! ### The round trip -/

/-- A list vector added up over the photons is the vector again. -/
theorem fold_getD {n : ℕ} (l : List Vals) (v : Vals) (hv : v.length = n) (hl : ∀ w ∈ l, w.length = n) (i : ℕ) :
    (l.foldl (fun acc w => List.zipWith (· + ·) w acc) v).getD i 0 = v.getD i 0 + (l.map (fun w => w.getD i 0)).sum ∧
      (l.foldl (fun acc w => List.zipWith (· + ·) w acc) v).length = n := by
  induction l generalizing v with
  | nil => simp [hv]
  | cons w l ih =>
    have hw := hl w List.mem_cons_self
    obtain ⟨e1, e2⟩ := ih (List.zipWith (· + ·) w v) (by simp [hv, hw]) (fun x hx => hl x (List.mem_cons_of_mem _ hx))
    refine ⟨?_, e2⟩
    rw [List.foldl_cons, e1, List.map_cons, List.sum_cons]
    have : (List.zipWith (· + ·) w v).getD i 0 = w.getD i 0 + v.getD i 0 := by
      by_cases hi : i < n
      · rw [List.getD_eq_getElem _ _ (by simp [hw, hv, hi]), List.getD_eq_getElem _ _ (by omega), List.getD_eq_getElem _ _ (by omega), List.getElem_zipWith]
      · rw [List.getD_eq_default _ _ (by simp [hw, hv]; omega), List.getD_eq_default _ _ (by omega), List.getD_eq_default _ _ (by omega)]
    rw [this]; ring

theorem oneHot_getD (n ch i : ℕ) (h : ch < n) : (oneHot n ch).getD i 0 = if i = ch then 1 else 0 := by
  unfold oneHot
  rw [List.getD_eq_getElem?_getD, List.getElem?_set]
  by_cases hi : ch = i
  · subst hi; simp [h]
  · rw [if_neg hi, if_neg (fun e => hi e.symm), List.getElem?_replicate]
    split <;> rfl

theorem count_photonChannels (v : Vals) (k i : ℕ) :
    ((v.zipIdx k).flatMap (fun p => List.replicate p.1 p.2)).count i = if k ≤ i then v.getD (i - k) 0 else 0 := by
  induction v generalizing k with
  | nil => simp
  | cons n v ih =>
    rw [List.zipIdx_cons, List.flatMap_cons, List.count_append, ih, List.count_replicate]
    by_cases h1 : k ≤ i
    · rw [if_pos h1]
      by_cases h2 : k = i
      · subst h2
        rw [if_neg (show ¬ k + 1 ≤ k by omega)]
        simp
      · rw [if_pos (by omega : k + 1 ≤ i)]
        obtain ⟨j, rfl⟩ : ∃ j, i = k + 1 + j := ⟨i - (k + 1), by omega⟩
        rw [show k + 1 + j - (k + 1) = j by omega, show k + 1 + j - k = j + 1 by omega]
        simp [h2]
    · rw [if_neg h1, if_neg (show ¬ k + 1 ≤ i by omega)]
      simp; omega

theorem sum_oneHot (v : Vals) (l : List ℕ) (hl : ∀ ch ∈ l, ch < v.length) (i : ℕ) :
    ((l.map (oneHot v.length)).map (fun w => w.getD i 0)).sum = l.count i := by
  induction l with
  | nil => simp
  | cons c l ih =>
    rw [List.map_cons, List.map_cons, List.sum_cons, ih (fun x hx => hl x (List.mem_cons_of_mem _ hx)), oneHot_getD _ _ _ (hl c List.mem_cons_self), List.count_cons]
    by_cases h : i = c
    · subst h; simp; omega
    · rw [if_neg h]; simp; omega

theorem fold_oneHot {v : Vals} {c : ℕ} {l : List ℕ} (h : photonChannels v = c :: l) :
    (l.map (oneHot v.length)).foldl (fun acc w => List.zipWith (· + ·) w acc) (oneHot v.length c) = v := by
  have hm : ∀ ch ∈ c :: l, ch < v.length := fun ch hch => (mem_photonChannels (h ▸ hch)).1
  have hlen : ∀ w ∈ l.map (oneHot v.length), w.length = v.length := by
    intro w hw
    obtain ⟨x, _, rfl⟩ := List.mem_map.1 hw
    simp [oneHot]
  have hc : (oneHot v.length c).length = v.length := by simp [oneHot]
  have hL := (fold_getD (l.map (oneHot v.length)) (oneHot v.length c) hc hlen 0).2
  refine List.ext_getElem hL ?_
  intro i h1 h2
  have e := (fold_getD (l.map (oneHot v.length)) (oneHot v.length c) hc hlen i).1
  have e' := sum_oneHot v (c :: l) hm i
  rw [List.map_cons, List.map_cons, List.sum_cons] at e'
  rw [e', ← h] at e
  unfold photonChannels at e
  rw [count_photonChannels v 0 i, if_pos (Nat.zero_le _), Nat.sub_zero] at e
  rw [List.getD_eq_getElem _ _ h1, List.getD_eq_getElem _ _ h2] at e
  exact e

/-- The parts of a column without its identifier. -/
def Column.shape (c : Column) : List PState × ℂ × ℝ × ℝ := (c.states, c.amp, c.boson, c.gprob)

/-- The column of one component of the state `s` in column `c`. -/
noncomputable def unitShape (c : Column) (s : PState) (p : Name × Comp) : List PState × ℂ × ℝ × ℝ := ([oneComp s p.1 1], c.amp * p.2.amp, c.boson, c.gprob)

theorem split_first {g : Cfg} {c : Column} {s : PState} {p0 p1 : Name × Comp} {rest : Comps} (hc : c.states = [s]) (hs : s.q.comps = p0 :: p1 :: rest)
    (hsp : Splittable g s.q.comps) : ∃ new rem, c.split g = some (some (new, rem)) ∧ new.shape = unitShape c s p0 ∧
      ((rest = [] ∧ rem.shape = unitShape c s p1) ∨ ∃ f : ℂ, f ≠ 0 ∧ rest ≠ [] ∧ rem.states = [{ s with q := { s.q with comps := (p1 :: rest).map (fun p => (p.1, (⟨p.2.amp / f, ‖p.2.amp / f‖ ^ 2⟩ : Comp))) } }] ∧
          rem.amp = c.amp * f ∧ rem.boson = c.boson ∧ rem.gprob = c.gprob) := by
  have hall : ∀ t ∈ c.states, Splittable g t.q.comps := by
    intro t ht; rw [hc] at ht; obtain rfl := List.mem_singleton.1 ht; exact hsp
  obtain ⟨r, hr⟩ := split_defined hall
  rcases split_cases hr (fun t ht => (hall t ht).wf) with ⟨h0, h1⟩ | ⟨pre, t, post, s0, k0, s1, k1, rest', r', e, _, hcc, hcase⟩
  · exfalso
    have := h1 s (by rw [hc]; simp)
    rw [hs] at this
    simp at this
  · rw [hc] at e
    have hpre : pre = [] := by
      cases pre with
      | nil => rfl
      | cons a pre => simp at e
    subst hpre
    simp only [List.nil_append, List.cons.injEq] at e
    obtain ⟨rfl, rfl⟩ := e
    rw [hs] at hcc
    simp only [List.cons.injEq] at hcc
    obtain ⟨rfl, rfl, rfl⟩ := hcc
    rcases hcase with ⟨f, hf, hr2, hrest, _, hr'⟩ | ⟨hrest, hr2, hr'⟩
    · rw [hr2] at hr
      refine ⟨_, _, hr, rfl, Or.inr ⟨f, hf, hrest, ?_, rfl, rfl, rfl⟩⟩
      rw [hr']
      rfl
    · rw [hr2] at hr
      refine ⟨_, _, hr, rfl, Or.inl ⟨hrest, ?_⟩⟩
      rw [hr']
      rfl

theorem splitOnce_all_single {g : Cfg} {cols : List Column} (h : ∀ c ∈ cols, ∀ s ∈ c.states, s.q.comps.length = 1) : splitOnce g cols = some none := by
  induction cols with
  | nil => rfl
  | cons c cols ih =>
    unfold splitOnce
    have : c.split g = some none := by
      unfold Column.split
      have : splitIndex c.states = none := by
        unfold splitIndex
        rw [List.findIdx?_eq_none_iff]
        intro s hs
        simpa using h c List.mem_cons_self s hs
      rw [this]
    rw [this]
    simp only [Option.bind_some]
    rw [ih (fun d hd => h d (List.mem_cons_of_mem _ hd))]
    rfl

theorem splitColumns_all_single {g : Cfg} {cols : List Column} (fuel : ℕ) (h : ∀ c ∈ cols, ∀ s ∈ c.states, s.q.comps.length = 1) :
    splitColumns g (fuel + 1) cols = some cols := by
  unfold splitColumns
  rw [splitOnce_all_single h]
  rfl

theorem splitColumns_chain {g : Cfg} (n : ℕ) (fuel : ℕ) {c : Column} {s : PState} {done : List Column} {p0 : Name × Comp} {rest : Comps} (hc : c.states = [s])
    (hs : s.q.comps = p0 :: rest) (hn : rest.length = n + 1) (hsp : Splittable g s.q.comps) (hd : ∀ c ∈ done, ∀ s ∈ c.states, s.q.comps.length = 1)
    (hf : rest.length < fuel) : ∃ out, splitColumns g fuel (c :: done) = some out ∧
      ∃ init last, p0 :: rest = init ++ [last] ∧ out.map Column.shape = unitShape c s last :: done.map Column.shape ++ init.map (unitShape c s) := by
  induction n generalizing fuel c s done p0 rest with
  | zero =>
    obtain ⟨p1, rfl⟩ : ∃ p1, rest = [p1] := List.length_eq_one_iff.1 hn
    obtain ⟨fuel, rfl⟩ : ∃ k, fuel = k + 2 := ⟨fuel - 2, by simp at hf; omega⟩
    obtain ⟨new, rem, hsplit, hnew, hcase⟩ := split_first hc hs hsp
    have honce : splitOnce g (c :: done) = some (some (rem :: done, new)) := by
      unfold splitOnce; rw [hsplit]; rfl
    unfold splitColumns
    rw [honce]
    simp only [Option.bind_some]
    set new' : Column := { new with id := nextColumnId (rem :: done) } with hn'
    have hnew' : new'.shape = unitShape c s p0 := hnew
    rcases hcase with ⟨_, hrem⟩ | ⟨f, _, hrest, _⟩
    · refine ⟨rem :: done ++ [new'], ?_, [p0], p1, rfl, ?_⟩
      · refine splitColumns_all_single fuel ?_
        intro d hdm t ht
        rcases List.mem_cons.1 hdm with h | h
        · subst h
          have : d.states = [oneComp s p1.1 1] := (Prod.mk.inj hrem).1
          rw [this] at ht
          obtain rfl := List.mem_singleton.1 ht
          rfl
        · rcases List.mem_append.1 h with h | h
          · exact hd d h t ht
          · obtain rfl := List.mem_singleton.1 h
            have : new'.states = [oneComp s p0.1 1] := (Prod.mk.inj hnew').1
            rw [this] at ht
            obtain rfl := List.mem_singleton.1 ht
            rfl
      · rw [List.cons_append, List.map_cons, List.map_append, hrem]
        simp [hnew']
    · exact absurd rfl hrest
  | succ n ih =>
    rcases rest with _ | ⟨p1, rest⟩
    · simp at hn
    obtain ⟨fuel, rfl⟩ : ∃ k, fuel = k + 1 := ⟨fuel - 1, by omega⟩
    obtain ⟨new, rem, hsplit, hnew, hcase⟩ := split_first hc hs hsp
    have honce : splitOnce g (c :: done) = some (some (rem :: done, new)) := by
      unfold splitOnce; rw [hsplit]; rfl
    unfold splitColumns
    rw [honce]
    simp only [Option.bind_some]
    set new' : Column := { new with id := nextColumnId (rem :: done) } with hn'
    have hnew' : new'.shape = unitShape c s p0 := hnew
    have hdone : ∀ c ∈ done ++ [new'], ∀ s ∈ c.states, s.q.comps.length = 1 := by
      intro d hdm t ht
      rcases List.mem_append.1 hdm with h | h
      · exact hd d h t ht
      · obtain rfl := List.mem_singleton.1 h
        have : new'.states = [oneComp s p0.1 1] := (Prod.mk.inj hnew').1
        rw [this] at ht
        obtain rfl := List.mem_singleton.1 ht
        rfl
    rcases hcase with ⟨hrest, hrem⟩ | ⟨f, hf0, hrest, hst, ha, hb, hg⟩
    · subst hrest; simp at hn
    · have hsp' : Splittable g ((p1 :: rest).map (fun p => (p.1, (⟨p.2.amp / f, ‖p.2.amp / f‖ ^ 2⟩ : Comp)))) := by
        have := (split_keeps hsplit (by intro t ht; rw [hc] at ht; obtain rfl := List.mem_singleton.1 ht; exact hsp)).2.1
        rw [hst] at this
        exact this _ List.mem_cons_self
      obtain ⟨out, e1, init', last', e2, e3⟩ := ih fuel (c := rem) (done := done ++ [new'])
        (rest := rest.map (fun p => (p.1, (⟨p.2.amp / f, ‖p.2.amp / f‖ ^ 2⟩ : Comp)))) hst rfl (by simpa using hn) hsp' hdone (by simpa using hf)
      have e2' : (p1 :: rest).map (fun p => (p.1, (⟨p.2.amp / f, ‖p.2.amp / f‖ ^ 2⟩ : Comp))) = init' ++ [last'] := by rw [List.map_cons, e2]
      obtain ⟨i, l, hil, rfl, hl⟩ := List.map_eq_append_iff.1 e2'
      obtain ⟨last, rfl, hlast⟩ : ∃ last : Name × Comp, l = [last] ∧ (last.1, (⟨last.2.amp / f, ‖last.2.amp / f‖ ^ 2⟩ : Comp)) = last' := by
        rcases l with _ | ⟨a, _ | ⟨b, l⟩⟩
        · simp at hl
        · simp only [List.map_cons, List.map_nil, List.cons.injEq, and_true] at hl
          exact ⟨a, rfl, hl⟩
        · simp at hl
      refine ⟨out, e1, p0 :: i, last, by rw [hil]; rfl, ?_⟩
      have hu : ∀ p : Name × Comp, ∀ cs, unitShape rem { s with q := { s.q with comps := cs } } (p.1, (⟨p.2.amp / f, ‖p.2.amp / f‖ ^ 2⟩ : Comp)) = unitShape c s p := by
        intro p cs
        unfold unitShape
        rw [ha, hb, hg]
        congr 2
        simp only
        rw [mul_assoc, mul_div_cancel₀ _ hf0]
      rw [e3, ← hlast, hu, List.map_map, List.map_append, List.map_cons]
      have : (i.map (unitShape rem { s with q := { s.q with comps := (p1 :: rest).map (fun p => (p.1, (⟨p.2.amp / f, ‖p.2.amp / f‖ ^ 2⟩ : Comp))) } } ∘
          fun p => (p.1, (⟨p.2.amp / f, ‖p.2.amp / f‖ ^ 2⟩ : Comp)))) = i.map (unitShape c s) := by
        refine List.map_congr_left ?_
        intro p _
        exact hu p _
      rw [this]
      simp [hnew']

end Verif
