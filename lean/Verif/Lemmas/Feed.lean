/-
Measurement as projection of the polynomial, and feed-forward (property C124).
-/
import Verif.Spec.Feed
import Verif.Props.Born
import Verif.Props.Classical

namespace Verif
open Spec Props MvPolynomial

theorem forall₂_mem_imp {α β : Type*} {R S : α → β → Prop} {l : List α} {m : List β} (hi : ∀ a b, b ∈ m → R a b → S a b) (h : List.Forall₂ R l m) : List.Forall₂ S l m := by
  induction h with
  | nil => exact .nil
  | cons h1 _ ih => exact .cons (hi _ _ (by simp) h1) (ih fun a b hb => hi a b (by simp [hb]))

theorem forall₂_mem_imp_left {α β : Type*} {R S : α → β → Prop} {l : List α} {m : List β} (hi : ∀ a b, a ∈ l → R a b → S a b) (h : List.Forall₂ R l m) : List.Forall₂ S l m := by
  induction h with
  | nil => exact .nil
  | cons h1 _ ih => exact .cons (hi _ _ (by simp) h1) (ih fun a b hb => hi a b (by simp [hb]))

theorem coeff_foundPart (opt o : List ℕ) (P : MvPolynomial Mode ℂ) (d : Mode →₀ ℕ) :
    (foundPart opt o P).coeff d = if opt.map (fun x => d (x, none)) = o then P.coeff d else 0 := by
  classical
  unfold foundPart
  rw [coeff_sum]
  simp only [coeff_monomial]
  rw [Finset.sum_ite_eq']
  by_cases h : opt.map (fun x => d (x, none)) = o
  · simp only [Finset.mem_filter, mem_support_iff, h, and_true, if_true]
    split
    · rfl
    · rename_i h0; exact (not_not.1 h0).symm
  · simp [h]

theorem foundPart_add (opt o : List ℕ) (P Q : MvPolynomial Mode ℂ) : foundPart opt o (P + Q) = foundPart opt o P + foundPart opt o Q := by
  ext d
  simp only [coeff_foundPart, coeff_add]
  split <;> simp

theorem foundPart_sub (opt o : List ℕ) (P Q : MvPolynomial Mode ℂ) : foundPart opt o (P - Q) = foundPart opt o P - foundPart opt o Q := by
  ext d
  simp only [coeff_foundPart, coeff_sub]
  split <;> simp

theorem foundPart_C_mul (opt o : List ℕ) (a : ℂ) (P : MvPolynomial Mode ℂ) : foundPart opt o (C a * P) = C a * foundPart opt o P := by
  ext d
  simp only [coeff_foundPart, coeff_C_mul]
  split <;> simp

theorem foundPart_sum {ι : Type*} (opt o : List ℕ) (s : Finset ι) (f : ι → MvPolynomial Mode ℂ) : foundPart opt o (∑ i ∈ s, f i) = ∑ i ∈ s, foundPart opt o (f i) := by
  ext d
  simp only [coeff_foundPart, coeff_sum]
  split <;> simp

theorem foundPart_ket (opt o : List ℕ) (v : Vals) : foundPart opt o (ketPoly none v) = if outcomeOf opt v = o then ketPoly none v else 0 := by
  classical
  ext d
  rw [coeff_foundPart]
  have e : opt.map (fun x => monoOf none v (x, none)) = outcomeOf opt v := List.map_congr_left fun x _ => monoOf_apply none v x
  by_cases h : monoOf none v = d
  · subst h
    rw [e]
    split <;> simp
  · have h0 : (ketPoly none v).coeff d = 0 := by rw [ketPoly_mono, coeff_monomial, if_neg h]
    rw [h0]
    split <;> split <;> simp [h0]

theorem foundPart_vec (g : Cfg) (opt o : List ℕ) (x : ℕ → ℂ) : foundPart opt o (vecPoly g none x) = vecPoly g none (part g opt o x) := by
  unfold vecPoly
  rw [foundPart_sum]
  refine Finset.sum_congr rfl fun k _ => ?_
  rw [foundPart_C_mul, foundPart_ket]
  unfold part
  split <;> simp

theorem vecPoly_smul (g : Cfg) (a : ℂ) (x : ℕ → ℂ) : vecPoly g none (fun k => a * x k) = C a * vecPoly g none x := by
  unfold vecPoly
  rw [Finset.mul_sum]
  refine Finset.sum_congr rfl fun k _ => ?_
  rw [C_mul, mul_assoc]

theorem oneByOne_below {g : Cfg} (hg : g.Ok) {gates : List Gate} {nodes : List (Opt × List ℕ)} (h : List.Forall₂ (GateNode g) gates nodes) (x : ℕ → ℂ)
    (hx : ∀ v, Valid g v → x (g.indexOf v) ≠ 0 → v.sum < g.L) (v : Vals) (hv : Valid g v) (h0 : oneByOne g nodes x (g.indexOf v) ≠ 0) : v.sum < g.L := by
  induction h generalizing x with
  | nil => exact hx v hv h0
  | @cons e n gates nodes h1 _ ih =>
    have e1 : oneByOne g (n :: nodes) x = oneByOne g nodes ((fockNode g (standardKeys g) n.1 n.2 .all).1.mulVec x) := rfl
    rw [e1] at h0
    exact ih _ (fun v hv h0 => gate_support hg h1.h h1.c h1.ne h1.order h1.list x hx hv h0) h0

theorem findProb_notDropped {g : Cfg} {thr : ℝ} {P : MvPolynomial Mode ℂ} (h : NotDropped g thr P) (hL : 1 ≤ g.L) (opt o : List ℕ) :
    findProb g thr P opt o = findProb g 0 P opt o := by
  rw [findProb_sum hL, findProb_sum hL]
  refine Finset.sum_congr rfl fun i _ => ?_
  have hv := g.valid_valuesFromIndex hL i
  by_cases h1 : outcomeOf opt (g.valuesFromIndex i) = o
  · by_cases h2 : thr ≤ ‖amplitudeIn P none (g.valuesFromIndex i)‖ ^ 2
    · rw [if_pos ⟨h1, h2⟩, if_pos ⟨h1, by positivity⟩]
    · rw [if_neg (fun k => h2 k.2), if_pos ⟨h1, by positivity⟩, h _ hv (not_le.1 h2)]
      simp
  · rw [if_neg (fun k => h1 k.1), if_neg (fun k => h1 k.1)]

/-- a sendable state after optics that drop nothing: its polynomial and its photon numbers -/
theorem sent_poly {g : Cfg} (hg : g.Ok) {thr : ℝ} (ht : 0 < thr) {full : Bool} {gates : List Gate} {n : Opt × List ℕ} {l : List (Opt × List ℕ)}
    (hu : LosslessElements g gates (n :: l)) {m : ℕ} {q : QState} (hq : Sendable g m q) (hd : NotDropped g thr (opticsSubst gates (statePolynomial g q))) {c' : Comps}
    (hc : applyOptical g thr full (standardKeys g) n l q.comps = some c') :
    statePolynomial g { q with comps := c' } = opticsSubst gates (statePolynomial g q) ∧
      ∀ p ∈ c', ∀ v, IsName g v p.1 → Valid g v → v.sum < g.L := by
  constructor
  · obtain ⟨c'', h1, -, -, h2⟩ := C100_state_partial g hg thr full gates n l hu.1 ⟨q, none⟩ hq.measurable.wf hq.nonempty hq.few hd
    obtain rfl : c' = c'' := Option.some.inj (hc.symm.trans h1)
    exact h2 ⟨{ q with comps := c' }, none⟩ rfl rfl
  · have hn := nodes_unitary hu
    have he := applyOptical_eq hg thr full n l (hn n (by simp)).1 (fun k hk => (hn k (by simp [hk])).1) hq.measurable.wf hq.nonempty
    obtain ⟨c'', hc'', hw, -, hget⟩ := fromVector_spec hg.1 thr (oneByOne g (n :: l) (vec g q.comps))
    rw [he, hc''] at hc
    obtain rfl := Option.some.inj hc
    intro p hp v hv hval
    refine oneByOne_below hg hu.1 (vec g q.comps) (fun v hv => support_comps hq.few hv) v hval ?_
    intro h0
    have hi := g.indexOf_lt hval
    have := hget _ hi
    have hnm : g.nm (g.indexOf v) = p.1 := by
      rw [(isName_iff hval).1 hv]; unfold Cfg.nm; rw [g.valuesFromIndex_indexOf hval]
    rw [hnm, h0, if_pos (by simpa using ht)] at this
    exact Dict.get?_eq_none.1 this (List.mem_map_of_mem hp)

/-- what a measurement leaves, for a state whose polynomial is known -/
theorem found_of_produced {g : Cfg} (hg : g.Ok) {opt cls : List ℕ} (hlen : cls.length = opt.length) (hnd : cls.Nodup) {P : MvPolynomial Mode ℂ} {q q' : QState} {d : Comps} {o : List ℕ}
    (hw : WellFormed g d) (hP : statePolynomial g { q with comps := d } = P) (hf : outcomeProb g opt d o = findProb g 0 P opt o)
    (h : Produced g opt cls { q with comps := d } o q') (hcl : q'.classical.length = q.classical.length) : FoundState g opt cls P q o q' := by
  have hpos := h.pos
  have hcum := h.cum
  have hamp := h.amp
  simp only [hf] at hpos hcum hamp
  refine ⟨hpos, hcum, ?_, h.initial, ?_, h.kept, hcl⟩
  · have e1 : statePolynomial g q' = vecPoly g none (vec g q'.comps) := statePoly_vec hg.1 ⟨q', none⟩ h.wf
    have e2 : P = vecPoly g none (vec g d) := by rw [← hP]; exact statePoly_vec hg.1 ⟨{ q with comps := d }, none⟩ hw
    rw [e1]
    conv_rhs => rw [e2]
    rw [foundPart_vec, ← vecPoly_smul, ← e2]
    refine vecPoly_congr fun k hk => ?_
    have hv := g.valid_valuesFromIndex hg.1 k
    have ei : ∀ c : Comps, vec g c k = ampOf c (g.stdName (g.valuesFromIndex k)) := fun c => by rw [← vec_index hv, g.indexOf_valuesFromIndex hk]
    rw [ei]
    unfold part
    have hn := (isName_iff hv).2 rfl
    split
    · rename_i ho
      rw [hamp _ _ hv hn ho.symm, ei]
      ring
    · rename_i ho
      rw [mul_zero, ampOf]
      cases hk' : Dict.get? q'.comps (g.stdName (g.valuesFromIndex k)) with
      | none => rfl
      | some a =>
        have := ((h.mem _ _ hv hn).1 (List.mem_map_of_mem (Dict.get?_mem hk'))).2
        exact absurd this.symm ho
  · intro i x hi
    have := (shown_produced hlen hnd h o).2 rfl
    unfold Shown at this
    rw [List.forall₂_iff_get] at this
    obtain ⟨hl, hg2⟩ := this
    obtain ⟨li, hx⟩ := List.getElem?_eq_some_iff.1 hi
    simp only [List.length_map] at hl
    have := hg2 i (by simpa using li) (by simp; omega)
    simp only [List.get_eq_getElem, List.getElem_map, hx, pyGet_nat] at this
    rw [this, List.getElem?_eq_getElem (by omega)]
    rfl

/-- a produced state can be sent on -/
theorem sendable_of_produced {g : Cfg} {m : ℕ} {opt cls : List ℕ} {q q' : QState} {o : List ℕ} (hq : Measurable g m q) (hfew : ∀ p ∈ q.comps, ∀ v, IsName g v p.1 → Valid g v → v.sum < g.L)
    (h : Produced g opt cls q o q') (hc : q'.classical.length = m) (hle : q'.cum ≤ 1) : Sendable g m q' := by
  refine ⟨⟨h.wf, h.probs, h.norm.le, ?_, hle, hc⟩, comps_ne_nil h.norm, ?_⟩
  · rw [h.cum]
    refine mul_nonneg hq.cum0 ?_
    unfold outcomeProb
    refine List.sum_nonneg fun x hx => ?_
    obtain ⟨p, -, rfl⟩ := List.mem_map.1 hx
    split <;> positivity
  · intro p hp v hv hval
    obtain ⟨h1, -⟩ := (h.mem v p.1 hval hv).1 (List.mem_map_of_mem hp)
    obtain ⟨r, hr, e⟩ := List.mem_map.1 h1
    exact hfew r hr v (by rw [e]; exact hv) hval

theorem outcomeProb_le (g : Cfg) (opt o : List ℕ) (c : Comps) : outcomeProb g opt c o ≤ totalProb c := by
  unfold outcomeProb totalProb
  refine List.sum_le_sum fun p _ => ?_
  split
  · exact le_rfl
  · positivity

theorem outcomeProb_nonneg (g : Cfg) (opt o : List ℕ) (c : Comps) : 0 ≤ outcomeProb g opt c o := by
  unfold outcomeProb
  refine List.sum_nonneg fun x hx => ?_
  obtain ⟨p, -, rfl⟩ := List.mem_map.1 hx
  split <;> positivity

theorem produced_cum_le {g : Cfg} {m : ℕ} {opt cls : List ℕ} {q q' : QState} {o : List ℕ} (hq : Measurable g m q) (h : Produced g opt cls q o q') : q'.cum ≤ 1 := by
  rw [h.cum]
  have h1 := outcomeProb_le g opt o q.comps
  have h2 := outcomeProb_nonneg g opt o q.comps
  have := hq.total
  have := hq.cum0
  have := hq.cum1
  nlinarith

/-- all states of a collection sent through optics and measured -/
theorem found_coll {c : Circ} (hg : c.g.Ok) (ht : 0 < c.thr)
    (gates : List Gate) (n : Opt × List ℕ) (l : List (Opt × List ℕ)) (hu : LosslessElements c.g gates (n :: l))
    (opt cls : List ℕ) (hlen : cls.length = opt.length) (hnd : cls.Nodup) (hcls : ∀ x ∈ cls, x < c.m)
    (kinds : List Bool) (i : ℕ)
    (coll : Coll) (hid : (coll.map Prod.fst).Nodup) (hq : ∀ p ∈ coll, Sendable c.g c.m p.2)
    (hd : ∀ p ∈ coll, NotDropped c.g c.thr (opticsSubst gates (statePolynomial c.g p.2))) :
    ∃ out, (opticalColl c n l coll).bind (measureColl c.g c.thr c.m (measurementId kinds i) opt cls) = some out ∧ (out.map Prod.fst).Nodup ∧
      (∀ p ∈ out, Sendable c.g c.m p.2) ∧
      ∃ idx : List ((List Char × QState) × List ℕ), idx.Nodup ∧
        (∀ x, x ∈ idx ↔ x.1 ∈ coll ∧ findProb c.g 0 (opticsSubst gates (statePolynomial c.g x.1.2)) opt x.2 ≠ 0) ∧
        List.Forall₂ (fun x p => FoundState c.g opt cls (opticsSubst gates (statePolynomial c.g x.1.2)) x.1.2 x.2 p.2) idx out := by
  classical
  have hex : ∀ cs : Coll, (∀ p ∈ cs, p ∈ coll) → ∃ gated : Coll, List.Forall₂ (fun p p' => ∃ comps, applyOptical c.g c.thr c.full (basisKeys c.g) n l p.2.comps = some comps ∧
        p' = (p.1, { p.2 with comps := comps })) cs gated := by
    intro cs
    induction cs with
    | nil => intro _; exact ⟨[], List.Forall₂.nil⟩
    | cons p cs ih =>
      intro hcs
      obtain ⟨gd, hgd⟩ := ih (fun p hp => hcs p (by simp [hp]))
      obtain ⟨d, hd, -⟩ := sent_measurable (full := c.full) hg ht hu (hq p (hcs p (by simp)))
      exact ⟨(p.1, { p.2 with comps := d }) :: gd, List.Forall₂.cons ⟨d, hd, rfl⟩ hgd⟩
  obtain ⟨gated, hgated⟩ := hex coll (fun p hp => hp)
  clear hex
  have hopt : opticalColl c n l coll = some gated :=
    (opticalColl_iff c n l coll hid gated).2 ⟨fun p hp => measurable_check (hq p hp).measurable ht.le, hgated⟩
  have hidg : (gated.map Prod.fst).Nodup := by
    have : gated.map Prod.fst = coll.map Prod.fst := by
      clear hopt hq hid hd
      induction hgated with
      | nil => rfl
      | @cons a b cs gd h1 _ ih =>
        obtain ⟨d, -, rfl⟩ := h1
        rw [List.map_cons, List.map_cons, ih]
    rw [this]; exact hid
  have hndc : coll.Nodup := List.Nodup.of_map _ hid
  have hparts : ∃ qss : List (List QState), List.Forall₂ (fun p' qs => measure c.g c.thr c.m p'.2 opt cls = some qs) gated qss ∧
      (∀ s ∈ qss.flatten, Sendable c.g c.m s) ∧
      ∃ idx : List ((List Char × QState) × List ℕ), idx.Nodup ∧
        (∀ x, x ∈ idx ↔ x.1 ∈ coll ∧ findProb c.g 0 (opticsSubst gates (statePolynomial c.g x.1.2)) opt x.2 ≠ 0) ∧
        List.Forall₂ (fun x s => FoundState c.g opt cls (opticsSubst gates (statePolynomial c.g x.1.2)) x.1.2 x.2 s) idx qss.flatten := by
    clear hopt hid hidg
    induction hgated with
    | nil => exact ⟨[], List.Forall₂.nil, by simp, [], by simp, by simp, .nil⟩
    | @cons p p' cs gd h1 _ ih =>
      obtain ⟨d, hdd, rfl⟩ := h1
      obtain ⟨qss, hq1, hsh, idx, i1, i2, i3⟩ := ih (fun p hp => hq p (by simp [hp])) (fun p hp => hd p (by simp [hp])) (List.nodup_cons.1 hndc).2
      obtain ⟨d', hd', hme, hnz⟩ := sent_measurable (full := c.full) hg ht hu (hq p (by simp))
      obtain rfl : d = d' := Option.some.inj (hdd.symm.trans hd')
      obtain ⟨qs, hqs⟩ := C26_success c.g c.thr ht.le c.m { p.2 with comps := d } opt cls hme hlen hcls (fun o ho => hnz opt o ho)
      obtain ⟨hpoly, hfew⟩ := sent_poly hg ht hu (hq p (by simp)) (hd p (by simp)) hd'
      have hprob : ∀ o, outcomeProb c.g opt d o = findProb c.g 0 (opticsSubst gates (statePolynomial c.g p.2)) opt o := fun o => by
        rw [outcomeProb_born hg c.full hu.1 (hq p (by simp)) hd' hme.wf opt o, findProb_notDropped (hd p (by simp)) hg.1]
      obtain ⟨outs, o1, o2, o3⟩ := C26_outcomes c.g c.thr c.m _ opt cls hme hlen qs hqs
      refine ⟨qs :: qss, List.Forall₂.cons hqs hq1, ?_, outs.map (fun o => (p, o)) ++ idx, ?_, ?_, ?_⟩
      · intro s hs
        rcases List.mem_append.1 (List.flatten_cons ▸ hs) with hs | hs
        · obtain ⟨k1, k2⟩ := measured_kept hg.1 hme hlen hnd hcls hqs hs
          obtain ⟨o, -, ho⟩ := forall₂_mem_right o3 hs
          exact sendable_of_produced hme hfew ho k2 (produced_cum_le hme ho)
        · exact hsh s hs
      · refine List.Nodup.append (o1.map fun a b h => (Prod.ext_iff.1 h).2) i1 ?_
        intro x hx hx'
        obtain ⟨o, -, rfl⟩ := List.mem_map.1 hx
        exact (List.nodup_cons.1 hndc).1 ((i2 _).1 hx').1
      · intro x
        rw [List.mem_append, i2, List.mem_map, List.mem_cons]
        constructor
        · rintro (⟨o, ho, rfl⟩ | ⟨h1, h2⟩)
          · exact ⟨.inl rfl, by rw [← hprob]; exact hnz opt o ((o2 o).1 ho)⟩
          · exact ⟨.inr h1, h2⟩
        · rintro ⟨rfl | h1, h2⟩
          · left
            refine ⟨x.2, (o2 _).2 ?_, rfl⟩
            by_contra hc
            exact h2 (by rw [← hprob]; exact outcomeProb_absent hc)
          · exact .inr ⟨h1, h2⟩
      · rw [List.flatten_cons]
        refine List.rel_append ?_ i3
        rw [List.forall₂_map_left_iff]
        refine forall₂_mem_imp ?_ o3
        intro o s hs hos
        exact found_of_produced hg hlen hnd hme.wf hpoly (hprob o) hos ((measured_kept hg.1 hme hlen hnd hcls hqs hs).2.trans (hq p (by simp)).measurable.classical.symm)
  obtain ⟨qss, hq1, hsh, idx, i1, i2, i3⟩ := hparts
  obtain ⟨out, hout, hflat⟩ := measureColl_of_parts kinds i hidg hq1
  refine ⟨out, by rw [hopt]; exact hout, (C29_no_state_lost _ _ _ _ _ _ _ _ _ hidg hout).1, ?_, idx, i1, i2, ?_⟩
  · intro p hp
    exact hsh p.2 (by rw [← hflat]; exact List.mem_map_of_mem hp)
  · rw [← hflat] at i3
    exact List.forall₂_map_right_iff.1 i3

end Verif
