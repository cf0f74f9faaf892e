/-
Property C38: removing optical channels is the partial trace.
-/
import Verif.Lemmas.ReduceColl
import Verif.Props.Collection

namespace Verif.Props
open Verif Spec

theorem traced_total {g : Cfg} {keep : List ℕ} {cl : List ℝ} {q : QState} {l : VComps} {t : List Char} (h : tracedProb g keep l t ≠ 0) :
    totalProb (tracedState g keep cl q l t).comps = 1 := by
  rw [tracedState, totalProb_enc, tracedComps, List.map_map, List.map_map]
  have : (fun p : Vals × Comp => ‖(scaleComp (tracedProb g keep l t) (keepVals keep p.1, p.2)).2.amp‖ ^ 2)
      = fun p => ‖p.2.amp‖ ^ 2 * (1 / tracedProb g keep l t) := by
    funext p
    simp only [scaleComp]
    rw [Complex.norm_mul, mul_pow, Complex.norm_real, Real.norm_eq_abs, sq_abs, Real.sq_sqrt]
    have := tracedProb_nonneg g keep l t
    positivity
  simp only [Function.comp_def]
  rw [this, List.sum_map_mul_right]
  exact mul_one_div_cancel h

/-- **C38** The states after `reduce`: identifiers stay different; every new state comes from an old state and one choice of photon
numbers in the removed channels, has the old cumulative probability times the (non-zero) probability of that choice, is normalised,
keeps label and history and the selected classical values, and has the old amplitudes up to the normalisation factor. -/
theorem C38_states (cl : Collection) (hn : (cl.states.map Prod.fst).Nodup) (hne : cl.states ≠ [])
    (hw : ∀ p ∈ cl.states, WellFormed cl.g p.2.comps) (keep ckeep : List ℕ) (out : Collection)
    (h : reduceColl cl keep ckeep = some out) :
    out.g = ⟨cl.g.L, (orAll cl.g.C keep).length, cl.g.left⟩ ∧ out.m = (orAll cl.m ckeep).length ∧ out.thr = cl.thr ∧
    (out.states.map Prod.fst).Nodup ∧
    ∀ e ∈ out.states, WellFormed out.g e.2.comps ∧ totalProb e.2.comps = 1 ∧ CheckValid out.thr out.m e.2 ∧
      ∃ p ∈ cl.states, ∃ v, Valid cl.g v ∧ outsideProb cl.g (orAll cl.g.C keep) p.2.comps v ≠ 0 ∧
        e.2.initial = p.2.initial ∧ e.2.results = p.2.results ∧
        e.2.cum = p.2.cum * outsideProb cl.g (orAll cl.g.C keep) p.2.comps v ∧
        List.Forall₂ (fun n x => p.2.classical[n]? = some x) (orAll cl.m ckeep) e.2.classical ∧
        ∀ w s s', Valid cl.g w → SameOutside cl.g (orAll cl.g.C keep) v w → IsName cl.g w s →
          IsName out.g (select (orAll cl.g.C keep) w) s' →
          ampOf e.2.comps s' = ampOf p.2.comps s * (Real.sqrt (1 / outsideProb cl.g (orAll cl.g.C keep) p.2.comps v) : ℝ) := by
  obtain ⟨hk, hck, hok, lss, hf, rfl⟩ := (reduceColl_iff hne hn hw).1 h
  refine ⟨rfl, rfl, rfl, reduced_keys_nodup hn hf, ?_⟩
  intro e he
  obtain ⟨ls, hls, hm⟩ := List.mem_flatten.1 he
  obtain ⟨p, hp, l, cl', hl, hc, h1, h2, rfl⟩ := forall₂_mem_right hf hls
  obtain ⟨t, ht, rfl⟩ := List.mem_map.1 hm
  obtain ⟨h0, hval⟩ := h2 t ht
  obtain ⟨r, hr, rfl⟩ := mem_tracedKeys.1 ht
  have hrv := hl.valid r hr
  have hlne : l ≠ [] := by rintro rfl; cases hr
  have hP : outsideProb cl.g (orAll cl.g.C keep) p.2.comps r.1 = tracedProb cl.g (orAll cl.g.C keep) l (dropName cl.g (orAll cl.g.C keep) r.1) := by
    rw [hc, outsideProb_enc hl hrv]
  refine ⟨wf_enc (scaleComp_ok (tracedComps_ok hk hl _) _), traced_total h0, hval, p, hp, r.1, hrv, ?_, rfl, rfl, ?_, ?_, ?_⟩
  · rw [hP]; exact h0
  · rw [hP]; rfl
  · exact (mapM_some_iff.1 (h1 hlne))
  · intro w s s' hwv hs hns hns'
    rw [hP]
    have hkv : Valid (keptCfg cl.g (orAll cl.g.C keep)) (keepVals (orAll cl.g.C keep) w) := keep_valid hk hwv
    rw [isName_iff hwv] at hns
    rw [show select (orAll cl.g.C keep) w = keepVals (orAll cl.g.C keep) w from rfl,
      isName_iff (g := keptCfg cl.g (orAll cl.g.C keep)) hkv] at hns'
    subst hns hns'
    rw [hc, ampOf_enc hl.valid hwv]
    show ampOf (enc _ _) _ = _
    rw [ampOf_enc (scaleComp_ok (tracedComps_ok hk hl _) _).valid hkv, ampV_traced hk hl]
    congr 1
    rw [ampV_eq_sum hl.nodup, tracedItems]
    have hd := (sameOutside_iff hrv hwv).1 hs
    have key : ∀ m : VComps, (∀ p ∈ m, Valid cl.g p.1) → ((m.filter (fun p => dropName cl.g (orAll cl.g.C keep) p.1 = dropName cl.g (orAll cl.g.C keep) r.1)).map
        (fun p => if keepVals (orAll cl.g.C keep) p.1 = keepVals (orAll cl.g.C keep) w then p.2.amp else 0)).sum
        = (m.map (fun p => if p.1 = w then p.2.amp else 0)).sum := by
      intro m
      induction m with
      | nil => intro _; rfl
      | cons x m ih =>
        intro hm
        have ih := ih (fun p hp => hm p (by simp [hp]))
        have hx := hm x (by simp)
        rw [List.map_cons, List.sum_cons, ← ih, List.filter_cons]
        by_cases hxw : x.1 = w
        · rw [if_pos (by simp [hxw, hd]), List.map_cons, List.sum_cons, if_pos (by rw [hxw]), if_pos hxw]
        · rw [if_neg hxw, zero_add]
          by_cases hx' : dropName cl.g (orAll cl.g.C keep) x.1 = dropName cl.g (orAll cl.g.C keep) r.1
          · rw [if_pos (by simp [hx']), List.map_cons, List.sum_cons, if_neg, zero_add]
            intro e
            exact hxw (keep_drop_inj hx hwv e (hx'.trans hd))
          · rw [if_neg (by simp [hx'])]
    exact key l hl.valid

theorem sum_flatten_forall₂ {α β M : Type*} [AddCommMonoid M] {R : α → List β → Prop} {xs : List α} {lss : List (List β)}
    (h : List.Forall₂ R xs lss) (f : β → M) (F : α → M) (hF : ∀ x ∈ xs, ∀ ls, R x ls → (ls.map f).sum = F x) :
    (lss.flatten.map f).sum = (xs.map F).sum := by
  induction h with
  | nil => rfl
  | @cons x ls xs lss h1 _ ih =>
    rw [List.flatten_cons, List.map_append, List.sum_append, hF x (by simp) ls h1, ih (fun y hy => hF y (by simp [hy]))]
    simp

/-- **C38** Total probability is conserved: the cumulative probabilities after `reduce` add up to the sum of cumulative probability times
total probability of the components before, for every label. -/
theorem C38_probability_conserved (cl : Collection) (hn : (cl.states.map Prod.fst).Nodup) (hne : cl.states ≠ [])
    (hw : ∀ p ∈ cl.states, WellFormed cl.g p.2.comps) (keep ckeep : List ℕ) (out : Collection)
    (h : reduceColl cl keep ckeep = some out) (label : List Char) :
    ((out.states.filter (fun e => e.2.initial = label)).map (fun e => e.2.cum)).sum
      = ((cl.states.filter (fun p => p.2.initial = label)).map (fun p => p.2.cum * totalProb p.2.comps)).sum := by
  obtain ⟨hk, hck, hok, lss, hf, rfl⟩ := (reduceColl_iff hne hn hw).1 h
  have filt : ∀ (l : Coll) (f : List Char × QState → ℝ), ((l.filter (fun e => e.2.initial = label)).map f).sum
      = (l.map (fun e => if e.2.initial = label then f e else 0)).sum := by
    intro l f
    induction l with
    | nil => rfl
    | cons x l ih =>
      rw [List.filter_cons]
      by_cases hx : x.2.initial = label
      · simp [hx, ih]
      · simp [hx, ih]
  rw [filt, filt]
  apply sum_flatten_forall₂ hf
  rintro p hp ls ⟨l, cl', hl, hc, -, -, rfl⟩
  rw [List.map_map]
  by_cases hlab : p.2.initial = label
  · rw [if_pos hlab, hc, totalProb_enc, ← sum_tracedProb cl.g (orAll cl.g.C keep) l, ← List.sum_map_mul_left]
    congr 1
    apply List.map_congr_left
    intro t _
    simp only [Function.comp_def, tracedState]
    rw [if_pos hlab]
  · rw [if_neg hlab]
    apply List.sum_eq_zero
    intro x hx
    obtain ⟨t, _, rfl⟩ := List.mem_map.1 hx
    simp only [Function.comp_def, tracedState]
    rw [if_neg hlab]

open Classical in
/-- **C38** Partial trace: every entry of the density matrix after `reduce` is the sum of the entries of the original density matrix over
all pairs of basis states that restrict to the row and the column and agree in the removed channels. -/
theorem C38_partial_trace (cl : Collection) (hg : cl.g.Ok) (hn : (cl.states.map Prod.fst).Nodup) (hne : cl.states ≠ [])
    (hw : ∀ p ∈ cl.states, WellFormed cl.g p.2.comps) (keep ckeep : List ℕ) (out : Collection)
    (h : reduceColl cl keep ckeep = some out) (label : List Char) :
    ∃ dm dm', densityMatrix cl.g cl.states label = some dm ∧ densityMatrix out.g out.states label = some dm' ∧
      ∀ a b, Valid out.g a → Valid out.g b → dm' (out.g.indexOf a) (out.g.indexOf b)
        = ∑ i ∈ Finset.range cl.g.size, ∑ j ∈ Finset.range cl.g.size,
            if ∃ v w, Valid cl.g v ∧ Valid cl.g w ∧ cl.g.indexOf v = i ∧ cl.g.indexOf w = j ∧
              select (orAll cl.g.C keep) v = a ∧ select (orAll cl.g.C keep) w = b ∧ SameOutside cl.g (orAll cl.g.C keep) v w
            then dm i j else 0 := by
  have hstates := C38_states cl hn hne hw keep ckeep out h
  obtain ⟨hk, hck, hok, lss, hf, rfl⟩ := (reduceColl_iff hne hn hw).1 h
  obtain ⟨dm, hdm, hdme⟩ := densityMatrix_eq hg.1 hw label
  obtain ⟨dm', hdm', hdme'⟩ := densityMatrix_eq (g := keptCfg cl.g (orAll cl.g.C keep)) hok.1
    (fun e he => (hstates.2.2.2.2 e he).1) label
  refine ⟨dm, dm', hdm, hdm', ?_⟩
  intro a b ha hb
  set K := orAll cl.g.C keep with hK
  have ha' : Valid (keptCfg cl.g K) a := ha
  have hb' : Valid (keptCfg cl.g K) b := hb
  show dm' ((keptCfg cl.g K).indexOf a) ((keptCfg cl.g K).indexOf b) = _
  rw [hdme' _ ((keptCfg cl.g K).indexOf_lt ha') _ ((keptCfg cl.g K).indexOf_lt hb')]
  simp only [vec_index ha', vec_index hb']
  have filt : ∀ (l : Coll) (f : List Char × QState → ℂ), ((l.filter (fun e => e.2.initial = label)).map f).sum
      = (l.map (fun e => if e.2.initial = label then f e else 0)).sum := by
    intro l f
    induction l with
    | nil => rfl
    | cons x l ih =>
      rw [List.filter_cons]
      by_cases hx : x.2.initial = label
      · simp [hx, ih]
      · simp [hx, ih]
  rw [filt]
  set M : ℕ → ℕ → Prop := fun i j => ∃ v w, Valid cl.g v ∧ Valid cl.g w ∧ cl.g.indexOf v = i ∧ cl.g.indexOf w = j ∧
              select K v = a ∧ select K w = b ∧ SameOutside cl.g K v w with hM
  have hMiff : ∀ v w, Valid cl.g v → Valid cl.g w → (M (cl.g.indexOf v) (cl.g.indexOf w) ↔
      keepVals K v = a ∧ keepVals K w = b ∧ dropName cl.g K v = dropName cl.g K w) := by
    intro v w hv hw
    constructor
    · rintro ⟨v', w', hv', hw', e1, e2, e3, e4, e5⟩
      obtain rfl := cl.g.indexOf_inj hv' hv e1
      obtain rfl := cl.g.indexOf_inj hw' hw e2
      exact ⟨e3, e4, (sameOutside_iff hv hw).1 e5⟩
    · rintro ⟨e1, e2, e3⟩
      exact ⟨v, w, hv, hw, rfl, rfl, e1, e2, (sameOutside_iff hv hw).2 e3⟩
  have hR : ∑ i ∈ Finset.range cl.g.size, ∑ j ∈ Finset.range cl.g.size, (if M i j then dm i j else 0)
      = (cl.states.map (fun p => if p.2.initial = label then (p.2.cum : ℂ) * ∑ i ∈ Finset.range cl.g.size, ∑ j ∈ Finset.range cl.g.size,
          (if M i j then star (vec cl.g p.2.comps i) * vec cl.g p.2.comps j else 0) else 0)).sum := by
    have e1 : ∀ i ∈ Finset.range cl.g.size, ∀ j ∈ Finset.range cl.g.size, (if M i j then dm i j else 0)
        = (cl.states.map (fun p => if p.2.initial = label then (p.2.cum : ℂ) * (if M i j then star (vec cl.g p.2.comps i) * vec cl.g p.2.comps j else 0) else 0)).sum := by
      intro i hi j hj
      by_cases hij : M i j
      · simp only [if_pos hij]
        rw [hdme i (Finset.mem_range.1 hi) j (Finset.mem_range.1 hj), filt]
      · simp only [if_neg hij, mul_zero, ite_self]
        simp
    rw [Finset.sum_congr rfl (fun i hi => Finset.sum_congr rfl (e1 i hi))]
    clear e1 hdme hf hw hn hne hstates h
    induction cl.states with
    | nil => simp
    | cons p st ih =>
      simp only [List.map_cons, List.sum_cons, Finset.sum_add_distrib]
      rw [ih]
      congr 1
      by_cases hl : p.2.initial = label
      · simp only [if_pos hl, Finset.mul_sum]
      · simp [if_neg hl]
  rw [hR]
  apply sum_flatten_forall₂ hf
  rintro p hp ls ⟨l, cl', hl, hc, -, h2, rfl⟩
  rw [List.map_map]
  by_cases hlab : p.2.initial = label
  · rw [if_pos hlab]
    have hL := traced_density hk hl p.2.cum (fun t ht => (h2 t ht).1) a b
    have e1 : (tracedKeys cl.g K l).map ((fun e : List Char × QState => if e.2.initial = label then
          (e.2.cum : ℂ) * (star (ampOf e.2.comps ((keptCfg cl.g K).stdName a)) * ampOf e.2.comps ((keptCfg cl.g K).stdName b)) else 0) ∘
          fun t => (p.1 ++ t, tracedState cl.g K cl' p.2 l t))
        = (tracedKeys cl.g K l).map (fun t => ((p.2.cum * tracedProb cl.g K l t : ℝ) : ℂ) *
      (star (ampV ((tracedComps cl.g K l t).map (scaleComp (tracedProb cl.g K l t))) a) *
        ampV ((tracedComps cl.g K l t).map (scaleComp (tracedProb cl.g K l t))) b)) := by
      apply List.map_congr_left
      intro t _
      simp only [Function.comp_def, tracedState]
      rw [if_pos hlab, ampOf_enc (scaleComp_ok (tracedComps_ok hk hl t) _).valid ha', ampOf_enc (scaleComp_ok (tracedComps_ok hk hl t) _).valid hb']
    rw [e1, hL]
    congr 1
    have hs1 : ∀ i, ∑ j ∈ Finset.range cl.g.size, (if M i j then star (vec cl.g (enc cl.g l) i) * vec cl.g (enc cl.g l) j else 0)
        = (l.map (fun p' => if M i (cl.g.indexOf p'.1) then star (vec cl.g (enc cl.g l) i) * p'.2.amp else 0)).sum := by
      intro i
      exact sum_vec_enc hg.1 (fun j x => if M i j then star (vec cl.g (enc cl.g l) i) * x else 0) (by intro j; simp) hl
    rw [hc]
    simp only [hs1]
    have hs2 := sum_vec_enc hg.1 (fun i x => (l.map (fun p' => if M i (cl.g.indexOf p'.1) then star x * p'.2.amp else 0)).sum)
      (by intro i; simp) hl
    rw [hs2]
    congr 1
    apply List.map_congr_left
    intro r hr
    congr 1
    apply List.map_congr_left
    intro r' hr'
    have := hMiff r.1 r'.1 (hl.valid r hr) (hl.valid r' hr')
    by_cases hq : M (cl.g.indexOf r.1) (cl.g.indexOf r'.1)
    · rw [if_pos hq, if_pos (this.1 hq)]
    · rw [if_neg hq, if_neg (fun x => hq (this.2 x))]
  · rw [if_neg hlab]
    apply List.sum_eq_zero
    intro x hx
    obtain ⟨t, _, rfl⟩ := List.mem_map.1 hx
    simp only [Function.comp_def, tracedState]
    rw [if_neg hlab]

/-- **C38** When it works: existing channels, at least two optical channels kept, valid normalised states without zero amplitudes. -/
theorem C38_success (cl : Collection) (hg : cl.g.Ok) (hthr : 0 ≤ cl.thr) (hn : (cl.states.map Prod.fst).Nodup) (hne : cl.states ≠ [])
    (hw : ∀ p ∈ cl.states, WellFormed cl.g p.2.comps ∧ totalProb p.2.comps = 1 ∧ CheckValid cl.thr cl.m p.2 ∧ ∀ c ∈ p.2.comps, c.2.amp ≠ 0)
    (keep ckeep : List ℕ) (hk : ∀ c ∈ keep, c < cl.g.C) (hck : ∀ c ∈ ckeep, c < cl.m) (h2 : keep.length ≠ 1) :
    ∃ out, reduceColl cl keep ckeep = some out := by
  have hK : ∀ c ∈ orAll cl.g.C keep, c < cl.g.C := by
    unfold orAll; split
    · intro c hc; exact List.mem_range.1 hc
    · exact hk
  have hCK : ∀ c ∈ orAll cl.m ckeep, c < cl.m := by
    unfold orAll; split
    · intro c hc; exact List.mem_range.1 hc
    · exact hck
  have hlen : 2 ≤ (orAll cl.g.C keep).length := by
    unfold orAll; split
    · rw [List.length_range]; exact hg.2
    · rename_i hkn
      have := List.length_pos_iff.2 hkn
      omega
  have hex : ∀ states : Coll, (∀ p ∈ states, WellFormed cl.g p.2.comps ∧ totalProb p.2.comps = 1 ∧ CheckValid cl.thr cl.m p.2 ∧ ∀ c ∈ p.2.comps, c.2.amp ≠ 0) →
      ∃ lss, List.Forall₂ (ReducedTo cl.g cl.thr (orAll cl.g.C keep) (orAll cl.m ckeep)) states lss := by
    intro states
    induction states with
    | nil => intro _; exact ⟨[], List.Forall₂.nil⟩
    | cons p states ih =>
      intro hs
      obtain ⟨lss, hf⟩ := ih (fun p hp => hs p (by simp [hp]))
      obtain ⟨hwf, htot, hval, hamp⟩ := hs p (by simp)
      obtain ⟨l, hl, e⟩ := exists_enc hwf
      have hcl : ∃ c, (orAll cl.m ckeep).mapM (fun n => p.2.classical[n]?) = some c := by
        refine ⟨_, mapM_some_of (g := fun n => p.2.classical.getD n 0) ?_⟩
        intro n hn
        have : n < p.2.classical.length := by rw [hval.2.2.2]; exact hCK n hn
        rw [List.getElem?_eq_getElem this, List.getD_eq_getElem?_getD, List.getElem?_eq_getElem this, Option.getD_some]
      obtain ⟨c, hc⟩ := hcl
      refine ⟨_ :: lss, List.Forall₂.cons ⟨l, c, hl, e, fun _ => hc, ?_, rfl⟩ hf⟩
      intro t ht
      have h0 : tracedProb cl.g (orAll cl.g.C keep) l t ≠ 0 := by
        obtain ⟨r, hr, hrt⟩ := mem_tracedKeys.1 ht
        have hr' : r ∈ tracedItems cl.g (orAll cl.g.C keep) l t := List.mem_filter.2 ⟨hr, by simpa using hrt⟩
        have hpos : 0 < ‖r.2.amp‖ ^ 2 := by
          have := hamp (cl.g.stdName r.1, r.2) (by rw [e]; exact List.mem_map.2 ⟨r, hr, rfl⟩)
          have : 0 < ‖r.2.amp‖ := norm_pos_iff.2 this
          positivity
        have hle : ‖r.2.amp‖ ^ 2 ≤ tracedProb cl.g (orAll cl.g.C keep) l t := by
          apply List.single_le_sum
          · intro x hx
            obtain ⟨y, _, rfl⟩ := List.mem_map.1 hx
            positivity
          · exact List.mem_map.2 ⟨r, hr', rfl⟩
        linarith
      refine ⟨h0, ?_⟩
      have hPn := tracedProb_nonneg cl.g (orAll cl.g.C keep) l t
      have hP1 : tracedProb cl.g (orAll cl.g.C keep) l t ≤ 1 := by
        refine (tracedProb_le cl.g (orAll cl.g.C keep) l t).trans ?_
        rw [← totalProb_enc cl.g l, ← e, htot]
      obtain ⟨v1, v2, v3, v4⟩ := hval
      refine ⟨?_, ?_, ?_, ?_⟩
      · show -cl.thr ≤ p.2.cum * _
        by_cases hc0 : 0 ≤ p.2.cum
        · have := mul_nonneg hc0 hPn; linarith
        · nlinarith
      · show p.2.cum * _ - 1 ≤ cl.thr
        by_cases hc0 : 0 ≤ p.2.cum
        · nlinarith
        · nlinarith
      · intro x hx
        have h1 := traced_total (cl := c) (q := p.2) h0
        obtain ⟨y, hy, rfl⟩ := List.mem_map.1 (show x ∈ enc _ _ from hx)
        obtain ⟨z, hz, rfl⟩ := List.mem_map.1 hy
        have hle : ‖(scaleComp (tracedProb cl.g (orAll cl.g.C keep) l t) z).2.amp‖ ^ 2 ≤ 1 := by
          rw [← h1]
          apply List.single_le_sum
          · intro x hx
            obtain ⟨y, _, rfl⟩ := List.mem_map.1 hx
            positivity
          · exact List.mem_map.2 ⟨_, hx, rfl⟩
        show -cl.thr ≤ ‖(scaleComp (tracedProb cl.g (orAll cl.g.C keep) l t) z).2.amp‖ ^ 2 ∧ ‖(scaleComp (tracedProb cl.g (orAll cl.g.C keep) l t) z).2.amp‖ ^ 2 ≤ 1 + cl.thr
        have hnn : 0 ≤ ‖(scaleComp (tracedProb cl.g (orAll cl.g.C keep) l t) z).2.amp‖ ^ 2 := by positivity
        constructor <;> linarith
      · show c.length = _
        have := (mapM_some_iff.1 hc).length_eq
        exact this.symm
  obtain ⟨lss, hf⟩ := hex cl.states hw
  exact ⟨_, (reduceColl_iff hne hn (fun p hp => (hw p hp).1)).2 ⟨hK, hCK, ⟨hg.1, hlen⟩, lss, hf, rfl⟩⟩

/-- **C38** Refusals: unknown optical or classical channel, or a single optical channel to keep (the constructor of the new circuit wants
at least two). -/
theorem C38_refused (cl : Collection) (keep ckeep : List ℕ)
    (h : (∃ c ∈ keep, cl.g.C ≤ c) ∨ (∃ c ∈ ckeep, cl.m ≤ c) ∨ keep.length = 1) : reduceColl cl keep ckeep = none := by
  unfold reduceColl
  rcases h with ⟨c, hc, h⟩ | ⟨c, hc, h⟩ | h
  · have hne : keep ≠ [] := by rintro rfl; cases hc
    simp only [if_neg hne]
    rw [if_pos]
    · rfl
    · left
      simp only [List.all_eq_true, decide_eq_true_eq, not_forall]
      exact ⟨c, hc, by omega⟩
  · have hne : ckeep ≠ [] := by rintro rfl; cases hc
    simp only [if_neg hne]
    rw [if_pos]
    · rfl
    · right
      simp only [List.all_eq_true, decide_eq_true_eq, not_forall]
      exact ⟨c, hc, by omega⟩
  · have hne : keep ≠ [] := by rintro rfl; simp at h
    simp only [if_neg hne]
    generalize (if ckeep = [] then List.range cl.m else ckeep) = CK
    by_cases hq : (¬(keep.all fun x => decide (x < cl.g.C)) = true ∨ ¬(CK.all fun x => decide (x < cl.m)) = true)
    · rw [if_pos hq]; rfl
    · rw [if_neg hq, if_pos]
      · rfl
      · rintro ⟨-, h2⟩
        simp only at h2
        omega

/-- **C38** An empty collection is handed back with its old channel numbers: the new settings are only stored inside the loop over
the states. -/
theorem C38_empty (cl : Collection) (he : cl.states = []) (keep ckeep : List ℕ) (hne : keep ≠ []) (hcne : ckeep ≠ [])
    (hk : ∀ c ∈ keep, c < cl.g.C) (hck : ∀ c ∈ ckeep, c < cl.m) (h2 : 2 ≤ keep.length) (hL : 1 ≤ cl.g.L) :
    reduceColl cl keep ckeep = some cl := by
  unfold reduceColl
  simp only [if_neg hne, if_neg hcne, he, if_true, List.foldlM_nil]
  rw [if_neg, if_neg]
  · rfl
  · exact not_not.2 ⟨hL, h2⟩
  · simp only [List.all_eq_true, decide_eq_true_eq, not_or, not_not]
    exact ⟨hk, hck⟩

/-- **C38** A group of components with total probability zero makes `reduce` fail (division by zero), for every selection. -/
theorem C38_zero_refused (cl : Collection) (hn : (cl.states.map Prod.fst).Nodup)
    (hw : ∀ p ∈ cl.states, WellFormed cl.g p.2.comps) (p : List Char × QState) (hp : p ∈ cl.states) (hpc : p.2.comps ≠ [])
    (h0 : ∀ c ∈ p.2.comps, c.2.amp = 0) (keep ckeep : List ℕ) : reduceColl cl keep ckeep = none := by
  have hne : cl.states ≠ [] := by intro e; rw [e] at hp; cases hp
  rw [Option.eq_none_iff_forall_ne_some]
  intro out h
  obtain ⟨-, -, -, lss, hf, -⟩ := (reduceColl_iff hne hn hw).1 h
  obtain ⟨i, hi⟩ := List.mem_iff_getElem?.1 hp
  have hR : ∃ ls, ReducedTo cl.g cl.thr (orAll cl.g.C keep) (orAll cl.m ckeep) p ls := by
    clear h hw hn hne hi
    generalize cl.states = st at hf hp
    induction hf with
    | nil => cases hp
    | cons h1 _ ih =>
      rcases List.mem_cons.1 hp with rfl | hp
      · exact ⟨_, h1⟩
      · exact ih hp
  obtain ⟨ls, l, c, hl, e, -, h2, -⟩ := hR
  rw [e] at hpc h0
  obtain ⟨r, l', rfl⟩ := List.exists_cons_of_ne_nil (mt enc_eq_nil.2 hpc)
  refine (h2 _ (mem_tracedKeys.2 ⟨r, by simp, rfl⟩)).1 ?_
  rw [tracedProb]
  apply List.sum_eq_zero
  intro x hx
  obtain ⟨y, hy, rfl⟩ := List.mem_map.1 hx
  have := h0 (cl.g.stdName y.1, y.2) (List.mem_map.2 ⟨y, (List.mem_filter.1 hy).1, rfl⟩)
  simp only at this
  rw [this]; simp

/-! ### a concrete case: an entangled state of three channels -/

/-- three channels, at most one photon each -/
def g₃ : Cfg := ⟨2, 3, true⟩

/-- 0.6 |100> + 0.8 |011> -/
noncomputable def ent : QState :=
  ⟨"x".toList, 1, [("100".toList, ⟨3/5, 9/25⟩), ("011".toList, ⟨4/5, 16/25⟩)], [5, 7], []⟩

noncomputable def entColl : Collection := ⟨g₃, 2, 0, [("a".toList, ent)]⟩

theorem ent_wf : WellFormed g₃ ent.comps := by
  refine ⟨by decide, ?_⟩
  intro p hp
  simp only [ent, List.mem_cons, List.not_mem_nil, or_false] at hp
  rcases hp with rfl | rfl
  · exact ⟨[1, 0, 0], ⟨rfl, by decide⟩, (isName_iff ⟨rfl, by decide⟩).2 rfl⟩
  · exact ⟨[0, 1, 1], ⟨rfl, by decide⟩, (isName_iff ⟨rfl, by decide⟩).2 rfl⟩

theorem ent_total : totalProb ent.comps = 1 := by
  simp only [totalProb, ent, List.map_cons, List.map_nil, List.sum_cons, List.sum_nil]
  norm_num

/-- the entangled collection can be reduced to channels 2 and 0, and to classical channel 1 -/
theorem entColl_reduces : ∃ out, reduceColl entColl [2, 0] [1] = some out := by
  apply C38_success entColl (by decide) le_rfl (by decide) (by simp [entColl])
  · intro p hp
    simp only [entColl, List.mem_singleton] at hp
    subst hp
    refine ⟨ent_wf, ent_total, ⟨?_, ?_, ?_, rfl⟩, ?_⟩
    · norm_num [ent, entColl]
    · norm_num [ent, entColl]
    · intro c hc
      simp only [ent, List.mem_cons, List.not_mem_nil, or_false] at hc
      rcases hc with rfl | rfl <;> norm_num [entColl]
    · intro c hc
      simp only [ent, List.mem_cons, List.not_mem_nil, or_false] at hc
      rcases hc with rfl | rfl <;> norm_num
  · decide
  · decide
  · decide

/-- ... and the result is a genuine mixture with total probability 1 -/
example : ∃ out, reduceColl entColl [2, 0] [1] = some out ∧
    ((out.states.filter (fun e => e.2.initial = "x".toList)).map (fun e => e.2.cum)).sum = 1 := by
  obtain ⟨out, h⟩ := entColl_reduces
  refine ⟨out, h, ?_⟩
  rw [C38_probability_conserved entColl (by decide) (by simp [entColl]) (by
    intro p hp
    simp only [entColl, List.mem_singleton] at hp
    subst hp
    exact ent_wf) [2, 0] [1] out h]
  have : (entColl.states.filter (fun p => p.2.initial = "x".toList)).map (fun p => p.2.cum * totalProb p.2.comps)
      = [1 * totalProb ent.comps] := by simp [entColl, ent]
  rw [this, ent_total]
  simp

end Verif.Props
