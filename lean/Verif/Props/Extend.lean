/-
Property C39: adding optical channels is a tensor product.
-/
import Verif.Lemmas.Extend
import Verif.Props.Reduce

namespace Verif.Props
open Verif Spec

theorem forall₂_imp_mem {α β : Type*} {R S : α → β → Prop} {l : List α} {m : List β} (h : List.Forall₂ R l m)
    (hi : ∀ a b, a ∈ l → R a b → S a b) : List.Forall₂ S l m := by
  induction h with
  | nil => exact List.Forall₂.nil
  | cons h1 _ ih => exact List.Forall₂.cons (hi _ _ (by simp) h1) (ih (fun a b ha => hi a b (by simp [ha])))

/-- **C39** The lists of photon numbers the extra channels can hold: each exactly once. -/
theorem C39_allLists (L n : ℕ) : (allLists L n).Nodup ∧ ∀ e, e ∈ allLists L n ↔ e.length = n ∧ ∀ x ∈ e, x < L :=
  ⟨nodup_allLists L n, fun _ => mem_allLists⟩

open Classical in
/-- **C39** `extend` succeeds on valid states with a distribution of the right length, and the new collection consists of, for every list
of photon numbers of the extra channels and every old state, the state with these photon numbers appended and the cumulative probability
multiplied by the probability of the extra photon numbers, if that is not below the threshold; identifiers are pairwise different. -/
theorem C39_states (cl : Collection) (hg : cl.g.Ok) (hthr : 0 ≤ cl.thr) (eo ec : ℕ) (dist : List ℝ) (r : ℕ → ℕ → ℕ)
    (hlen : (orVacuum cl.g.L dist).length = cl.g.L) (hd : ∀ x ∈ dist, 0 ≤ x ∧ x ≤ 1)
    (hs : ∀ p ∈ cl.states, WellFormed cl.g p.2.comps ∧ CheckValid cl.thr cl.m p.2) (hne : ¬ (eo = 0 ∧ ec = 0)) :
    ∃ out, extendColl cl eo ec dist r = some out ∧ out.g = ⟨cl.g.L, cl.g.C + eo, cl.g.left⟩ ∧ out.m = cl.m + ec ∧ out.thr = cl.thr ∧
      (out.states.map Prod.fst).Nodup ∧ (∀ x ∈ out.states, WellFormed out.g x.2.comps ∧ CheckValid out.thr out.m x.2) ∧
      List.Forall₂ (fun (pe : (List Char × QState) × Vals) x => Extends cl.g out.g ec (weight (orVacuum cl.g.L dist) pe.2) pe.2 pe.1.2 x.2)
        ((allLists cl.g.L eo).flatMap (fun e =>
          (cl.states.filter (fun p => cl.thr ≤ p.2.cum * weight (orVacuum cl.g.L dist) e)).map (fun p => (p, e)))) out.states := by
  obtain ⟨new, h1, h2, h3, h4⟩ := extendColl_spec (r := r) hg hthr hlen hd hs hne
  refine ⟨_, h1, rfl, rfl, rfl, h2, ?_, ?_⟩
  · intro x hx
    refine ⟨?_, h4 x hx⟩
    obtain ⟨pe, _, l, hl, _, he, e⟩ := forall₂_mem_right h3 hx
    rw [e]
    exact wf_enc (ext_ok he hl)
  · refine forall₂_imp_mem h3 ?_
    rintro pe x - ⟨l, hl, hle, he, e⟩
    rw [e]
    refine ⟨rfl, rfl, rfl, rfl, ?_⟩
    rw [hle, extState, enc, enc, List.map_map, List.forall₂_map_right_iff, List.forall₂_map_left_iff]
    apply List.forall₂_same.2
    intro p hp
    have hv := hl.valid p hp
    exact ⟨rfl, p.1, hv, (isName_iff hv).2 rfl, (isName_iff (append_valid he hv)).2 rfl⟩

/-- **C39** A distribution of the wrong length is refused; nothing to add leaves the collection as it is. -/
theorem C39_refused (cl : Collection) (eo ec : ℕ) (dist : List ℝ) (r : ℕ → ℕ → ℕ) (hne : dist ≠ []) (h : dist.length ≠ cl.g.L) :
    extendColl cl eo ec dist r = none := by
  unfold extendColl
  simp only [if_neg hne]
  rw [if_pos h]; rfl

/-- **C39** Nothing to add: unchanged. -/
theorem C39_nothing (cl : Collection) (dist : List ℝ) (r : ℕ → ℕ → ℕ) (hlen : (orVacuum cl.g.L dist).length = cl.g.L) :
    extendColl cl 0 0 dist r = some cl := by
  unfold orVacuum at hlen
  unfold extendColl
  rw [if_neg (not_not.2 hlen), if_pos ⟨rfl, rfl⟩]

theorem ampV_ext {g : Cfg} {l : VComps} (hl : VOk g l) {e e' v : Vals} (hv : Valid g v) :
    ampV (l.map (fun p => (p.1 ++ e', p.2))) (v ++ e) = if e' = e then ampV l v else 0 := by
  induction l with
  | nil => simp [ampV_nil]
  | cons p l ih =>
    obtain ⟨-, hp, hl'⟩ := VOk.cons.1 hl
    rw [List.map_cons, ampV_cons, ih hl', ampV_cons]
    by_cases h : p.1 ++ e' = v ++ e
    · obtain ⟨h1, h2⟩ := List.append_inj h (by rw [hp.1, hv.1])
      rw [if_pos h, if_pos h2, if_pos h1]
    · rw [if_neg h]
      by_cases h2 : e' = e
      · rw [if_pos h2, if_pos h2, if_neg]
        rintro h1; exact h (by rw [h1, h2])
      · rw [if_neg h2, if_neg h2]

theorem sum_forall₂ {α β M : Type*} [AddCommMonoid M] {R : α → β → Prop} {xs : List α} {ys : List β}
    (h : List.Forall₂ R xs ys) (f : β → M) (F : α → M) (hF : ∀ x y, x ∈ xs → R x y → f y = F x) :
    (ys.map f).sum = (xs.map F).sum := by
  induction h with
  | nil => rfl
  | @cons x y xs ys h1 _ ih =>
    rw [List.map_cons, List.map_cons, List.sum_cons, List.sum_cons, hF x y (by simp) h1, ih (fun a b ha => hF a b (by simp [ha]))]

theorem sum_filter_label {M : Type*} [AddCommMonoid M] (label : List Char) (l : Coll) (f : List Char × QState → M) :
    ((l.filter (fun e => e.2.initial = label)).map f).sum = (l.map (fun e => if e.2.initial = label then f e else 0)).sum := by
  induction l with
  | nil => rfl
  | cons x l ih =>
    rw [List.filter_cons]
    by_cases hx : x.2.initial = label
    · simp [hx, ih]
    · simp [hx, ih]

/-- sum over a list without repetitions in which only one element counts -/
theorem sum_one_label {α M : Type*} [AddCommMonoid M] {l : List α} (hn : l.Nodup) {a : α} (ha : a ∈ l) (f : α → M)
    (h0 : ∀ b ∈ l, b ≠ a → f b = 0) : (l.map f).sum = f a := by
  induction l with
  | nil => cases ha
  | cons b l ih =>
    rw [List.nodup_cons] at hn
    rw [List.map_cons, List.sum_cons]
    rcases List.mem_cons.1 ha with rfl | ha
    · have : (l.map f).sum = 0 := by
        apply List.sum_eq_zero
        intro x hx
        obtain ⟨c, hc, rfl⟩ := List.mem_map.1 hx
        exact h0 c (by simp [hc]) (by rintro rfl; exact hn.1 hc)
      rw [this, add_zero]
    · rw [h0 b (by simp) (by rintro rfl; exact hn.1 ha), zero_add, ih hn.2 ha (fun c hc => h0 c (by simp [hc]))]

/-- **C39** Tensor product: if no state with non-zero probability falls below the threshold, every entry of the density matrix after
`extend` is the original entry times the probability of the extra photon numbers, if these are the same in row and column, and 0
otherwise. -/
theorem C39_tensor_product (cl : Collection) (hg : cl.g.Ok) (hthr : 0 ≤ cl.thr) (eo ec : ℕ) (dist : List ℝ) (r : ℕ → ℕ → ℕ)
    (hlen : (orVacuum cl.g.L dist).length = cl.g.L) (hd : ∀ x ∈ dist, 0 ≤ x ∧ x ≤ 1)
    (hs : ∀ p ∈ cl.states, WellFormed cl.g p.2.comps ∧ CheckValid cl.thr cl.m p.2) (hne : ¬ (eo = 0 ∧ ec = 0))
    (hbig : ∀ p ∈ cl.states, ∀ e, p.2.cum * weight (orVacuum cl.g.L dist) e ≠ 0 → cl.thr ≤ p.2.cum * weight (orVacuum cl.g.L dist) e)
    (label : List Char) :
    ∃ out dm dm', extendColl cl eo ec dist r = some out ∧ densityMatrix cl.g cl.states label = some dm ∧
      densityMatrix out.g out.states label = some dm' ∧
      ∀ a b e f, Valid cl.g a → Valid cl.g b → e.length = eo → f.length = eo → (∀ x ∈ e, x < cl.g.L) → (∀ x ∈ f, x < cl.g.L) →
        dm' (out.g.indexOf (a ++ e)) (out.g.indexOf (b ++ f))
          = if e = f then (weight (orVacuum cl.g.L dist) e : ℂ) * dm (cl.g.indexOf a) (cl.g.indexOf b) else 0 := by
  classical
  obtain ⟨new, h1, h2, h3, h4⟩ := extendColl_spec (r := r) hg hthr hlen hd hs hne
  have hwf : ∀ x ∈ new, WellFormed (extCfg cl.g eo) x.2.comps := by
    intro x hx
    obtain ⟨pe, _, l, hl, _, he, e⟩ := forall₂_mem_right h3 hx
    rw [e]
    exact wf_enc (ext_ok he hl)
  obtain ⟨dm, hdm, hdme⟩ := densityMatrix_eq hg.1 (fun p hp => (hs p hp).1) label
  obtain ⟨dm', hdm', hdme'⟩ := densityMatrix_eq (g := extCfg cl.g eo) hg.1 hwf label
  refine ⟨_, dm, dm', h1, hdm, hdm', ?_⟩
  intro a b e f ha hb he hf he' hf'
  have heL : e ∈ allLists cl.g.L eo := mem_allLists.2 ⟨he, he'⟩
  have hfL : f ∈ allLists cl.g.L eo := mem_allLists.2 ⟨hf, hf'⟩
  have hae := append_valid heL ha
  have hbf := append_valid hfL hb
  set W := orVacuum cl.g.L dist with hW
  show dm' ((extCfg cl.g eo).indexOf (a ++ e)) ((extCfg cl.g eo).indexOf (b ++ f)) = _
  rw [hdme' _ ((extCfg cl.g eo).indexOf_lt hae) _ ((extCfg cl.g eo).indexOf_lt hbf)]
  simp only [vec_index hae, vec_index hbf]
  rw [sum_filter_label]
  -- contribution of one old state and one list of extra photon numbers
  let F : (List Char × QState) × Vals → ℂ := fun pe => if pe.1.2.initial = label then
    ((pe.1.2.cum * weight W pe.2 : ℝ) : ℂ) * (star (if pe.2 = e then ampOf pe.1.2.comps (cl.g.stdName a) else 0) *
      (if pe.2 = f then ampOf pe.1.2.comps (cl.g.stdName b) else 0)) else 0
  rw [sum_forall₂ h3 _ F]
  · rw [extPairs, List.map_flatMap, List.flatMap_def, List.sum_flatten, List.map_map]
    by_cases hef : e = f
    · rw [if_pos hef]
      rw [sum_one_label (nodup_allLists _ _) heL]
      · rw [hdme _ (cl.g.indexOf_lt ha) _ (cl.g.indexOf_lt hb)]
        simp only [vec_index ha, vec_index hb]
        rw [sum_filter_label, ← List.sum_map_mul_left]
        simp only [Function.comp_def, List.map_map]
        -- states below the threshold contribute nothing
        have : ∀ st : Coll, (∀ p ∈ st, p.2.cum * weight W e ≠ 0 → cl.thr ≤ p.2.cum * weight W e) →
            ((st.filter (fun p => cl.thr ≤ p.2.cum * weight W e)).map (fun p => F (p, e))).sum
            = (st.map (fun p => (weight W e : ℂ) * (if p.2.initial = label then (p.2.cum : ℂ) *
              (star (ampOf p.2.comps (cl.g.stdName a)) * ampOf p.2.comps (cl.g.stdName b)) else 0))).sum := by
          intro st
          induction st with
          | nil => intro _; rfl
          | cons p st ih =>
            intro hst
            rw [List.map_cons, List.sum_cons, ← ih (fun p hp => hst p (by simp [hp])), List.filter_cons]
            have hFp : F (p, e) = (weight W e : ℂ) * (if p.2.initial = label then (p.2.cum : ℂ) *
              (star (ampOf p.2.comps (cl.g.stdName a)) * ampOf p.2.comps (cl.g.stdName b)) else 0) := by
              simp only [F]
              by_cases hl : p.2.initial = label
              · rw [if_pos hl, if_pos hl, if_pos hef, if_pos trivial]; push_cast; ring
              · rw [if_neg hl, if_neg hl, mul_zero]
            by_cases hc : cl.thr ≤ p.2.cum * weight W e
            · rw [if_pos (by simpa using hc), List.map_cons, List.sum_cons, hFp]
            · rw [if_neg (by simpa using hc)]
              have h0 : p.2.cum * weight W e = 0 := by
                by_contra h0; exact hc (hst p (by simp) h0)
              have : F (p, e) = 0 := by
                simp only [F]
                rw [h0]; simp
              rw [← hFp, this, zero_add]
        exact this cl.states (fun p hp => hbig p hp e)
      · intro e0 _ hne0
        apply List.sum_eq_zero
        intro x hx
        simp only [List.map_map] at hx
        obtain ⟨p, _, rfl⟩ := List.mem_map.1 hx
        simp only [Function.comp_def, F]
        rw [if_neg hne0]; simp
    · rw [if_neg hef]
      apply List.sum_eq_zero
      intro x hx
      obtain ⟨e0, _, rfl⟩ := List.mem_map.1 hx
      apply List.sum_eq_zero
      intro y hy
      simp only [List.map_map] at hy
      obtain ⟨p, _, rfl⟩ := List.mem_map.1 hy
      simp only [Function.comp_def, F]
      by_cases h5 : e0 = e
      · rw [if_neg (c := e0 = f) (by rw [h5]; exact hef)]; simp
      · rw [if_neg (c := e0 = e) h5]; simp
  · rintro pe x - ⟨l, hl, hle, he0, ex⟩
    rw [ex]
    show (if pe.1.2.initial = label then ((pe.1.2.cum * weight W pe.2 : ℝ) : ℂ) *
        (star (ampOf (enc (extCfg cl.g eo) (l.map (fun p => (p.1 ++ pe.2, p.2)))) ((extCfg cl.g eo).stdName (a ++ e))) *
          ampOf (enc (extCfg cl.g eo) (l.map (fun p => (p.1 ++ pe.2, p.2)))) ((extCfg cl.g eo).stdName (b ++ f))) else 0) = F pe
    simp only [F]
    by_cases hlab : pe.1.2.initial = label
    · rw [if_pos hlab, if_pos hlab, ampOf_enc (ext_ok he0 hl).valid hae, ampOf_enc (ext_ok he0 hl).valid hbf, ampV_ext hl ha, ampV_ext hl hb,
        hle, ampOf_enc hl.valid ha, ampOf_enc hl.valid hb]
    · rw [if_neg hlab, if_neg hlab]

/-! ### extend by the vacuum, then reduce -/

theorem weight_vacuum (L : ℕ) (e : Vals) : weight (orVacuum L []) e = if ∀ x ∈ e, x = 0 then 1 else 0 := by
  have hx : ∀ x, (orVacuum L []).getD x 0 = if x = 0 then 1 else 0 := by
    intro x
    rw [orVacuum, if_pos rfl]
    cases x with
    | zero => simp
    | succ x =>
      rw [List.getD_cons_succ, List.getD_eq_getElem?_getD, List.getElem?_replicate]
      split <;> simp
  induction e with
  | nil => simp [weight]
  | cons x e ih =>
    have e1 : weight (orVacuum L []) (x :: e) = (orVacuum L []).getD x 0 * weight (orVacuum L []) e := by simp [weight]
    rw [e1, ih, hx]
    by_cases h : x = 0 <;> simp [h]

theorem flatMap_single {α β : Type*} {l : List α} (hn : l.Nodup) {a : α} (ha : a ∈ l) (f : α → List β)
    (h0 : ∀ b ∈ l, b ≠ a → f b = []) : l.flatMap f = f a := by
  induction l with
  | nil => cases ha
  | cons b l ih =>
    rw [List.nodup_cons] at hn
    rw [List.flatMap_cons]
    rcases List.mem_cons.1 ha with rfl | ha
    · have : l.flatMap f = [] := by
        rw [List.flatMap_eq_nil_iff]
        intro c hc
        exact h0 c (by simp [hc]) (by rintro rfl; exact hn.1 hc)
      rw [this, List.append_nil]
    · rw [h0 b (by simp) (by rintro rfl; exact hn.1 ha), List.nil_append, ih hn.2 ha (fun c hc => h0 c (by simp [hc]))]

theorem eq_singleton_of_nodup {α : Type*} {l : List α} {a : α} (hn : l.Nodup) (ha : a ∈ l) (h : ∀ b ∈ l, b = a) : l = [a] := by
  cases l with
  | nil => cases ha
  | cons b l =>
    obtain rfl := h b (by simp)
    cases l with
    | nil => rfl
    | cons c l =>
      obtain rfl := h c (by simp)
      simp at hn

/-- **C39** Adding channels in the vacuum and tracing them out again gives back the same states in the same order (with new
identifiers), for normalised states with cumulative probability not below the (positive) threshold. -/
theorem C39_extend_reduce (cl : Collection) (hg : cl.g.Ok) (hthr : 0 < cl.thr) (hne : cl.states ≠ [])
    (hs : ∀ p ∈ cl.states, WellFormed cl.g p.2.comps ∧ CheckValid cl.thr cl.m p.2 ∧ totalProb p.2.comps = 1 ∧ ProbsAgree p.2.comps ∧
      cl.thr ≤ p.2.cum)
    (eo ec : ℕ) (h0 : ¬ (eo = 0 ∧ ec = 0)) (hm : 1 ≤ cl.m ∨ ec = 0) (r : ℕ → ℕ → ℕ) :
    ∃ ext out, extendColl cl eo ec [] r = some ext ∧ reduceColl ext (List.range cl.g.C) (List.range cl.m) = some out ∧
      out.g = cl.g ∧ out.m = cl.m ∧ out.thr = cl.thr ∧ (out.states.map Prod.fst).Nodup ∧
      out.states.map Prod.snd = cl.states.map Prod.snd := by
  classical
  have hlen : (orVacuum cl.g.L []).length = cl.g.L := by
    have := hg.1
    simp [orVacuum]; omega
  obtain ⟨new, h1, h2, h3, h4⟩ := extendColl_spec (r := r) (eo := eo) (ec := ec) hg hthr.le hlen (by simp) (fun p hp => ⟨(hs p hp).1, (hs p hp).2.1⟩) h0
  set e0 : Vals := List.replicate eo 0 with he0
  have he0m : e0 ∈ allLists cl.g.L eo := mem_allLists.2 ⟨by simp [he0], by
    intro x hx; rw [List.eq_of_mem_replicate hx]; exact hg.1⟩
  have hw0 : weight (orVacuum cl.g.L []) e0 = 1 := by
    rw [weight_vacuum, if_pos]
    intro x hx; exact List.eq_of_mem_replicate hx
  have hpairs : extPairs cl (orVacuum cl.g.L []) eo = cl.states.map (fun p => (p, e0)) := by
    rw [extPairs, flatMap_single (nodup_allLists _ _) he0m]
    · rw [hw0]
      congr 1
      rw [List.filter_eq_self]
      intro p hp
      simpa using (hs p hp).2.2.2.2
    · intro e he hee
      rw [weight_vacuum, if_neg]
      · rw [List.map_eq_nil_iff, List.filter_eq_nil_iff]
        intro p _
        simpa using hthr
      · intro hall
        apply hee
        rw [he0]
        exact List.eq_replicate_iff.2 ⟨(mem_allLists.1 he).1, hall⟩
  rw [hpairs] at h3
  have hwf : ∀ x ∈ new, WellFormed (extCfg cl.g eo) x.2.comps := by
    intro x hx
    obtain ⟨pe, _, l, hl, _, he, e⟩ := forall₂_mem_right h3 hx
    rw [e]
    exact wf_enc (ext_ok he hl)
  have hnew : new ≠ [] := by
    rintro rfl
    have := h3.length_eq
    simp at this
    exact hne this
  set K := List.range cl.g.C with hK
  set CK := List.range cl.m with hCK
  have hKne : K ≠ [] := by
    intro h
    have : K.length = 0 := by rw [h]; rfl
    rw [hK, List.length_range] at this
    have := hg.2; omega
  have hoK : orAll (cl.g.C + eo) K = K := by rw [orAll, if_neg hKne]
  have hoCK : orAll (cl.m + ec) CK = CK := by
    rw [orAll]
    split
    · rename_i h
      have hl : CK.length = 0 := by rw [h]; rfl
      rw [hCK, List.length_range] at hl
      rcases hm with hm | hm
      · omega
      · rw [h, hl, hm]; rfl
    · rfl
  have hkeep : ∀ v, Valid cl.g v → keepVals K (v ++ e0) = v := by
    intro v hv
    apply List.ext_getElem
    · simp [keepVals, hK, hv.1]
    · intro i hi hi'
      simp only [keepVals, hK, List.getElem_map, List.getElem_range]
      rw [List.getD_eq_getElem?_getD, List.getElem?_append_left hi', List.getElem?_eq_getElem hi', Option.getD_some]
  have hdrop : ∀ v w, Valid cl.g v → Valid cl.g w → dropName (extCfg cl.g eo) K (v ++ e0) = dropName (extCfg cl.g eo) K (w ++ e0) := by
    intro v w hv hw
    rw [dropName_inj (append_valid he0m hv) (append_valid he0m hw)]
    intro c hc hcK
    have hc' : cl.g.C ≤ c := by
      by_contra h; exact hcK (List.mem_range.2 (by omega))
    rw [List.getD_eq_getElem?_getD, List.getD_eq_getElem?_getD, List.getElem?_append_right (by rw [hv.1]; exact hc'),
      List.getElem?_append_right (by rw [hw.1]; exact hc'), hv.1, hw.1]
  have hcfg : keptCfg (extCfg cl.g eo) K = cl.g := by simp [keptCfg, extCfg, hK]
  -- each extended state is reduced to the original one
  have hred : ∀ p ∈ cl.states, ∀ x, ExtendedTo cl.g eo ec (orVacuum cl.g.L []) (p, e0) x →
      ∃ t, ReducedTo (extCfg cl.g eo) cl.thr K CK x [(x.1 ++ t, p.2)] := by
    intro p hp x hx
    obtain ⟨l, hl, hle, -, ex⟩ := hx
    simp only at hle ex
    rw [hw0] at ex
    obtain ⟨hwf, hval, htot, hpa, -⟩ := hs p hp
    have hlne : l ≠ [] := by
      rintro rfl
      rw [hle] at htot
      simp [totalProb, enc] at htot
    obtain ⟨a, l', hal⟩ := List.exists_cons_of_ne_nil hlne
    have ha : a ∈ l := by rw [hal]; simp
    have hav := hl.valid a ha
    set l2 : VComps := l.map (fun p => (p.1 ++ e0, p.2)) with hl2
    set t := dropName (extCfg cl.g eo) K (a.1 ++ e0) with ht
    have hkeys : tracedKeys (extCfg cl.g eo) K l2 = [t] := by
      apply eq_singleton_of_nodup (tracedKeys_nodup _ _ _)
      · exact mem_tracedKeys.2 ⟨(a.1 ++ e0, a.2), List.mem_map.2 ⟨a, ha, rfl⟩, rfl⟩
      · intro b hb
        obtain ⟨y, hy, rfl⟩ := mem_tracedKeys.1 hb
        obtain ⟨z, hz, rfl⟩ := List.mem_map.1 hy
        exact hdrop z.1 a.1 (hl.valid z hz) hav
    have hitems : tracedItems (extCfg cl.g eo) K l2 t = l2 := by
      rw [tracedItems, List.filter_eq_self]
      intro y hy
      obtain ⟨z, hz, rfl⟩ := List.mem_map.1 hy
      simpa using hdrop z.1 a.1 (hl.valid z hz) hav
    have hcomps : tracedComps (extCfg cl.g eo) K l2 t = l := by
      rw [tracedComps, hitems, hl2, List.map_map]
      conv_rhs => rw [← List.map_id l]
      apply List.map_congr_left
      intro z hz
      simp only [Function.comp_def]
      rw [hkeep z.1 (hl.valid z hz)]; rfl
    have hP : tracedProb (extCfg cl.g eo) K l2 t = 1 := by
      rw [tracedProb, hitems, hl2, List.map_map]
      rw [hle, totalProb_enc] at htot
      rw [← htot]; rfl
    have hcl : CK.mapM (fun n => x.2.classical[n]?) = some p.2.classical := by
      rw [ex]
      simp only [extState]
      have hlenc : p.2.classical.length = cl.m := hval.2.2.2
      rw [mapM_some_of (g := fun n => p.2.classical.getD n 0)]
      · congr 1
        apply List.ext_getElem
        · simp [hCK, hlenc]
        · intro i hi hi'
          simp only [hCK, List.getElem_map, List.getElem_range]
          rw [List.getD_eq_getElem?_getD, List.getElem?_eq_getElem hi', Option.getD_some]
      · intro n hn
        have hn' : n < p.2.classical.length := by rw [hlenc]; exact List.mem_range.1 hn
        rw [List.getElem?_append_left hn', List.getElem?_eq_getElem hn', List.getD_eq_getElem?_getD, List.getElem?_eq_getElem hn', Option.getD_some]
    have hstate : tracedState (extCfg cl.g eo) K p.2.classical x.2 l2 t = p.2 := by
      have hsc : (tracedComps (extCfg cl.g eo) K l2 t).map (scaleComp (tracedProb (extCfg cl.g eo) K l2 t)) = l := by
        rw [hcomps, hP]
        conv_rhs => rw [← List.map_id l]
        apply List.map_congr_left
        intro z hz
        have hz2 := hpa (cl.g.stdName z.1, z.2) (by rw [hle]; exact List.mem_map.2 ⟨z, hz, rfl⟩)
        simp only at hz2
        simp only [scaleComp, id]
        rw [show Real.sqrt (1 / 1) = 1 by simp, Complex.ofReal_one, mul_one, ← hz2]
      rw [tracedState, hsc, hP, hcfg, ex]
      simp only [extState]
      rw [← hle, mul_one, mul_one]
    refine ⟨t, l2, p.2.classical, ext_ok he0m hl, by rw [ex]; rfl, fun _ => hcl, ?_, ?_⟩
    · rw [hkeys]
      intro t' ht'
      simp only [List.mem_singleton] at ht'
      subst ht'
      refine ⟨by rw [hP]; exact one_ne_zero, ?_⟩
      rw [hstate, hCK, List.length_range]
      exact hval
    · rw [hkeys, List.map_cons, List.map_nil, hstate]
  have hall : ∀ (st : Coll) (nw : Coll), (∀ p ∈ st, p ∈ cl.states) →
      List.Forall₂ (ExtendedTo cl.g eo ec (orVacuum cl.g.L [])) (st.map (fun p => (p, e0))) nw →
      ∃ lss, List.Forall₂ (ReducedTo (extCfg cl.g eo) cl.thr K CK) nw lss ∧ lss.flatten.map Prod.snd = st.map Prod.snd := by
    intro st
    induction st with
    | nil =>
      intro nw _ h
      rw [List.map_nil] at h
      cases h
      exact ⟨[], List.Forall₂.nil, rfl⟩
    | cons p st ih =>
      intro nw hmem h
      rw [List.map_cons] at h
      cases h with
      | cons hx hrest =>
        obtain ⟨lss, k1, k2⟩ := ih _ (fun p hp => hmem p (by simp [hp])) hrest
        obtain ⟨t, ht⟩ := hred p (hmem p (by simp)) _ hx
        refine ⟨_ :: lss, List.Forall₂.cons ht k1, ?_⟩
        rw [List.flatten_cons, List.map_append, k2]
        simp
  obtain ⟨lss, k1, k2⟩ := hall cl.states new (fun p hp => hp) h3
  have hout := (reduceColl_iff (cl := ⟨extCfg cl.g eo, cl.m + ec, cl.thr, new⟩) (keep := K) (ckeep := CK)
    (out := ⟨keptCfg (extCfg cl.g eo) K, CK.length, cl.thr, lss.flatten⟩) hnew h2 hwf).2 (by
      simp only
      rw [show (extCfg cl.g eo).C = cl.g.C + eo from rfl, hoK, hoCK]
      refine ⟨?_, ?_, ?_, lss, k1, rfl⟩
      · intro c hc
        have := List.mem_range.1 hc
        omega
      · intro c hc
        have := List.mem_range.1 hc
        omega
      · rw [hcfg]; exact hg)
  exact ⟨_, _, h1, hout, hcfg, by simp [hCK], rfl, reduced_keys_nodup h2 k1, k2⟩

/-- **C39** A collection without classical channels cannot be brought back to none after adding some: keeping 'no' classical channels
means keeping all. -/
theorem C39_no_classical (cl : Collection) (keep : List ℕ) (hne : cl.states ≠ []) (hn : (cl.states.map Prod.fst).Nodup)
    (hw : ∀ p ∈ cl.states, WellFormed cl.g p.2.comps) (out : Collection) (h : reduceColl cl keep [] = some out) : out.m = cl.m := by
  obtain ⟨-, -, -, lss, -, rfl⟩ := (reduceColl_iff hne hn hw).1 h
  simp [orAll]

/-- the entangled collection of `Props/Reduce` (with threshold 1/1000) satisfies the hypotheses -/
example : ∃ ext out, extendColl ⟨g₃, 2, 1 / 1000, [("a".toList, ent)]⟩ 2 1 [] (fun _ _ => 0) = some ext ∧
    reduceColl ext (List.range 3) (List.range 2) = some out ∧ out.states.map Prod.snd = [ent] := by
  obtain ⟨ext, out, h1, h2, -, -, -, -, h3⟩ := C39_extend_reduce ⟨g₃, 2, 1 / 1000, [("a".toList, ent)]⟩ (by decide) (by norm_num) (by simp) (by
    intro p hp
    simp only [List.mem_singleton] at hp
    subst hp
    refine ⟨ent_wf, ⟨?_, ?_, ?_, rfl⟩, ent_total, ?_, ?_⟩
    · norm_num [ent]
    · norm_num [ent]
    · intro c hc
      simp only [ent, List.mem_cons, List.not_mem_nil, or_false] at hc
      rcases hc with rfl | rfl <;> norm_num
    · intro c hc
      simp only [ent, List.mem_cons, List.not_mem_nil, or_false] at hc
      rcases hc with rfl | rfl <;> norm_num
    · norm_num [ent]) 2 1 (by omega) (Or.inl (by norm_num)) (fun _ _ => 0)
  exact ⟨ext, out, h1, h2, h3⟩

end Verif.Props
