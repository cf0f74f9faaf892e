/- Helper lemmas about photon-resolved measurement: identical photons. -/
import Verif.Lemmas.Resolved5
import Verif.Spec.Measurement

namespace Verif
open Spec Props

theorem single_column {g : Cfg} {d : Column} {t : PState} {v : Vals} (hd : d.states = [t]) (ht : HasVals g t v) :
    ∃ d', d.singlePhotonStates g = some d' ∧ ColumnWith g d' v ∧ d'.amp = d.amp ∧ d'.gprob = d.gprob ∧ d'.boson = d.boson * bosonOf v ∧
      ∀ u ∈ d'.states, u.info = t.info ∧ u.q.classical = t.q.classical := by
  obtain ⟨hv, k, hc, hk⟩ := ht
  have hsp := singlePhotons_eq hv hc
  rw [hk] at hsp
  have hsingle : d.singlePhotonStates g = some { d with states := (if v.sum > 0 then (photonChannels v).map (fun ch => oneComp t (g.stdName (oneHot v.length ch)) 1) else [oneComp t (g.stdName v) 1]), boson := d.boson * bosonOf v } := by
    unfold Column.singlePhotonStates
    rw [hd]
    simp [hsp]
  have hone : ∀ w : Vals, Valid g w → WellFormed g (oneComp t (g.stdName w) 1).q.comps := fun w hw => wf_unit _ ⟨w, hw, (isName_iff hw).2 rfl⟩
  have hfv : ∀ w : Vals, Valid g w → firstValues g (oneComp t (g.stdName w) 1) = some w := fun w hw => firstValues_of ⟨hw, _, rfl, rfl⟩
  refine ⟨_, hsingle, ?_, rfl, rfl, rfl, ?_⟩
  · by_cases h : v.sum > 0
    · simp only [if_pos h]
      rcases hpc : photonChannels v with _ | ⟨c0, l⟩
      · exfalso
        have : v.sum = 0 := List.sum_eq_zero (by
          intro x hx
          obtain ⟨i, hi, rfl⟩ := List.mem_iff_getElem.1 hx
          have := count_channels v i
          rw [hpc, List.getD_eq_getElem _ _ hi] at this
          simpa using this.symm)
        omega
      have hval : ∀ ch ∈ c0 :: l, Valid g (oneHot v.length ch) := fun ch hch => valid_oneHot hv (hpc ▸ hch)
      have hmap : ((c0 :: l).map (fun ch => oneComp t (g.stdName (oneHot v.length ch)) 1)).mapM (firstValues g) = some ((c0 :: l).map (oneHot v.length)) := by
        rw [mapM_some_iff, List.forall₂_map_left_iff, List.forall₂_map_right_iff, List.forall₂_same]
        intro ch hch
        exact hfv _ (hval ch hch)
      refine ⟨?_, ?_, ?_, hv⟩
      · intro s hs
        obtain ⟨ch, hch, rfl⟩ := List.mem_map.1 hs
        exact hone _ (hval ch hch)
      · intro s hs
        obtain ⟨ch, hch, rfl⟩ := List.mem_map.1 hs
        exact ⟨_, rfl⟩
      · rw [columnValues_eq (by exact hmap), fold_oneHot hpc]
    · simp only [if_neg h]
      refine ⟨?_, ?_, ?_, hv⟩
      · intro s hs
        obtain rfl := List.mem_singleton.1 hs
        exact hone v hv
      · intro s hs
        obtain rfl := List.mem_singleton.1 hs
        exact ⟨_, rfl⟩
      · have hmap : [oneComp t (g.stdName v) 1].mapM (firstValues g) = some [v] := by
          rw [mapM_some_iff]
          exact List.Forall₂.cons (hfv v hv) List.Forall₂.nil
        rw [columnValues_eq (by exact hmap)]
        rfl
  · intro u hu
    simp only at hu
    by_cases h : v.sum > 0
    · rw [if_pos h] at hu
      obtain ⟨ch, _, rfl⟩ := List.mem_map.1 hu
      exact ⟨rfl, rfl⟩
    · rw [if_neg h] at hu
      obtain rfl := List.mem_singleton.1 hu
      exact ⟨rfl, rfl⟩

/-- Identical photons and the right boson factors: the detection probability is the squared modulus of the sum of the amplitudes. -/
theorem detectionProb_identical {g : Cfg} {v : Vals} {cols : List Column} (h : ∀ c ∈ cols, ColumnWith g c v) (hb : ∀ c ∈ cols, c.boson = bosonOf v)
    (hi : ∀ b ∈ cols, ∀ k ∈ cols, ∀ s ∈ b.states, ∀ t ∈ k.states, photonOverlap s.info t.info = 1) :
    detectionProb g cols = ‖(cols.map (fun c => c.amp)).sum‖ ^ 2 := by
  have hB : ((bosonOf v : ℝ) : ℂ) ≠ 0 := by exact_mod_cast (bosonOf_pos v).ne'
  have hterm : ∀ b ∈ cols, ∀ k ∈ cols, crossTerm g b k = starRingEnd ℂ k.amp * b.amp := by
    intro b hbm k hkm
    unfold crossTerm
    rw [overlapPermanent_identical (h b hbm).photons.2.1 (h k hkm).photons.2.1, hb b hbm, hb k hkm]
    · push_cast
      field_simp
    · intro p hp q hq
      obtain ⟨s, hs, e1⟩ := (h b hbm).photons.2.2 p hp
      obtain ⟨t, ht, e2⟩ := (h k hkm).photons.2.2 q hq
      rw [e1, e2]
      exact hi b hbm k hkm s hs t ht
  have e1 : (cols.map (fun b => (cols.map (fun k => crossTerm g b k)).sum)) = cols.map (fun b => (starRingEnd ℂ (cols.map (fun c => c.amp)).sum) * b.amp) := by
    refine List.map_congr_left ?_
    intro b hbm
    have e2 : cols.map (fun k => crossTerm g b k) = cols.map (fun k => starRingEnd ℂ k.amp * b.amp) := List.map_congr_left (fun k hkm => hterm b hbm k hkm)
    rw [e2, List.sum_map_mul_right, map_list_sum, List.map_map]
    rfl
  unfold detectionProb
  rw [e1, List.sum_map_mul_left, norm_mul, RCLike.norm_conj]
  ring

end Verif

namespace Verif
open Spec Props

theorem sum_ite_one {β M : Type*} [DecidableEq β] [AddCommMonoid M] (b : β) (y : M) (vs : List β) (hn : vs.Nodup) (ha : b ∈ vs) :
    (vs.map (fun v => if b = v then y else 0)).sum = y := by
  induction vs with
  | nil => cases ha
  | cons v vs ih =>
    rw [List.map_cons, List.sum_cons]
    rw [List.nodup_cons] at hn
    by_cases hv : b = v
    · rw [if_pos hv]
      have : (vs.map (fun v => if b = v then y else 0)).sum = 0 := by
        refine List.sum_eq_zero ?_
        intro x hx
        obtain ⟨w, hw, rfl⟩ := List.mem_map.1 hx
        rw [if_neg]
        intro e
        exact hn.1 (by rw [← hv, e]; exact hw)
      rw [this, add_zero]
    · rw [if_neg hv, zero_add]
      refine ih hn.2 ?_
      rcases List.mem_cons.1 ha with h | h
      · exact absurd h hv
      · exact h

theorem sum_partition {α β M : Type*} [DecidableEq β] [AddCommMonoid M] (f : α → β) (h : α → M) (vs : List β) (l : List α) (hn : vs.Nodup) (hm : ∀ a ∈ l, f a ∈ vs) :
    (vs.map (fun v => ((l.filter (fun a => f a = v)).map h).sum)).sum = (l.map h).sum := by
  induction l with
  | nil => simp
  | cons a l ih =>
    have ih := ih (fun x hx => hm x (List.mem_cons_of_mem _ hx))
    rw [List.map_cons, List.sum_cons, ← ih]
    have ha := hm a List.mem_cons_self
    clear ih hm
    have key : ∀ v, (((a :: l).filter (fun a => f a = v)).map h).sum = (if f a = v then h a else 0) + ((l.filter (fun a => f a = v)).map h).sum := by
      intro v
      by_cases hv : f a = v
      · simp [hv]
      · simp [hv]
    simp only [key]
    rw [List.sum_map_add]
    congr 1
    exact sum_ite_one (f a) (h a) vs hn ha

/-- The total detection probability of columns with different photon numbers is the sum of the detection probabilities of the columns. -/
theorem totalDetection_distinct {g : Cfg} {cols : List Column} {p : ℝ} (h : TotalDetection g cols p) (hv : ∀ c ∈ cols, ∃ v, columnValues g c = some v) (hd : (cols.map (columnValues g)).Nodup) :
    p = (cols.map (fun c => detectionProb g [c])).sum := by
  obtain ⟨vs, h1, h2, rfl⟩ := h
  rw [← sum_partition (columnValues g) (fun c => detectionProb g [c]) (vs.map some) cols]
  · rw [List.map_map]
    congr 1
    refine List.map_congr_left ?_
    intro v hvm
    obtain ⟨c, hc, e⟩ := (h2 v).1 hvm
    simp only [Function.comp]
    have : cols.filter (fun c => columnValues g c = some v) = [c] := by
      clear h1 h2 hv hvm
      induction cols with
      | nil => cases hc
      | cons a l ih =>
        rw [List.map_cons, List.nodup_cons] at hd
        rcases List.mem_cons.1 hc with rfl | hc'
        · rw [List.filter_cons_of_pos (by simpa using e), List.filter_eq_nil_iff.2]
          intro x hx
          simp only [decide_eq_true_eq]
          intro hx'
          exact hd.1 (List.mem_map.2 ⟨x, hx, by rw [hx', e]⟩)
        · rw [List.filter_cons_of_neg, ih hd.2 hc']
          simp only [decide_eq_true_eq]
          intro ha
          exact hd.1 (List.mem_map.2 ⟨c, hc', by rw [ha, e]⟩)
    rw [this]
    simp
  · exact h1.map (Option.some_injective _)
  · intro c hc
    obtain ⟨v, e⟩ := hv c hc
    rw [e]
    exact List.mem_map_of_mem ((h2 v).2 ⟨c, hc, e⟩)

theorem detectionProb_one (g : Cfg) (c : Column) (hb : 0 < c.boson) :
    detectionProb g [c] = ‖c.amp‖ ^ 2 / c.boson ^ 2 * overlapPermanent (photonsOf g c) (photonsOf g c) := by
  have h1 := one_le_overlapPermanent (photonsOf g c)
  unfold detectionProb crossTerm
  simp only [List.map_cons, List.map_nil, List.sum_cons, List.sum_nil, add_zero]
  rw [norm_mul, norm_div, norm_mul, RCLike.norm_conj, Complex.norm_real, Complex.norm_real, Real.norm_eq_abs, Real.norm_eq_abs, abs_of_pos (by positivity), abs_of_pos (by linarith)]
  ring

end Verif
