/-
C51, C63 - C66: photon-resolved measurement.
-/
import Verif.Lemmas.Resolved6

namespace Verif.Props
open Verif Spec

/-! ### C63: the detection probability -/

/-- **C63** The contribution of two columns with the same photon numbers: product of the amplitudes, divided by the boson factors, times the permanent of the overlaps of their
photons. -/
theorem C63_pair (g : Cfg) (v : Vals) (bra ket : Column) (hb : ColumnWith g bra v) (hk : ColumnWith g ket v) (_hwid : RealWidths [bra, ket]) :
    pairProbability g v bra ket = some (some (crossTerm g bra ket)) :=
  pairProbability_eq hb.photons.1 hk.photons.1 hb.photons.2.1 hk.photons.2.1

/-- **C63** The probability of the photon numbers `v`: all contributions added up. -/
theorem C63_outcome (g : Cfg) (v : Vals) (cols : List Column) (h : ∀ c ∈ cols, ColumnWith g c v) (_hwid : RealWidths cols) :
    columnListProbability g v cols = some (detectionProb g cols) := columnList_detection h

/-- **C63** The photons of a column are in the channels given by its photon numbers. -/
theorem C63_photons (g : Cfg) (v : Vals) (c : Column) (h : ColumnWith g c v) (ch : ℕ) :
    listOfPhotons g c = some (photonsOf g c) ∧ ((photonsOf g c).map Prod.fst).count ch = v.getD ch 0 := by
  refine ⟨h.photons.1, ?_⟩
  rw [h.photons.2.1.count_eq, count_channels]

/-! ### C64: identical photons -/

/-- **C64** When all photons overlap fully and the boson factors are those of the photon numbers, the probability is the squared modulus of the summed amplitudes. -/
theorem C64_identical (g : Cfg) (v : Vals) (cols : List Column) (h : ∀ c ∈ cols, ColumnWith g c v) (hb : ∀ c ∈ cols, c.boson = bosonOf v) (hwid : RealWidths cols)
    (hi : ∀ b ∈ cols, ∀ k ∈ cols, ∀ s ∈ b.states, ∀ t ∈ k.states, photonOverlap s.info t.info = 1) :
    columnListProbability g v cols = some (‖(cols.map (fun c => c.amp)).sum‖ ^ 2) := by
  rw [C63_outcome g v cols h hwid, detectionProb_identical h hb hi]

theorem outcomeProb_perm {g : Cfg} {opt : List ℕ} {c c' : Comps} (h : c.Perm c') (o : List ℕ) : outcomeProb g opt c o = outcomeProb g opt c' o := by
  unfold outcomeProb
  exact (h.map _).sum_eq

/-- A column of single photons that stands for one component of the state. -/
def SingleFor (g : Cfg) (s : PState) (d : Column) (p : Name × Comp) : Prop :=
  ∃ v, ColumnWith g d v ∧ p.1 = g.stdName v ∧ d.amp = p.2.amp ∧ d.gprob = s.q.cum ∧ d.boson = bosonOf v ∧ ∀ u ∈ d.states, u.info = s.info ∧ u.q.classical = s.q.classical

theorem singles_for {g : Cfg} {s : PState} {out : List Column} {L : Comps} (h : List.Forall₂ (StandsForAll g s) out L) :
    ∃ single, out.mapM (Column.singlePhotonStates g) = some single ∧ List.Forall₂ (SingleFor g s) single L := by
  induction h with
  | nil => exact ⟨[], rfl, List.Forall₂.nil⟩
  | @cons d p out L h1 _ ih =>
    obtain ⟨single, e1, e2⟩ := ih
    obtain ⟨⟨⟨t, ht1, ⟨v, hv, ht2⟩, hsr⟩, ha, hg⟩, hbo, hin⟩ := h1
    obtain ⟨d', f1, f2, f3, f4, f5, f6⟩ := single_column ht1 ht2
    refine ⟨d' :: single, mapM_some_iff.2 (List.Forall₂.cons f1 (mapM_some_iff.1 e1)), List.Forall₂.cons ?_ e2⟩
    refine ⟨v, f2, hv, by rw [f3, ha], by rw [f4, hg], by rw [f5, hbo, one_mul], ?_⟩
    intro u hu
    obtain ⟨g1, g2⟩ := f6 u hu
    exact ⟨by rw [g1]; exact hin t (by rw [ht1]; simp), by rw [g2]; exact hsr.2.1⟩

theorem forall2_left_mem {α β : Type*} {R : α → β → Prop} {l : List α} {l' : List β} (h : List.Forall₂ R l l') : ∀ x ∈ l, ∃ y ∈ l', R x y := by
  induction h with
  | nil => intro x hx; cases hx
  | cons h1 _ ih =>
    intro x hx
    rcases List.mem_cons.1 hx with rfl | hx
    · exact ⟨_, List.mem_cons_self, h1⟩
    · obtain ⟨y, hy, e⟩ := ih x hx
      exact ⟨y, List.mem_cons_of_mem _ hy, e⟩

theorem single_sum {g : Cfg} {s : PState} {single : List Column} {L : Comps} (h : List.Forall₂ (SingleFor g s) single L) (opt o : List ℕ) :
    ((columnsReading g opt o single).map (fun c => ‖c.amp‖ ^ 2)).sum = outcomeProb g opt L o := by
  unfold columnsReading outcomeProb
  induction h with
  | nil => rfl
  | @cons d p single L h1 _ ih =>
    obtain ⟨v, hcw, hn, ha, _⟩ := h1
    rw [List.map_cons, List.sum_cons, ← ih]
    have hval := hcw.values
    have key : (∃ w, Valid g w ∧ IsName g w p.1 ∧ Reads opt w o) ↔ opt.map (fun n => v.getD n 0) = o := by
      constructor
      · rintro ⟨w, hw, hnw, hr⟩
        rw [isName_iff hw, hn] at hnw
        rw [g.stdName_inj hcw.valid.2 hw.2 hnw]; exact hr.symm
      · intro h; exact ⟨v, hcw.valid, (isName_iff hcw.valid).2 hn, h.symm⟩
    by_cases ho : opt.map (fun n => v.getD n 0) = o
    · rw [List.filter_cons_of_pos (by rw [hval]; simpa using ho), List.map_cons, List.sum_cons, if_pos (key.2 ho), ha]
    · rw [List.filter_cons_of_neg (by rw [hval]; simpa using ho), if_neg (fun hh => ho (key.1 hh)), zero_add]

theorem single_values {g : Cfg} {s : PState} {single : List Column} {L : Comps} (h : List.Forall₂ (SingleFor g s) single L) (hn : (L.map Prod.fst).Nodup) :
    (single.map (columnValues g)).Nodup := by
  induction h with
  | nil => simp
  | @cons d p single L h1 htail ih =>
    rw [List.map_cons, List.nodup_cons] at hn ⊢
    refine ⟨?_, ih hn.2⟩
    intro hm
    obtain ⟨c, hc, e⟩ := List.mem_map.1 hm
    obtain ⟨q, hq, w, hw, hnw, _⟩ := forall2_left_mem htail c hc
    obtain ⟨v, hv, hnv, _⟩ := h1
    rw [hv.values, hw.values] at e
    have e := Option.some.inj e
    subst e
    exact hn.1 (by rw [hnv, ← hnw]; exact List.mem_map_of_mem hq)

/-- **C64** A state of identical photons measured in the photon-resolved way: for the same outcomes as in the ordinary measurement there is one new group each, with the ordinary (Born)
probability. -/
theorem C64_born_partial (g : Cfg) (hL : g.L ≤ 10) (m : ℕ) (s : PState) (opt cls : List ℕ) (hw : WellFormed g s.q.comps) (hn : totalProb s.q.comps = 1)
    (ha : ∀ p ∈ s.q.comps, p.2.amp ≠ 0) (h1 : s.q.comps.length = 1 → ∀ p ∈ s.q.comps, p.2.amp = 1) (hm : s.q.classical.length = m)
    (_hwid : RealWidth s.info) (hopt : ∀ ch ∈ opt, ch < g.C) (hcls : cls.length = opt.length) (hclm : ∀ n ∈ cls, n < m) :
    ∃ groups outs, measureGroups g (s.q.comps.length + 1) opt cls [groupOfState s] = some groups ∧ outs.Nodup ∧ (∀ o, o ∈ outs ↔ Occurs g opt s.q.comps o) ∧
      List.Forall₂ (fun o grp => grp ≠ [] ∧ ∀ c ∈ grp, c.gprob = s.q.cum * outcomeProb g opt s.q.comps o) outs groups := by
  have hne : s.q.comps ≠ [] := by
    intro h0
    rw [h0] at hn
    simp [totalProb] at hn
  obtain ⟨out, L, e1, e2, e3⟩ := split_stands_all (g := g) (s := s) ⟨hw, hne, fun _ => ⟨hn, ha⟩⟩ h1
  obtain ⟨single, f1, f2⟩ := singles_for e3
  have hLn : (L.map Prod.fst).Nodup := (e2.map Prod.fst).nodup_iff.2 hw.nodup
  have hmeas : MeasurableGroup g m single := by
    refine ⟨?_, ?_, ?_, ?_, ?_⟩
    · intro c hc
      obtain ⟨p, _, v, hv, _⟩ := forall2_left_mem f2 c hc
      exact ⟨v, hv⟩
    · intro c hc
      obtain ⟨p, hp, v, _, _, hamp, _⟩ := forall2_left_mem f2 c hc
      rw [hamp]
      exact ha p (e2.mem_iff.1 hp)
    · intro c hc
      obtain ⟨p, hp, v, _, _, _, _, hbo, _⟩ := forall2_left_mem f2 c hc
      rw [hbo]; exact bosonOf_pos v
    · intro c hc c' hc'
      obtain ⟨p, hp, v, _, _, _, hg, _⟩ := forall2_left_mem f2 c hc
      obtain ⟨p', hp', v', _, _, _, hg', _⟩ := forall2_left_mem f2 c' hc'
      rw [hg, hg']
    · intro c hc t ht
      obtain ⟨p, hp, v, _, _, _, _, _, hin⟩ := forall2_left_mem f2 c hc
      rw [(hin t ht).2, hm]
  obtain ⟨groups, outs, k1, k2, k3, k4⟩ := measureGroup_spec hL hmeas hopt hcls hclm
  refine ⟨groups, outs, ?_, k2, ?_, ?_⟩
  · unfold measureGroups
    rw [List.mapM_cons, e1]
    simp only [Option.bind_some, f1, k1, List.mapM_nil, Option.pure_def, Option.bind_eq_bind, Option.map_some, List.flatten_cons, List.flatten_nil, List.append_nil]
  · intro o
    rw [k3]
    constructor
    · rintro ⟨c, hc, v, hv, rfl⟩
      obtain ⟨p, hp, w, hw', hnm, _⟩ := forall2_left_mem f2 c hc
      rw [hw'.values] at hv
      have hv := Option.some.inj hv
      subst hv
      exact ⟨w, p.1, hw'.valid, (isName_iff hw'.valid).2 hnm, List.mem_map_of_mem (e2.mem_iff.1 hp), rfl⟩
    · rintro ⟨v, nm, hv, hnm, hmem, hr⟩
      obtain ⟨p, hp, rfl⟩ := List.mem_map.1 hmem
      obtain ⟨c, hc, w, hw', hnw, _⟩ := forall2_left_mem f2.flip p (e2.mem_iff.2 hp)
      rw [isName_iff hv, hnw] at hnm
      have := g.stdName_inj hw'.valid.2 hv.2 hnm
      subst this
      exact ⟨c, hc, w, hw'.values, hr⟩
  · refine List.Forall₂.imp ?_ ((List.forall₂_and_left outs groups).2 ⟨fun o ho => ho, k4⟩)
    rintro o grp ⟨ho, p, t1, t2⟩
    have hsub : ∀ c ∈ columnsReading g opt o single, c ∈ single := fun c hc => (List.mem_filter.1 hc).1
    have hp : p = outcomeProb g opt s.q.comps o := by
      rw [totalDetection_distinct t1 (fun c hc => by
          obtain ⟨v, hv⟩ := hmeas.columns c (hsub c hc)
          exact ⟨v, hv.values⟩) (by
          refine (single_values f2 hLn).sublist ?_
          exact List.Sublist.map _ List.filter_sublist), ← outcomeProb_perm e2, ← single_sum f2]
      congr 1
      refine List.map_congr_left ?_
      intro c hc
      obtain ⟨q, hq, v, hv, _, _, _, hbo, hin⟩ := forall2_left_mem f2 c (hsub c hc)
      rw [detectionProb_identical (v := v) (by simpa using hv) (by simpa using hbo) (by
        intro b hb k hk x hx y hy
        obtain rfl := List.mem_singleton.1 hb
        obtain rfl := List.mem_singleton.1 hk
        rw [(hin x hx).1, (hin y hy).1, photonOverlap_self])]
      simp
    refine ⟨?_, ?_⟩
    · intro h0
      rw [h0] at t2
      obtain ⟨c, hc, v, hv, hvo⟩ := (k3 o).1 ho
      have hcm : c ∈ columnsReading g opt o single := by
        unfold columnsReading
        refine List.mem_filter.2 ⟨hc, ?_⟩
        rw [hv, hvo]
        simp
      rw [List.forall₂_nil_right_iff.1 t2] at hcm
      cases hcm
    · intro c' hc'
      obtain ⟨c, hc, hcc⟩ := forall2_left_mem t2.flip c' hc'
      obtain ⟨q, hq, v, hv, _, _, hg, _⟩ := forall2_left_mem f2 c (hsub c hc)
      have := hcc.gprob
      rw [this, hg, hp]

end Verif.Props
