/-
The states at the end of an experiment with Popescu-Rohrlich pairs.
-/
import Verif.Lemmas.PRExperiment3
import Verif.Lemmas.Evaluate

namespace Verif
open Spec Props

theorem pyStr_inj {a b : ℕ} (h : pyStr a = pyStr b) : a = b := by
  rw [← digVal_pyStr a, h, digVal_pyStr]

theorem zip_zipIdx {α : Type*} (l : List α) : ∀ k, (l.zipIdx k).zip l = (l.zipIdx k).map (fun sk => (sk, sk.1)) := by
  induction l with
  | nil => intro k; rfl
  | cons a l ih => intro k; simp [List.zipIdx_cons, ih]

theorem opticalPR_spec {c : Circ} {n : Opt × List ℕ} {l : List (Opt × List ℕ)} {coll : List PRState} (hv : ∀ s ∈ coll, CheckValid c.thr c.m s.q)
    (F : PRState → Comps) (hF : ∀ s ∈ coll, applyOptical c.g c.thr c.full (basisKeys c.g) n l s.q.comps = some (F s)) :
    opticalPR c n l coll = some (coll.map (fun s => ⟨{ s.q with comps := F s }, s.pr⟩)) := by
  have hmem : ∀ sk ∈ coll.zipIdx, sk.1 ∈ coll := by
    rintro ⟨s, k⟩ h
    exact List.mem_of_getElem? (List.mem_zipIdx_iff_getElem?.mp h)
  have h1 : opticalColl c n l (coll.zipIdx.map (fun sk => (pyStr sk.2, sk.1.q)))
      = some (coll.zipIdx.map (fun sk => (pyStr sk.2, { sk.1.q with comps := F sk.1 }))) := by
    rw [opticalColl_iff]
    · refine ⟨?_, ?_⟩
      · intro p hp
        obtain ⟨sk, hsk, rfl⟩ := List.mem_map.mp hp
        exact hv _ (hmem sk hsk)
      · rw [List.forall₂_map_left_iff, List.forall₂_map_right_iff, List.forall₂_same]
        intro sk hsk
        exact ⟨F sk.1, hF _ (hmem sk hsk), rfl⟩
    · rw [List.map_map]
      have : (coll.zipIdx.map (Prod.fst ∘ fun sk => (pyStr sk.2, sk.1.q))) = (coll.zipIdx.map Prod.snd).map pyStr := by
        rw [List.map_map]
        rfl
      rw [this]
      refine List.Nodup.map (fun a b => pyStr_inj) ?_
      rw [List.zipIdx_map_snd]
      exact List.nodup_range'
  unfold opticalPR
  rw [h1, Option.map_some]
  congr 1
  rw [List.zip_map_left, zip_zipIdx, List.map_map, List.map_map]
  have : coll = coll.zipIdx.map Prod.fst := (List.zipIdx_map_fst 0 coll).symm
  conv_rhs => rw [this, List.map_map]
  rfl

/-! ### names of the outcomes -/

/-- Photon numbers of the channels outside the pairs (zero in the channels of the pairs) with non-zero amplitude, by index. -/
def Rest (g : Cfg) (boxes : List Box) (γ : Vals → ℂ) : Type :=
  {r : Fin g.size // (∀ i, ¬ Outside boxes i → (g.valuesFromIndex r.val).getD i 0 = 0) ∧ γ (g.valuesFromIndex r.val) ≠ 0}

noncomputable instance (g : Cfg) (boxes : List Box) (γ : Vals → ℂ) : Fintype (Rest g boxes γ) := by
  classical
  unfold Rest
  infer_instance

/-- Photon numbers outside the pairs together with the pairs. -/
def fill (g : Cfg) (boxes : List Box) (r : ℕ) (o : Fin boxes.length → Fin 4) : Vals := (writeBoxes boxes (List.ofFn o) (g.valuesFromIndex r)).getD []

theorem fill_spec {g : Cfg} (hg : g.Ok) (hL : 2 ≤ g.L) {boxes : List Box} (hok : BoxesOk g boxes) (r : ℕ) (o : Fin boxes.length → Fin 4) :
    Valid g (fill g boxes r o) ∧ Overwritten boxes (List.ofFn o) (g.valuesFromIndex r) (fill g boxes r o) := by
  have hv := g.valid_valuesFromIndex hg.1 r
  obtain ⟨w, e, ho, hmem⟩ := writeBoxes_spec hok (x := List.ofFn o) (by simp) hv.1
  have : fill g boxes r o = w := by unfold fill; rw [e]; rfl
  rw [this]
  refine ⟨⟨ho.len.trans hv.1, fun y hy => ?_⟩, ho⟩
  rcases hmem y hy with h | h
  · exact hv.2 y h
  · omega

open Classical in
/-- Photon numbers with the channels of the pairs set to zero. -/
noncomputable def clear (boxes : List Box) (w : Vals) : Vals := w.mapIdx (fun i x => if Outside boxes i then x else 0)

theorem clear_valid {g : Cfg} (hg : g.Ok) {boxes : List Box} {w : Vals} (hw : Valid g w) : Valid g (clear boxes w) := by
  classical
  refine ⟨by unfold clear; rw [List.length_mapIdx]; exact hw.1, fun x hx => ?_⟩
  unfold clear at hx
  obtain ⟨i, hi, rfl⟩ := List.mem_mapIdx.mp hx
  split
  · exact hw.2 _ (List.getElem_mem hi)
  · exact hg.1

theorem clear_agree (boxes : List Box) (w : Vals) : AgreeOutside boxes (clear boxes w) w := by
  classical
  intro i hi
  unfold clear
  rw [List.getElem?_mapIdx]
  simp [hi]

theorem clear_zero (boxes : List Box) (w : Vals) (i : ℕ) (hi : ¬ Outside boxes i) : (clear boxes w).getD i 0 = 0 := by
  classical
  unfold clear
  rw [List.getD, List.getElem?_mapIdx]
  cases h : w[i]? <;> simp [hi]

theorem eq_of_cleared {g : Cfg} {boxes : List Box} {v w : Vals} (hv : Valid g v) (hw : Valid g w) (h1 : ∀ i, ¬ Outside boxes i → v.getD i 0 = 0)
    (h2 : ∀ i, ¬ Outside boxes i → w.getD i 0 = 0) (hs : AgreeOutside boxes v w) : v = w := by
  refine valid_ext hv hw (fun i _ => ?_)
  by_cases hi : Outside boxes i
  · simp only [List.getD, hs i hi]
  · rw [h1 i hi, h2 i hi]

/-- Every list of photon numbers with pairs is a filled one. -/
theorem exists_fill {g : Cfg} (hg : g.Ok) (hL : 2 ≤ g.L) {boxes : List Box} (hok : BoxesOk g boxes) {γ : Vals → ℂ} (hγ : OnlyOutside g boxes γ) {w : Vals} (hw : Valid g w)
    {o : Fin boxes.length → Fin 4} (ho : HasPairs boxes o w) (hne : γ w ≠ 0) : ∃ r : Rest g boxes γ, fill g boxes r.1.val o = w := by
  have hc := clear_valid hg (boxes := boxes) hw
  have hlt := g.indexOf_lt hc
  have e := g.valuesFromIndex_indexOf hc
  refine ⟨⟨⟨g.indexOf (clear boxes w), hlt⟩, ?_, ?_⟩, ?_⟩
  · show ∀ i, _ → (g.valuesFromIndex (g.indexOf (clear boxes w))).getD i 0 = 0
    rw [e]
    exact clear_zero boxes w
  · show γ (g.valuesFromIndex (g.indexOf (clear boxes w))) ≠ 0
    rw [e, hγ _ w hc hw (clear_agree boxes w)]
    exact hne
  · show fill g boxes (g.indexOf (clear boxes w)) o = w
    obtain ⟨h1, h2⟩ := fill_spec hg hL hok (g.indexOf (clear boxes w)) o
    rw [e] at h2
    exact eq_of_pairs (overwritten_hasPairs h2) ho (fun i hi => (h2.rest i hi).trans (clear_agree boxes w i hi))

theorem fill_inj {g : Cfg} (hg : g.Ok) (hL : 2 ≤ g.L) {boxes : List Box} (hok : BoxesOk g boxes) {γ : Vals → ℂ} {r r' : Rest g boxes γ} {o o' : Fin boxes.length → Fin 4}
    (h : fill g boxes r.1.val o = fill g boxes r'.1.val o') : r = r' ∧ o = o' := by
  obtain ⟨h1, h2⟩ := fill_spec hg hL hok r.1.val o
  obtain ⟨h1', h2'⟩ := fill_spec hg hL hok r'.1.val o'
  rw [← h] at h2'
  refine ⟨?_, hasPairs_unique hok (overwritten_hasPairs h2) (overwritten_hasPairs h2')⟩
  have hv : g.valuesFromIndex r.1.val = g.valuesFromIndex r'.1.val :=
    eq_of_cleared (g.valid_valuesFromIndex hg.1 _) (g.valid_valuesFromIndex hg.1 _) r.2.1 r'.2.1 (fun i hi => (h2.rest i hi).symm.trans (h2'.rest i hi))
  have := congrArg g.indexOf hv
  rw [g.indexOf_valuesFromIndex r.1.isLt, g.indexOf_valuesFromIndex r'.1.isLt] at this
  exact Subtype.ext (Fin.ext this)

/-! ### the run -/

theorem mid_wf {g : Cfg} {boxes : List Box} {ident : ℕ} {st : PRState} {mid : List PRState} (hr : GateResult g boxes ident st mid) {s : PRState} (hs : s ∈ mid) :
    WellFormed g s.q.comps := by
  refine wf_iff.mpr ⟨hr.complete.dict s hs, fun p' hp' => ?_⟩
  obtain ⟨p, -, -, -, v, w, -, h2, -, h4, -⟩ := forall₂_mem_right (hr.components s hs) hp'
  exact ⟨w, h2, (isName_iff h2).mp h4⟩

theorem mid_total {g : Cfg} {boxes : List Box} {ident : ℕ} {st : PRState} {mid : List PRState} (hr : GateResult g boxes ident st mid) {s : PRState} (hs : s ∈ mid) :
    totalProb s.q.comps = totalProb st.q.comps := by
  unfold totalProb
  have h := hr.components s hs
  generalize s.q.comps = l' at h ⊢
  generalize st.q.comps = l at h ⊢
  induction h with
  | nil => rfl
  | cons h _ ih => rw [List.map_cons, List.map_cons, List.sum_cons, List.sum_cons, h.1, ih]

theorem prob_le_total {c : Comps} {p : Name × Comp} (hp : p ∈ c) : ‖p.2.amp‖ ^ 2 ≤ totalProb c :=
  List.single_le_sum (l := c.map (fun p => ‖p.2.amp‖ ^ 2)) (by
    intro x hx
    obtain ⟨q, -, rfl⟩ := List.mem_map.mp hx
    positivity) _ (List.mem_map.mpr ⟨p, hp, rfl⟩)

theorem half_pow_le (n : ℕ) : 0 ≤ (1 / 2 : ℝ) ^ n ∧ (1 / 2 : ℝ) ^ n ≤ 1 := ⟨by positivity, pow_le_one₀ (by norm_num) (by norm_num)⟩

/-- A state with known probability, amplitudes and classical values is accepted by the copy. -/
theorem checkValid_of {thr : ℝ} (ht : 0 ≤ thr) {m : ℕ} {q : QState} {n : ℕ} (h1 : q.cum = (1 / 2 : ℝ) ^ n) (h2 : q.classical.length = m)
    (h3 : ∀ p ∈ q.comps, p.2.prob = ‖p.2.amp‖ ^ 2) (h4 : totalProb q.comps ≤ 1) : CheckValid thr m q := by
  have := half_pow_le n
  refine ⟨by rw [h1]; linarith, by rw [h1]; linarith, fun p hp => ?_, h2⟩
  have h5 := prob_le_total hp
  rw [h3 p hp]
  constructor
  · have : 0 ≤ ‖p.2.amp‖ ^ 2 := by positivity
    linarith
  · linarith

end Verif
