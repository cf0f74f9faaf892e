/-
Product form of the amplitudes in an experiment with Popescu-Rohrlich pairs.
-/
import Verif.Lemmas.PRExperiment

namespace Verif
open Spec Props

theorem photonChannel_get {g : Cfg} {boxes : List Box} (hok : BoxesOk g boxes) (k : Fin boxes.length) (s i : Fin 2) :
    (boxes.get k).channels[2 * s.val + i.val]? = some (photonChannel boxes k s i) := by
  have h4 := hok.four _ (List.get_mem boxes k)
  have : 2 * s.val + i.val < (boxes.get k).channels.length := by omega
  unfold photonChannel
  rw [List.getD_eq_getElem _ _ this, List.getElem?_eq_getElem this]

theorem photonChannel_mem {g : Cfg} {boxes : List Box} (hok : BoxesOk g boxes) (k : Fin boxes.length) (s i : Fin 2) :
    photonChannel boxes k s i ∈ (boxes.get k).channels := List.mem_of_getElem? (photonChannel_get hok k s i)

theorem photonChannel_lt {g : Cfg} {boxes : List Box} (hok : BoxesOk g boxes) (k : Fin boxes.length) (s i : Fin 2) :
    photonChannel boxes k s i < g.C := hok.exist _ (List.get_mem boxes k) _ (photonChannel_mem hok k s i)

theorem photonChannel_not_outside {g : Cfg} {boxes : List Box} (hok : BoxesOk g boxes) (k : Fin boxes.length) (s i : Fin 2) :
    ¬ Outside boxes (photonChannel boxes k s i) := fun h => h _ (List.get_mem boxes k) (photonChannel_mem hok k s i)

theorem box_disjoint : ∀ {boxes : List Box}, (boxes.flatMap Box.channels).Nodup → ∀ (k k' : Fin boxes.length) (c : ℕ),
    c ∈ (boxes.get k).channels → c ∈ (boxes.get k').channels → k = k'
  | [], _, k, _, _, _, _ => k.elim0
  | b :: rest, hn, ⟨0, _⟩, ⟨0, _⟩, _, _, _ => rfl
  | b :: rest, hn, ⟨0, _⟩, ⟨j + 1, hj⟩, c, h1, h2 => by
    rw [List.flatMap_cons, List.nodup_append] at hn
    exact absurd rfl (hn.2.2 c h1 c (List.mem_flatMap.mpr ⟨_, List.get_mem rest ⟨j, by simpa using hj⟩, h2⟩))
  | b :: rest, hn, ⟨j + 1, hj⟩, ⟨0, _⟩, c, h1, h2 => by
    rw [List.flatMap_cons, List.nodup_append] at hn
    exact absurd rfl (hn.2.2 c h2 c (List.mem_flatMap.mpr ⟨_, List.get_mem rest ⟨j, by simpa using hj⟩, h1⟩))
  | b :: rest, hn, ⟨i + 1, hi⟩, ⟨j + 1, hj⟩, c, h1, h2 => by
    rw [List.flatMap_cons, List.nodup_append] at hn
    have := box_disjoint hn.2.1 ⟨i, by simpa using hi⟩ ⟨j, by simpa using hj⟩ c h1 h2
    exact Fin.ext (by simpa using congrArg Fin.val this)

theorem box_nodup {boxes : List Box} (hn : (boxes.flatMap Box.channels).Nodup) (k : Fin boxes.length) : (boxes.get k).channels.Nodup :=
  (List.nodup_flatMap.mp hn).1 _ (List.get_mem boxes k)

theorem photonChannel_inj {g : Cfg} {boxes : List Box} (hok : BoxesOk g boxes) {k k' : Fin boxes.length} {s s' i i' : Fin 2}
    (h : photonChannel boxes k s i = photonChannel boxes k' s' i') : k = k' ∧ s = s' ∧ i = i' := by
  have h1 := photonChannel_mem hok k s i
  have h2 := photonChannel_mem hok k' s' i'
  obtain rfl : k = k' := box_disjoint hok.distinct k k' _ h1 (h ▸ h2)
  have g1 := photonChannel_get hok k s i
  have g2 := photonChannel_get hok k s' i'
  rw [← h] at g2
  have hn := box_nodup hok.distinct k
  have hlt : 2 * s.val + i.val < (boxes.get k).channels.length := by
    have h4 := hok.four _ (List.get_mem boxes k)
    omega
  have := (List.getElem?_inj hlt hn).mp (g1.trans g2.symm)
  refine ⟨rfl, ?_, ?_⟩
  · exact Fin.ext (by omega)
  · exact Fin.ext (by omega)

/-- Amplitude of the pairs: a product over all photons. -/
noncomputable def prodAmp (boxes : List Box) (u : Fin boxes.length × Fin 2 → Fin 2 → ℂ) (w : Vals) : ℂ :=
  ∏ p, single (u p) (w.getD (photonChannel boxes p.1 p.2 0) 0) (w.getD (photonChannel boxes p.1 p.2 1) 0)

/-- The amplitudes `γ` do not depend on the channels of the pairs. -/
def OnlyOutside (g : Cfg) (boxes : List Box) (γ : Vals → ℂ) : Prop := ∀ v w, Valid g v → Valid g w → AgreeOutside boxes v w → γ v = γ w

/-- The vector is a product. -/
def ProductForm (g : Cfg) (boxes : List Box) (γ : Vals → ℂ) (u : Fin boxes.length × Fin 2 → Fin 2 → ℂ) (y : ℕ → ℂ) : Prop :=
  ∀ w, Valid g w → y (g.indexOf w) = γ w * prodAmp boxes u w

theorem agreeOutside_set {boxes : List Box} {v : Vals} {i : ℕ} (hi : ¬ Outside boxes i) (a : ℕ) : AgreeOutside boxes (v.set i a) v := by
  intro j hj
  rw [List.getElem?_set_ne]
  rintro rfl
  exact hi hj

theorem AgreeOutside.trans {boxes : List Box} {v w x : Vals} (h1 : AgreeOutside boxes v w) (h2 : AgreeOutside boxes w x) : AgreeOutside boxes v x :=
  fun i hi => (h1 i hi).trans (h2 i hi)

theorem AgreeOutside.set {g : Cfg} {boxes : List Box} {v w : Vals} (hv : Valid g v) (hw : Valid g w) (h : AgreeOutside boxes v w) (i a : ℕ) :
    AgreeOutside boxes (v.set i a) (w.set i a) := by
  intro j hj
  rw [List.getElem?_set, List.getElem?_set, hv.1, hw.1]
  split
  · rfl
  · exact h j hj

/-- The polarization vectors after a step. -/
noncomputable def stepVec {n : ℕ} (step : LocalStep n) (u : Fin n × Fin 2 → Fin 2 → ℂ) : Fin n × Fin 2 → Fin 2 → ℂ :=
  match step with
  | .photon k s M => fun p => if k = p.1 ∧ s = p.2 then M.transpose.mulVec (u p) else u p
  | .elsewhere _ _ _ => u

theorem prodAmp_photon {g : Cfg} {boxes : List Box} (hok : BoxesOk g boxes) (u : Fin boxes.length × Fin 2 → Fin 2 → ℂ) {w : Vals} (hw : Valid g w)
    (k : Fin boxes.length) (s : Fin 2) (a b : ℕ) :
    prodAmp boxes u ((w.set (photonChannel boxes k s 0) a).set (photonChannel boxes k s 1) b)
      = single (u (k, s)) a b * ∏ p ∈ Finset.univ.erase (k, s), single (u p) (w.getD (photonChannel boxes p.1 p.2 0) 0) (w.getD (photonChannel boxes p.1 p.2 1) 0) := by
  unfold prodAmp
  rw [← Finset.mul_prod_erase Finset.univ _ (Finset.mem_univ (k, s))]
  have hne : photonChannel boxes k s 1 ≠ photonChannel boxes k s 0 := fun e => absurd (photonChannel_inj hok e).2.2 (by decide)
  congr 1
  · rw [getD_set_ne hne, getD_set_self (by rw [hw.1]; exact photonChannel_lt hok k s 0),
      getD_set_self (by rw [List.length_set, hw.1]; exact photonChannel_lt hok k s 1)]
  · refine Finset.prod_congr rfl (fun p hp => ?_)
    have hps : ∀ i i' : Fin 2, photonChannel boxes k s i ≠ photonChannel boxes p.1 p.2 i' := by
      intro i i' e
      obtain ⟨e1, e2, -⟩ := photonChannel_inj hok e
      exact (Finset.mem_erase.mp hp).1 (Prod.ext e1.symm e2.symm)
    rw [getD_set_ne (hps _ _), getD_set_ne (hps _ _), getD_set_ne (hps _ _), getD_set_ne (hps _ _)]

theorem prodAmp_split {boxes : List Box} (u : Fin boxes.length × Fin 2 → Fin 2 → ℂ) (w : Vals) (k : Fin boxes.length) (s : Fin 2) :
    prodAmp boxes u w = single (u (k, s)) (w.getD (photonChannel boxes k s 0) 0) (w.getD (photonChannel boxes k s 1) 0) *
      ∏ p ∈ Finset.univ.erase (k, s), single (u p) (w.getD (photonChannel boxes p.1 p.2 0) 0) (w.getD (photonChannel boxes p.1 p.2 1) 0) := by
  unfold prodAmp
  rw [← Finset.mul_prod_erase Finset.univ _ (Finset.mem_univ (k, s))]

theorem prodAmp_same {boxes : List Box} (u : Fin boxes.length × Fin 2 → Fin 2 → ℂ) {w w' : Vals}
    (h : ∀ k s i, w.getD (photonChannel boxes k s i) 0 = w'.getD (photonChannel boxes k s i) 0) : prodAmp boxes u w = prodAmp boxes u w' := by
  unfold prodAmp
  exact Finset.prod_congr rfl (fun p _ => by rw [h, h])

theorem stepNode_channels {g : Cfg} {boxes : List Box} (hok : BoxesOk g boxes) {step : LocalStep boxes.length} {node : Opt × List ℕ} (h : StepNode g boxes step node) :
    (step.channels boxes).1 < g.C ∧ (step.channels boxes).2 < g.C ∧ (step.channels boxes).1 ≠ (step.channels boxes).2 := by
  cases step with
  | photon k s M =>
    exact ⟨photonChannel_lt hok _ _ _, photonChannel_lt hok _ _ _, fun e => absurd (photonChannel_inj hok e).2.2 (by decide)⟩
  | elsewhere a c M =>
    obtain ⟨h1, h2, h3, -⟩ := h.elsewhere a c M rfl
    exact ⟨h1, h2, h3⟩

theorem stepNode_on {g : Cfg} {boxes : List Box} (hok : BoxesOk g boxes) {step : LocalStep boxes.length} {node : Opt × List ℕ} (h : StepNode g boxes step node) :
    OnChannels g node := by
  obtain ⟨h1, h2, h3⟩ := stepNode_channels hok h
  exact ⟨_, _, h1, h2, h3, h.list⟩

theorem step_mulVec {g : Cfg} (hg : g.Ok) {boxes : List Box} (hok : BoxesOk g boxes) {step : LocalStep boxes.length} {node : Opt × List ℕ}
    (h : StepNode g boxes step node) (y : ℕ → ℂ) {v : Vals} (hv : Valid g v) :
    (fockNode g (standardKeys g) node.1 node.2 .all).1.mulVec y (g.indexOf v)
      = ∑ a ∈ Finset.range g.L, ∑ b ∈ Finset.range g.L, gateAmp g.L step.matrix (v.getD (step.channels boxes).1 0) (v.getD (step.channels boxes).2 0) a b *
        y (g.indexOf ((v.set (step.channels boxes).1 a).set (step.channels boxes).2 b)) := by
  obtain ⟨h1, h2, h3⟩ := stepNode_channels hok h
  rw [h.matrix]
  exact mulVec_gate hg h1 h2 h3 h.order h.list y hv

theorem onlyOutside_step {g : Cfg} {boxes : List Box} {step : LocalStep boxes.length} {node : Opt × List ℕ}
    (h : StepNode g boxes step node) {γ : Vals → ℂ} (hγ : OnlyOutside g boxes γ) : OnlyOutside g boxes (outsideStep g.L step γ) := by
  cases step with
  | photon k s M => exact hγ
  | elsewhere a c M =>
    obtain ⟨h1, h2, h3, h4, h5⟩ := h.elsewhere a c M rfl
    intro v w hv hw hs
    have hg : ∀ i, Outside boxes i → v.getD i 0 = w.getD i 0 := fun i hi => by simp only [List.getD, hs i hi]
    unfold outsideStep
    refine Finset.sum_congr rfl (fun x hx => Finset.sum_congr rfl (fun z hz => ?_))
    rw [Finset.mem_range] at hx hz
    rw [hg a h4, hg c h5]
    congr 1
    exact hγ _ _ (valid_set (valid_set hv _ hx) _ hz) (valid_set (valid_set hw _ hx) _ hz)
      (AgreeOutside.set (valid_set hv _ hx) (valid_set hw _ hx) (AgreeOutside.set hv hw hs a x) c z)

theorem productForm_step {g : Cfg} (hg : g.Ok) (hL : 2 ≤ g.L) {boxes : List Box} (hok : BoxesOk g boxes) {step : LocalStep boxes.length} {node : Opt × List ℕ}
    (h : StepNode g boxes step node) {γ : Vals → ℂ} (hγ : OnlyOutside g boxes γ) {u : Fin boxes.length × Fin 2 → Fin 2 → ℂ} {y : ℕ → ℂ}
    (hy : ProductForm g boxes γ u y) :
    ProductForm g boxes (outsideStep g.L step γ) (stepVec step u) ((fockNode g (standardKeys g) node.1 node.2 .all).1.mulVec y) := by
  intro w hw
  rw [step_mulVec hg hok h y hw]
  cases step with
  | photon k s M =>
    have key : ∀ a ∈ Finset.range g.L, ∀ b ∈ Finset.range g.L,
        y (g.indexOf ((w.set (photonChannel boxes k s 0) a).set (photonChannel boxes k s 1) b))
          = γ w * (∏ p ∈ Finset.univ.erase (k, s), single (u p) (w.getD (photonChannel boxes p.1 p.2 0) 0) (w.getD (photonChannel boxes p.1 p.2 1) 0)) * single (u (k, s)) a b := by
      intro a ha b hb
      rw [Finset.mem_range] at ha hb
      have hv : Valid g ((w.set (photonChannel boxes k s 0) a).set (photonChannel boxes k s 1) b) := valid_set (valid_set hw _ ha) _ hb
      rw [hy _ hv, prodAmp_photon hok u hw]
      rw [hγ _ w hv hw (AgreeOutside.trans (agreeOutside_set (photonChannel_not_outside hok k s 1) b) (agreeOutside_set (photonChannel_not_outside hok k s 0) a))]
      ring
    show ∑ a ∈ Finset.range g.L, ∑ b ∈ Finset.range g.L, gateAmp g.L M (w.getD (photonChannel boxes k s 0) 0) (w.getD (photonChannel boxes k s 1) 0) a b *
        y (g.indexOf ((w.set (photonChannel boxes k s 0) a).set (photonChannel boxes k s 1) b)) = _
    rw [Finset.sum_congr rfl (fun a ha => Finset.sum_congr rfl (fun b hb => by rw [key a ha b hb, mul_left_comm]))]
    simp only [← Finset.mul_sum]
    rw [gate_single hL, prodAmp_split _ w k s]
    have e1 : stepVec (.photon k s M) u (k, s) = M.transpose.mulVec (u (k, s)) := by simp [stepVec]
    have e2 : ∀ p ∈ Finset.univ.erase (k, s), stepVec (.photon k s M) u p = u p := by
      intro p hp
      have hne := (Finset.mem_erase.mp hp).1
      simp only [stepVec]
      rw [if_neg]
      rintro ⟨e1, e2⟩
      exact hne (Prod.ext e1.symm e2.symm)
    rw [e1]
    have e3 : ∏ p ∈ Finset.univ.erase (k, s), single (stepVec (.photon k s M) u p) (w.getD (photonChannel boxes p.1 p.2 0) 0) (w.getD (photonChannel boxes p.1 p.2 1) 0)
        = ∏ p ∈ Finset.univ.erase (k, s), single (u p) (w.getD (photonChannel boxes p.1 p.2 0) 0) (w.getD (photonChannel boxes p.1 p.2 1) 0) :=
      Finset.prod_congr rfl (fun p hp => by rw [e2 p hp])
    rw [e3]
    show _ = γ w * _
    ring
  | elsewhere a c M =>
    obtain ⟨h1, h2, h3, h4, h5⟩ := h.elsewhere a c M rfl
    have hch : ∀ i, Outside boxes i → ∀ k s j, i ≠ photonChannel boxes k s j := by
      rintro _ hi k s j rfl
      exact photonChannel_not_outside hok k s j hi
    show ∑ x ∈ Finset.range g.L, ∑ z ∈ Finset.range g.L, gateAmp g.L M (w.getD a 0) (w.getD c 0) x z * y (g.indexOf ((w.set a x).set c z)) = _
    have key : ∀ x ∈ Finset.range g.L, ∀ z ∈ Finset.range g.L,
        gateAmp g.L M (w.getD a 0) (w.getD c 0) x z * y (g.indexOf ((w.set a x).set c z))
          = gateAmp g.L M (w.getD a 0) (w.getD c 0) x z * γ ((w.set a x).set c z) * prodAmp boxes u w := by
      intro x hx z hz
      rw [Finset.mem_range] at hx hz
      rw [hy _ (valid_set (valid_set hw _ hx) _ hz), prodAmp_same u (w := (w.set a x).set c z) (w' := w) (fun k s j => by
        rw [getD_set_ne (hch c h5 k s j), getD_set_ne (hch a h4 k s j)])]
      ring
    rw [Finset.sum_congr rfl (fun x hx => Finset.sum_congr rfl (fun z hz => key x hx z hz))]
    simp only [← Finset.sum_mul]
    rfl

/-- The vector after all steps. -/
theorem productForm_steps {g : Cfg} (hg : g.Ok) (hL : 2 ≤ g.L) {boxes : List Box} (hok : BoxesOk g boxes) {steps : List (LocalStep boxes.length)}
    {nodes : List (Opt × List ℕ)} (h : List.Forall₂ (StepNode g boxes) steps nodes) : ∀ {γ : Vals → ℂ} {u : Fin boxes.length × Fin 2 → Fin 2 → ℂ} {y : ℕ → ℂ},
    OnlyOutside g boxes γ → ProductForm g boxes γ u y →
    OnlyOutside g boxes (outsideAmp g.L steps γ) ∧ ProductForm g boxes (outsideAmp g.L steps γ) (steps.foldl (fun u st => stepVec st u) u) (oneByOne g nodes y) := by
  induction h with
  | nil => exact fun h1 h2 => ⟨h1, h2⟩
  | cons h _ ih => exact fun h1 h2 => ih (onlyOutside_step h h1) (productForm_step hg hL hok h h1 h2)

theorem foldl_stepVec {n : ℕ} (steps : List (LocalStep n)) (k : Fin n) (s : Fin 2) : ∀ (u : Fin n × Fin 2 → Fin 2 → ℂ) (W : Matrix (Fin 2) (Fin 2) ℂ) (e : Fin 2 → ℂ),
    u (k, s) = W.mulVec e →
    (steps.foldl (fun u st => stepVec st u) u) (k, s) = (steps.foldl (fun W step => polarizationStep k s step W) W).mulVec e := by
  induction steps with
  | nil => exact fun u W e h => h
  | cons st rest ih =>
    intro u W e h
    rw [List.foldl_cons, List.foldl_cons]
    refine ih _ _ _ ?_
    cases st with
    | elsewhere a c M => exact h
    | photon k' s' M =>
      simp only [stepVec, polarizationStep]
      split
      · rw [h, Matrix.mulVec_mulVec]
      · exact h

theorem polarization_mulVec {n : ℕ} (steps : List (LocalStep n)) (k : Fin n) (s : Fin 2) (u : Fin n × Fin 2 → Fin 2 → ℂ) :
    (steps.foldl (fun u st => stepVec st u) u) (k, s) = (polarization steps k s).mulVec (u (k, s)) :=
  foldl_stepVec steps k s u 1 (u (k, s)) (by rw [Matrix.one_mulVec])

theorem transpose_unitary {M : Matrix (Fin 2) (Fin 2) ℂ} (hM : M ∈ Matrix.unitaryGroup (Fin 2) ℂ) : M.transpose ∈ Matrix.unitaryGroup (Fin 2) ℂ := by
  rw [Matrix.mem_unitaryGroup_iff'] at hM
  rw [Matrix.mem_unitaryGroup_iff]
  have := congrArg Matrix.transpose hM
  rw [Matrix.transpose_mul, Matrix.transpose_one] at this
  exact this

theorem polarization_unitary {g : Cfg} {boxes : List Box} {steps : List (LocalStep boxes.length)}
    {nodes : List (Opt × List ℕ)} (h : List.Forall₂ (StepNode g boxes) steps nodes) (k : Fin boxes.length) (s : Fin 2) :
    polarization steps k s ∈ Matrix.unitaryGroup (Fin 2) ℂ := by
  unfold polarization
  have key : ∀ W : Matrix (Fin 2) (Fin 2) ℂ, W ∈ Matrix.unitaryGroup (Fin 2) ℂ → (steps.foldl (fun W step => polarizationStep k s step W) W) ∈ Matrix.unitaryGroup (Fin 2) ℂ := by
    induction h with
    | nil => exact fun W hW => hW
    | @cons st nd _ _ h _ ih =>
      intro W hW
      rw [List.foldl_cons]
      refine ih _ ?_
      cases st with
      | elsewhere a c M => exact hW
      | photon k' s' M =>
        simp only [polarizationStep]
        split
        · exact mul_mem (transpose_unitary h.unitary) hW
        · exact hW
  exact key 1 (one_mem _)

end Verif
