/-
Amplitudes before and after the steps of an experiment with Popescu-Rohrlich pairs.
-/
import Verif.Lemmas.PRExperiment2
import Verif.Lemmas.PR6
import Verif.Props.PRMeasure

namespace Verif
open Spec Props

/-- Polarization of photon `s` in a digit. -/
def polOf (s : Fin 2) (q : Fin 4) : Fin 2 := if s = 0 then polA q else polB q

theorem pairPhotons_photon (q : Fin 4) (s i : Fin 2) : pairPhotons q (2 * s.val + i.val) = if polOf s q = i then 1 else 0 := by
  revert q s i
  decide

theorem polOf_ext {q q' : Fin 4} (h : ∀ s, polOf s q = polOf s q') : q = q' := by
  revert q q'
  decide

theorem hasPairs_photon {g : Cfg} {boxes : List Box} (hok : BoxesOk g boxes) {o : Fin boxes.length → Fin 4} {w : Vals} (h : HasPairs boxes o w)
    (k : Fin boxes.length) (s i : Fin 2) : w.getD (photonChannel boxes k s i) 0 = if polOf s (o k) = i then 1 else 0 := by
  have := h k _ _ (photonChannel_get hok k s i)
  rw [List.getD, this, pairPhotons_photon]
  rfl

theorem hasPairs_of_photon {g : Cfg} {boxes : List Box} (hok : BoxesOk g boxes) {o : Fin boxes.length → Fin 4} {w : Vals} (hw : Valid g w)
    (h : ∀ k s i, w.getD (photonChannel boxes k s i) 0 = if polOf s (o k) = i then 1 else 0) : HasPairs boxes o w := by
  intro k j c hj
  have hj4 : j < 4 := by
    have := (List.getElem?_eq_some_iff.mp hj).1
    rw [hok.four _ (List.get_mem boxes k)] at this
    exact this
  have hc : c = photonChannel boxes k ⟨j / 2, by omega⟩ ⟨j % 2, by omega⟩ := by
    have := photonChannel_get hok k ⟨j / 2, by omega⟩ ⟨j % 2, by omega⟩
    simp only [Nat.div_add_mod] at this
    exact Option.some.inj (hj.symm.trans this)
  have hlt : c < w.length := by rw [hw.1, hc]; exact photonChannel_lt hok _ _ _
  have h1 := h k ⟨j / 2, by omega⟩ ⟨j % 2, by omega⟩
  rw [← hc, ← pairPhotons_photon, List.getD_eq_getElem _ _ hlt] at h1
  simp only [Nat.div_add_mod] at h1
  rw [List.getElem?_eq_getElem hlt, h1]

theorem hasPairs_unique {g : Cfg} {boxes : List Box} (hok : BoxesOk g boxes) {o o' : Fin boxes.length → Fin 4} {w : Vals} (h : HasPairs boxes o w)
    (h' : HasPairs boxes o' w) : o = o' := by
  funext k
  apply polOf_ext
  intro s
  have h1 := hasPairs_photon hok h k s (polOf s (o k))
  have h2 := hasPairs_photon hok h' k s (polOf s (o k))
  rw [h1, if_pos rfl] at h2
  by_contra hne
  rw [if_neg (fun e => hne e.symm)] at h2
  exact one_ne_zero h2

theorem single_pair (u : Fin 2 → ℂ) (t : Fin 2) : single u (if t = 0 then 1 else 0) (if t = 1 then 1 else 0) = u t := by
  fin_cases t <;> simp [single]

theorem prodAmp_hasPairs {g : Cfg} {boxes : List Box} (hok : BoxesOk g boxes) (u : Fin boxes.length × Fin 2 → Fin 2 → ℂ) {o : Fin boxes.length → Fin 4} {w : Vals}
    (h : HasPairs boxes o w) : prodAmp boxes u w = ∏ k, (u (k, 0) (polA (o k)) * u (k, 1) (polB (o k))) := by
  unfold prodAmp
  rw [Fintype.prod_prod_type]
  refine Finset.prod_congr rfl (fun k _ => ?_)
  rw [Fin.prod_univ_two]
  simp only [hasPairs_photon hok h]
  rw [single_pair, single_pair]
  rfl

theorem hasPairs_of_prodAmp {g : Cfg} {boxes : List Box} (hok : BoxesOk g boxes) (u : Fin boxes.length × Fin 2 → Fin 2 → ℂ) {w : Vals} (hw : Valid g w)
    (h : prodAmp boxes u w ≠ 0) : ∃ o, HasPairs boxes o w := by
  have hp : ∀ p : Fin boxes.length × Fin 2, ∃ t : Fin 2, ∀ i : Fin 2, w.getD (photonChannel boxes p.1 p.2 i) 0 = if t = i then 1 else 0 := by
    intro p
    have h1 := Finset.prod_ne_zero_iff.mp h p (Finset.mem_univ _)
    unfold single at h1
    split at h1
    · rename_i h2
      refine ⟨0, fun i => ?_⟩
      fin_cases i
      · simpa using h2.1
      · simpa using h2.2
    · split at h1
      · rename_i h2
        refine ⟨1, fun i => ?_⟩
        fin_cases i
        · simpa using h2.1
        · simpa using h2.2
      · exact absurd rfl h1
  choose t ht using hp
  refine ⟨fun k => pol (t (k, 0)) (t (k, 1)), hasPairs_of_photon hok hw (fun k s i => ?_)⟩
  rw [ht (k, s) i]
  have : ∀ a b : Fin 2, polOf 0 (pol a b) = a ∧ polOf 1 (pol a b) = b := by decide
  congr 2
  fin_cases s
  · exact (this _ _).1.symm
  · exact (this _ _).2.symm

/-- Polarization vectors of configuration `x`. -/
def startVec {n : ℕ} (x : Fin n → Fin 4) : Fin n × Fin 2 → Fin 2 → ℂ := fun p i => if i = polOf p.2 (x p.1) then 1 else 0

theorem prodAmp_start {g : Cfg} {boxes : List Box} (hok : BoxesOk g boxes) (x : Fin boxes.length → Fin 4) {o : Fin boxes.length → Fin 4} {w : Vals}
    (h : HasPairs boxes o w) : prodAmp boxes (startVec x) w = if o = x then 1 else 0 := by
  rw [prodAmp_hasPairs hok _ h]
  split
  · rename_i e
    subst e
    exact Finset.prod_eq_one (fun k _ => by simp [startVec, polOf])
  · rename_i hne
    obtain ⟨k, hk⟩ : ∃ k, o k ≠ x k := by
      by_contra hc
      push Not at hc
      exact hne (funext hc)
    refine Finset.prod_eq_zero (Finset.mem_univ k) ?_
    by_cases hA : polA (o k) = polA (x k)
    · have hB : polB (o k) ≠ polB (x k) := fun hB => hk (polOf_ext (fun s => by unfold polOf; split <;> assumption))
      simp [startVec, polOf, hB]
    · simp [startVec, polOf, hA]

theorem overwritten_hasPairs {boxes : List Box} {o : Fin boxes.length → Fin 4} {v w : Vals} (h : Overwritten boxes (List.ofFn o) v w) : HasPairs boxes o w := by
  intro k j c hj
  refine h.pair k.val (boxes.get k) (o k) (by simp) ?_ j c hj
  simp

theorem overwritten_agree {boxes : List Box} {x : List (Fin 4)} {v w : Vals} (h : Overwritten boxes x v w) : AgreeOutside boxes v w :=
  fun i hi => (h.rest i hi).symm

theorem eq_of_pairs {boxes : List Box} {o : Fin boxes.length → Fin 4} {v w : Vals}
    (h1 : HasPairs boxes o v) (h2 : HasPairs boxes o w) (hs : AgreeOutside boxes v w) : v = w := by
  apply List.ext_getElem?
  intro i
  by_cases hi : Outside boxes i
  · exact hs i hi
  · unfold Outside at hi
    push Not at hi
    obtain ⟨b, hb, hm⟩ := hi
    obtain ⟨k, hk⟩ := List.mem_iff_get.mp hb
    obtain ⟨j, hj⟩ := List.mem_iff_getElem?.mp hm
    rw [← hk] at hj
    rw [h1 k j i hj, h2 k j i hj]

theorem outsideStart_only {g : Cfg} {boxes : List Box} (c : Comps) : OnlyOutside g boxes (outsideStart g boxes c) := by
  intro v w _ _ hs
  unfold outsideStart
  congr 1
  apply List.map_congr_left
  intro p _
  have : (∃ x, Valid g x ∧ IsName g x p.1 ∧ AgreeOutside boxes x v) ↔ (∃ x, Valid g x ∧ IsName g x p.1 ∧ AgreeOutside boxes x w) := by
    constructor
    · rintro ⟨x, h1, h2, h3⟩
      exact ⟨x, h1, h2, AgreeOutside.trans h3 hs⟩
    · rintro ⟨x, h1, h2, h3⟩
      exact ⟨x, h1, h2, AgreeOutside.trans h3 (fun i hi => (hs i hi).symm)⟩
  by_cases hc : ∃ x, Valid g x ∧ IsName g x p.1 ∧ AgreeOutside boxes x v
  · rw [if_pos hc, if_pos (this.mp hc)]
  · rw [if_neg hc, if_neg (fun h => hc (this.mpr h))]

theorem sum_eq_single_of_mem {α : Type*} {l : List α} (hn : l.Nodup) {F : α → ℂ} {a : α} (ha : a ∈ l) (h : ∀ b ∈ l, b ≠ a → F b = 0) : (l.map F).sum = F a := by
  induction l with
  | nil => exact absurd ha (by simp)
  | cons b l ih =>
    rw [List.nodup_cons] at hn
    rw [List.map_cons, List.sum_cons]
    rcases List.mem_cons.mp ha with rfl | ha
    · have : (l.map F).sum = 0 := by
        apply List.sum_eq_zero
        intro x hx
        obtain ⟨b, hb, rfl⟩ := List.mem_map.mp hx
        exact h b (List.mem_cons_of_mem _ hb) (fun e => hn.1 (e ▸ hb))
      rw [this, add_zero]
    · rw [h b List.mem_cons_self (fun e => hn.1 (e ▸ ha)), zero_add, ih hn.2 ha (fun b hb => h b (List.mem_cons_of_mem _ hb))]

theorem outsideStart_mem {g : Cfg} {boxes : List Box} {c : Comps} (hw : WellFormed g c) (hdiff : DifferOutside g boxes c) {p : Name × Comp} (hp : p ∈ c)
    {v w : Vals} (hv : Valid g v) (hn : IsName g v p.1) (hs : AgreeOutside boxes v w) : outsideStart g boxes c w = p.2.amp := by
  classical
  unfold outsideStart
  have hkeys : c.keys.Nodup := (wf_iff.mp hw).1
  rw [sum_eq_single_of_mem (List.Nodup.of_map _ hkeys) hp]
  · rw [if_pos ⟨v, hv, hn, hs⟩]
  · intro p' hp' hne
    rw [if_neg]
    rintro ⟨v', hv', hn', hs'⟩
    have hname : p.1 ≠ p'.1 := by
      intro e
      apply hne
      have h1 := Dict.get?_of_mem (v := p.2) hkeys hp
      have h2 := Dict.get?_of_mem (v := p'.2) hkeys hp'
      rw [e, h2] at h1
      exact Prod.ext e.symm (Option.some.inj h1)
    obtain ⟨i, hi, ho, hne'⟩ := hdiff p hp p' hp' hname v v' hv hv' hn hn'
    exact hne' ((hs i ho).trans (hs' i ho).symm)

theorem outsideStart_ne {g : Cfg} {boxes : List Box} {c : Comps} {w : Vals} (h : outsideStart g boxes c w ≠ 0) :
    ∃ p ∈ c, ∃ v, Valid g v ∧ IsName g v p.1 ∧ AgreeOutside boxes v w := by
  classical
  unfold outsideStart at h
  by_contra hc
  push Not at hc
  apply h
  apply List.sum_eq_zero
  intro x hx
  obtain ⟨p, hp, rfl⟩ := List.mem_map.mp hx
  rw [if_neg]
  rintro ⟨v, h1, h2, h3⟩
  exact hc p hp v h1 h2 h3

/-- The states made by the gate have product form. -/
theorem productForm_start {g : Cfg} {boxes : List Box} (hok : BoxesOk g boxes) {ident : ℕ} {st : PRState} {mid : List PRState}
    (hw : WellFormed g st.q.comps) (hdiff : DifferOutside g boxes st.q.comps) (hr : GateResult g boxes ident st mid) {s : PRState} (hs : s ∈ mid)
    {x : Fin boxes.length → Fin 4} (hx : configuration s = List.ofFn x) :
    ProductForm g boxes (outsideStart g boxes st.q.comps) (startVec x) (vec g s.q.comps) := by
  intro w hv
  rw [vec_index hv]
  have hcomp := hr.components s hs
  have hdict : (Dict.keys s.q.comps).Nodup := hr.complete.dict s hs
  rw [hx] at hcomp
  by_cases hmem : g.stdName w ∈ Dict.keys s.q.comps
  · obtain ⟨p', hp', e⟩ := List.mem_map.mp hmem
    obtain ⟨p, hp, hamp, -, v, w', h1, h2, h3, h4, h5⟩ := forall₂_mem_right hcomp hp'
    obtain rfl : w' = w := g.stdName_inj h2.2 hv.2 (((isName_iff h2).mp h4).symm.trans e)
    rw [← e, ampOf_of_mem hdict hp', outsideStart_mem hw hdiff hp h1 h3 (overwritten_agree h5), prodAmp_start hok x (overwritten_hasPairs h5), if_pos rfl, mul_one, hamp]
  · rw [ampOf_of_not_mem hmem]
    symm
    by_contra hne
    obtain ⟨hne1, hne2⟩ := mul_ne_zero_iff.mp hne
    obtain ⟨o, ho⟩ := hasPairs_of_prodAmp hok _ hv hne2
    rw [prodAmp_start hok x ho] at hne2
    obtain rfl : o = x := by
      by_contra hc
      exact hne2 (if_neg hc)
    obtain ⟨p, hp, v, h1, h2, h3⟩ := outsideStart_ne hne1
    obtain ⟨p', hp', -, -, v', w', h4, h5, h6, h7, h8⟩ : ∃ p' ∈ s.q.comps, p'.2.amp = p.2.amp ∧ p'.2.prob = ‖p.2.amp‖ ^ 2 ∧
        ∃ v w, Valid g v ∧ Valid g w ∧ IsName g v p.1 ∧ IsName g w p'.1 ∧ Overwritten boxes (List.ofFn o) v w := by
      obtain ⟨i, hi, e⟩ := List.mem_iff_getElem.mp hp
      have hi' : i < s.q.comps.length := by rw [← hcomp.length_eq]; exact hi
      refine ⟨s.q.comps[i], List.getElem_mem hi', ?_⟩
      have := List.Forall₂.get hcomp hi hi'
      rw [List.get_eq_getElem, List.get_eq_getElem, e] at this
      exact this
    obtain rfl : v' = v := g.stdName_inj h4.2 h1.2 (((isName_iff h4).mp h6).symm.trans ((isName_iff h1).mp h2))
    obtain rfl : w' = w := eq_of_pairs (overwritten_hasPairs h8) ho (AgreeOutside.trans (fun i hi => h8.rest i hi) h3)
    exact hmem (List.mem_map.mpr ⟨p', hp', (isName_iff h5).mp h7⟩)

/-- Amplitude of photon numbers `w` with pairs `o` after the steps, starting from configuration `x`. -/
theorem amp_end {g : Cfg} (hg : g.Ok) (hL : 2 ≤ g.L) {boxes : List Box} (hok : BoxesOk g boxes) {ident : ℕ} {st : PRState} {mid : List PRState}
    (hw : WellFormed g st.q.comps) (hdiff : DifferOutside g boxes st.q.comps) (hr : GateResult g boxes ident st mid) {s : PRState} (hs : s ∈ mid)
    {x : Fin boxes.length → Fin 4} (hx : configuration s = List.ofFn x) {steps : List (LocalStep boxes.length)}
    {nodes : List (Opt × List ℕ)} (h : List.Forall₂ (StepNode g boxes) steps nodes) {w : Vals} (hv : Valid g w) :
    (∀ o, HasPairs boxes o w → oneByOne g nodes (vec g s.q.comps) (g.indexOf w) = outsideAmp g.L steps (outsideStart g boxes st.q.comps) w *
      ∏ k, (polarization steps k 0 (polA (o k)) (polA (x k)) * polarization steps k 1 (polB (o k)) (polB (x k)))) ∧
    ((∀ o, ¬ HasPairs boxes o w) → oneByOne g nodes (vec g s.q.comps) (g.indexOf w) = 0) := by
  obtain ⟨-, hpf⟩ := productForm_steps hg hL hok h (outsideStart_only st.q.comps) (productForm_start hok hw hdiff hr hs hx)
  have hcol : ∀ (W : Matrix (Fin 2) (Fin 2) ℂ) (t i : Fin 2), W.mulVec (fun j => if j = t then 1 else 0) i = W i t := by
    intro W t i
    simp [Matrix.mulVec, dotProduct]
  constructor
  · intro o ho
    rw [hpf w hv, prodAmp_hasPairs hok _ ho]
    congr 1
    refine Finset.prod_congr rfl (fun k _ => ?_)
    rw [polarization_mulVec, polarization_mulVec]
    show Matrix.mulVec _ (fun j => if j = polA (x k) then 1 else 0) _ * Matrix.mulVec _ (fun j => if j = polB (x k) then 1 else 0) _ = _
    rw [hcol, hcol]
  · intro hno
    rw [hpf w hv]
    by_contra hne
    obtain ⟨o, ho⟩ := hasPairs_of_prodAmp hok _ hv (mul_ne_zero_iff.mp hne).2
    exact hno o ho

end Verif
