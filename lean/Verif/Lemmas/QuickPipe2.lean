/-
Lemmas for circuits with a quick time delay: optical elements after the delay.
-/
import Verif.Lemmas.QuickPipe
import Verif.Spec.QuickPipe
import Mathlib.RingTheory.MvPolynomial.Homogeneous

namespace Verif
open Spec Props MvPolynomial

theorem gate_homogeneous {n : ℕ} (M : Opt) (h c : ℕ) {P : MvPolynomial Mode ℂ} (hP : P.IsHomogeneous n) : (gateSubst M h c P).IsHomogeneous n := by
  have := hP.aeval (fun m : Mode => if m.1 = h then C (M 0 0) * X (h, m.2) + C (M 0 1) * X (c, m.2) else if m.1 = c then C (M 1 0) * X (h, m.2) + C (M 1 1) * X (c, m.2) else (X m : MvPolynomial Mode ℂ)) (n := 1) (by
    intro m
    split
    · exact (isHomogeneous_C_mul_X _ _).add (isHomogeneous_C_mul_X _ _)
    · split
      · exact (isHomogeneous_C_mul_X _ _).add (isHomogeneous_C_mul_X _ _)
      · exact isHomogeneous_X _ _)
  rw [one_mul] at this
  exact this

theorem optics_homogeneous {n : ℕ} (gates : List Gate) {P : MvPolynomial Mode ℂ} (hP : P.IsHomogeneous n) : (opticsSubst gates P).IsHomogeneous n := by
  induction gates generalizing P with
  | nil => exact hP
  | cons e gates ih => exact ih (gate_homogeneous e.M e.h e.c hP)

theorem sum_getD_range (v : Vals) : ∑ j ∈ Finset.range v.length, v.getD j 0 = v.sum := by
  induction v with
  | nil => rfl
  | cons n v ih =>
    rw [List.length_cons, Finset.sum_range_succ', List.sum_cons]
    simp only [List.getD_cons_succ, List.getD_cons_zero]
    rw [ih, add_comm]

theorem ket_homogeneous (i : Option PInfo) (v : Vals) : (ketPoly i v).IsHomogeneous v.sum := by
  rw [ketPoly_range, ← sum_getD_range]
  exact IsHomogeneous.prod _ _ _ (fun j _ => isHomogeneous_C_mul_X_pow _ _ _)

theorem degree_mono (i : Option PInfo) (v : Vals) : Finsupp.weight (1 : Mode → ℕ) (monoOf i v) = v.sum := by
  unfold monoOf
  rw [map_sum, ← sum_getD_range]
  refine Finset.sum_congr rfl (fun j _ => ?_)
  rw [Finsupp.weight_single]
  simp

/-- The photon numbers of the components of a state created by a homogeneous polynomial. -/
theorem homogeneous_sum {g : Cfg} (hg : g.Ok) {s : PState} (hw : WellFormed g s.q.comps) (hnz : ∀ p ∈ s.q.comps, p.2.amp ≠ 0) {n : ℕ} (hh : (statePoly g s).IsHomogeneous n) {p : Name × Comp} (hp : p ∈ s.q.comps) {v : Vals}
    (hv : Valid g v) (hn : IsName g v p.1) : v.sum = n := by
  have h1 : amplitudeIn (statePoly g s) s.info v = p.2.amp := by
    rw [statePoly_vec hg.1 s hw, amplitudeIn_vec hg s.info _ hv, vec_index hv, ← (isName_iff hv).1 hn, ampOf_mem hw hp]
  have h2 : (statePoly g s).coeff (monoOf s.info v) ≠ 0 := by
    intro h0
    refine hnz p hp ?_
    rw [← h1]
    unfold amplitudeIn
    rw [h0, zero_mul]
  rw [← degree_mono s.info v]
  exact hh h2

theorem PlainState.fresh {g : Cfg} {m : ℕ} {q : QState} (hq : FreshState g m ⟨q, none⟩) {p : ℝ} (hp : 0 ≤ p ∧ p ≤ 1) {s : PState} {v : Vals} (h : PlainState g q p s v) (hv : v.sum < g.L) : FreshState g m ⟨s.q, none⟩ := by
  have hmem : ∀ x ∈ s.q.comps, x = (g.stdName v, (⟨1, 1⟩ : Comp)) := by
    intro x hx
    rw [h.comps] at hx
    exact List.mem_singleton.1 hx
  have hval : ∀ x ∈ s.q.comps, ∀ w, Valid g w → IsName g w x.1 → w = v := by
    intro x hx w hw hn
    rw [hmem x hx] at hn
    exact g.stdName_inj hw.2 h.valid.2 ((isName_iff hw).1 hn).symm
  refine ⟨rfl, ?_, ?_, ?_, ?_, ?_, ?_, ?_, ?_⟩
  · show WellFormed g s.q.comps
    rw [h.comps]
    exact wf_iff.2 ⟨List.nodup_singleton _, by intro x hx; obtain rfl := List.mem_singleton.1 hx; exact ⟨v, h.valid, rfl⟩⟩
  · intro x hx
    rw [hmem x hx]
    simp
  · show totalProb s.q.comps = 1
    rw [h.comps]
    simp [totalProb]
  · intro x hx
    rw [hmem x hx]
    simp
  · intro x hx w hw hn
    rw [hval x hx w hw hn]
    exact hv
  · intro x hx w hw hn _
    have hx' : x ∈ s.q.comps := by
      have hx : s.q.comps = [x] := hx
      rw [hx]; simp
    rw [hmem x hx']
  · show 0 ≤ s.q.cum ∧ s.q.cum ≤ 1
    have h1 : 0 ≤ q.cum := hq.cum.1
    have h2 : q.cum ≤ 1 := hq.cum.2
    rw [h.cum]
    exact ⟨mul_nonneg h1 hp.1, by nlinarith [hp.1, hp.2]⟩
  · show s.q.classical.length = m
    rw [h.classical]
    exact hq.classical

/-- A state after the optical elements that follow the quick delay. -/
structure MixedState (g : Cfg) (m : ℕ) (q : QState) (p : ℝ) (s : PState) (k : ℕ) : Prop where
  fresh : FreshState g m ⟨s.q, none⟩
  number : ∀ x ∈ s.q.comps, ∀ v, Valid g v → IsName g v x.1 → v.sum = k
  unit : ∀ x, s.q.comps = [x] → x.2.amp = 1
  classical : s.q.classical = q.classical
  initial : s.q.initial = q.initial
  cum : s.q.cum = q.cum * p

/-- Optical elements act on a state after the quick delay. -/
theorem plain_optics {g : Cfg} (hg : g.Ok) {m : ℕ} {thr : ℝ} (ht : 0 < thr) (useFull : Bool) {gates : List Gate} {n : Opt × List ℕ} {l : List (Opt × List ℕ)} (hgn : List.Forall₂ (GateNode g) gates (n :: l))
    (hun : ∀ e ∈ gates, e.M ∈ Matrix.unitaryGroup (Fin 2) ℂ) (hkk : KetsKeep g thr gates) (hbp : NoBarePhase g gates) {q : QState} (hq : FreshState g m ⟨q, none⟩) {p : ℝ} (hp : 0 ≤ p ∧ p ≤ 1) {s : PState} {v : Vals}
    (h : PlainState g q p s v) (hv : v.sum < g.L) :
    ∃ comps, applyOptical g thr useFull (standardKeys g) n l s.q.comps = some comps ∧ MixedState g m q p ⟨{ s.q with comps := comps }, s.info⟩ v.sum ∧
      statePoly g ⟨{ s.q with comps := comps }, s.info⟩ = opticsSubst gates (statePoly g s) := by
  have hf := h.fresh hq hp hv
  have hpl : ∀ i : Option PInfo, statePoly g ⟨s.q, i⟩ = ketPoly i v := fun i => plain_poly (s := ⟨s.q, i⟩) h.valid h.comps
  obtain ⟨comps, c1, c2, c3⟩ := fresh_optics hg ht useFull hgn hun hf (by
    intro w hw
    show ‖amplitudeIn (opticsSubst gates (statePoly g ⟨s.q, none⟩)) none w‖ ^ 2 < thr → _
    rw [hpl]
    exact hkk none v w h.valid hv hw)
  have hne : s.q.comps ≠ [] := by rw [h.comps]; simp
  obtain ⟨c', d1, _, _, d4⟩ := C100_state_partial g hg thr useFull gates n l hgn s hf.wf hne (fun x hx w hn hw => hf.few x hx w hw hn) (by
    intro w hw
    have := hpl s.info
    have : statePoly g s = ketPoly s.info v := this
    rw [this]
    exact hkk s.info v w h.valid hv hw)
  rw [c1] at d1
  obtain rfl := Option.some.inj d1
  refine ⟨comps, c1, ⟨c2, ?_, ?_, h.classical, h.initial, h.cum⟩, d4 _ rfl rfl⟩
  · intro x hx w hw hn
    refine homogeneous_sum hg (s := ⟨{ s.q with comps := comps }, none⟩) c2.wf c2.nonzero (n := v.sum) ?_ hx hw hn
    rw [c3]
    show (opticsSubst gates (statePoly g ⟨s.q, none⟩)).IsHomogeneous v.sum
    rw [hpl]
    exact optics_homogeneous gates (ket_homogeneous none v)
  · rintro ⟨nm, k⟩ hx
    have hx : comps = [(nm, k)] := hx
    obtain ⟨w, hw, hn⟩ := (wf_iff.1 c2.wf).2 (nm, k) (by show _ ∈ comps; rw [hx]; simp)
    simp only at hn
    subst hn
    have h1 := statePoly_single (g := g) ⟨{ s.q with comps := comps }, none⟩ hw hx
    rw [c3] at h1
    have h1 : opticsSubst gates (statePoly g ⟨s.q, none⟩) = C k.amp * ketPoly none w := h1
    rw [hpl] at h1
    exact hbp none v w k.amp h.valid hv hw h1

end Verif
