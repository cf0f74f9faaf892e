/-
Lemmas for experiments with Popescu-Rohrlich pairs: one gate acting on a vector, product form of the amplitudes.
-/
import Verif.Spec.PRExperiment
import Verif.Model.PRExperiment
import Verif.Lemmas.PR5
import Verif.Props.Apply

namespace Verif
open Spec Props

theorem valid_set {g : Cfg} {v : Vals} (hv : Valid g v) (i : ℕ) {a : ℕ} (ha : a < g.L) : Valid g (v.set i a) := by
  refine ⟨by rw [List.length_set]; exact hv.1, fun x hx => ?_⟩
  rcases List.mem_or_eq_of_mem_set hx with h | h
  · exact hv.2 x h
  · omega

theorem getD_set_self {v : Vals} {i a : ℕ} (h : i < v.length) : (v.set i a).getD i 0 = a := by
  simp [List.getD, h]

theorem getD_set_ne {v : Vals} {i j a : ℕ} (h : i ≠ j) : (v.set i a).getD j 0 = v.getD j 0 := by
  simp [List.getD, List.getElem?_set_ne h]

theorem valid_getD_lt {g : Cfg} {v : Vals} (hv : Valid g v) {i : ℕ} (hi : i < g.C) : v.getD i 0 < g.L := by
  have h : i < v.length := by rw [hv.1]; exact hi
  rw [List.getD_eq_getElem _ _ h]
  exact hv.2 _ (List.getElem_mem h)

theorem valid_ext {g : Cfg} {v w : Vals} (hv : Valid g v) (hw : Valid g w) (h : ∀ i < g.C, v.getD i 0 = w.getD i 0) : v = w := by
  refine List.ext_getElem (hv.1.trans hw.1.symm) (fun i h1 h2 => ?_)
  have := h i (by rw [← hv.1]; exact h1)
  rwa [List.getD_eq_getElem _ _ h1, List.getD_eq_getElem _ _ h2] at this

theorem set_getD_pair {g : Cfg} {v w : Vals} (hv : Valid g v) (hw : Valid g w) {h c : ℕ} (hh : h < g.C) (hc : c < g.C) (hne : h ≠ c)
    (hs : ∀ i < g.C, i ≠ h → i ≠ c → v.getD i 0 = w.getD i 0) : (v.set h (w.getD h 0)).set c (w.getD c 0) = w := by
  refine valid_ext (valid_set (valid_set hv _ (valid_getD_lt hw hh)) _ (valid_getD_lt hw hc)) hw (fun i hi => ?_)
  by_cases h1 : i = c
  · subst h1
    exact getD_set_self (by rw [List.length_set, hv.1]; exact hc)
  · rw [getD_set_ne (fun e => h1 e.symm)]
    by_cases h2 : i = h
    · subst h2
      exact getD_set_self (by rw [hv.1]; exact hh)
    · rw [getD_set_ne (fun e => h2 e.symm)]
      exact hs i hi h2 h1

/-- A gate on a vector: a sum over the photon numbers of its two channels. -/
theorem mulVec_gate {g : Cfg} (hg : g.Ok) {M : Opt} {h c : ℕ} (hh : h < g.C) (hc : c < g.C) (hne : h ≠ c)
    (hbug : ¬ (2 ≤ h ∧ c = 0)) {tl : List ℕ} (htl : tensorList g.C [h, c] = some tl) (y : ℕ → ℂ) {v : Vals} (hv : Valid g v) :
    (fockNode g (standardKeys g) M tl .all).1.mulVec y (g.indexOf v)
      = ∑ a ∈ Finset.range g.L, ∑ b ∈ Finset.range g.L,
        gateAmp g.L M (v.getD h 0) (v.getD c 0) a b * y (g.indexOf ((v.set h a).set c b)) := by
  have hF : IsGateMatrix g M h c (fockNode g (standardKeys g) M tl .all).1 := ⟨tl, htl, rfl⟩
  have hval : ∀ a b, a < g.L → b < g.L → Valid g ((v.set h a).set c b) := fun a b ha hb => valid_set (valid_set hv _ ha) _ hb
  have e1 : ∀ a b : ℕ, ((v.set h a).set c b).getD c 0 = b := fun a b => getD_set_self (by rw [List.length_set, hv.1]; exact hc)
  have e2 : ∀ a b : ℕ, ((v.set h a).set c b).getD h 0 = a := fun a b => by
    rw [getD_set_ne (fun e => hne e.symm)]
    exact getD_set_self (by rw [hv.1]; exact hh)
  have e3 : ∀ a b : ℕ, ∀ i < g.C, i ≠ h → i ≠ c → v.getD i 0 = ((v.set h a).set c b).getD i 0 := fun a b i _ h1 h2 => by
    rw [getD_set_ne (fun e => h2 e.symm), getD_set_ne (fun e => h1 e.symm)]
  unfold SqArr.mulVec
  rw [fockNode_all_size, ← Finset.sum_product']
  symm
  refine Finset.sum_of_injOn (fun ab : ℕ × ℕ => g.indexOf ((v.set h ab.1).set c ab.2)) ?_ ?_ ?_ ?_
  · rintro ⟨a, b⟩ hab ⟨a', b'⟩ hab' e
    simp only [Finset.coe_product, Set.mem_prod, Finset.mem_coe, Finset.mem_range] at hab hab'
    have := g.indexOf_inj (hval _ _ hab.1 hab.2) (hval _ _ hab'.1 hab'.2) e
    have h1 := congrArg (fun l : Vals => l.getD h 0) this
    have h2 := congrArg (fun l : Vals => l.getD c 0) this
    simp only [e1, e2] at h1 h2
    rw [h1, h2]
  · rintro ⟨a, b⟩ hab
    simp only [Finset.coe_product, Set.mem_prod, Finset.mem_coe, Finset.mem_range] at hab ⊢
    exact g.indexOf_lt (hval _ _ hab.1 hab.2)
  · intro j hj hno
    rw [Finset.mem_range] at hj
    have hw := g.valid_valuesFromIndex hg.1 j
    have hent := gate_entry hg hh hc hne hbug hF hv hw
    rw [g.indexOf_valuesFromIndex hj] at hent
    rw [hent]
    split
    · rename_i hs
      exfalso
      apply hno
      refine ⟨((g.valuesFromIndex j).getD h 0, (g.valuesFromIndex j).getD c 0), ?_, ?_⟩
      · simp only [Finset.coe_product, Set.mem_prod, Finset.mem_coe, Finset.mem_range]
        exact ⟨valid_getD_lt hw hh, valid_getD_lt hw hc⟩
      · show g.indexOf ((v.set h _).set c _) = j
        rw [set_getD_pair hv hw hh hc hne hs, g.indexOf_valuesFromIndex hj]
    · rw [zero_mul]
  · rintro ⟨a, b⟩ hab
    simp only [Finset.mem_product, Finset.mem_range] at hab
    show _ = _ * y (g.indexOf ((v.set h a).set c b))
    rw [gate_entry hg hh hc hne hbug hF hv (hval _ _ hab.1 hab.2), if_pos (e3 a b), e1, e2]

/-- Amplitudes of a single photon in two channels. -/
noncomputable def single (u : Fin 2 → ℂ) (a b : ℕ) : ℂ := if a = 1 ∧ b = 0 then u 0 else if a = 0 ∧ b = 1 then u 1 else 0

theorem gateAmp_single (L : ℕ) (hL : 2 ≤ L) (M : Opt) (n m : ℕ) : gateAmp L M n m 1 0 = single (fun i => M 0 i) n m ∧
    gateAmp L M n m 0 1 = single (fun i => M 1 i) n m := by
  by_cases h : n + m = 1
  · have hc : (n = 1 ∧ m = 0) ∨ (n = 0 ∧ m = 1) := by omega
    rcases hc with ⟨rfl, rfl⟩ | ⟨rfl, rfl⟩
    · simp [gateAmp, show 1 < L by omega, bosonAmp, genPoly, single]
    · simp [gateAmp, show 1 < L by omega, bosonAmp, genPoly, single]
  · have h0 : ¬ (n = 1 ∧ m = 0) := by omega
    have h1 : ¬ (n = 0 ∧ m = 1) := by omega
    unfold single
    rw [if_neg h0, if_neg h1, if_neg h0, if_neg h1]
    constructor
    · by_contra hne
      exact h (gateAmp_conserves hne)
    · by_contra hne
      exact h (gateAmp_conserves hne)

theorem sum_single {L : ℕ} (hL : 2 ≤ L) (u : Fin 2 → ℂ) (F : ℕ → ℕ → ℂ) :
    ∑ a ∈ Finset.range L, ∑ b ∈ Finset.range L, F a b * single u a b = F 1 0 * u 0 + F 0 1 * u 1 := by
  have h1 : ∀ a ∈ Finset.range L, ∑ b ∈ Finset.range L, F a b * single u a b
      = if a = 1 then F 1 0 * u 0 else if a = 0 then F 0 1 * u 1 else 0 := by
    intro a _
    by_cases ha : a = 1
    · subst ha
      rw [if_pos rfl, Finset.sum_eq_single 0]
      · simp [single]
      · intro b _ hb
        simp [single, hb]
      · intro h
        exact absurd (Finset.mem_range.mpr (by omega)) h
    · rw [if_neg ha]
      by_cases ha0 : a = 0
      · subst ha0
        rw [if_pos rfl, Finset.sum_eq_single 1]
        · simp [single]
        · intro b _ hb
          simp [single, hb]
        · intro h
          exact absurd (Finset.mem_range.mpr (by omega)) h
      · rw [if_neg ha0]
        exact Finset.sum_eq_zero (fun b _ => by simp [single, ha, ha0])
  rw [Finset.sum_congr rfl h1, Finset.sum_eq_add (a := 1) (b := 0) (by decide)]
  · simp
  · intro a _ h
    simp [h.1, h.2]
  · intro h
    exact absurd (Finset.mem_range.mpr (by omega)) h
  · intro h
    exact absurd (Finset.mem_range.mpr (by omega)) h

/-- One element on one photon. -/
theorem gate_single {L : ℕ} (hL : 2 ≤ L) (M : Opt) (u : Fin 2 → ℂ) (n m : ℕ) :
    ∑ a ∈ Finset.range L, ∑ b ∈ Finset.range L, gateAmp L M n m a b * single u a b = single (M.transpose.mulVec u) n m := by
  rw [sum_single hL u (gateAmp L M n m), (gateAmp_single L hL M n m).1, (gateAmp_single L hL M n m).2]
  unfold single
  split
  · simp [Matrix.mulVec, dotProduct, Fin.sum_univ_two]
  · split
    · simp [Matrix.mulVec, dotProduct, Fin.sum_univ_two]
    · ring

end Verif
