/-
Properties C17 - C21: the optical elements offered to the user.
-/
import Verif.Lemmas.OpticalNodes
import Verif.Props.Apply

namespace Verif.Props
open Verif Spec

/-! ### C17 -/

/-- `cos φ + i sin φ` -/
noncomputable def ph (φ : ℝ) : ℂ := (Real.cos φ : ℂ) + Complex.I * (Real.sin φ : ℂ)

theorem ph_eq_exp (φ : ℝ) : ph φ = Complex.exp (φ * Complex.I) := by
  rw [ph, Complex.exp_mul_I, ← Complex.ofReal_cos, ← Complex.ofReal_sin, mul_comm]

theorem ph_add (φ ψ : ℝ) : ph (φ + ψ) = ph φ * ph ψ := by
  rw [ph_eq_exp, ph_eq_exp, ph_eq_exp, ← Complex.exp_add]; congr 1; push_cast; ring

theorem star_ph (φ : ℝ) : star (ph φ) = ph (-φ) := by
  simp only [ph, star_add, star_mul', Complex.star_def, Complex.conj_ofReal, Complex.conj_I, Real.cos_neg, Real.sin_neg,
    Complex.ofReal_neg]
  ring

theorem genericMatrix_mul (θ φ ψ : ℝ) : genericMatrix θ φ * genericMatrix θ ψ = genericMatrix θ (φ + ψ) := by
  have h' := Complex.sin_sq_add_cos_sq (θ : ℂ)
  have hp := ph_add φ ψ
  unfold ph at hp
  unfold genericMatrix
  simp only [hp]
  generalize ((Real.cos φ : ℂ) + Complex.I * (Real.sin φ : ℂ)) = a
  generalize ((Real.cos ψ : ℂ) + Complex.I * (Real.sin ψ : ℂ)) = b
  rw [Complex.ofReal_cos, Complex.ofReal_sin]
  generalize Complex.sin θ = s at *
  generalize Complex.cos θ = c at *
  have hs : s ^ 2 = 1 - c ^ 2 := by linear_combination h'
  ext i j
  fin_cases i <;> fin_cases j <;>
    simp only [Matrix.mul_apply, Fin.sum_univ_two, Matrix.of_apply, Matrix.cons_val', Matrix.cons_val_zero,
      Matrix.cons_val_one, Fin.zero_eta, Fin.mk_one, Fin.isValue, Matrix.cons_val_fin_one] 
  · linear_combination (c ^ 2 + a * b * s ^ 2) * h'
  · linear_combination (c * s * (1 - a * b)) * h'
  · linear_combination (c * s * (1 - a * b)) * h'
  · linear_combination (s ^ 2 + a * b * c ^ 2) * h'

theorem genericMatrix_zero_phase (θ : ℝ) : genericMatrix θ 0 = 1 := by
  unfold genericMatrix
  ext i j
  fin_cases i <;> fin_cases j <;> simp

theorem genericMatrix_star (θ φ : ℝ) : star (genericMatrix θ φ) = genericMatrix θ (-φ) := by
  have hp := star_ph φ
  unfold ph at hp
  unfold genericMatrix
  simp only
  rw [← hp]
  generalize ((Real.cos φ : ℂ) + Complex.I * (Real.sin φ : ℂ)) = a
  ext i j
  fin_cases i <;> fin_cases j <;> simp [Matrix.star_apply, -Complex.ofReal_cos, -Complex.ofReal_sin]

/-- **C17** For all angles the optical matrix of a wave plate is unitary and symmetric; it is the identity for phase 0; a
half-wave plate is its own inverse; phases of plates at the same angle add up. -/
theorem C17_wave_plate (θ φ ψ : ℝ) :
    genericMatrix θ φ ∈ Matrix.unitaryGroup (Fin 2) ℂ ∧
    (genericMatrix θ φ).transpose = genericMatrix θ φ ∧
    genericMatrix θ 0 = 1 ∧
    genericMatrix θ Real.pi * genericMatrix θ Real.pi = 1 ∧
    genericMatrix θ φ * genericMatrix θ ψ = genericMatrix θ (φ + ψ) := by
  refine ⟨?_, ?_, genericMatrix_zero_phase θ, ?_, genericMatrix_mul θ φ ψ⟩
  · rw [Matrix.mem_unitaryGroup_iff, genericMatrix_star, genericMatrix_mul, add_neg_cancel, genericMatrix_zero_phase]
  · unfold genericMatrix
    ext i j
    fin_cases i <;> fin_cases j <;> simp
  · rw [genericMatrix_mul, ← genericMatrix_zero_phase θ]
    unfold genericMatrix
    rw [show Real.pi + Real.pi = 2 * Real.pi by ring]
    simp

/-- **C17** Every element built from a wave-plate matrix on two different channels is unitary on the whole basis. -/
theorem C17_elements_unitary (g : Cfg) (hg : g.Ok) (h v : ℕ) (hh : h < g.C) (hv : v < g.C) (hne : h ≠ v) (θ φ : ℝ) :
    ∃ n, wavePlate g h v θ φ = some n ∧ IsUnitary (fockNode g (standardKeys g) n.1 n.2 .all).1 := by
  obtain ⟨tl, e, hp, -⟩ := tensorList_two hh hv hne
  refine ⟨(genericMatrix θ φ, tl), by rw [wavePlate, genericRotation, e]; rfl, ?_⟩
  exact toMatrix_unitary_iff _ g.size (fockNode_all_size _ _ _ _) (nodeMat_unitary hg (C17_wave_plate θ φ 0).1 hp)

/-! ### helper: full matrix of a two-channel element -/

/-- `F` is the full Fock matrix of the node `n` -/
noncomputable def FullMatrix (g : Cfg) (n : Opt × List ℕ) : SqArr := (fockNode g (standardKeys g) n.1 n.2 .all).1

theorem rotation_entry {g : Cfg} (hg : g.Ok) {h c : ℕ} (hh : h < g.C) (hc : c < g.C) (hne : h ≠ c)
    (hbug : ¬ (2 ≤ h ∧ c = 0)) {θ φ : ℝ} {n : Opt × List ℕ} (hn : genericRotation g h c θ φ = some n) {v w : Vals}
    (hv : Valid g v) (hw : Valid g w) :
    (FullMatrix g n).at_ (g.indexOf v) (g.indexOf w) = if ∀ i < g.C, i ≠ h → i ≠ c → v.getD i 0 = w.getD i 0 then
        gateAmp g.L (genericMatrix θ φ) (v.getD h 0) (v.getD c 0) (w.getD h 0) (w.getD c 0) else 0 := by
  unfold genericRotation at hn
  obtain ⟨tl, e, rfl⟩ := Option.map_eq_some_iff.1 hn
  exact gate_entry hg hh hc hne hbug ⟨tl, e, rfl⟩ hv hw

/-! ### C18 -/

/-- `w` is `v` with the photon numbers of channels `a` and `b` exchanged -/
def Swapped (C a b : ℕ) (v w : Vals) : Prop :=
  w.getD a 0 = v.getD b 0 ∧ w.getD b 0 = v.getD a 0 ∧ ∀ i < C, i ≠ a → i ≠ b → w.getD i 0 = v.getD i 0

theorem ext_getD {C : ℕ} {v w : Vals} (lv : v.length = C) (lw : w.length = C) (h : ∀ i < C, v.getD i 0 = w.getD i 0) :
    v = w := by
  apply List.ext_getElem (by rw [lv, lw])
  intro i hi hi'
  rw [← List.getD_eq_getElem _ 0 hi, ← List.getD_eq_getElem _ 0 hi']
  exact h i (by omega)

theorem swapNode_sorted {g : Cfg} {a b : ℕ} {n : Opt × List ℕ} (hn : swapNode g a b = some n) :
    genericRotation g (min a b) (max a b) (Real.pi / 4) Real.pi = some n := by
  unfold swapNode at hn
  split at hn
  · rw [min_eq_right (by omega), max_eq_left (by omega)]; exact hn
  · rw [min_eq_left (by omega), max_eq_right (by omega)]; exact hn

theorem swap_entry {g : Cfg} (hg : g.Ok) {a b : ℕ} (ha : a < g.C) (hb : b < g.C) (hne : a ≠ b) {n : Opt × List ℕ}
    (hn : swapNode g a b = some n) {v w : Vals} (hv : Valid g v) (hw : Valid g w) :
    (v.getD a 0 + v.getD b 0 < g.L → ((Swapped g.C a b v w → (FullMatrix g n).at_ (g.indexOf v) (g.indexOf w) = 1) ∧
      (¬ Swapped g.C a b v w → (FullMatrix g n).at_ (g.indexOf v) (g.indexOf w) = 0))) ∧
    (g.L ≤ v.getD a 0 + v.getD b 0 → (FullMatrix g n).at_ (g.indexOf v) (g.indexOf w) = if v = w then 1 else 0) := by
  have h1 := swapNode_sorted hn
  have key : ∀ p q : ℕ, p < g.C → q < g.C → p ≠ q → ¬ (2 ≤ p ∧ q = 0) →
      genericRotation g p q (Real.pi / 4) Real.pi = some n →
      (v.getD p 0 + v.getD q 0 < g.L → ((Swapped g.C p q v w → (FullMatrix g n).at_ (g.indexOf v) (g.indexOf w) = 1) ∧
      (¬ Swapped g.C p q v w → (FullMatrix g n).at_ (g.indexOf v) (g.indexOf w) = 0))) ∧
      (g.L ≤ v.getD p 0 + v.getD q 0 → (FullMatrix g n).at_ (g.indexOf v) (g.indexOf w) = if v = w then 1 else 0) := by
    intro p q hp hq hpq hbug hr
    rw [rotation_entry hg hp hq hpq hbug hr hv hw, swapMatrix, gateAmp, bosonAmp_swap]
    constructor
    · intro hlt
      constructor
      · rintro ⟨s1, s2, s3⟩
        rw [if_pos (fun i hi h1 h2 => (s3 i hi h1 h2).symm), if_pos hlt, if_pos ⟨s1, s2⟩]
      · intro hns
        by_cases hag : ∀ i < g.C, i ≠ p → i ≠ q → v.getD i 0 = w.getD i 0
        · rw [if_pos hag, if_pos hlt, if_neg]
          rintro ⟨s1, s2⟩
          exact hns ⟨s1, s2, fun i hi h1 h2 => (hag i hi h1 h2).symm⟩
        · rw [if_neg hag]
    · intro hge
      rw [if_neg (not_lt.2 hge)]
      by_cases e : v = w
      · subst e; simp
      · rw [if_neg e]
        split
        · rename_i hag
          rw [if_neg]
          rintro ⟨s1, s2⟩
          apply e
          apply ext_getD hv.1 hw.1
          intro i hi
          by_cases e1 : i = p
          · rw [e1]; exact s1
          · by_cases e2 : i = q
            · rw [e2]; exact s2
            · exact hag i hi e1 e2
        · rfl
  have hsym : ∀ v w, Swapped g.C a b v w ↔ Swapped g.C b a v w := by
    intro v w
    unfold Swapped
    constructor
    · rintro ⟨s1, s2, s3⟩; exact ⟨s2, s1, fun i hi h1 h2 => s3 i hi h2 h1⟩
    · rintro ⟨s1, s2, s3⟩; exact ⟨s2, s1, fun i hi h1 h2 => s3 i hi h2 h1⟩
  rcases le_total a b with h | h
  · rw [min_eq_left h, max_eq_right h] at h1
    exact key a b ha hb hne (by omega) h1
  · rw [min_eq_right h, max_eq_left h] at h1
    have := key b a hb ha hne.symm (by omega) h1
    rw [hsym, add_comm]
    exact this

/-- **C18 (partial)** `swap` exchanges the photon numbers of two different channels with amplitude exactly 1, for all basis
states with fewer than `L` photons in the two channels together. Missing: states at or above the cutoff
(`C18_swap_fails`). -/
theorem C18_swap_partial (g : Cfg) (hg : g.Ok) (a b : ℕ) (ha : a < g.C) (hb : b < g.C) (hne : a ≠ b) :
    ∃ n, swapNode g a b = some n ∧ ∀ v w, Valid g v → Valid g w → v.getD a 0 + v.getD b 0 < g.L →
      ((Swapped g.C a b v w → (FullMatrix g n).at_ (g.indexOf v) (g.indexOf w) = 1) ∧
       (¬ Swapped g.C a b v w → (FullMatrix g n).at_ (g.indexOf v) (g.indexOf w) = 0)) := by
  have : ∃ n, swapNode g a b = some n := by
    unfold swapNode genericRotation
    split
    · obtain ⟨tl, e, -⟩ := tensorList_two hb ha hne.symm
      rw [e]; exact ⟨_, rfl⟩
    · obtain ⟨tl, e, -⟩ := tensorList_two ha hb hne
      rw [e]; exact ⟨_, rfl⟩
  obtain ⟨n, hn⟩ := this
  exact ⟨n, hn, fun v w hv hw hlt => (swap_entry hg ha hb hne hn hv hw).1 hlt⟩

/-- **C18 fails** at the cutoff: whenever two channels hold at least `L` photons together, `swap` leaves the state alone;
if the photon numbers differ the exchanged state gets amplitude 0 instead of 1. -/
theorem C18_swap_fails (g : Cfg) (hg : g.Ok) (a b : ℕ) (ha : a < g.C) (hb : b < g.C) (hne : a ≠ b) (n : Opt × List ℕ)
    (hn : swapNode g a b = some n) (v w : Vals) (hv : Valid g v) (hw : Valid g w) (hcut : g.L ≤ v.getD a 0 + v.getD b 0)
    (hdiff : v.getD a 0 ≠ v.getD b 0) (hs : Swapped g.C a b v w) :
    (FullMatrix g n).at_ (g.indexOf v) (g.indexOf v) = 1 ∧ (FullMatrix g n).at_ (g.indexOf v) (g.indexOf w) = 0 := by
  rw [(swap_entry hg ha hb hne hn hv hv).2 hcut, (swap_entry hg ha hb hne hn hv hw).2 hcut]
  refine ⟨if_pos rfl, if_neg ?_⟩
  rintro rfl
  exact hdiff hs.1

/-- such states exist: `|2,1>` for length 3 -/
example : Cfg.Ok ⟨3, 2, true⟩ ∧ Valid ⟨3, 2, true⟩ [2, 1] ∧ Valid ⟨3, 2, true⟩ [1, 2] ∧
    3 ≤ ([2, 1] : Vals).getD 0 0 + ([2, 1] : Vals).getD 1 0 ∧ Swapped 2 0 1 [2, 1] [1, 2] := by
  refine ⟨by decide, by decide, by decide, by decide, rfl, rfl, ?_⟩
  intro i hi h1 h2; omega

/-- **C18** The polarizing beam splitter is the swap of the two vertical channels and needs four channels. -/
theorem C18_pbs (g : Cfg) (a b : ℕ × ℕ) : (4 ≤ g.C → pbs g a b = swapNode g a.2 b.2) ∧ (g.C < 4 → pbs g a b = none) := by
  unfold pbs
  constructor
  · intro h; rw [if_neg (by omega)]
  · intro h; rw [if_pos h]

/-! ### C19 -/

/-- the channel the code pairs with the shifted channel -/
def partner (c : ℕ) : ℕ := if c = 0 then 1 else 0

theorem phase_entry {g : Cfg} (hg : g.Ok) {c : ℕ} (hc : c < g.C) {φ : ℝ} {n : Opt × List ℕ}
    (hn : phaseShift g c φ = some n) {v w : Vals} (hv : Valid g v) (hw : Valid g w) :
    (FullMatrix g n).at_ (g.indexOf v) (g.indexOf w) = if v = w then
      (if v.getD c 0 + v.getD (partner c) 0 < g.L then Complex.exp (Complex.I * (v.getD c 0 : ℂ) * φ) else 1) else 0 := by
  have hC := hg.2
  obtain ⟨hp, hpc, hbug, hr⟩ : partner c < g.C ∧ partner c ≠ c ∧ ¬ (2 ≤ partner c ∧ c = 0) ∧
      genericRotation g (partner c) c 0 φ = some n := by
    unfold phaseShift at hn
    unfold partner
    by_cases h0 : c = 0
    · subst h0
      simp only [if_true] at hn ⊢
      exact ⟨by omega, by omega, by omega, hn⟩
    · simp only [h0, if_false] at hn ⊢
      exact ⟨by omega, fun e => h0 e.symm, by omega, hn⟩
  rw [rotation_entry hg hp hc hpc hbug hr hv hw, genericMatrix_zero, gateAmp, bosonAmp_diag]
  by_cases e : v = w
  · subst e
    simp only [and_self, if_true, implies_true, add_comm (v.getD (partner c) 0)]
    congr 1
    rw [← Complex.exp_nat_mul]; congr 1; ring
  · rw [if_neg e]
    split
    · rename_i hag
      have hno : ¬ (w.getD (partner c) 0 = v.getD (partner c) 0 ∧ w.getD c 0 = v.getD c 0) := by
        rintro ⟨s1, s2⟩
        apply e
        apply ext_getD hv.1 hw.1
        intro i hi
        by_cases e1 : i = partner c
        · rw [e1]; exact s1.symm
        · by_cases e2 : i = c
          · rw [e2]; exact s2.symm
          · exact hag i hi e1 e2
      have hno' : ¬ (v.getD (partner c) 0 = w.getD (partner c) 0 ∧ v.getD c 0 = w.getD c 0) :=
        fun h => hno ⟨h.1.symm, h.2.symm⟩
      simp [hno, hno', -List.getD_eq_getElem?_getD]
    · rfl

theorem phaseShift_exists (g : Cfg) (hg : g.Ok) (c : ℕ) (hc : c < g.C) (φ : ℝ) : ∃ n, phaseShift g c φ = some n := by
  have hC := hg.2
  unfold phaseShift genericRotation
  split
  · obtain ⟨tl, e, -⟩ := tensorList_two (C := g.C) (h := 1) (c := 0) (by omega) (by omega) (by omega)
    rw [e]; exact ⟨_, rfl⟩
  · obtain ⟨tl, e, -⟩ := tensorList_two (C := g.C) (h := 0) (c := c) (by omega) (by omega) (by omega)
    rw [e]; exact ⟨_, rfl⟩

/-- **C19 (partial)** The phase shift of channel `c` is diagonal and multiplies a basis state with `n` photons in the
channel by `exp(i n φ)`, as long as the channel and channel 0 (for `c = 0`: channel 1) together hold fewer than `L`
photons. Missing: the other states (`C19_phase_fails`). -/
theorem C19_phase_shift_partial (g : Cfg) (hg : g.Ok) (c : ℕ) (hc : c < g.C) (φ : ℝ) :
    ∃ n, phaseShift g c φ = some n ∧ ∀ v w, Valid g v → Valid g w →
      (v ≠ w → (FullMatrix g n).at_ (g.indexOf v) (g.indexOf w) = 0) ∧
      (v.getD c 0 + v.getD (if c = 0 then 1 else 0) 0 < g.L →
        (FullMatrix g n).at_ (g.indexOf v) (g.indexOf v) = Complex.exp (Complex.I * (v.getD c 0 : ℂ) * φ)) := by
  obtain ⟨n, hn⟩ := phaseShift_exists g hg c hc φ
  refine ⟨n, hn, fun v w hv hw => ⟨?_, ?_⟩⟩
  · intro e; rw [phase_entry hg hc hn hv hw, if_neg e]
  · intro hlt
    rw [phase_entry hg hc hn hv hv, if_pos rfl]
    exact if_pos hlt

/-- **C19 fails**: if channel `c` and its partner channel together hold at least `L` photons no phase is applied, although
the channel may hold photons. -/
theorem C19_phase_fails (g : Cfg) (hg : g.Ok) (c : ℕ) (hc : c < g.C) (φ : ℝ) (n : Opt × List ℕ)
    (hn : phaseShift g c φ = some n) (v : Vals) (hv : Valid g v)
    (hcut : g.L ≤ v.getD c 0 + v.getD (if c = 0 then 1 else 0) 0) :
    (FullMatrix g n).at_ (g.indexOf v) (g.indexOf v) = 1 := by
  rw [phase_entry hg hc hn hv hv, if_pos rfl]
  exact if_neg (not_lt.2 hcut)

/-- a qubit-encoded state is enough: `|1,1>` with length 2 -/
example : Valid ⟨2, 2, true⟩ [1, 1] ∧ 2 ≤ ([1, 1] : Vals).getD 1 0 + ([1, 1] : Vals).getD 0 0 ∧
    Complex.exp (Complex.I * ((1 : ℕ) : ℂ) * (Real.pi : ℝ)) ≠ 1 := by
  refine ⟨by decide, by decide, ?_⟩
  rw [Nat.cast_one, mul_one, mul_comm, Complex.exp_pi_mul_I]; norm_num

/-! ### C20 -/

theorem rotation_exists {g : Cfg} {h c : ℕ} (hh : h < g.C) (hc : c < g.C) (hne : h ≠ c) (θ φ : ℝ) :
    ∃ n, genericRotation g h c θ φ = some n := by
  obtain ⟨tl, e, -⟩ := tensorList_two hh hc hne
  exact ⟨_, by rw [genericRotation, e]; rfl⟩

theorem norm_half : ‖((√2 / 2 : ℝ) : ℂ)‖ ^ 2 = 1 / 2 := by
  rw [Complex.norm_real, Real.norm_eq_abs, sq_abs, div_pow, Real.sq_sqrt (by norm_num)]; norm_num

/-- **C20 (partial)** 50/50 mixing of channels `a`, `b`: a single photon in `a` (or `b`), whatever the other channels
hold, stays or moves with probability exactly 1/2. Missing: the misaddressed pairs of C07. -/
theorem C20_equal_split_partial (g : Cfg) (hg : g.Ok) (hL : 2 ≤ g.L) (a b : ℕ) (ha : a < g.C) (hb : b < g.C)
    (hne : a ≠ b) (hbug : ¬ (2 ≤ a ∧ b = 0)) :
    ∃ n, mix5050 g a b = some n ∧ ∀ v w, Valid g v → Valid g w → Swapped g.C a b v w →
      v.getD a 0 + v.getD b 0 = 1 →
      ‖(FullMatrix g n).at_ (g.indexOf v) (g.indexOf v)‖ ^ 2 = 1 / 2 ∧
      ‖(FullMatrix g n).at_ (g.indexOf v) (g.indexOf w)‖ ^ 2 = 1 / 2 := by
  obtain ⟨n, hn⟩ := rotation_exists ha hb hne (Real.pi / 8) Real.pi
  refine ⟨n, hn, fun v w hv hw hs h1 => ?_⟩
  rw [rotation_entry hg ha hb hne hbug hn hv hv, rotation_entry hg ha hb hne hbug hn hv hw, if_pos (fun _ _ _ _ => rfl),
    if_pos (fun i hi h1 h2 => (hs.2.2 i hi h1 h2).symm), hs.1, hs.2.1]
  obtain ⟨-, g1, g2, g3, g4⟩ := C11_vacuum_and_single_photon g.L hL (genericMatrix (Real.pi / 8) Real.pi)
  have hcase : (v.getD a 0 = 1 ∧ v.getD b 0 = 0) ∨ (v.getD a 0 = 0 ∧ v.getD b 0 = 1) := by omega
  rcases hcase with ⟨e1, e2⟩ | ⟨e1, e2⟩
  · rw [e1, e2, g1, g2, mixMatrix]
    exact ⟨norm_half, norm_half⟩
  · rw [e1, e2, g3, g4, mixMatrix]
    refine ⟨?_, norm_half⟩
    show ‖-((√2 / 2 : ℝ) : ℂ)‖ ^ 2 = 1 / 2
    rw [norm_neg]; exact norm_half

/-- **C20 (partial)** Hong-Ou-Mandel: with one photon in each of the two channels (length at least 3) the amplitude to find
one photon in each afterwards is exactly 0. Missing: the misaddressed pairs of C07. -/
theorem C20_hong_ou_mandel_partial (g : Cfg) (hg : g.Ok) (hL : 3 ≤ g.L) (a b : ℕ) (ha : a < g.C) (hb : b < g.C)
    (hne : a ≠ b) (hbug : ¬ (2 ≤ a ∧ b = 0)) :
    ∃ n, mix5050 g a b = some n ∧ ∀ v w, Valid g v → Valid g w →
      v.getD a 0 = 1 → v.getD b 0 = 1 → w.getD a 0 = 1 → w.getD b 0 = 1 →
      (FullMatrix g n).at_ (g.indexOf v) (g.indexOf w) = 0 := by
  obtain ⟨n, hn⟩ := rotation_exists ha hb hne (Real.pi / 8) Real.pi
  refine ⟨n, hn, fun v w hv hw h1 h2 h3 h4 => ?_⟩
  rw [rotation_entry hg ha hb hne hbug hn hv hw, h1, h2, h3, h4]
  have : gateAmp g.L (genericMatrix (Real.pi / 8) Real.pi) 1 1 1 1 = 0 := by
    rw [gateAmp, if_pos (by omega), bosonAmp, if_pos rfl, mixMatrix, genPoly]
    set r : ℂ := ((√2 / 2 : ℝ) : ℂ)
    have : (Polynomial.C (!![r, r; r, -r] 0 0) * Polynomial.X + Polynomial.C (!![r, r; r, -r] 1 0)) ^ 1 *
        (Polynomial.C (!![r, r; r, -r] 0 1) * Polynomial.X + Polynomial.C (!![r, r; r, -r] 1 1)) ^ 1
        = Polynomial.C (r ^ 2) * Polynomial.X ^ 2 + Polynomial.C (-r ^ 2) := by
      simp only [Matrix.of_apply, Matrix.cons_val', Matrix.cons_val_zero, Matrix.cons_val_one, Matrix.cons_val_fin_one, pow_one,
        Polynomial.C_neg, Polynomial.C_pow]
      ring
    rw [this, Polynomial.coeff_add, Polynomial.coeff_C_mul, Polynomial.coeff_X_pow, Polynomial.coeff_C]
    simp
  rw [this]; simp

example : Swapped 3 0 2 [1, 4, 0] [0, 4, 1] ∧ ([1, 4, 0] : Vals).getD 0 0 + ([1, 4, 0] : Vals).getD 2 0 = 1 := by
  refine ⟨⟨rfl, rfl, ?_⟩, by decide⟩
  intro i hi h1 h2
  have : i = 1 := by omega
  subst this; rfl

/-- **C20** For length 2 there is no bunching: two photons in different channels are at the cutoff and stay where they are
(the 50/50 element then acts as the identity). -/
theorem C20_length_two (g : Cfg) (hg : g.Ok) (hL : g.L = 2) (a b : ℕ) (ha : a < g.C) (hb : b < g.C)
    (hne : a ≠ b) (hbug : ¬ (2 ≤ a ∧ b = 0)) (n : Opt × List ℕ) (hn : mix5050 g a b = some n) (v : Vals) (hv : Valid g v)
    (h1 : v.getD a 0 = 1) (h2 : v.getD b 0 = 1) : (FullMatrix g n).at_ (g.indexOf v) (g.indexOf v) = 1 := by
  rw [rotation_entry hg ha hb hne hbug hn hv hv, h1, h2, if_pos (fun _ _ _ _ => rfl), gateAmp, if_neg (by omega)]
  simp

/-! ### C21 -/

theorem mixGeneric_eq {g : Cfg} {a b : ℕ} {r t : ℝ} (hr : 0 ≤ r) (ht : 0 ≤ t) (h : r + t = 1) :
    mixGeneric g a b r t = genericRotation g a b (Complex.arg ⟨Real.sqrt t, Real.sqrt r⟩) Real.pi := by
  unfold mixGeneric
  rw [if_neg (by simpa using h), if_neg (by rintro (h1 | h1) <;> linarith)]

/-- What `mix_generic_refl_transm` really does: the probability that a single photon moves to the other channel is
`4 r t`, and the probability that it stays is `(t - r)²`. -/
theorem C21_actual_probabilities (g : Cfg) (hg : g.Ok) (hL : 2 ≤ g.L) (a b : ℕ) (ha : a < g.C) (hb : b < g.C)
    (hne : a ≠ b) (hbug : ¬ (2 ≤ a ∧ b = 0)) (r t : ℝ) (hr : 0 ≤ r) (ht : 0 ≤ t) (h : r + t = 1) :
    ∃ n, mixGeneric g a b r t = some n ∧ ∀ v w, Valid g v → Valid g w → Swapped g.C a b v w →
      v.getD a 0 + v.getD b 0 = 1 →
      ‖(FullMatrix g n).at_ (g.indexOf v) (g.indexOf v)‖ ^ 2 = (t - r) ^ 2 ∧
      ‖(FullMatrix g n).at_ (g.indexOf v) (g.indexOf w)‖ ^ 2 = 4 * (r * t) := by
  have hrt : 0 ≤ r * t := mul_nonneg hr ht
  rw [mixGeneric_eq hr ht h]
  obtain ⟨n, hn⟩ := rotation_exists ha hb hne (Complex.arg ⟨Real.sqrt t, Real.sqrt r⟩) Real.pi
  refine ⟨n, hn, fun v w hv hw hs h1 => ?_⟩
  rw [rotation_entry hg ha hb hne hbug hn hv hv, rotation_entry hg ha hb hne hbug hn hv hw, if_pos (fun _ _ _ _ => rfl),
    if_pos (fun i hi h1 h2 => (hs.2.2 i hi h1 h2).symm), hs.1, hs.2.1]
  obtain ⟨-, g1, g2, g3, g4⟩ := C11_vacuum_and_single_photon g.L hL
    (genericMatrix (Complex.arg ⟨Real.sqrt t, Real.sqrt r⟩) Real.pi)
  have n1 : ‖((t - r : ℝ) : ℂ)‖ ^ 2 = (t - r) ^ 2 := by rw [Complex.norm_real, Real.norm_eq_abs, sq_abs]
  have n2 : ‖((2 * √(r * t) : ℝ) : ℂ)‖ ^ 2 = 4 * (r * t) := by
    rw [Complex.norm_real, Real.norm_eq_abs, sq_abs, mul_pow, Real.sq_sqrt hrt]; norm_num
  have hcase : (v.getD a 0 = 1 ∧ v.getD b 0 = 0) ∨ (v.getD a 0 = 0 ∧ v.getD b 0 = 1) := by omega
  rcases hcase with ⟨e1, e2⟩ | ⟨e1, e2⟩
  · rw [e1, e2, g1, g2, mixGenericMatrix hr ht h]
    exact ⟨n1, n2⟩
  · rw [e1, e2, g3, g4, mixGenericMatrix hr ht h]
    refine ⟨?_, n2⟩
    show ‖-((t - r : ℝ) : ℂ)‖ ^ 2 = _
    rw [norm_neg]; exact n1

/-- **C21 (partial)** The requested reflection `r` is realised for `r = 0` and `r = 3/4`.
Missing: all other values (`C21_reflection_fails`). -/
theorem C21_reflection_partial (g : Cfg) (hg : g.Ok) (hL : 2 ≤ g.L) (a b : ℕ) (ha : a < g.C) (hb : b < g.C)
    (hne : a ≠ b) (hbug : ¬ (2 ≤ a ∧ b = 0)) (r : ℝ) (hr : r = 0 ∨ r = 3 / 4) :
    ∃ n, mixGeneric g a b r (1 - r) = some n ∧ ∀ v w, Valid g v → Valid g w → Swapped g.C a b v w →
      v.getD a 0 + v.getD b 0 = 1 →
      ‖(FullMatrix g n).at_ (g.indexOf v) (g.indexOf v)‖ ^ 2 = 1 - r ∧
      ‖(FullMatrix g n).at_ (g.indexOf v) (g.indexOf w)‖ ^ 2 = r := by
  have h0 : 0 ≤ r := by rcases hr with rfl | rfl <;> norm_num
  have h1 : 0 ≤ 1 - r := by rcases hr with rfl | rfl <;> norm_num
  obtain ⟨n, hn, hp⟩ := C21_actual_probabilities g hg hL a b ha hb hne hbug r (1 - r) h0 h1 (by ring)
  refine ⟨n, hn, fun v w hv hw hs hv1 => ?_⟩
  obtain ⟨p1, p2⟩ := hp v w hv hw hs hv1
  rw [p1, p2]
  rcases hr with rfl | rfl <;> norm_num

/-- **C21 fails** for every reflection other than 0 and 3/4: the photon moves with a probability different from `r`
(for example with certainty for `r = 1/2`, and not at all for `r = 1`). -/
theorem C21_reflection_fails (g : Cfg) (hg : g.Ok) (hL : 2 ≤ g.L) (a b : ℕ) (ha : a < g.C) (hb : b < g.C)
    (hne : a ≠ b) (hbug : ¬ (2 ≤ a ∧ b = 0)) (r : ℝ) (h0 : 0 ≤ r) (h1 : r ≤ 1) (hr : r ≠ 0) (hr' : r ≠ 3 / 4) :
    ∃ n, mixGeneric g a b r (1 - r) = some n ∧ ∀ v w, Valid g v → Valid g w → Swapped g.C a b v w →
      v.getD a 0 + v.getD b 0 = 1 → ‖(FullMatrix g n).at_ (g.indexOf v) (g.indexOf w)‖ ^ 2 ≠ r := by
  obtain ⟨n, hn, hp⟩ := C21_actual_probabilities g hg hL a b ha hb hne hbug r (1 - r) h0 (by linarith) (by ring)
  refine ⟨n, hn, fun v w hv hw hs hv1 => ?_⟩
  rw [(hp v w hv hw hs hv1).2]
  intro e
  have : r * (r - 3 / 4) = 0 := by linear_combination (-1 / 4) * e
  rcases mul_eq_zero.1 this with h | h
  · exact hr h
  · exact hr' (by linarith)

/-- **C21** Coefficients that do not add up to 1, or are negative, are refused. -/
theorem C21_refused (g : Cfg) (a b : ℕ) (r t : ℝ) (h : r + t ≠ 1 ∨ r < 0 ∨ t < 0) : mixGeneric g a b r t = none := by
  unfold mixGeneric
  by_cases h1 : r + t ≠ 1
  · rw [if_pos h1]
  · rw [if_neg h1]
    rcases h with h | h
    · exact absurd h h1
    · rw [if_pos h]

end Verif.Props
