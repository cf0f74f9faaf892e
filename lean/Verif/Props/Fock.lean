/-
Properties C07 - C13: optical gates and their Fock-state matrices.
-/
import Verif.Lemmas.Reduced
import Verif.Lemmas.TensorList
import Verif.Props.Tables
import Mathlib.Tactic.NormNum

namespace Verif.Props
open Verif Spec

/-- **C07 (partial)** For two different existing channels the tensor list is a permutation of all channels that starts
with the two given channels. Missing: first channel >= 2 together with second channel 0 (`C07_addressing_fails`). -/
theorem C07_addressing_partial (C h c : ℕ) (hh : h < C) (hc : c < C) (hne : h ≠ c) (hbug : ¬ (2 ≤ h ∧ c = 0)) :
    ∃ rest, tensorList C [h, c] = some (h :: c :: rest) ∧ (h :: c :: rest).Perm (List.range C) := by
  obtain ⟨tl, e, hp, h0, h1⟩ := tensorList_two hh hc hne
  rw [if_neg hbug] at h0 h1
  obtain ⟨r, rfl⟩ := cons_of_getElem? h0 h1
  exact ⟨r, e, hp⟩

/-- **C07** One channel: the tensor list starts with that channel and is a permutation. -/
theorem C07_single_channel (C c : ℕ) (hc : c < C) :
    ∃ rest, tensorList C [c] = some (c :: rest) ∧ (c :: rest).Perm (List.range C) := by
  have aux : ∀ l : List ℕ, l[0]? = some c → ∃ r, l = c :: r := by
    intro l h
    match l, h with
    | x :: r, h => simp at h; exact ⟨r, by rw [h]⟩
  unfold tensorList
  simp only
  split
  · rename_i h0
    obtain ⟨l', e, hp, hk⟩ := swapAt_spec (l := List.range C) (i := 0) (j := c) (by simp; omega) (by simpa using hc)
    have := hk 0
    rw [if_neg (fun e => h0 e.symm), if_pos rfl] at this
    obtain ⟨r, rfl⟩ := aux l' (by rw [this]; simp)
    exact ⟨r, e, hp⟩
  · rename_i h0
    have h0 : c = 0 := by omega
    subst h0
    obtain ⟨r, hr⟩ := aux (List.range C) (by rw [List.getElem?_range hc])
    exact ⟨r, by rw [hr], by rw [hr]⟩

/-- **C07** Equal channels, more than two channels and non-existing channels are refused. -/
theorem C07_refusals (C h c : ℕ) : tensorList C [h, h] = none ∧
    (∀ a b c rest, tensorList C (a :: b :: c :: rest) = none) ∧
    (2 ≤ C → ¬ (h < C ∧ c < C) → tensorList C [h, c] = none) := by
  refine ⟨by simp [tensorList], by intros; rfl, ?_⟩
  intro hC hout
  unfold tensorList
  simp only
  split
  · rfl
  · rename_i hne
    rw [if_neg (by omega), if_neg (by omega)]
    by_cases hh : h < C
    · obtain ⟨l', e, hp, -⟩ := swapAt_spec (l := List.range C) (i := 0) (j := h) (by simp; omega) (by simpa using hh)
      rw [e, Option.bind_some]
      apply swapAt_none
      rw [hp.length_eq]; simp; omega
    · rw [swapAt_none (by simp; omega)]; rfl

/-- **C07 fails** for every first channel `h >= 2` with second channel 0: the tensor list starts with channels 1 and `h`
instead of `h` and 0, so the gate acts on the wrong channels. -/
theorem C07_addressing_fails (C h : ℕ) (hh : h < C) (h2 : 2 ≤ h) :
    ∃ rest, tensorList C [h, 0] = some (1 :: h :: rest) := by
  obtain ⟨tl, e, hp, h0, h1⟩ := tensorList_two hh (by omega) (show h ≠ 0 by omega)
  rw [if_pos ⟨h2, rfl⟩] at h0 h1
  obtain ⟨r, rfl⟩ := cons_of_getElem? h0 h1
  exact ⟨r, e⟩

example : tensorList 4 [3, 1] = some [3, 1, 2, 0] ∧ tensorList 3 [2, 0] = some [1, 2, 0] := by decide

/-- Shorthand used in the statements below: the full Fock-state matrix of a gate with optical matrix `M` on channels
`h`, `c` of circuit `g`, with the basis enumerated in standard order (see C05). -/
def IsGateMatrix (g : Cfg) (M : Opt) (h c : ℕ) (F : SqArr) : Prop :=
  ∃ tl, tensorList g.C [h, c] = some tl ∧ F = (fockNode g (standardKeys g) M tl .all).1

/-- Such a matrix exists for all channel pairs, hence the theorems below are not vacuous. -/
theorem gateMatrix_exists (g : Cfg) (M : Opt) (h c : ℕ) (hh : h < g.C) (hc : c < g.C) (hne : h ≠ c) :
    ∃ F, IsGateMatrix g M h c F := by
  obtain ⟨tl, e, -⟩ := tensorList_two hh hc hne
  exact ⟨_, tl, e, rfl⟩

theorem gate_entry {g : Cfg} (hg : g.Ok) {M : Opt} {h c : ℕ} (hh : h < g.C) (hc : c < g.C) (hne : h ≠ c)
    (hbug : ¬ (2 ≤ h ∧ c = 0)) {F : SqArr} (hF : IsGateMatrix g M h c F) {v w : Vals} (hv : Valid g v)
    (hw : Valid g w) :
    F.at_ (g.indexOf v) (g.indexOf w) = if ∀ i < g.C, i ≠ h → i ≠ c → v.getD i 0 = w.getD i 0 then
        gateAmp g.L M (v.getD h 0) (v.getD c 0) (w.getD h 0) (w.getD c 0) else 0 := by
  obtain ⟨tl, e, rfl⟩ := hF
  obtain ⟨rest, e', hp⟩ := C07_addressing_partial g.C h c hh hc hne hbug
  rw [e'] at e
  obtain rfl := Option.some.inj e
  exact fockNode_entry hg M hp rfl hv hw

/-- **C13 (partial)** A gate on channels `h`, `c` connects only basis states that agree on all other channels, and the
amplitude is the two-mode bosonic amplitude of the photon numbers in `h` and `c` (nothing happens at or above the
cutoff). Rows index the input photon numbers `v`, as in the code. Missing: `h >= 2`, `c = 0`, where the gate addresses the
wrong channels (`C13_misaddressed`). -/
theorem C13_spectators_partial (g : Cfg) (hg : g.Ok) (M : Opt) (h c : ℕ) (hh : h < g.C) (hc : c < g.C) (hne : h ≠ c)
    (hbug : ¬ (2 ≤ h ∧ c = 0)) (F : SqArr) (hF : IsGateMatrix g M h c F) (v w : Vals) (hv : Valid g v)
    (hw : Valid g w) :
    (F.at_ (g.indexOf v) (g.indexOf w) ≠ 0 → ∀ i < g.C, i ≠ h → i ≠ c → v.getD i 0 = w.getD i 0) ∧
    ((∀ i < g.C, i ≠ h → i ≠ c → v.getD i 0 = w.getD i 0) → F.at_ (g.indexOf v) (g.indexOf w) =
      gateAmp g.L M (v.getD h 0) (v.getD c 0) (w.getD h 0) (w.getD c 0)) := by
  rw [gate_entry hg hh hc hne hbug hF hv hw]
  constructor
  · intro hnz
    by_contra hcon
    rw [if_neg hcon] at hnz
    exact hnz rfl
  · intro hs
    rw [if_pos hs]

/-- **C13/C07 fails**: a gate on channels `h >= 2` and `0` really acts on channels 1 and `h`. -/
theorem C13_misaddressed (g : Cfg) (hg : g.Ok) (M : Opt) (h : ℕ) (hh : h < g.C) (h2 : 2 ≤ h) (F : SqArr)
    (hF : IsGateMatrix g M h 0 F) (v w : Vals) (hv : Valid g v) (hw : Valid g w) :
    F.at_ (g.indexOf v) (g.indexOf w) = if ∀ i < g.C, i ≠ 1 → i ≠ h → v.getD i 0 = w.getD i 0 then
        gateAmp g.L M (v.getD 1 0) (v.getD h 0) (w.getD 1 0) (w.getD h 0) else 0 := by
  obtain ⟨tl, e, rfl⟩ := hF
  obtain ⟨tl', e', hp, -⟩ := tensorList_two hh (by omega) (show h ≠ 0 by omega)
  obtain ⟨rest, e''⟩ := C07_addressing_fails g.C h hh h2
  rw [e''] at e e'
  obtain rfl := Option.some.inj e
  obtain rfl := Option.some.inj e'
  exact fockNode_entry hg M hp rfl hv hw

/-- **C08** Every optical gate (any matrix, any channel pair accepted by the code, also the misaddressed ones) conserves
the total photon number. -/
theorem C08_photon_number (g : Cfg) (hg : g.Ok) (M : Opt) (h c : ℕ) (hh : h < g.C) (hc : c < g.C) (hne : h ≠ c)
    (F : SqArr) (hF : IsGateMatrix g M h c F) (v w : Vals) (hv : Valid g v) (hw : Valid g w) (hs : v.sum ≠ w.sum) :
    F.at_ (g.indexOf v) (g.indexOf w) = 0 := by
  obtain ⟨tl, e, rfl⟩ := hF
  obtain ⟨tl', e', hp, -⟩ := tensorList_two hh hc hne
  rw [e'] at e
  obtain rfl := Option.some.inj e
  exact fockNode_conserves hg M hp hv hw hs

example : Cfg.Ok ⟨3, 3, true⟩ ∧ Valid ⟨3, 3, true⟩ [1, 1, 0] ∧ Valid ⟨3, 3, true⟩ [2, 1, 0] ∧
    ([1, 1, 0] : Vals).sum ≠ ([2, 1, 0] : Vals).sum := by decide

theorem toMatrix_unitary_iff (A : SqArr) (s : ℕ) (h : A.size = s)
    (hu : (fun i j => A.at_ i j : Matrix (Fin s) (Fin s) ℂ) ∈ Matrix.unitaryGroup (Fin s) ℂ) : IsUnitary A := by
  subst h; exact hu

/-- **C09** A unitary optical matrix gives a unitary matrix on the complete Fock basis, for every cutoff, number of
channels and channel pair. -/
theorem C09_unitary (g : Cfg) (hg : g.Ok) (M : Opt) (hM : M ∈ Matrix.unitaryGroup (Fin 2) ℂ) (h c : ℕ)
    (hh : h < g.C) (hc : c < g.C) (hne : h ≠ c) (F : SqArr) (hF : IsGateMatrix g M h c F) :
    F.size = g.L ^ g.C ∧ IsUnitary F := by
  obtain ⟨tl, e, rfl⟩ := hF
  obtain ⟨tl', e', hp, -⟩ := tensorList_two hh hc hne
  rw [e'] at e
  obtain rfl := Option.some.inj e
  refine ⟨fockNode_all_size _ _ _ _, toMatrix_unitary_iff _ g.size (fockNode_all_size _ _ _ _) ?_⟩
  exact nodeMat_unitary hg hM hp

/-- non-vacuity of C09: a genuinely mixing unitary matrix -/
example : (!![(3/5 : ℂ), 4/5; 4/5, -3/5] : Opt) ∈ Matrix.unitaryGroup (Fin 2) ℂ := by
  rw [Matrix.mem_unitaryGroup_iff]
  ext i j
  fin_cases i <;> fin_cases j <;>
    simp [Matrix.mul_apply, Matrix.star_apply, Complex.conj_ofNat] <;> norm_num

/-- **C10 (partial)** If the two addressed channels hold at least `L` photons together, the basis state is left alone and
nothing else leads to it. Missing: the misaddressed channel pairs (for those the statement holds with channels 1, `h`). -/
theorem C10_above_cutoff_partial (g : Cfg) (hg : g.Ok) (M : Opt) (h c : ℕ) (hh : h < g.C) (hc : c < g.C) (hne : h ≠ c)
    (hbug : ¬ (2 ≤ h ∧ c = 0)) (F : SqArr) (hF : IsGateMatrix g M h c F) (v w : Vals) (hv : Valid g v)
    (hw : Valid g w) (hcut : g.L ≤ v.getD h 0 + v.getD c 0) :
    F.at_ (g.indexOf v) (g.indexOf w) = (if v = w then 1 else 0) ∧
    F.at_ (g.indexOf w) (g.indexOf v) = (if v = w then 1 else 0) := by
  have ext : ∀ {v w : Vals}, v.length = g.C → w.length = g.C → (∀ i < g.C, i ≠ h → i ≠ c → v.getD i 0 = w.getD i 0) →
      v.getD h 0 = w.getD h 0 → v.getD c 0 = w.getD c 0 → v = w := by
    intro v w lv lw ha h1 h2
    apply List.ext_getElem (by rw [lv, lw])
    intro i hi hi'
    rw [← List.getD_eq_getElem _ 0 hi, ← List.getD_eq_getElem _ 0 hi']
    by_cases e1 : i = h
    · rw [e1]; exact h1
    · by_cases e2 : i = c
      · rw [e2]; exact h2
      · exact ha i (by omega) e1 e2
  constructor
  · rw [gate_entry hg hh hc hne hbug hF hv hw]
    by_cases e : v = w
    · subst e
      rw [if_pos rfl, if_pos (fun _ _ _ _ => rfl), gateAmp, if_neg (not_lt.2 hcut), if_pos ⟨rfl, rfl⟩]
    · rw [if_neg e]
      split
      · rename_i ha
        rw [gateAmp, if_neg (by omega), if_neg]
        rintro ⟨h1, h2⟩
        exact e (ext hv.1 hw.1 ha h1 h2)
      · rfl
  · rw [gate_entry hg hh hc hne hbug hF hw hv]
    by_cases e : v = w
    · subst e
      rw [if_pos rfl, if_pos (fun _ _ _ _ => rfl), gateAmp, if_neg (not_lt.2 hcut), if_pos ⟨rfl, rfl⟩]
    · rw [if_neg e]
      split
      · rename_i ha
        by_cases hcut' : w.getD h 0 + w.getD c 0 < g.L
        · rw [gateAmp, if_pos hcut', bosonAmp, if_neg (by omega)]
        · rw [gateAmp, if_neg hcut', if_neg]
          rintro ⟨h1, h2⟩
          exact e (ext hw.1 hv.1 ha h1 h2).symm
      · rfl

example : (3 : ℕ) ≤ ([2, 0, 1] : Vals).getD 0 0 + ([2, 0, 1] : Vals).getD 2 0 := by decide

/-- **C11** Two-mode action on vacuum and single photons: the vacuum is unchanged; a photon in the first channel
(`n = 1, m = 0`) stays with amplitude `M[0][0]` and moves with amplitude `M[1][0]`; one in the second channel moves with
amplitude `M[0][1]` and stays with amplitude `M[1][1]` (these are the rows of the matrix built by the code). -/
theorem C11_vacuum_and_single_photon (L : ℕ) (hL : 2 ≤ L) (M : Opt) :
    gateAmp L M 0 0 0 0 = 1 ∧
    gateAmp L M 1 0 1 0 = M 0 0 ∧ gateAmp L M 1 0 0 1 = M 1 0 ∧
    gateAmp L M 0 1 1 0 = M 0 1 ∧ gateAmp L M 0 1 0 1 = M 1 1 := by
  have h0 : (0 : ℕ) + 0 < L := by omega
  have h1 : (1 : ℕ) + 0 < L := by omega
  have h2 : (0 : ℕ) + 1 < L := by omega
  refine ⟨?_, ?_, ?_, ?_, ?_⟩ <;>
    simp [gateAmp, bosonAmp, h0, h1, genPoly, Nat.factorial]

/-- **C11** the entries of the two-channel matrix built by the code are these amplitudes. -/
theorem C11_two_channel_matrix (L : ℕ) (M : Opt) (n m u v : ℕ) (hn : n < L) (hm : m < L) (hu : u < L) (hv : v < L) :
    (fock2 L M).at_ (m * L + n) (v * L + u) = gateAmp L M n m u v := fock2_at M hn hm hu hv

/-- **C12** Composition: the matrix of a first gate `M₁` followed by a gate `M₂` on the same channels (later matrices are
multiplied from the left) is the matrix of the single gate `M₁ * M₂`; the identity optical matrix gives the identity.
(The code's Fock matrix has the input photon numbers as row index, which is why the optical matrices compose in this order.) -/
theorem C12_composition (g : Cfg) (hg : g.Ok) (M₁ M₂ : Opt) (h c : ℕ) (hh : h < g.C) (hc : c < g.C) (hne : h ≠ c)
    (F₁ F₂ F₁₂ F₀ : SqArr) (h1 : IsGateMatrix g M₁ h c F₁) (h2 : IsGateMatrix g M₂ h c F₂)
    (h12 : IsGateMatrix g (M₁ * M₂) h c F₁₂) (h0 : IsGateMatrix g 1 h c F₀) (i j : ℕ) (hi : i < g.L ^ g.C)
    (hj : j < g.L ^ g.C) :
    (F₂.mul F₁).at_ i j = F₁₂.at_ i j ∧ F₀.at_ i j = if i = j then 1 else 0 := by
  obtain ⟨tl, e, rfl⟩ := h1
  obtain ⟨_, e2, rfl⟩ := h2
  obtain ⟨_, e3, rfl⟩ := h12
  obtain ⟨_, e4, rfl⟩ := h0
  rw [e] at e2 e3 e4
  obtain rfl := Option.some.inj e2
  obtain rfl := Option.some.inj e3
  obtain rfl := Option.some.inj e4
  obtain ⟨tl', e', hp, -⟩ := tensorList_two hh hc hne
  rw [e'] at e
  obtain rfl := Option.some.inj e
  constructor
  · have := congrFun (congrFun (nodeMat_mul hg M₂ M₁ hp) ⟨i, hi⟩) ⟨j, hj⟩
    rw [Matrix.mul_apply] at this
    rw [SqArr.mul]
    simp only [fockNode_all_size]
    rw [← Fin.sum_univ_eq_sum_range (fun k => (fockNode g (standardKeys g) M₂ tl' .all).1.at_ i k *
      (fockNode g (standardKeys g) M₁ tl' .all).1.at_ k j)]
    exact this
  · have := congrFun (congrFun (nodeMat_one hg hp) ⟨i, hi⟩) ⟨j, hj⟩
    rw [Matrix.one_apply] at this
    rw [nodeMat] at this
    rw [this]
    by_cases hij : i = j
    · subst hij; simp
    · rw [if_neg hij]
      exact if_neg (fun e => hij (Fin.mk.inj e))

end Verif.Props
