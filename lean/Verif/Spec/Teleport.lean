/-
Specification: quantum teleportation (docs notebook "Quantum Teleportation").
-/
import Verif.Spec.Feed
import Verif.Spec.Pair
import Mathlib.Algebra.MvPolynomial.Variables

namespace Verif.Spec
open Verif MvPolynomial

/-- `Q` does not involve the channels `chs`. -/
def Without (chs : List ℕ) (Q : MvPolynomial Mode ℂ) : Prop := ∀ m ∈ Q.vars, m.1 ∉ chs

/-- The creation operator of a channel. -/
noncomputable def addPhoton (ch : ℕ) : MvPolynomial Mode ℂ := X (ch, none)

/-- The six channels: polarizations H and V of the photon to be teleported (`sH`, `sV`), of Alice's photon (`aH`, `aV`) and of Bob's photon (`bH`, `bV`). -/
structure TeleportChannels (C sH sV aH aV bH bV : ℕ) : Prop where
  different : [sH, sV, aH, aV, bH, bV].Nodup
  exist : ∀ ch ∈ [sH, sV, aH, aV, bH, bV], ch < C
  /-- the pairs of channels for which the code puts the channels in the wrong order (C07) are not used -/
  order : ¬ (2 ≤ sH ∧ aH = 0) ∧ ¬ (2 ≤ sV ∧ aV = 0) ∧ ¬ (2 ≤ bH ∧ bV = 0)

/-- The photon in `sH`, `sV` is in the state `H A + V B` (`A`, `B`: numbers, or the states of other photons with which it is entangled); the photons of Alice and Bob are the
pair `(HV - VH)/√2`. -/
noncomputable def teleportIn (sH sV aH aV bH bV : ℕ) (A B : MvPolynomial Mode ℂ) : MvPolynomial Mode ℂ :=
  C ((Real.sqrt 2 / 2 : ℝ) : ℂ) * (addPhoton sH * A + addPhoton sV * B) * (addPhoton aH * addPhoton bV - addPhoton aV * addPhoton bH)

/-- The classical rule between measurement and wave plate: the results in the classical channels `k₀` to `k₃` are kept, the angle of the plate in `x` is 0, its phase
in `y` is π if the photons were found in `sH` and `sV` or in `aH` and `aV`, otherwise 0. -/
def TeleportRule (m k₀ k₁ k₂ k₃ x y : ℕ) (f : List ℝ → Option (List ℝ)) : Prop :=
  ∀ vals : List ℝ, vals.length = m → ∃ vals', f vals = some vals' ∧ vals'.length = m ∧ (∀ k ∈ [k₀, k₁, k₂, k₃], vals'[k]? = vals[k]?) ∧ vals'[x]? = some 0 ∧
    (vals[k₀]? = some 1 ∧ vals[k₁]? = some 1 ∨ vals[k₂]? = some 1 ∧ vals[k₃]? = some 1 → vals'[y]? = some Real.pi) ∧
    (¬ (vals[k₀]? = some 1 ∧ vals[k₁]? = some 1 ∨ vals[k₂]? = some 1 ∧ vals[k₃]? = some 1) → vals'[y]? = some 0)

/-- The two channels in which the photons are found if teleportation succeeds. -/
def teleportPairs (sH sV aH aV : ℕ) : List (ℕ × ℕ) := [(sH, sV), (sH, aV), (aH, sV), (aH, aV)]

end Verif.Spec
