/-
Specification: two photons in the channels of a circuit.
-/
import Verif.Spec.Born

namespace Verif.Spec
open Verif

/-- Photon numbers with one photon in channel `i` and one in channel `j` (two in channel `i` if `i = j`). -/
def twoPhotons (C i j : ℕ) : Vals := (List.range C).map (fun x => (if x = i then 1 else 0) + (if x = j then 1 else 0))

/-- What is found in the channels `opt` if the two photons are in the channels `i` and `j`. -/
def foundPair (opt : List ℕ) (i j : ℕ) : List ℕ := opt.map (fun x => (if x = i then 1 else 0) + (if x = j then 1 else 0))

/-- The amplitude to have the two photons in `i` and `j` for the two-photon wave function `B` (not necessarily symmetrised): the photons are
indistinguishable, so both assignments interfere. -/
noncomputable def pairAmp (B : ℕ → ℕ → ℂ) (i j : ℕ) : ℂ := if i = j then ((Real.sqrt 2 : ℝ) : ℂ) * B i i else B i j + B j i

/-- The state consists of two photons with wave function `B`. -/
structure PhotonPair (g : Cfg) (q : QState) (B : ℕ → ℕ → ℂ) : Prop where
  two : ∀ p ∈ q.comps, ∀ v, Valid g v → IsName g v p.1 → v.sum = 2
  amp : ∀ i j, i ≤ j → j < g.C → ∀ nm, IsName g (twoPhotons g.C i j) nm → ampOf q.comps nm = pairAmp B i j

/-- Both photons go through the elements like classical fields. -/
noncomputable def pairAfter (gates : List Gate) (B : ℕ → ℕ → ℂ) : ℕ → ℕ → ℂ := fun i j => fieldAfter gates (fun i' => fieldAfter gates (B i') j) i

/-- The polarization entangled pair (|HH> + |VV>)/sqrt 2: the first photon has the polarization channels `a`, `b`, the second one `c`, `d`. -/
noncomputable def entangledPair (a b c d : ℕ) : ℕ → ℕ → ℂ := fun i j => if (i = a ∧ j = c) ∨ (i = b ∧ j = d) then ((Real.sqrt 2 / 2 : ℝ) : ℂ) else 0

/-- four different channels of the circuit -/
structure FourChannels (C a b c d : ℕ) : Prop where
  ha : a < C
  hb : b < C
  hc : c < C
  hd : d < C
  ab : a ≠ b
  ac : a ≠ c
  ad : a ≠ d
  bc : b ≠ c
  bd : b ≠ d
  cd : c ≠ d

end Verif.Spec
