/-
Optical nodes.  Models src/fock_state_circuit/nodes/optical_nodes.py.
`node_info` (drawing information) is not modelled. A node is its optical matrix and tensor list.
-/
import Verif.Model.Fock
import Verif.Model.TensorList
import Mathlib.Analysis.SpecialFunctions.Complex.Arg

namespace Verif

/-- optical_nodes.py 152-171: `_generate_generic_optical_matrix`. -/
noncomputable def genericMatrix (θ φ : ℝ) : Opt :=
  let e : ℂ := (Real.cos φ : ℂ) + Complex.I * (Real.sin φ : ℂ)
  !![(Real.cos θ : ℂ) ^ 2 + e * (Real.sin θ : ℂ) ^ 2, (1 - e) * (Real.cos θ : ℂ) * (Real.sin θ : ℂ);
     (1 - e) * (Real.cos θ : ℂ) * (Real.sin θ : ℂ), (Real.sin θ : ℂ) ^ 2 + e * (Real.cos θ : ℂ) ^ 2]

/-- optical_nodes.py 173-201: `__apply_generic_rotation_2_channels` (`none`: the tensor list cannot be made). -/
noncomputable def genericRotation (g : Cfg) (h v : ℕ) (θ φ : ℝ) : Option (Opt × List ℕ) :=
  (tensorList g.C [h, v]).map (fun tl => (genericMatrix θ φ, tl))

/-- optical_nodes.py 203-240: `wave_plate`. -/
noncomputable def wavePlate (g : Cfg) (h v : ℕ) (θ φ : ℝ) : Option (Opt × List ℕ) := genericRotation g h v θ φ

/-- optical_nodes.py 312-346: `half_wave_plate` (and 348-414 with fixed angles). -/
noncomputable def halfWavePlate (g : Cfg) (h v : ℕ) (angle : ℝ) : Option (Opt × List ℕ) :=
  genericRotation g h v angle Real.pi

/-- optical_nodes.py 416-450: `quarter_wave_plate` (and 452-517 with fixed angles). -/
noncomputable def quarterWavePlate (g : Cfg) (h v : ℕ) (angle : ℝ) : Option (Opt × List ℕ) :=
  genericRotation g h v angle (Real.pi / 2)

/-- optical_nodes.py 519-558: `phase_shift_single_channel`. -/
noncomputable def phaseShift (g : Cfg) (c : ℕ) (φ : ℝ) : Option (Opt × List ℕ) :=
  if c = 0 then genericRotation g 1 0 0 φ else genericRotation g 0 c 0 φ

/-- optical_nodes.py 561-594: `swap` (channels are put in increasing order first). -/
noncomputable def swapNode (g : Cfg) (a b : ℕ) : Option (Opt × List ℕ) :=
  if a > b then genericRotation g b a (Real.pi / 4) Real.pi else genericRotation g a b (Real.pi / 4) Real.pi

/-- optical_nodes.py 596-627: `mix_50_50`. -/
noncomputable def mix5050 (g : Cfg) (a b : ℕ) : Option (Opt × List ℕ) := genericRotation g a b (Real.pi / 8) Real.pi

/-- optical_nodes.py 629-667: `mix_generic_refl_transm` (`none`: r + t is not 1, or the square root of a negative number).
`atan2(y, x)` is the argument of `x + i y`. -/
noncomputable def mixGeneric (g : Cfg) (a b : ℕ) (r t : ℝ) : Option (Opt × List ℕ) :=
  if r + t ≠ 1 then none
  else if r < 0 ∨ t < 0 then none
  else genericRotation g a b (Complex.arg ⟨Real.sqrt t, Real.sqrt r⟩) Real.pi

/-- optical_nodes.py 669-702: `polarizing_beamsplitter`. -/
noncomputable def pbs (g : Cfg) (a b : ℕ × ℕ) : Option (Opt × List ℕ) :=
  if g.C < 4 then none else swapNode g a.2 b.2

/-- optical_nodes.py 242-310: `non_polarizing_beamsplitter` (two nodes). -/
noncomputable def npbs (g : Cfg) (a b : ℕ × ℕ) (r t : ℝ) : Option (List (Opt × List ℕ)) :=
  if g.C < 4 then none else do
    let n₁ ← mixGeneric g a.1 b.1 r t
    let n₂ ← mixGeneric g a.2 b.2 r t
    some [n₁, n₂]

/-- optical_nodes.py 704-758: `non_polarizing_50_50_beamsplitter` (two nodes). -/
noncomputable def npbs5050 (g : Cfg) (a b : ℕ × ℕ) : Option (List (Opt × List ℕ)) :=
  if g.C < 4 then none else do
    let n₁ ← mix5050 g a.1 b.1
    let n₂ ← mix5050 g a.2 b.2
    some [n₁, n₂]

end Verif
