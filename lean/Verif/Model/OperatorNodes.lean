/-
Nodes built from Hamiltonians. Models src/fock_state_circuit/nodes/quantum_operator_nodes.py 13-205 and
src/fock_state_circuit/nodes/nonlinear_optical_nodes.py 10-41. Exceptions are `none`.
-/
import Verif.Model.Operators
import Verif.Model.Evaluate

namespace Verif

/-- quantum_operator_nodes.py 98 (and 186): `ham_phi`; operator channels `[0,0,1,1]`. -/
noncomputable def hamPhi (φ : ℝ) : Ham := ⟨[(['+', '-', '0', '0'], -1 * Complex.I * φ / 2), (['0', '0', '+', '-'], 1 * Complex.I * φ / 2)], [0, 0, 1, 1]⟩

/-- quantum_operator_nodes.py 99 (and 187): `ham_theta_plus`. -/
noncomputable def hamThetaPlus (θ : ℝ) : Ham := ⟨[(['+', '0', '-', '0'], θ), (['-', '0', '+', '0'], -1 * θ)], [0, 0, 1, 1]⟩

/-- quantum_operator_nodes.py 100 (and 188): `ham_theta_minus`. -/
noncomputable def hamThetaMinus (θ : ℝ) : Ham := ⟨[(['+', '0', '-', '0'], -1 * θ), (['-', '0', '+', '0'], θ)], [0, 0, 1, 1]⟩

/-- quantum_operator_nodes.py 101 (and 189): `ham_chi`. -/
noncomputable def hamChi (χ : ℝ) : Ham := ⟨[(['-', '+', '0', '0'], -1 * Complex.I * χ), (['0', '0', '-', '+'], -1 * Complex.I * χ)], [0, 0, 1, 1]⟩

/-- quantum_operator_nodes.py 95-106 (and 183-197): the operator of the wave plate; `chi = -phi/2`, list `[minus, phi, plus, chi]`, `p` the number of terms of
the exponential series (25). -/
noncomputable def platesHam (L p : ℕ) (θ φ : ℝ) : Option (Matrix (Fin (L ^ 2)) (Fin (L ^ 2)) ℂ) :=
  transition L p 2 (hamThetaMinus θ) [hamPhi φ, hamThetaPlus θ, hamChi (-φ / 2)]

/-- quantum_operator_nodes.py 36-43: `hamiltonian_operator_gate` for a non-empty list of Hamiltonians with `k` different operator channels. -/
noncomputable def hamGate (g : Cfg) (thr : ℝ) (k : ℕ) (channels : List ℕ) (h : Ham) (rest : List Ham) (r : ℕ → ℕ → ℕ) (coll : Coll) : Option Coll := do
  let T ← transition g.L 25 k h rest
  operatorColl g thr k T channels coll r

/-- quantum_operator_nodes.py 87-107: `wave_plate_from_hamiltonian`. -/
noncomputable def wavePlateHam (g : Cfg) (thr : ℝ) (ch cv : ℕ) (θ φ : ℝ) (r : ℕ → ℕ → ℕ) (coll : Coll) : Option Coll := do
  let T ← platesHam g.L 25 θ φ
  operatorColl g thr 2 T [ch, cv] coll r

/-- quantum_operator_nodes.py 147-150: the checks of the builder `wave_plate_from_hamiltonian_classical_control` (`true`: accepted). -/
def platesControlAccepted (C m : ℕ) (ch cv : ℕ) (cTheta cPhi : ℤ) : Bool :=
  ¬ (max cPhi cTheta > (m : ℤ)) ∧ ¬ (max ch cv > C)

/-- quantum_operator_nodes.py 167-201: `wave_plate_from_hamiltonian_classical_control`: the angles of each state are read from its classical channels. -/
noncomputable def wavePlateHamControl (g : Cfg) (thr : ℝ) (ch cv : ℕ) (cTheta cPhi : ℤ) (r : ℕ → ℕ → ℕ) (coll : Coll) : Option Coll :=
  coll.foldlM (fun (out : Coll) p => do
    let φ ← pyGet p.2.classical cPhi
    let θ ← pyGet p.2.classical cTheta
    let T ← platesHam g.L 25 θ φ
    let comps ← operatorComps g thr 2 T [ch, cv] p.2.comps
    some (addState out { p.2 with comps := comps } none (r out.length))) []

/-- nonlinear_optical_nodes.py 31-34: the function of `nonlinear_optical_node` (a dummy: it returns its argument). -/
def nonlinearNode (coll : Coll) : Option Coll := some coll

end Verif
