/-
Building classical nodes and classically controlled nodes. Models src/fock_state_circuit/nodes/classical_nodes.py 92-138 and
src/fock_state_circuit/nodes/controlled_nodes.py 37-169. Exceptions are `none`.
Simplifications: 'node_info' (drawing) is left out; optical channel numbers are natural numbers.
-/
import Verif.Model.Heap

namespace Verif

/-- Python `max` of a list (`none`: ValueError for an empty list). -/
def pyMax : List ℤ → Option ℤ
  | [] => none
  | a :: l => some (l.foldl max a)

/-- classical_nodes.py 111-137: `set_classical_channels` for a circuit with `m` classical channels. -/
def setClassicalNode (m : ℕ) (values : List ℝ) (channels : List ℤ) : Option HNode :=
  (pyMax channels).bind (fun mx =>
    if values.length ≠ channels.length ∨ mx ≥ m then none else some (.classical setChannelsEffect values channels))

/-- controlled_nodes.py 58-103: `phase_shift_single_channel_classical_control` for a circuit with configuration `g` and `m` classical
channels (note the comparisons with `>`). -/
noncomputable def phaseShiftControl (g : Cfg) (m : ℕ) (c : ℕ) (classical : ℤ) : Option Node :=
  if classical > m then none
  else if c > g.C then none
  else (tensorList g.C (if c = 0 then [1, 0] else [0, c])).map (fun tl =>
    .controlled [.phi] [classical] [(.theta, 0), (.phi, 0)] tl)

/-- controlled_nodes.py 131-169: `wave_plate_classical_control`. -/
noncomputable def wavePlateControl (g : Cfg) (m : ℕ) (h v : ℕ) (orientation shift : ℤ) : Option Node :=
  if max shift orientation > m then none
  else if max h v > g.C then none
  else (tensorList g.C [h, v]).map (fun tl =>
    .controlled [.theta, .phi] [orientation, shift] [(.theta, Real.pi / 2), (.phi, 0)] tl)

end Verif
