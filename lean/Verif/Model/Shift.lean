/-
Shift, controlled-shift and channel-coupling nodes.  Models src/fock_state_circuit/nodes/custom_nodes.py 169-533.
`keys` is the current enumeration of the photon-number lists. Channel numbers are natural numbers (negative indices of Python are not
modelled); shifts are integers (the checks of the code build an exception but do not raise it, so nothing is refused there).
The entries 0 / 1 of type `ubyte` are idealised to complex numbers. Exceptions are `none`.
-/
import Verif.Model.Measurement

namespace Verif

/-- custom_nodes.py 208-209: `(shift + value) % length` (Python's `%`, never negative). -/
def addMod (L : ℕ) (s : ℤ) (x : ℕ) : ℕ := ((s + x) % (L : ℤ)).toNat

/-- custom_nodes.py 202-210: transition matrix for one target channel. -/
noncomputable def shiftMatrixOne (g : Cfg) (keys : List Vals) (s : ℤ) (t : ℕ) : SqArr :=
  ⟨keys.length, fun o i =>
    if (∀ c < g.C, c ≠ t → (keys.getD i []).getD c 0 = (keys.getD o []).getD c 0) ∧
      (keys.getD o []).getD t 0 = addMod g.L s ((keys.getD i []).getD t 0) then 1 else 0⟩

/-- custom_nodes.py 194-215: `shift`, the matrix given to the node: the first matrix, then `matmul(matrix, next)`. `none`: a target channel
does not exist (IndexError), or there is no pair at all (unbound variable). Surplus entries of the longer list are ignored (`zip`). -/
noncomputable def shiftMatrix (g : Cfg) (keys : List Vals) (targets : List ℕ) (shifts : List ℤ) : Option SqArr :=
  match shifts.zip targets with
  | [] => none
  | p :: rest =>
    if (p :: rest).all (fun q => q.2 < g.C) then
      some (rest.foldl (fun M q => M.mul (shiftMatrixOne g keys q.1 q.2)) (shiftMatrixOne g keys p.1 p.2))
    else none

/-- custom_nodes.py 284-285: the values of one component, for `shift_direct` (`none`: IndexError). -/
def shiftValues (L : ℕ) (targets : List ℕ) (shifts : List ℤ) (v : Vals) : Option Vals :=
  (shifts.zip targets).foldlM (fun (v : Vals) q => (v[q.2]?).map (fun x => v.set q.2 (addMod L q.1 x))) v

/-- custom_nodes.py 277-289: rewriting all components of a state with `move` on the photon numbers; the setter (state.py 203-208) checks
the names. -/
def moveComps (g : Cfg) (move : Vals → Option Vals) (c : Comps) : Option Comps := do
  let new ← c.foldlM (fun (d : Comps) p => do
    let v ← g.parse p.1
    let w ← move v
    let s ← g.render w
    some (d.set s p.2)) []
  setFromDict g new

/-- custom_nodes.py 271-291: `shift_direct` for one state. -/
def shiftDirect (g : Cfg) (targets : List ℕ) (shifts : List ℤ) (c : Comps) : Option Comps :=
  moveComps g (shiftValues g.L targets shifts) c

/-- custom_nodes.py 427-437: transition matrix for one pair of control and target channel. -/
noncomputable def cShiftMatrixOne (g : Cfg) (keys : List Vals) (ctl t : ℕ) : SqArr :=
  ⟨keys.length, fun o i =>
    if (∀ c < g.C, c ≠ t → (keys.getD i []).getD c 0 = (keys.getD o []).getD c 0) ∧
      (keys.getD o []).getD t 0 = ((keys.getD i []).getD ctl 0 + (keys.getD i []).getD t 0) % g.L then 1 else 0⟩

/-- custom_nodes.py 422-442: `c_shift`, the matrix given to the node. -/
noncomputable def cShiftMatrix (g : Cfg) (keys : List Vals) (controls targets : List ℕ) : Option SqArr :=
  match controls.zip targets with
  | [] => none
  | p :: rest =>
    if (p :: rest).all (fun q => q.1 < g.C ∧ q.2 < g.C) then
      some (rest.foldl (fun M q => M.mul (cShiftMatrixOne g keys q.1 q.2)) (cShiftMatrixOne g keys p.1 p.2))
    else none

/-- custom_nodes.py 352-353: the values of one component, for `c_shift_direct`. -/
def cShiftValues (L : ℕ) (controls targets : List ℕ) (v : Vals) : Option Vals :=
  (controls.zip targets).foldlM (fun (v : Vals) q =>
    (v[q.2]?).bind (fun x => (v[q.1]?).map (fun y => v.set q.2 ((x + y) % L)))) v

/-- custom_nodes.py 339-359: `c_shift_direct` for one state. -/
def cShiftDirect (g : Cfg) (controls targets : List ℕ) (c : Comps) : Option Comps :=
  moveComps g (cShiftValues g.L controls targets) c

/-- custom_nodes.py 508-527: coupling matrix for one pair, with coupling strength `σ` between 0 and 1 (the square roots of the code are
complex square roots; for such `σ` they are the real ones). -/
noncomputable def couplingOne (g : Cfg) (keys : List Vals) (σ : ℝ) (ctl t : ℕ) : SqArr :=
  ⟨keys.length, fun o i =>
    if (∀ c < g.C, c ≠ t → (keys.getD i []).getD c 0 = (keys.getD o []).getD c 0) ∧
      (keys.getD o []).getD t 0 = ((keys.getD i []).getD ctl 0 + (keys.getD i []).getD t 0) % g.L then
      (if i = o then 1 else (Real.sqrt σ : ℂ))
    else (if i = o then (Real.sqrt (1 - σ) : ℂ) else 0)⟩

/-- custom_nodes.py 449-533: `channel_coupling`: identity times the matrices of the pairs. `none`: IndexError. -/
noncomputable def couplingMatrix (g : Cfg) (keys : List Vals) (σ : ℝ) (controls targets : List ℕ) : Option SqArr :=
  if (controls.zip targets).all (fun q => q.1 < g.C ∧ q.2 < g.C) then
    some ((controls.zip targets).foldl (fun M q => M.mul (couplingOne g keys σ q.1 q.2))
      ⟨keys.length, fun i j => if i = j then 1 else 0⟩)
  else none

end Verif
