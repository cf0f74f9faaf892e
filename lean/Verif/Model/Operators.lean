/-
Quantum operators from Hamiltonians.  Models src/fock_state_circuit/quantum_operator_functionality/quantum_operators.py 113-249 and the nodes of
src/fock_state_circuit/nodes/quantum_operator_nodes.py 31-205 (through `operatorColl`).
Exceptions are `none`. Floats and complex singles are idealised to exact numbers. Simplification: operator channels are natural numbers.
-/
import Verif.Model.Collection
import Mathlib.Data.Nat.Digits.Defs
import Mathlib.Data.Matrix.Mul
import Mathlib.Analysis.Real.Sqrt
import Mathlib.Data.Nat.Factorial.Basic

namespace Verif
open scoped Matrix

/-- quantum_operators.py 42-68: a Hamiltonian: list of (command string, coefficient) and the operator channels. -/
structure Ham where
  ops : List (List Char × ℂ)
  chans : List ℕ

/-- quantum_operators.py 129 and 155: `len(set(operator_channels))`. -/
def numChannels (chans : List ℕ) : ℕ := chans.dedup.length

/-- quantum_operators.py 131-138: the photon numbers of index `n` in the limited basis; the loop with `divmod` collects the digits in base `L`, least
significant first (for `L = 1` only `n = 0` occurs and there are no digits). -/
def limValues (L k n : ℕ) : List ℕ := Nat.digits L n ++ List.replicate (k - (Nat.digits L n).length) 0

/-- quantum_operators.py 139: `_lim_basis_to_index[tuple(values)]` (`none`: KeyError). -/
def limIndex (L k : ℕ) (v : List ℕ) : Option ℕ := (List.range (L ^ k)).find? (fun n => limValues L k n = v)

/-- quantum_operators.py 162-171: run through the commands; result `none`: IndexError, `some none`: the loop ends with `break`. -/
noncomputable def ladder : List (ℕ × Char) → List ℕ → ℂ → Option (Option (List ℕ × ℂ))
  | [], v, c => some (some (v, c))
  | (ch, cmd) :: w, v, c =>
    if cmd = '+' then
      match v[ch]? with
      | none => none
      | some n => ladder w (v.set ch (n + 1)) (c * (Real.sqrt ((n + 1 : ℕ) : ℝ) : ℂ))
    else if cmd = '-' then
      match v[ch]? with
      | none => none
      | some n => if n = 0 then some none else ladder w (v.set ch (n - 1)) (c * (Real.sqrt (n : ℝ) : ℂ))
    else ladder w v c

/-- quantum_operators.py 158-177: one row of the matrix (`none`: IndexError, ValueError of `max([])` or KeyError). -/
noncomputable def limRow (L k : ℕ) (chans : List ℕ) (ops : List (List Char × ℂ)) (i : ℕ) : Option (ℕ → ℂ) :=
  ops.foldlM (fun (r : ℕ → ℂ) op =>
    (ladder (chans.zip op.1) (limValues L k i) op.2).bind (fun res =>
      match res with
      | none => some r
      | some (v, c) =>
        if v = [] then none
        else if v.any (fun n => decide (L ≤ n)) then some r
        else (limIndex L k v).map (fun j => Function.update r j (r j + c)))) (fun _ => 0)

/-- quantum_operators.py 142-178: `_generate_limited_matrix`. Row = input, column = output. -/
noncomputable def limMatrix (L k : ℕ) (chans : List ℕ) (ops : List (List Char × ℂ)) : Option (Matrix (Fin (L ^ k)) (Fin (L ^ k)) ℂ) :=
  ((List.range (L ^ k)).mapM (limRow L k chans ops)).map (fun rows => Matrix.of (fun (i j : Fin (L ^ k)) => (rows.getD i (fun _ => 0)) j))

/-- quantum_operators.py 180-189: the Taylor expansion of the exponential, powers below `p`. -/
noncomputable def expMatrix {n : ℕ} (p : ℕ) (M : Matrix (Fin n) (Fin n) ℂ) : Matrix (Fin n) (Fin n) ℂ :=
  (List.range' 1 (p - 1)).foldl (fun T k => T + ((1 : ℂ) / (Nat.factorial k : ℂ)) • M ^ k) 1

/-- quantum_operators.py 191-198: `_combine_operators`: `transition_matrix = np.matmul(matrix, transition_matrix)`. -/
noncomputable def combineMatrices {n : ℕ} (l : List (Matrix (Fin n) (Fin n) ℂ)) : Matrix (Fin n) (Fin n) ℂ := l.foldl (fun T M => M * T) 1

/-- quantum_operators.py 99-111: `QuantumOperator(hamiltonians, L, p)._transition_matrix` for the non-empty list `h :: rest`. The operator channels are
those of the first Hamiltonian for all of them. `k` is the number of different operator channels (an argument here because the size of the matrix
depends on it; for any other `k` the result is `none`). -/
noncomputable def transition (L p k : ℕ) (h : Ham) (rest : List Ham) : Option (Matrix (Fin (L ^ k)) (Fin (L ^ k)) ℂ) :=
  if numChannels h.chans = k then
    ((h :: rest).mapM (fun x => limMatrix L k h.chans x.ops)).map (fun l => combineMatrices (l.map (expMatrix p)))
  else none

/-- quantum_operators.py 235: `np.round(x, 4)`. -/
noncomputable def round4 (x : ℝ) : ℝ := (roundHalfEven (x * 10000) : ℝ) / 10000

/-- quantum_operators.py 235: is the coefficient used? -/
noncomputable def keepCoeff (thr : ℝ) (c : ℂ) : Bool := open Classical in decide (round4 ‖c‖ ^ 2 > thr)

/-- quantum_operators.py 236-239: write the output values into the channels. -/
def putValues (v : Vals) : List ℕ → List ℕ → Vals
  | [], _ => v
  | _, [] => v
  | c :: cs, x :: xs => putValues (v.set c x) cs xs

/-- quantum_operators.py 217-249: `apply_operator_to_state`, new components (`none`: IndexError/KeyError). The new component name is always a valid one if it
can be formed, so the `break` in line 243 is not reached. -/
noncomputable def operatorComps (g : Cfg) (thr : ℝ) (k : ℕ) (T : Matrix (Fin (g.L ^ k)) (Fin (g.L ^ k)) ℂ) (channels : List ℕ) (c : Comps) :
    Option Comps := do
  let l ← c.mapM (fun p => do
    let values ← g.parse p.1
    let affected ← channels.mapM (fun ch => values[ch]?)
    let i ← limIndex g.L k affected
    if hi : i < g.L ^ k then
      ((List.finRange (g.L ^ k)).filter (fun j => keepCoeff thr (T ⟨i, hi⟩ j))).mapM (fun (j : Fin (g.L ^ k)) => do
        let name ← g.render (putValues values channels (limValues g.L k j))
        some (name, T ⟨i, hi⟩ j * p.2.amp))
    else none)
  setFromList g l.flatten

/-- quantum_operators.py 200-215: `apply_operator_to_collection`; `r` gives the random letters of the new identifiers. -/
noncomputable def operatorColl (g : Cfg) (thr : ℝ) (k : ℕ) (T : Matrix (Fin (g.L ^ k)) (Fin (g.L ^ k)) ℂ) (channels : List ℕ) (coll : Coll)
    (r : ℕ → ℕ → ℕ) : Option Coll :=
  coll.foldlM (fun (out : Coll) p =>
    (operatorComps g thr k T channels p.2.comps).map (fun comps =>
      addState out { p.2 with comps := comps } none (r out.length))) []

end Verif
