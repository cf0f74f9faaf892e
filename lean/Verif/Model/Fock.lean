/-
Fock-state transition matrices of optical nodes.
Models src/fock_state_circuit/circuit.py 758-947.
numpy arrays of complex numbers are functions on natural indices together with a size; floats are idealised to `ℂ`.
-/
import Verif.Model.Names
import Mathlib.Data.Complex.Basic
import Mathlib.Analysis.SpecialFunctions.Sqrt
import Mathlib.Data.Nat.Factorial.Basic
import Mathlib.Data.Nat.Choose.Basic
import Mathlib.LinearAlgebra.Matrix.Notation

namespace Verif
open scoped BigOperators

/-- A square numpy array of complex numbers. -/
structure SqArr where
  /-- number of rows and columns -/
  size : ℕ
  /-- entry (row, column); only indices below `size` are meaningful -/
  at_ : ℕ → ℕ → ℂ

/-- circuit.py 838: `np.matmul` of two square arrays of equal size. -/
noncomputable def SqArr.mul (A B : SqArr) : SqArr :=
  ⟨A.size, fun i j => ∑ k ∈ Finset.range A.size, A.at_ i k * B.at_ k j⟩

/-- circuit.py 745: `np.matmul(matrix, vector)`. -/
noncomputable def SqArr.mulVec (A : SqArr) (x : ℕ → ℂ) : ℕ → ℂ :=
  fun i => ∑ k ∈ Finset.range A.size, A.at_ i k * x k

/-- The optical 2x2 matrix of a node. -/
abbrev Opt := Matrix (Fin 2) (Fin 2) ℂ

/-- circuit.py 890-895: the contribution `coeff` of the term `(j, k)` in the row of input `(n, m)`
(`rac = M[0][0]`, `tad = M[1][0]`, `tbc = M[0][1]`, `rbd = M[1][1]`; `u = j+k`, `v = (n-j)+(m-k)`). -/
noncomputable def fockCoeff (M : Opt) (n m j k : ℕ) : ℂ :=
  (n.choose j : ℂ) * (m.choose k : ℂ) * M 0 0 ^ j * M 1 0 ^ (n - j) * M 0 1 ^ k * M 1 1 ^ (m - k) *
    (Real.sqrt (((j + k).factorial * ((n - j) + (m - k)).factorial : ℕ) / ((n.factorial * m.factorial : ℕ) : ℝ)) : ℂ)

/-- circuit.py 896-906: one iteration of the two inner loops, acting on the row `fock_matrix[l1]`. -/
noncomputable def fockStep (L : ℕ) (M : Opt) (n m : ℕ) (row : ℕ → ℂ) (jk : ℕ × ℕ) : ℕ → ℂ :=
  let u := jk.1 + jk.2
  let v := (n - jk.1) + (m - jk.2)
  if u < L ∧ v < L then
    let l2 := v * L + u
    let row := Function.update row l2 (row l2 + fockCoeff M n m jk.1 jk.2)
    if n + m ≥ L ∨ u + v ≥ L then
      if n = u ∧ m = v then Function.update row l2 1 else Function.update row l2 0
    else row
  else row

/-- circuit.py 888-889: the pairs `(j, k)` in loop order. -/
def loopPairs (n m : ℕ) : List (ℕ × ℕ) :=
  (List.range (n + 1)).flatMap (fun j => (List.range (m + 1)).map (fun k => (j, k)))

/-- circuit.py 876-906: the two-channel Fock matrix (`make_unitary = True`). Row `l1` has input photon numbers
`n = l1 % L`, `m = (l1 - n) / L`. -/
noncomputable def fock2 (L : ℕ) (M : Opt) : SqArr :=
  ⟨L ^ 2, fun l1 => (loopPairs (l1 % L) ((l1 - l1 % L) / L)).foldl
    (fockStep L M (l1 % L) ((l1 - l1 % L) / L)) (fun _ => 0)⟩

/-- circuit.py 922: `np.kron(np.identity(L), A)`. -/
noncomputable def kronId (L : ℕ) (A : SqArr) : SqArr :=
  ⟨L * A.size, fun i j => (if i / A.size = j / A.size then 1 else 0) * A.at_ (i % A.size) (j % A.size)⟩

/-- circuit.py 916-922: scale the two-channel matrix up to all channels
(`for n in range(1, C+1)`: skip / take / kron). The unbound initial value of `fock_matrix_scaled` is never read for `C >= 2`;
the fold starts from the two-channel matrix. -/
noncomputable def scaleUp (g : Cfg) (A : SqArr) : SqArr :=
  (List.range' 1 g.C).foldl
    (fun S n => if g.L ^ n < A.size then S else if g.L ^ n = A.size then A else kronId g.L S) A

/-- circuit.py 926: `new_order`, computed from the current enumeration `keys` of the photon-number lists. -/
def newOrder (g : Cfg) (keys : List Vals) (tl : List ℕ) : List ℕ := keys.map (fun v => g.reorder v tl)

/-- `photon_number_selection` (circuit.py 929-939): `'all'`, `'=N'` or `'<=N'`. -/
inductive Sel where
  | all
  | eq (n : ℕ)
  | le (n : ℕ)
deriving DecidableEq

/-- circuit.py 929-939: `states_indices_to_keep`. -/
def indicesToKeep (g : Cfg) (keys : List Vals) : Sel → List ℕ
  | .all => List.range g.size
  | .eq n => (keys.filter (fun v => v.sum = n)).map g.indexOf
  | .le n => (keys.filter (fun v => v.sum ≤ n)).map g.indexOf

/-- circuit.py 841-947: `__generate_single_node_fock_matrix_from_optical_matrix` with a tensor list; returns the matrix and
the list of kept indices. -/
noncomputable def fockNode (g : Cfg) (keys : List Vals) (M : Opt) (tl : List ℕ) (sel : Sel) : SqArr × List ℕ :=
  let S := scaleUp g (fock2 g.L M)
  let keep := indicesToKeep g keys sel
  let order := keep.map (fun i => (newOrder g keys tl).getD i 0)
  (⟨keep.length, fun a b => S.at_ (order.getD a 0) (order.getD b 0)⟩, keep)

/-- circuit.py 758-839: `__generate_fock_state_matrix` for a non-empty list of optical nodes (matrix, tensor list):
later matrices are multiplied from the left. -/
noncomputable def fockNodes (g : Cfg) (keys : List Vals) (sel : Sel) : Opt × List ℕ → List (Opt × List ℕ) → SqArr × List ℕ
  | (M, tl), rest =>
    rest.foldl (fun acc node => ((fockNode g keys node.1 node.2 sel).1.mul acc.1, (fockNode g keys node.1 node.2 sel).2))
      (fockNode g keys M tl sel)

/-- circuit.py 739-752 (one state): reduce the vector, multiply, expand. -/
noncomputable def applyReduced (F : SqArr × List ℕ) (x : ℕ → ℂ) : ℕ → ℂ :=
  let reduced : ℕ → ℂ := fun a => x (F.2.getD a 0)
  let out := F.1.mulVec reduced
  F.2.zipIdx.foldl (fun acc p => Function.update acc p.1 (out p.2)) (fun _ => 0)

end Verif
