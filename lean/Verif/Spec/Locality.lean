/-
Specification of "a node given on two channels".
-/
import Verif.Spec.Fock
import Verif.Spec.Measurement
import Verif.Model.TensorList

namespace Verif.Spec
open Verif

/-- The optical node `n` (matrix and tensor list) was added with first channel `h` and second channel `c`, two different existing
channels. The last condition excludes the pairs that the code addresses wrongly (`C07_addressing_fails`). -/
structure GivenOn (g : Cfg) (n : Opt × List ℕ) (h c : ℕ) : Prop where
  first : h < g.C
  second : c < g.C
  differ : h ≠ c
  right : ¬ (2 ≤ h ∧ c = 0)
  list : tensorList g.C [h, c] = some n.2

/-- The node was added on two channels that are not in the list `away`. -/
def AwayFrom (g : Cfg) (away : List ℕ) (n : Opt × List ℕ) : Prop := ∃ h c, GivenOn g n h c ∧ h ∉ away ∧ c ∉ away

/-- The nodes are unitary and were given on channels outside `opt`. -/
def Elsewhere (g : Cfg) (opt : List ℕ) (nodes : List (Opt × List ℕ)) : Prop :=
  ∀ k ∈ nodes, AwayFrom g opt k ∧ k.1 ∈ Matrix.unitaryGroup (Fin 2) ℂ

end Verif.Spec
