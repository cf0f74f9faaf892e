/-
Independent specification of collections with Popescu-Rohrlich pairs.
-/
import Verif.Model.PR
import Verif.Spec.PR
import Verif.Spec.State

namespace Verif.Spec
open Verif

/-- The configuration label of a state. -/
def configuration (st : PRState) : List (Fin 4) := (st.pr.map PRInfo.config).getD []

/-- A set of states for `n` pairs with quantumness `Ks`: every state carries the information, and for each of the `4^n`
configurations there is exactly one state. `P`: probability of the state the pairs were added to, `init`: its label. -/
structure PRSet (n : ℕ) (Ks : Fin n → ℝ) (init : List Char) (P : ℝ) (coll : List PRState) : Prop where
  info : ∀ st ∈ coll, ∃ i : PRInfo, st.pr = some i ∧ i.quantum = List.ofFn Ks ∧ i.initialOut = init ∧ i.origCum = P
  dict : ∀ st ∈ coll, (st.q.comps.map Prod.fst).Nodup
  all : ∀ x : Fin n → Fin 4, ∃ st ∈ coll, configuration st = List.ofFn x
  len : ∀ st ∈ coll, (configuration st).length = n
  once : (coll.map configuration).Nodup

/-- The component name `s` occurs in some state. -/
def Arises (coll : List PRState) (s : Name) : Prop := ∃ st ∈ coll, s ∈ st.q.comps.map Prod.fst

/-- The amplitudes for finding `s` are a product over pairs and photons: starting from configuration `x`, the amplitude is `c` times
for each pair the amplitude `a k` of its first photon and `b k` of its second photon. -/
def ProductOutcome {n : ℕ} (coll : List PRState) (s : Name) (c : ℂ) (a b : Fin n → Fin 2 → ℂ) : Prop :=
  c ≠ 0 ∧ (∀ k, 0 < polWeight (a k) ∧ 0 < polWeight (b k)) ∧
  ∀ st ∈ coll, ∀ x : Fin n → Fin 4, configuration st = List.ofFn x →
    ampOf st.q.comps s * (Real.sqrt st.q.cum : ℂ) = c * ∏ k, (a k (polA (x k)) * b k (polB (x k)))

/-- Probability listed for an outcome. -/
noncomputable def listedProb (histo : List (Name × ℝ)) (s : Name) : ℝ := (Dict.get? histo s).getD 0

/-- The states after local optics: the first photon of pair `k` went through `U k` and the second through `V k` (unitary 2x2 matrices),
the other channels are in a superposition of components `r` with amplitudes `γ r`, and `name r o` is the component in which the other
channels are in `r` and pair `k` has polarizations `o k`. -/
structure LocalRun {n : ℕ} {R : Type} (coll : List PRState) (U V : Fin n → Matrix (Fin 2) (Fin 2) ℂ) (γ : R → ℂ)
    (name : R → (Fin n → Fin 4) → Name) : Prop where
  unitA : ∀ k, U k ∈ Matrix.unitaryGroup (Fin 2) ℂ
  unitB : ∀ k, V k ∈ Matrix.unitaryGroup (Fin 2) ℂ
  nonzero : ∀ r, γ r ≠ 0
  inj : ∀ r r' o o', name r o = name r' o' → r = r' ∧ o = o'
  cum : ∀ st ∈ coll, st.q.cum = (1 / 2 : ℝ) ^ n
  only : ∀ st ∈ coll, ∀ s ∈ st.q.comps.map Prod.fst, ∃ r o, s = name r o
  amp : ∀ st ∈ coll, ∀ x : Fin n → Fin 4, configuration st = List.ofFn x → ∀ r o,
    ampOf st.q.comps (name r o) = γ r * ∏ k, (U k (polA (o k)) (polA (x k)) * V k (polB (o k)) (polB (x k)))

/-- Correlation of pair `k` read from a list of outcome probabilities: probability of equal minus probability of different
polarizations, relative to the total. -/
noncomputable def measuredCorrelation {n : ℕ} {R : Type} [Fintype R] (histo : List (Name × ℝ)) (name : R → (Fin n → Fin 4) → Name) (k : Fin n) : ℝ :=
  (∑ r, ∑ o, (if polA (o k) = polB (o k) then (1 : ℝ) else -1) * listedProb histo (name r o)) / ∑ r, ∑ o, listedProb histo (name r o)

/-- Probability to find polarizations `i` and `j` for a regular entangled pair ('1010' + '0101')/sqrt 2 after `U` on the first and `V` on
the second photon. -/
noncomputable def entangledProb (U V : Matrix (Fin 2) (Fin 2) ℂ) (i j : Fin 2) : ℝ :=
  ‖((1 / Real.sqrt 2 : ℝ) : ℂ) * (U i 0 * V j 0) + ((1 / Real.sqrt 2 : ℝ) : ℂ) * (U i 1 * V j 1)‖ ^ 2

/-- Rotation of the polarization by an angle. -/
noncomputable def rotation (θ : ℝ) : Matrix (Fin 2) (Fin 2) ℂ := !![(Real.cos θ : ℂ), (Real.sin θ : ℂ); -(Real.sin θ : ℂ), (Real.cos θ : ℂ)]

/-- `T x` is the amplitude for finding `s` when the configuration is `x`. -/
def OutcomeAmps {n : ℕ} (coll : List PRState) (s : Name) (T : (Fin n → Fin 4) → ℂ) : Prop :=
  ∀ st ∈ coll, ∀ x, configuration st = List.ofFn x → T x = ampOf st.q.comps s * (Real.sqrt st.q.cum : ℂ)

/-- Entangled between pairs: after normalisation the amplitudes differ by at least one part in a million from every product over the
pairs. -/
def EntangledPairs {n : ℕ} (T : (Fin n → Fin 4) → ℂ) : Prop :=
  ∀ f : Fin n → Fin 4 → ℂ, 1 / 1000000 ≤ Real.sqrt (∑ x, ‖T x / (Real.sqrt (∑ y, ‖T y‖ ^ 2) : ℂ) - ∏ k, f k (x k)‖ ^ 2)

end Verif.Spec
