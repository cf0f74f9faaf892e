/-
Independent specification of photon detection for photons that overlap only partly: the Born rule for a state created by a polynomial in the modes (Spec/Columns).
Photons in different channels are orthogonal, photons in the same channel have the inner product given by the overlap of their pulses; the inner product of two products of creation
operators is the permanent of the matrix of these numbers.
-/
import Verif.Spec.Resolved
import Verif.Spec.Creation
import Verif.Spec.PlotResolved
import Mathlib.Data.Finsupp.Multiset
import Mathlib.Algebra.BigOperators.Finprod

namespace Verif.Spec
open Verif MvPolynomial

/-- The photons of a monomial, in any order. -/
noncomputable def photonList (a : Mode →₀ ℕ) : List Photon := (Finsupp.toMultiset a).toList

/-- The number of photons in every channel is given by `v`. -/
def HasNumbers (v : Vals) (a : Mode →₀ ℕ) : Prop := ∀ ch : ℕ, Finsupp.mapDomain Prod.fst a ch = v.getD ch 0

open Classical in
/-- The probability to find the photon numbers `v` in the state created by `P`: the squared norm of the part of `P` with these photon numbers. -/
noncomputable def bornProb (v : Vals) (P : MvPolynomial Mode ℂ) : ℝ :=
  ‖∑ a ∈ P.support.filter (HasNumbers v), ∑ b ∈ P.support.filter (HasNumbers v),
    starRingEnd ℂ (P.coeff b) * P.coeff a * ((overlapPermanent (photonList a) (photonList b) : ℝ) : ℂ)‖

/-- The probability to find the photon numbers `o` in the channels `opt`, whatever the other channels hold. -/
noncomputable def bornOutcome (g : Cfg) (opt o : List ℕ) (P : MvPolynomial Mode ℂ) : ℝ :=
  ∑ᶠ (v : Vals) (_ : Valid g v ∧ opt.map (fun n => v.getD n 0) = o), bornProb v P

/-- The factor for photon numbers `v` when every photon in channel `ch` has the factor `α ch`. -/
noncomputable def numbersPhase (α : ℕ → ℂ) (v : Vals) : ℂ := ∏ ch ∈ Finset.range v.length, α ch ^ (v.getD ch 0)

/-- A state of a column that can be split into single photons: normalised when it has several components, no zero amplitudes. The amplitude of a single component (which the
detection does not look at) is the product of the phases `α` of its channels; such phases do not occur in channels of states with several components. -/
structure InterferingState (g : Cfg) (α : ℕ → ℂ) (s : PState) : Prop where
  splits : Splits g s.q.comps
  single : ∀ (v : Vals) (n : Name) (k : Comp), s.q.comps = [(n, k)] → Valid g v → IsName g v n → k.amp = numbersPhase α v ∧ (v.sum ≤ 1 ∨ k.amp = 1)
  several : 2 ≤ s.q.comps.length → ∀ p ∈ s.q.comps, ∀ v : Vals, Valid g v → IsName g v p.1 → numbersPhase α v = 1

/-- An interference group that can be measured. `fits`: whichever component is chosen for each state, the number of photons in every channel is below the cutoff. -/
structure InterferingGroup (g : Cfg) (m : ℕ) (gp : ℝ) (cols : List Column) : Prop where
  phases : ∃ α : ℕ → ℂ, (∀ ch, ‖α ch‖ = 1) ∧ ∀ c ∈ cols, ∀ s ∈ c.states, InterferingState g α s
  fits : ∀ c ∈ cols, ∀ ws : List Vals, List.Forall₂ (fun (s : PState) w => ∃ p ∈ s.q.comps, IsName g w p.1 ∧ Valid g w) c.states ws → ∀ ch < g.C, (ws.map (fun w => w.getD ch 0)).sum < g.L
  nonempty : ∀ c ∈ cols, c.states ≠ []
  amp : ∀ c ∈ cols, c.amp ≠ 0
  boson : ∀ c ∈ cols, 0 < c.boson
  gprob : ∀ c ∈ cols, c.gprob = gp
  classical : ∀ c ∈ cols, ∀ s ∈ c.states, s.q.classical.length = m

/-- The classical channels `cls` hold the outcome `o` (when a channel is named several times: the last value). -/
def Records (cls o : List ℕ) (cl : List ℝ) : Prop := ∀ (i x : ℕ), cls[i]? = some x → (∀ j : ℕ, i < j → cls[j]? ≠ some x) → cl[x]? = (o[i]?).map (fun (y : ℕ) => (y : ℝ))

/-- The groups that a measurement of the channels `opt`, written to the classical channels `cls`, makes of one interference group with probability `gp` whose light is created by `P`: one group
per outcome of `outs`, all columns with the probability of the group times the Born probability of the outcome and with the outcome in the classical channels; outcomes that are not listed
have Born probability 0. -/
def BornGroups (g : Cfg) (opt cls : List ℕ) (gp : ℝ) (P : MvPolynomial Mode ℂ) (ys : List (List Column)) : Prop :=
  ∃ outs : List (List ℕ), outs.Nodup ∧ (∀ o ∈ outs, o.length = opt.length) ∧ (∀ o, o ∉ outs → bornOutcome g opt o P = 0) ∧
    List.Forall₂ (fun o grp => grp ≠ [] ∧ ∀ c ∈ grp, c.gprob = gp * bornOutcome g opt o P ∧ c.states ≠ [] ∧ ∀ s ∈ c.states, Records cls o s.q.classical) outs ys

/-- All states of the group hold the outcome `o` in the classical channels `cls`. -/
def GroupRecords (cls o : List ℕ) (grp : List Column) : Prop := ∀ c ∈ grp, ∀ s ∈ c.states, Records cls o s.q.classical

/-- The outcome `o` has probability `p` in the groups `ys`: at most one group holds the outcome, its columns have probability `p`; there is such a group when `p` is not zero. -/
structure OutcomeProbability (ys : List (List Column)) (cls o : List ℕ) (p : ℝ) : Prop where
  prob : ∀ grp ∈ ys, GroupRecords cls o grp → ∀ c ∈ grp, c.gprob = p
  found : p ≠ 0 → ∃ grp ∈ ys, grp ≠ [] ∧ GroupRecords cls o grp
  once : ∀ (i j : ℕ) (grp grp' : List Column), ys[i]? = some grp → ys[j]? = some grp' → GroupRecords cls o grp → GroupRecords cls o grp' → i = j

/-- The group is not empty and all its columns have the probability `p`. -/
def GroupProbability (grp : List Column) (p : ℝ) : Prop := grp ≠ [] ∧ ∀ c ∈ grp, c.gprob = p

/-- The groups have probabilities, none negative, that add up to `p`. -/
def TotalProbability (ys : List (List Column)) (p : ℝ) : Prop := ∃ ps : List ℝ, List.Forall₂ GroupProbability ys ps ∧ (∀ x ∈ ps, 0 ≤ x) ∧ ps.sum = p

end Verif.Spec
