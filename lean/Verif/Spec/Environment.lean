/-
Independent specification: coupling channels to an empty environment.
-/
import Verif.Spec.Remote
import Verif.Spec.Shift

namespace Verif.Spec
open Verif

/-- The channels `targets` are an environment of the channels `controls`: one environment channel for every control channel in the list (a control
channel can occur several times, an environment channel only once), all of them existing, and no channel is both. -/
structure Environment (g : Cfg) (controls targets : List ℕ) : Prop where
  pairs : controls.length = targets.length
  first : ∀ a ∈ controls, a < g.C
  second : ∀ t ∈ targets, t < g.C
  apart : ∀ a ∈ controls, a ∉ targets
  once : targets.Nodup

/-- All components of the state have no photon in the channels `targets`. -/
def EmptyIn (g : Cfg) (targets : List ℕ) (c : Comps) : Prop :=
  ∀ v s, Valid g v → IsName g v s → ampOf c s ≠ 0 → ∀ t ∈ targets, v.getD t 0 = 0

/-- `w` is `v` without the photons in the channels `targets`. -/
def Emptied (g : Cfg) (targets : List ℕ) (v w : Vals) : Prop := ∀ c < g.C, w.getD c 0 = if c ∈ targets then 0 else v.getD c 0

/-- The system: all channels but the environment. -/
def System (g : Cfg) (targets keep : List ℕ) : Prop := (∀ c ∈ keep, c < g.C) ∧ ∀ c < g.C, c ∈ keep ↔ c ∉ targets

/-- Amplitude for an empty environment channel to end up with `e` photons, coupled with strength `σ` to a control channel with `n` photons: the
photon number is copied with probability `σ`, and with probability `1 - σ` the channel stays empty. -/
noncomputable def spread (σ : ℝ) (n e : ℕ) : ℝ :=
  if e = n then (if n = 0 then 1 else Real.sqrt σ) else if e = 0 then Real.sqrt (1 - σ) else 0

/-- What remains of the coherence between `m` and `n` photons in a control channel: everything if they are equal, the root of `1 - σ` if one of them
is 0, and `1 - σ` if they are different numbers above 0. -/
noncomputable def coherence (σ : ℝ) (m n : ℕ) : ℝ := if m = n then 1 else if m = 0 ∨ n = 0 then Real.sqrt (1 - σ) else 1 - σ

/-- What remains of the coherence between two lists of photon numbers: one factor for every environment channel. -/
noncomputable def remainingCoherence (σ : ℝ) (controls : List ℕ) (u v : Vals) : ℝ :=
  (controls.map (fun a => coherence σ (u.getD a 0) (v.getD a 0))).prod

end Verif.Spec
