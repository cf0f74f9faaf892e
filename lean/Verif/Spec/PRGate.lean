/-
Independent specification of the gate that creates Popescu-Rohrlich pairs.
-/
import Verif.Spec.PRRun

namespace Verif.Spec
open Verif

/-- Photon number in the `j`-th channel (Ah, Av, Bh, Bv) of a pair with polarizations `q`: one photon in Ah or Av according to the
polarization of the first photon, one in Bh or Bv according to that of the second. -/
def pairPhotons (q : Fin 4) (j : ℕ) : ℕ :=
  if j = 0 then (if polA q = 0 then 1 else 0) else if j = 1 then (if polA q = 1 then 1 else 0)
  else if j = 2 then (if polB q = 0 then 1 else 0) else if j = 3 then (if polB q = 1 then 1 else 0) else 0

/-- Every pair has four channels, all channels of all pairs are different and exist. -/
structure BoxesOk (g : Cfg) (boxes : List Box) : Prop where
  four : ∀ b ∈ boxes, b.channels.length = 4
  distinct : (boxes.flatMap Box.channels).Nodup
  exist : ∀ b ∈ boxes, ∀ c ∈ b.channels, c < g.C

/-- `w` is `v` with the photon numbers of the pairs written over the channels of the pairs. -/
structure Overwritten (boxes : List Box) (x : List (Fin 4)) (v w : Vals) : Prop where
  len : w.length = v.length
  pair : ∀ (k : ℕ) (b : Box) (q : Fin 4), boxes[k]? = some b → x[k]? = some q → ∀ (j c : ℕ), b.channels[j]? = some c → w[c]? = some (pairPhotons q j)
  rest : ∀ i : ℕ, (∀ b ∈ boxes, i ∉ b.channels) → w[i]? = v[i]?

/-- Different components of the state differ outside the channels of the pairs. -/
def DifferOutside (g : Cfg) (boxes : List Box) (c : Comps) : Prop :=
  ∀ p ∈ c, ∀ p' ∈ c, p.1 ≠ p'.1 → ∀ v v', Valid g v → Valid g v' → IsName g v p.1 → IsName g v' p'.1 →
    ∃ i < g.C, (∀ b ∈ boxes, i ∉ b.channels) ∧ v[i]? ≠ v'[i]?

/-- What the gate makes of one state: all `4^n` configurations; labels, classical values and measurement history are kept; the
probability is `(1/2)^n`; the components keep their amplitudes and get the photons of the pairs. -/
structure GateResult (g : Cfg) (boxes : List Box) (ident : ℕ) (st : PRState) (out : List PRState) : Prop where
  count : out.length = 4 ^ boxes.length
  complete : PRSet boxes.length (fun k => (boxes.get k).K) st.q.initial st.q.cum out
  identified : ∀ s ∈ out, s.pr.map PRInfo.ident = some ident
  kept : ∀ s ∈ out, s.q.initial = st.q.initial ∧ s.q.classical = st.q.classical ∧ s.q.results = st.q.results ∧ s.q.cum = (1 / 2 : ℝ) ^ boxes.length
  components : ∀ s ∈ out, List.Forall₂ (fun p p' => p'.2.amp = p.2.amp ∧ p'.2.prob = ‖p.2.amp‖ ^ 2 ∧
    ∃ v w, Valid g v ∧ Valid g w ∧ IsName g v p.1 ∧ IsName g w p'.1 ∧ Overwritten boxes (configuration s) v w) st.q.comps s.q.comps

/-- What is left after finding outcome `op` (component name and probability): one component with amplitude 1, the probability of the
outcome, the label `init`, the photon numbers of the channels `opt` written to the classical channels `cls` (position by position, as far
as both lists go), the other classical values unchanged, one more entry in the history, no pair information. `before`: the first state
that was measured. -/
structure PRCollapsed (g : Cfg) (opt cls : List ℕ) (before : QState) (init : List Char) (op : Name × ℝ) (after : PRState) : Prop where
  single : after.q.comps = [(op.1, ⟨1, 1⟩)]
  cum : after.q.cum = op.2
  label : after.q.initial = init
  plain : after.pr = none
  length : after.q.classical.length = before.classical.length
  written : ∀ v, Valid g v → IsName g v op.1 → ∀ (i c o x : ℕ), cls[i]? = some c → opt[i]? = some o → v[o]? = some x → after.q.classical[c]? = some (x : ℝ)
  unwritten : ∀ c : ℕ, (∀ i o : ℕ, opt[i]? = some o → cls[i]? ≠ some c) → after.q.classical[c]? = before.classical[c]?
  history : after.q.results = before.results ++ [⟨after.q.classical, op.2⟩]

/-- The identifier of the set a state belongs to. -/
def setId (st : PRState) : ℕ := (st.pr.map PRInfo.ident).getD 0

end Verif.Spec
