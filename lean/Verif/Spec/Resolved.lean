/-
Independent specification of photon-resolved detection: the permanent of the overlap matrix.
-/
import Verif.Model.Resolved
import Verif.Spec.Columns
import Verif.Spec.State
import Mathlib.LinearAlgebra.Matrix.Permanent

namespace Verif.Spec
open Verif

/-- The photon information does not give the pulse width zero (for two photons of width zero the code divides by zero). -/
def RealWidth (i : Option PInfo) : Prop := ∀ x, i = some x → x.width ≠ 0

/-- No photon of the columns has pulse width zero. -/
def RealWidths (cols : List Column) : Prop := ∀ c ∈ cols, ∀ s ∈ c.states, RealWidth s.info

/-- Overlap of two photons: 0 in different channels, otherwise the overlap of the pulses. -/
noncomputable def photonInner (p q : Photon) : ℝ := if p.1 = q.1 then photonOverlap p.2 q.2 else 0

/-- The permanent of the matrix of overlaps of the photons `b` and `k` (two lists of the same length): the inner product of the products of
creation operators of the photons. -/
noncomputable def overlapPermanent (b k : List Photon) : ℝ :=
  Matrix.permanent (Matrix.of (fun (i j : Fin b.length) => photonInner (b.get j) (k.getD i (0, none))))

/-- The number of photons per channel of a photon list is `v`. -/
def PhotonsIn (v : Vals) (l : List Photon) : Prop := (l.map Prod.fst).Perm (photonChannels v)

/-- Photon `i` of the list can be assigned to detection `i` of the projection: `x` lists different positions of photons in the right channels. -/
def Assignment (proj chs x : List ℕ) : Prop :=
  x.length = proj.length ∧ x.Nodup ∧ ∀ i < proj.length, ∃ h : x.getD i 0 < chs.length, chs[x.getD i 0] = proj.getD i 0

/-- The photons of a column. -/
def photonsOf (g : Cfg) (c : Column) : List Photon := (listOfPhotons g c).getD []

/-- The contribution of two columns (bra and ket side) with the same photon numbers to the detection probability. -/
noncomputable def crossTerm (g : Cfg) (b k : Column) : ℂ :=
  starRingEnd ℂ k.amp * b.amp / ((k.boson * b.boson : ℝ) : ℂ) * ((overlapPermanent (photonsOf g b) (photonsOf g k) : ℝ) : ℂ)

/-- The detection probability of columns with the same photon numbers: all cross terms added up. -/
noncomputable def detectionProb (g : Cfg) (cols : List Column) : ℝ := ‖(cols.map (fun b => (cols.map (fun k => crossTerm g b k)).sum)).sum‖

/-- A column that can be measured: at least one state, every state has one component with valid photon numbers (its amplitude, a phase, is
not looked at by the code); the column has the photon numbers `v`, which are valid. -/
structure ColumnWith (g : Cfg) (c : Column) (v : Vals) : Prop where
  wf : ∀ s ∈ c.states, WellFormed g s.q.comps
  single : SingleComponents c
  values : columnValues g c = some v
  valid : Valid g v

/-- The columns in which the measured channels `opt` hold the photon numbers `o`. -/
def columnsReading (g : Cfg) (opt o : List ℕ) (cols : List Column) : List Column :=
  cols.filter (fun c => (columnValues g c).map (fun v => opt.map (fun n => v.getD n 0)) = some o)

/-- The probability `p` of columns with several photon numbers: the detection probabilities of the different photon numbers added up. -/
def TotalDetection (g : Cfg) (cols : List Column) (p : ℝ) : Prop :=
  ∃ vs : List Vals, vs.Nodup ∧ (∀ v, v ∈ vs ↔ ∃ c ∈ cols, columnValues g c = some v) ∧
    p = (vs.map (fun v => detectionProb g (cols.filter (fun c => columnValues g c = some v)))).sum

/-- A state after a photon-resolved measurement with outcome `o` of probability `p`. -/
structure MeasuredState (cls o : List ℕ) (p : ℝ) (s s' : PState) : Prop where
  info : s'.info = s.info
  comps : s'.q.comps = s.q.comps
  initial : s'.q.initial = s.q.initial
  cum : s'.q.cum = s.q.cum
  length : s'.q.classical.length = s.q.classical.length
  /-- classical channels not written to keep their value -/
  kept : ∀ n : ℕ, n ∉ cls → s'.q.classical[n]? = s.q.classical[n]?
  /-- the others hold the measured values -/
  written : ∀ (i x : ℕ), cls[i]? = some x → (∀ j : ℕ, i < j → cls[j]? ≠ some x) → s'.q.classical[x]? = (o[i]?).map (fun (y : ℕ) => (y : ℝ))
  /-- the history has one new entry per measured channel -/
  results : s'.q.results = s.q.results ++ List.replicate o.length ⟨s'.q.classical, p⟩

/-- A column after a photon-resolved measurement: the amplitude is divided by `√S`, the boson factor is such that the column alone has detection probability
|amplitude|². -/
structure MeasuredColumn (g : Cfg) (cls o : List ℕ) (p S : ℝ) (c c' : Column) : Prop where
  amp : c'.amp = c.amp / ((Real.sqrt S : ℝ) : ℂ)
  gprob : c'.gprob = c.gprob * p
  boson : c'.boson = Real.sqrt (overlapPermanent (photonsOf g c) (photonsOf g c))
  id : c'.id = c.id
  states : List.Forall₂ (MeasuredState cls o p) c.states c'.states

/-- The group that a measurement makes for the outcome `o`. -/
def MeasuredGroup (g : Cfg) (opt cls : List ℕ) (cols : List Column) (o : List ℕ) (grp : List Column) : Prop :=
  ∃ p, TotalDetection g (columnsReading g opt o cols) p ∧
    List.Forall₂ (MeasuredColumn g cls o p ((columnsReading g opt o cols).map (fun c => ‖c.amp‖ ^ 2)).sum) (columnsReading g opt o cols) grp

/-- A group that can be measured: columns with valid photon numbers, amplitude not zero, positive boson factor, all with the same probability `gp` of the group and `m` classical
channels. -/
structure MeasurableGroup (g : Cfg) (m : ℕ) (cols : List Column) : Prop where
  columns : ∀ c ∈ cols, ∃ v, ColumnWith g c v
  amp : ∀ c ∈ cols, c.amp ≠ 0
  boson : ∀ c ∈ cols, 0 < c.boson
  gprob : ∀ c ∈ cols, ∀ c' ∈ cols, c.gprob = c'.gprob
  classical : ∀ c ∈ cols, ∀ s ∈ c.states, s.q.classical.length = m

end Verif.Spec
