/-
Popescu-Rohrlich ("superquantum") photon pairs.  Models
src/fock_state_circuit/popescu_rohrlich_correlation_functionality/popescu_rohrlich_correlations.py (below: PRC) and
src/fock_state_circuit/popescu_rohrlich_correlation_functionality/popescu_rohrlich_photon_pair_amplitude_functionality.py (PPA).
Exceptions are `none`. Exact arithmetic instead of single precision (`np.csingle`). The 50 random digits that identify a set of
states are an argument. A sum of squares that is zero makes numpy return 'nan', which the setter of the cumulative probability
refuses (state.py 194): modelled as `none`. Collections are modelled as lists (their identifiers are fresh and random,
collection_of_states.py 411-415, and are not used).
-/
import Verif.Model.Measurement
import Mathlib.Analysis.SpecialFunctions.Pow.Real
import Mathlib.Analysis.SpecialFunctions.Complex.Arg
import Mathlib.Data.List.MinMax
import Mathlib.Algebra.BigOperators.Fin
import Mathlib.Logic.Equiv.Fin.Basic

namespace Verif

/-- PRC 255-260: `auxiliary_information['popescu_rohrlich_correlation']`. A configuration is a string of the characters '0'..'3';
here a list of `Fin 4`. -/
structure PRInfo where
  /-- 'superentanglement': the random identifier -/
  ident : ℕ
  config : List (Fin 4)
  /-- 'quantumness_indicator' -/
  quantum : List ℝ
  /-- 'initial_state_name_for_output' -/
  initialOut : List Char
  /-- 'original_cumulative_probability' -/
  origCum : ℝ

/-- A state with the part of its `auxiliary_information` used here (`none`: the key is absent). -/
structure PRState where
  q : QState
  pr : Option PRInfo

/-- PRC 214-215: one entry of `pr_correlation`. Channels are non-negative. -/
structure Box where
  /-- 'channels_Ah_Av_Bh_Bv' -/
  channels : List ℕ
  /-- 'quantumness_indicator' -/
  K : ℝ

/-- PRC 232: `channel_values_for_config`. -/
def configValues (q : Fin 4) : List ℕ :=
  ([[1, 0, 1, 0], [1, 0, 0, 1], [0, 1, 1, 0], [0, 1, 0, 1]] : List (List ℕ)).getD q.val []

/-- PRC 233-235: the last `n` characters of `np.base_repr(m, base=4, padding=n)`: `n` digits, most significant first. -/
def configOf (n m : ℕ) : List (Fin 4) :=
  (List.range n).map (fun i => ⟨m / 4 ^ (n - 1 - i) % 4, Nat.mod_lt _ (by norm_num)⟩)

/-- PRC 228, 233: all configurations. -/
def configs (n : ℕ) : List (List (Fin 4)) := (List.range (4 ^ n)).map (configOf n)

/-- PRC 249-251: write the photon numbers of one pair into its channels (`none`: IndexError). -/
def writeBox (b : Box) (q : Fin 4) (values : Vals) : Option Vals :=
  b.channels.zipIdx.foldlM (fun (vals : Vals) ci =>
    if ci.1 < vals.length then ((configValues q)[ci.2]?).map (fun x => vals.set ci.1 x) else none) values

/-- PRC 247-251: write all pairs. -/
def writeBoxes (boxes : List Box) (cfg : List (Fin 4)) (values : Vals) : Option Vals :=
  (cfg.zip boxes).foldlM (fun vals qb => writeBox qb.2 qb.1 vals) values

/-- PRC 241-261: the state of one configuration. -/
noncomputable def prepare (g : Cfg) (thr : ℝ) (m : ℕ) (boxes : List Box) (ident : ℕ) (st : PRState) (cfg : List (Fin 4)) :
    Option PRState := do
  let q ← copyState thr m st.q
  let cum ← setCum ((1 / 2 : ℝ) ^ boxes.length)
  let l ← st.q.comps.mapM (fun p => do
    let v ← g.parse p.1
    let v' ← writeBoxes boxes cfg v
    let s ← g.render v'
    some (s, p.2.amp))
  let comps ← setFromList g l
  some ⟨⟨st.q.initial, cum, comps, q.classical, q.results⟩, some ⟨ident, cfg, boxes.map Box.K, st.q.initial, st.q.cum⟩⟩

/-- PRC 204-263: `_create_collection_with_popescu_rohrlich_correlations`. -/
noncomputable def createPR (g : Cfg) (thr : ℝ) (m : ℕ) (boxes : List Box) (ident : ℕ) (st : PRState) : Option (List PRState) :=
  (configs boxes.length).mapM (prepare g thr m boxes ident st)

/-- PRC 149-202: `execute_popescu_rohrlich_gate`; `ids k` is the identifier drawn for the `k`-th state. The copy of the whole
collection at line 194 fails exactly if one of the copies at line 241 fails. -/
noncomputable def prGate (g : Cfg) (thr : ℝ) (m : ℕ) (boxes : List Box) (ids : ℕ → ℕ) (coll : List PRState) : Option (List PRState) :=
  (coll.zipIdx.mapM (fun sk => createPR g thr m boxes (ids sk.2) sk.1)).map List.flatten

/-- collection_of_states.py 1074-1081: `has_pr_correlations`. -/
def hasPR (coll : List PRState) : Bool := coll.all (fun s => s.pr.isSome)

/-- PRC 116-147: `_group_configurations_per_outcome` (`none`: a state without the information). -/
noncomputable def groupConfigs (coll : List PRState) : Option (Dict Name (Dict (List (Fin 4)) ℂ)) :=
  coll.foldlM (fun d st => st.q.comps.foldlM (fun (d : Dict Name (Dict (List (Fin 4)) ℂ)) p => do
    let info ← st.pr
    let a : ℂ := p.2.amp * (Real.sqrt st.q.cum : ℂ)
    match d.get? p.1 with
    | some e => some (d.set p.1 (e.set info.config a))
    | none => some (d.set p.1 [(info.config, a)])) d) []

/-- The indices of a numpy array with `d` axes of length `b` in the order in which `np.argmax(.., axis=None)` visits them
(last index fastest). -/
def rowMajor (d b : ℕ) : List (Fin d → Fin b) :=
  (List.finRange (b ^ d)).map (fun m i => finFunctionFinEquiv.symm m i.rev)

/-- PPA 172-185: `generate_matrix_from_dict` (`none`: not reached for configurations of equal length). -/
noncomputable def matrixFromDict (d : ℕ) (e : Dict (List (Fin 4)) ℂ) : Option ((Fin d → Fin 4) → ℂ) :=
  if e.all (fun p => p.1.length == d) then some (fun x => (e.get? (List.ofFn x)).getD 0) else none

/-- PPA 142, 202: the index of the (first) largest element. -/
noncomputable def argMaxIdx {ι : Type*} [Inhabited ι] (enum : List ι) (f : ι → ℝ) : ι := (enum.argmax f).getD default

instance {d b : ℕ} [NeZero b] : Inhabited (Fin d → Fin b) := ⟨fun _ => 0⟩

/-- PPA 133-155: `vector_from_matrix` (meaningful if the matrix is not zero). -/
noncomputable def vectorFromMatrix {d b : ℕ} [NeZero b] (M : (Fin (d + 1) → Fin b) → ℂ) : Fin b → ℂ :=
  let tot : ℝ := ∑ x, ‖M x‖ ^ 2
  let mx := argMaxIdx (rowMajor (d + 1) b) (fun x => ‖M x‖ ^ 2)
  let top : ℂ := M mx / (Real.sqrt tot : ℂ)
  let phase : ℂ := top / (‖top‖ : ℂ)
  let squares : Fin b → ℝ := fun j => ∑ x ∈ Finset.univ.filter (fun x : Fin (d + 1) → Fin b => x 0 = j), ‖M x‖ ^ 2
  let ratios : Fin b → ℝ := fun j => Real.sqrt (squares j / ∑ i, squares i)
  let angles : Fin b → ℝ := fun j => (M (Function.update mx 0 j) / phase).arg
  fun j => (ratios j : ℂ) * Complex.exp (Complex.I * (angles j : ℂ))

/-- `np.swapaxes(M, k, 0)`. -/
def swapAxes {d b : ℕ} (M : (Fin (d + 1) → Fin b) → ℂ) (k : Fin (d + 1)) : (Fin (d + 1) → Fin b) → ℂ :=
  fun x => M (x ∘ Equiv.swap k 0)

/-- PPA 106-114: `reproduced_vectors`. -/
noncomputable def pairVectors {d : ℕ} (T : (Fin (d + 1) → Fin 4) → ℂ) : Fin (d + 1) → Fin 4 → ℂ :=
  if d + 1 > 1 then fun k => vectorFromMatrix (swapAxes T k) else fun _ j => T (fun _ => j)

/-- PPA 233: the 2x2 matrix of a vector of length 4. -/
def pairMatrix (v : Fin 4 → ℂ) : (Fin 2 → Fin 2) → ℂ := fun x => v ⟨2 * (x 0).val + (x 1).val, by omega⟩

/-- PPA 223-240: `photon_amplitudes_from_reproduced_vector`. -/
noncomputable def photonAmps (v : Fin 4 → ℂ) : Fin 2 → Fin 2 → ℂ := fun side => vectorFromMatrix (swapAxes (pairMatrix v) side)

/-- PPA 187-211: `compare_matrices_ppm_level`; `enum`: the indices in array order. -/
noncomputable def compareMatrices {ι : Type*} [Fintype ι] [Inhabited ι] (enum : List ι) (A B : ι → ℂ) : ℝ :=
  let A' : ι → ℂ := fun x => A x / (Real.sqrt (∑ y, ‖A y‖ ^ 2) : ℂ)
  let B' : ι → ℂ := fun x => B x / (Real.sqrt (∑ y, ‖B y‖ ^ 2) : ℂ)
  let mx := argMaxIdx enum (fun x => ‖A' x‖)
  let pA : ℂ := A' mx / (‖A' mx‖ : ℂ)
  let pB : ℂ := B' mx / (‖B' mx‖ : ℂ)
  Real.sqrt (∑ x, ‖A' x / pA - B' x / pB‖ ^ 2) * 1000000

/-- PPA 157-170 followed by 172-185: the array of products of the vectors (each label is written once). -/
noncomputable def reproduced {d : ℕ} (v : Fin (d + 1) → Fin 4 → ℂ) : (Fin (d + 1) → Fin 4) → ℂ := fun x => ∏ k, v k (x k)

/-- PPA 213-221: `is_dict_factorable` with the default threshold. -/
def DictFactorable {d : ℕ} (T : (Fin (d + 1) → Fin 4) → ℂ) : Prop :=
  compareMatrices (rowMajor (d + 1) 4) T (reproduced (pairVectors T)) < 1

/-- PPA 242-256: `reproduced_vector_from_photon_amplitudes`. -/
def pairFromPhotons (a : Fin 2 → Fin 2 → ℂ) : Fin 4 → ℂ := fun q => a 0 ⟨q.val / 2, by omega⟩ * a 1 ⟨q.val % 2, by omega⟩

/-- PPA 258-265: `is_photon_pair_factorable`. -/
def PairFactorable (v : Fin 4 → ℂ) : Prop :=
  compareMatrices (List.finRange 4) v (pairFromPhotons (photonAmps v)) < 1

/-- PPA 267-275: `are_all_photon_pairs_factorable`. -/
def AllPairsFactorable {d : ℕ} (T : (Fin (d + 1) → Fin 4) → ℂ) : Prop := ∀ k, PairFactorable (pairVectors T k)

/-- PPA 278-315: `stokes_vector_from_amplitudes`, the vector (the amplitudes are not both zero). -/
noncomputable def stokes (a : Fin 2 → ℂ) : Fin 3 → ℝ :=
  let norm : ℝ := ‖a 0‖ ^ 2 + ‖a 1‖ ^ 2
  let z : ℝ := (‖a 0‖ ^ 2 - ‖a 1‖ ^ 2) / norm
  let xy : ℝ := Real.sqrt (1 - z ^ 2)
  let phase : ℝ := if ‖a 0‖ = 0 ∨ ‖a 1‖ = 0 then 0 else (a 0 / a 1).arg
  ![Real.sin phase * xy, Real.cos phase * xy, z]

/-- `np.inner` of two real vectors. -/
def innerR (u v : Fin 3 → ℝ) : ℝ := ∑ i, u i * v i

/-- PRC 111-112: `sign*np.power(sign*x, 1/K)` with `sign = np.sign(x)`. -/
noncomputable def signedPow (x K : ℝ) : ℝ := SignType.sign x * (SignType.sign x * x) ^ (1 / K)

/-- PRC 93-114: `_probability_from_stokes_vectors`. -/
noncomputable def alignment (u v : Fin 3 → ℝ) (K : ℝ) : ℝ :=
  1 / 2 * (signedPow (innerR u v / Real.sqrt (innerR u u * innerR v v)) K + 1)

open Classical in
/-- PRC 309-329: the probability of one outcome with the amplitudes `e` per configuration (`none`: 'entanglement has been
generated', zero amplitudes, more quantumness indicators than pairs, or a quantumness indicator that is not positive: zero raises,
negative ones are not modelled). -/
noncomputable def prOutcomeProb (quantum : List ℝ) (origCum : ℝ) (e : Dict (List (Fin 4)) ℂ) : Option ℝ := do
  let first ← e.head?
  match first.1.length with
  | 0 => none
  | d + 1 => do
    let T ← matrixFromDict (d + 1) e
    if ∀ x, T x = 0 then none
    if ¬ DictFactorable T ∧ AllPairsFactorable T then none
    let overall : ℝ := (e.map (fun p => ‖p.2‖ ^ 2)).sum
    let p ← quantum.zipIdx.foldlM (fun (p : ℝ) Kn =>
      if h : Kn.2 < d + 1 then
        if Kn.1 ≤ 0 then none
        else
          let a := photonAmps (pairVectors T ⟨Kn.2, h⟩)
          some (p * alignment (stokes (a 0)) (stokes (a 1)) Kn.1)
      else none) overall
    some (p * origCum)

/-- PRC 266-331: `_measure_collection_with_pr_correlation`. -/
noncomputable def measurePRGroup (coll : List PRState) : Option (List (Name × ℝ)) := do
  let ref ← coll.head?
  let info ← ref.pr
  let groups ← groupConfigs coll
  groups.mapM (fun oe => (prOutcomeProb info.quantum info.origCum oe.2).map (fun p => (oe.1, p)))

/-- PRC 374-378: copy photon numbers of `optical_channels_to_measure` to the classical channels (`none`: IndexError). -/
def writeZip (cls opt : List ℕ) (v : Vals) (values : List ℝ) : Option (List ℝ) :=
  (cls.zip opt).foldlM (fun (vals : List ℝ) co =>
    if co.1 < vals.length then (v[co.2]?).map (fun (x : ℕ) => vals.set co.1 (x : ℝ)) else none) values

/-- PRC 371-387: the state after one outcome; `ref`: the reference state after lines 368-369. -/
noncomputable def collapsePR (g : Cfg) (thr : ℝ) (m : ℕ) (opt cls : List ℕ) (ref : QState) (op : Name × ℝ) : Option PRState := do
  let q ← copyState thr m ref
  let cum ← setCum op.2
  let comps ← setFromList g [(op.1, 1)]
  let v ← g.parse op.1
  let classical ← writeZip cls opt v q.classical
  some ⟨⟨q.initial, cum, comps, classical, q.results ++ [⟨classical, op.2⟩]⟩, none⟩

/-- PRC 359-387 for one group of states with the same identifier. -/
noncomputable def measurePROne (g : Cfg) (thr : ℝ) (m : ℕ) (opt cls : List ℕ) (grp : List PRState) : Option (List PRState) := do
  let histo ← measurePRGroup grp
  let ref ← grp.head?
  let info ← ref.pr
  histo.mapM (collapsePR g thr m opt cls { ref.q with initial := info.initialOut })

/-- PRC 355-357: the groups, by identifier in order of first appearance. -/
def prGroups (coll : List PRState) : Option (Dict ℕ (List PRState)) :=
  if hasPR coll then some (groupBy (fun s => (s.pr.map PRInfo.ident).getD 0) coll) else none

/-- PRC 364-369: what the measurement does to the objects of the collection it is given: the first state of each group loses
its information and gets its label from it. `seen`: identifiers already met. -/
def markFirst (seen : List ℕ) : List PRState → List PRState
  | [] => []
  | s :: rest =>
    match s.pr with
    | none => s :: markFirst seen rest
    | some info =>
      if info.ident ∈ seen then s :: markFirst seen rest
      else ⟨{ s.q with initial := info.initialOut }, none⟩ :: markFirst (info.ident :: seen) rest

/-- PRC 334-388: `perform_measurement_popescu_rohrlich_correlation`. The first component is the returned collection, the second the
contents of the argument afterwards (if nothing was raised). -/
noncomputable def measurePR (g : Cfg) (thr : ℝ) (m : ℕ) (opt cls : List ℕ) (coll : List PRState) :
    Option (List PRState × List PRState) := do
  let _ ← coll.mapM (fun s => copyState thr m s.q)
  let groups ← prGroups coll
  let outs ← groups.mapM (fun ig => measurePROne g thr m opt cls ig.2)
  some (outs.flatten, markFirst [] coll)

/-- PRC 503-515: `correlations_from_measured_collection_with_NS_boxes` for one channel combination
(`none`: KeyError, IndexError or division by zero). -/
noncomputable def correlationNS (g : Cfg) (outcomes : List (Name × ℝ)) (combi : ℕ × ℕ) : Option ℝ := do
  let r ← outcomes.foldlM (fun (cc : ℝ × ℝ) op => do
    let v ← g.parse op.1
    let x ← v[combi.1]?
    let y ← v[combi.2]?
    some (if x = y then cc.1 + op.2 else cc.1 - op.2, cc.2 + op.2)) (0, 0)
  if r.2 = 0 then none else some (r.1 / r.2)

end Verif
