/-
Measurement.  Models src/fock_state_circuit/circuit.py 402-455 and 582-692 (the branch for collections without photon
resolution and without superquantum correlations) and the parts of state.py and collection_of_states.py it uses.
-/
import Verif.Model.State
import Mathlib.Algebra.Order.Floor.Ring
import Mathlib.Algebra.Order.Archimedean.Real.Basic

namespace Verif

/-- numpy `round` to an integer: halves go to the even neighbour. -/
noncomputable def roundHalfEven (x : ℝ) : ℤ :=
  if x - ⌊x⌋ < 1 / 2 then ⌊x⌋ else if x - ⌊x⌋ > 1 / 2 then ⌊x⌋ + 1 else if Even ⌊x⌋ then ⌊x⌋ else ⌊x⌋ + 1

/-- `np.round(x, 3)`. -/
noncomputable def round3 (x : ℝ) : ℝ := (roundHalfEven (x * 1000) : ℝ) / 1000

/-- state.py 192-197: the setter of `cumulative_probability` (`none`: 'Invalid value for probability'). -/
noncomputable def setCum (p : ℝ) : Option ℝ := if 0 ≤ p ∧ p ≤ 1 then some p else none

/-- circuit.py 672-675: multiply the cumulative probability; on an exception retry with a rounded value. -/
noncomputable def mulCum (cum p : ℝ) : Option ℝ :=
  match setCum (cum * p) with
  | some r => some r
  | none => setCum (round3 (cum * p))

/-- state.py 372-418: `_check_valid_state`, the numerical conditions (`thr`: threshold, `m`: number of classical channels).
The type checks of the Python code are implied by the Lean types. -/
def CheckValid (thr : ℝ) (m : ℕ) (q : QState) : Prop :=
  -thr ≤ q.cum ∧ q.cum - 1 ≤ thr ∧ (∀ p ∈ q.comps, -thr ≤ p.2.prob ∧ p.2.prob ≤ 1 + thr) ∧ q.classical.length = m

open Classical in
/-- state.py 420-440 with the constructor 119-178: `copy` validates the copied state (`none`: 'invalid state'). -/
noncomputable def copyState (thr : ℝ) (m : ℕ) (q : QState) : Option QState := if CheckValid thr m q then some q else none

/-- `dict.setdefault(key(item), []).append(item)` for all items (circuit.py 654-656). -/
def groupBy {α κ : Type*} [DecidableEq κ] (f : α → κ) (l : List α) : Dict κ (List α) :=
  l.foldl (fun d a => d.set (f a) (((d.get? (f a)).getD []) ++ [a])) []

/-- circuit.py 656: `tuple(item[0][n] for n in optical_channels_to_measure)`. Channels are in range (checked by
measurement_nodes.py 34-37), so the default of `getD` is not used. -/
def outcomeOf (opt : List ℕ) (v : Vals) : List ℕ := opt.map (fun n => v.getD n 0)

/-- circuit.py 677-678: `classical_channel_values[n] = outcome[i]` for all `i, n` (`none`: IndexError). -/
def writeClassical (cls : List ℕ) (o : List ℕ) (values : List ℝ) : Option (List ℝ) :=
  cls.zipIdx.foldlM (fun (vals : List ℝ) ni =>
    if ni.1 < vals.length then (o[ni.2]?).map (fun (x : ℕ) => vals.set ni.1 (x : ℝ)) else none) values

/-- state.py 203-208: the `optical_components` setter with a dictionary. -/
def setFromDict (g : Cfg) (c : Comps) : Option Comps :=
  if c.all (fun p => g.containsName p.1 == some true) then some c else none

/-- circuit.py 662-690: the collapsed state of one outcome. `none`: an exception, or amplitudes that are not a number because
the total probability of the outcome is zero. -/
noncomputable def collapse (g : Cfg) (thr : ℝ) (m : ℕ) (q : QState) (cls : List ℕ) (o : List ℕ)
    (items : List (Vals × ℂ)) : Option QState := do
  let tot : ℝ := (items.map (fun p => p.2.re ^ 2 + p.2.im ^ 2)).sum
  if tot = 0 then none
  let q' ← copyState thr m q
  let cum ← mulCum q'.cum tot
  let classical ← writeClassical cls o q'.classical
  let named ← items.mapM (fun p => do
    let s ← g.render p.1
    let a : ℂ := p.2 / (Real.sqrt tot : ℂ)
    some (s, (⟨a, a.re ^ 2 + a.im ^ 2⟩ : Comp)))
  let comps ← setFromDict g (Dict.ofList named)
  some ⟨q'.initial, cum, comps, classical, q'.results ++ [⟨classical, tot⟩]⟩

/-- circuit.py 622-692: `_perform_measurement` on one state. The returned collection has fresh random identifiers and is
only iterated over, so it is modelled as a list. -/
noncomputable def measure (g : Cfg) (thr : ℝ) (m : ℕ) (q : QState) (opt cls : List ℕ) : Option (List QState) := do
  let cls := if cls.length > opt.length then cls.take opt.length else cls
  let items ← q.comps.mapM (fun p => (g.parse p.1).map (fun v => (v, p.2.amp)))
  (groupBy (fun p => outcomeOf opt p.1) items).mapM (fun og => collapse g thr m q cls og.1 og.2)

/-- circuit.py 593-603: the next value of `status` in the marker generator. -/
def markerNext : List ℕ → List ℕ
  | [] => [0]
  | d :: ds => if d ≠ 25 then (d + 1) :: ds else 0 :: markerNext ds

/-- circuit.py 582-604: the `k`-th value of `status` (starting from `[0]`). -/
def markerStatus : ℕ → List ℕ
  | 0 => [0]
  | k + 1 => markerNext (markerStatus k)

/-- circuit.py 588-592: the `k`-th marker. -/
def marker (k : ℕ) : List Char := (markerStatus k).map (fun d => Char.ofNat (97 + d))

/-- circuit.py 606-620: `__get_identifier_for_measurement`; `kinds` tells for each node whether it is a measurement. -/
def measurementId (kinds : List Bool) (idx : ℕ) : List Char :=
  fmt (pyStr (kinds.count true)).length ((kinds.take (idx + 1)).count true)

/-- A collection: dictionary from identifiers to states (collection_of_states.py 274-335). -/
abbrev Coll := Dict (List Char) QState

/-- circuit.py 430-453: measurement node on a collection. -/
noncomputable def measureColl (g : Cfg) (thr : ℝ) (m : ℕ) (mid : List Char) (opt cls : List ℕ) (coll : Coll) : Option Coll :=
  coll.foldlM (fun out iq => do
    let qs ← measure g thr m iq.2 opt cls
    some (qs.zipIdx.foldl (fun (out : Coll) qk => out.set (iq.1 ++ ['-', 'M'] ++ mid ++ marker qk.2) qk.1) out)) []

end Verif
