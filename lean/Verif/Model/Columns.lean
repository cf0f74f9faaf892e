/-
Photon columns and interference groups.  Models column_of_states.py and interference_group.py in
src/fock_state_circuit/temporal_and_spectral_gate_functionality/.
Exceptions (and results that are not a number) are `none`. Floats are idealised. States are values: the sharing of State objects between a collection
and its columns is not modelled here. Simplifications: the column parameters, which the code stores in the column and repeats in every state of the
column (the setters keep them equal), are stored once; `State.copy` is the identity (its validity check concerns only invalid states); the recursion limit
of Python is not modelled.
-/
import Verif.Model.Measurement
import Mathlib.Analysis.SpecialFunctions.Log.Basic
import Mathlib.Analysis.SpecialFunctions.Pow.Real

namespace Verif

/-- temporal_functions.py 116 and 214: `photon_information`: `{'time_delay': .., 'pulse_width': ..}`. -/
structure PInfo where
  delay : ℝ
  width : ℝ

/-- A state with `auxiliary_information['photon_resolution']['photon_information']` (`none`: key not present). -/
structure PState where
  q : QState
  info : Option PInfo

/-- column_of_states.py 213-300: `ColumnOfStates`. The fields are `list_of_states`, `column_amplitude`, `column_boson_factor`,
`group_cumulative_probability` and `column_identifier`. -/
structure Column where
  states : List PState
  amp : ℂ
  boson : ℝ
  gprob : ℝ
  id : ℕ

/-- column_of_states.py 462-464: position of the first state that has not exactly one optical component. -/
def splitIndex (l : List PState) : Option ℕ := l.findIdx? (fun s => s.q.comps.length ≠ 1)

/-- Replace the optical components of the state at position `i`. -/
def Column.setComps (c : Column) (i : ℕ) (comps : Comps) : Column :=
  { c with states := c.states.modify i (fun s => { s with q := { s.q with comps := comps } }) }

/-- column_of_states.py 442-508: `split`. `some none`: nothing to split (the function returns `None`); `some (some (new, remaining))`: the new
column and the modified column. `none`: a state without components, a component name that is not valid, or (three or more components) a first component
with probability 1 or more, where the code divides by zero or takes the root of a negative number. -/
noncomputable def Column.split (g : Cfg) (c : Column) : Option (Option (Column × Column)) :=
  match splitIndex c.states with
  | none => some none
  | some i =>
    match (c.states[i]?).map (fun s => s.q.comps) with
    | none => none
    | some [] => none
    | some [_] => none
    | some ((s0, k0) :: (s1, k1) :: rest) =>
      (setFromList g [(s0, 1)]).bind (fun newComps =>
        let new := { c.setComps i newComps with amp := c.amp * k0.amp }
        if rest = [] then
          (setFromList g [(s1, 1)]).map (fun rem => some (new, { c.setComps i rem with amp := c.amp * k1.amp }))
        else
          let r := Real.sqrt (1 - ‖k0.amp‖ ^ 2)
          if r = 0 then none
          else (setFromList g (((s1, k1) :: rest).map (fun p => (p.1, p.2.amp / (r : ℂ))))).map (fun rem =>
            some (new, { c.setComps i rem with amp := c.amp * (r : ℂ) })))

/-- interference_group.py 383-388: the first column identifier that is not used. -/
def nextColumnId (cols : List Column) : ℕ :=
  ((List.range (cols.length + 1)).find? (fun n => !(cols.map (·.id)).contains n)).getD cols.length

/-- interference_group.py 514-521: one round of `split_columns`: the first column that can be split is replaced by its remaining part and the new column is
added at the end with a new identifier. `some none`: no column was split. -/
noncomputable def splitOnce (g : Cfg) : List Column → Option (Option (List Column × Column))
  | [] => some none
  | c :: cols =>
    (c.split g).bind (fun r =>
      match r with
      | some (new, rem) => some (some (rem :: cols, new))
      | none => (splitOnce g cols).map (Option.map (fun x => (c :: x.1, x.2))))

/-- interference_group.py 488-527: `split_columns`, at most `fuel` rounds (`none` also when the fuel does not suffice). -/
noncomputable def splitColumns (g : Cfg) : (fuel : ℕ) → List Column → Option (List Column)
  | 0, _ => none
  | fuel + 1, cols =>
    (splitOnce g cols).bind (fun r =>
      match r with
      | none => some cols
      | some (cols', new) => splitColumns g fuel (cols' ++ [{ new with id := nextColumnId cols' }]))

/-- column_of_states.py 543-544: the channels of the photons, in order; a channel with `n` photons appears `n` times. -/
def photonChannels (v : Vals) : List ℕ := v.zipIdx.flatMap (fun p => List.replicate p.1 p.2)

/-- column_of_states.py 548-549: the photon numbers with one photon in channel `ch`. -/
def oneHot (C ch : ℕ) : Vals := (List.replicate C 0).set ch 1

/-- column_of_states.py 552, 697-699, interference_group.py 774-777: product of `√(k+1)` for `k` below each photon number. -/
noncomputable def bosonOf (v : Vals) : ℝ := (v.map (fun n => ((List.range n).map (fun k : ℕ => Real.sqrt ((k : ℝ) + 1))).prod)).prod

/-- column_of_states.py 534-563: the single-photon states of one state. The first component counts, its amplitude is given to every photon. -/
noncomputable def singlePhotons (g : Cfg) (s : PState) : Option (List PState × ℝ) :=
  match s.q.comps with
  | [] => none
  | (name, k) :: _ =>
    (g.parse name).bind (fun v =>
      if v.sum > 0 then
        ((photonChannels v).mapM (fun ch =>
          (g.render (oneHot v.length ch)).bind (fun nm =>
            (setFromList g [(nm, k.amp)]).map (fun comps => { s with q := { s.q with comps := comps } })))).map (fun l => (l, bosonOf v))
      else
        (g.render (List.replicate v.length 0)).bind (fun nm =>
          (setFromList g [(nm, k.amp)]).map (fun comps => ([{ s with q := { s.q with comps := comps } }], 1))))

/-- column_of_states.py 511-567: `single_photon_states`. The test in line 527 looks at the method itself instead of calling it, so it never refuses. -/
noncomputable def Column.singlePhotonStates (g : Cfg) (c : Column) : Option Column :=
  (c.states.mapM (singlePhotons g)).map (fun l =>
    { c with states := (l.map Prod.fst).flatten, boson := c.boson * (l.map Prod.snd).prod })

/-- Values of the first optical component of a state. -/
def firstValues (g : Cfg) (s : PState) : Option Vals := (s.q.comps.head?).bind (fun p => g.parse p.1)

/-- column_of_states.py 685-693 and 766-772: the photon numbers of a column: the values of its states added up (`zip`: shorter list). `none`: empty
column. -/
def columnValues (g : Cfg) (c : Column) : Option Vals :=
  (c.states.mapM (firstValues g)).bind (fun l =>
    match l with
    | [] => none
    | v :: vs => some (vs.foldl (fun acc w => List.zipWith (· + ·) w acc) v))

/-- column_of_states.py 660-733: `condense_column_to_single_state` with the default argument (`none`: empty column, photon number not below the length,
invalid probability). -/
noncomputable def Column.condense (g : Cfg) (c : Column) : Option Column :=
  (c.states.mapM (firstValues g)).bind (fun l =>
    (columnValues g c).bind (fun v =>
      (g.render v).bind (fun nm =>
        (c.states.getLast?).bind (fun last =>
          (setFromList g [(nm, 1)]).bind (fun comps =>
            (setCum (c.gprob * ‖c.amp‖ ^ 2)).map (fun cum =>
              { c with states := [{ last with q := { last.q with comps := comps, cum := cum } }]
                       boson := c.boson * (l.map bosonOf).prod / bosonOf v }))))))

/-- interference_group.py 568-580: the loop of `generate_single_state_from_interference_group`: the components of all columns (a later column with the same
component replaces an earlier one), the state generated from the last column that is not empty and the probability of the last column.
`generate_single_state_from_column` (column_of_states.py 783-833) condenses a copy, so the column itself is not changed. -/
noncomputable def mergeColumns (g : Cfg) (cols : List Column) : Option (Comps × Option QState × Option ℝ) :=
  cols.foldlM (fun (x : Comps × Option QState × Option ℝ) c =>
    if c.states = [] then some (x.1, x.2.1, some c.gprob)
    else (c.condense g).bind (fun c' => (c'.states.head?).map (fun s =>
      (s.q.comps.foldl (fun (d : Comps) p => d.set p.1 ⟨c.amp * p.2.amp, ‖c.amp * p.2.amp‖ ^ 2⟩) x.1, some s.q, some c.gprob)))) ([], none, none)

/-- interference_group.py 542-588: `generate_single_state_from_interference_group` (`none`: an exception, also for a group without states). -/
noncomputable def groupToState (g : Cfg) (fuel : ℕ) (cols : List Column) : Option QState :=
  (splitColumns g fuel cols).bind (fun cols =>
    (mergeColumns g cols).bind (fun x =>
      x.2.1.bind (fun q => x.2.2.bind (fun p => (setCum p).bind (fun cum => (setFromDict g x.1).map (fun comps =>
        { q with cum := cum, comps := comps }))))))

/-- interference_group.py 227-245: a group with one state: one column with the default values; `group_cumulative_probability` is that of the state. -/
def groupOfState (s : PState) : List Column := [{ states := [s], amp := 1, boson := 1, gprob := s.q.cum, id := 0 }]

end Verif
