/-
Spectral nodes on a collection: storing interference groups in a collection, time delays, pulse widths, photon-resolved measurement. Models
collection_of_state_columns.py 56-115, 154-160, 235-266 and temporal_functions.py 83-401 in src/fock_state_circuit/temporal_and_spectral_gate_functionality/.
Exceptions are `none`. The conventions of Model/Columns hold. A collection is the list of its states in order. Simplifications: channel numbers are natural numbers;
'channels_to_be_delayed' is a list (an int raises a TypeError in the full delay, in the quick delay it means a list of one channel); the argument pulse_width is a number (not None);
the functions also change the states of the collection they are given (Model/Spoiled); here only the returned collection is modelled.
-/
import Verif.Model.Resolved

namespace Verif

/-- column_of_states.py 211-215: the column parameters stored in `auxiliary_information['photon_resolution']` of every state of a column. -/
structure ColInfo where
  gid : ℕ
  cid : ℕ
  amp : ℂ
  boson : ℝ
  gprob : ℝ

/-- `auxiliary_information['photon_resolution']`: 'photon_information' and the five column parameters, which are always set together (`none`: not present). -/
structure Aux where
  info : Option PInfo
  col : Option ColInfo

/-- A state of a collection. `aux = none`: no key 'photon_resolution'. -/
structure AState where
  q : QState
  aux : Option Aux

/-- collection_of_state_columns.py 66: `collection_by_column`: initial state, group identifier, columns of the group. -/
abbrev Groups := Dict (List Char) (Dict ℕ (List Column))

/-- interference_group.py 459-468: `add_state` for a state with photon resolution: append to the column with the right identifier, otherwise add a new column. -/
def addToColumns (s : PState) (ci : ColInfo) : List Column → List Column
  | [] => [{ states := [s], amp := ci.amp, boson := ci.boson, gprob := ci.gprob, id := ci.cid }]
  | c :: cols => if c.id = ci.cid then { c with states := c.states ++ [s] } :: cols else c :: addToColumns s ci cols

/-- collection_of_state_columns.py 188-194: `find_next_free_interference_group_identifier`. -/
def nextGroupId (d : Dict ℕ (List Column)) : ℕ := ((List.range (d.length + 1)).find? (fun n => !(d.keys).contains n)).getD d.length

/-- collection_of_state_columns.py 86-113: one state of the constructor of `CollectionOfStateColumns` (`none`: KeyError, photon resolution without group identifier). -/
def readState (G : Groups) (s : AState) : Option Groups :=
  let gs := (G.get? s.q.initial).getD []
  match s.aux with
  | none => some (G.set s.q.initial (gs.set (nextGroupId gs) (groupOfState ⟨s.q, none⟩)))
  | some ⟨_, none⟩ => none
  | some ⟨info, some ci⟩ => some (G.set s.q.initial (gs.set ci.gid (addToColumns ⟨s.q, info⟩ ci ((gs.get? ci.gid).getD []))))

/-- collection_of_state_columns.py 86-113: the constructor of `CollectionOfStateColumns`. -/
def readGroups (l : List AState) : Option Groups := l.foldlM readState []

/-- The states of one column of group `gid`, with the column parameters. -/
def writeColumn (gid : ℕ) (c : Column) : List AState :=
  c.states.map (fun s => { q := s.q, aux := some ⟨s.info, some { gid := gid, cid := c.id, amp := c.amp, boson := c.boson, gprob := c.gprob }⟩ })

/-- interference_group.py 368-372: the states of one group. -/
def writeGroup (gid : ℕ) (cols : List Column) : List AState := cols.flatMap (writeColumn gid)

/-- collection_of_state_columns.py 166-172: `by_state`: all states, in the order in which the nodes add them to the new collection. -/
def writeGroups (G : Groups) : List AState := G.flatMap (fun e => e.2.flatMap (fun x => writeGroup x.1 x.2))

/-- Apply a function to the columns of every group. -/
def Groups.mapM (f : List Column → Option (List Column)) (G : Groups) : Option Groups :=
  List.mapM (m := Option) (fun (e : List Char × Dict ℕ (List Column)) => (List.mapM (m := Option) (fun (x : ℕ × List Column) => (f x.2).map (fun y => (x.1, y))) e.2).map (fun y => (e.1, y))) G

/-- collection_of_state_columns.py 217-234: `split` and `single_photon_states` for one group. -/
noncomputable def toPhotons (g : Cfg) (fuel : ℕ) (cols : List Column) : Option (List Column) :=
  (splitColumns g fuel cols).bind (fun cols => cols.mapM (Column.singlePhotonStates g))

/-- temporal_functions.py 131-134 and 235-238: is there a photon in one of the channels (`none`: IndexError)? -/
def photonIn (v : Vals) : List ℕ → Option Bool
  | [] => some false
  | ch :: chs => (v[ch]?).bind (fun n => if n ≠ 0 then some true else photonIn v chs)

/-- Where the delay comes from: the parameter or a classical channel. -/
inductive DelaySource
  | value (t : ℝ)
  | classical (ch : ℕ)

/-- temporal_functions.py 119-122 and 333-337: the delay for a state (`none`: IndexError). -/
def DelaySource.read (d : DelaySource) (q : QState) : Option ℝ :=
  match d with
  | .value t => some t
  | .classical ch => q.classical[ch]?

/-- temporal_functions.py 119-146: the full time delay for one state. -/
noncomputable def delayState (g : Cfg) (chs : List ℕ) (d : DelaySource) (w : ℝ) (s : PState) : Option PState :=
  (d.read s.q).bind (fun t => (firstValues g s).bind (fun v => (photonIn v chs).map (fun b =>
    let i := s.info.getD ⟨0, w⟩
    { s with info := some ⟨if b then i.delay + -1 * t else i.delay, w⟩ })))

/-- Apply a function to every state of the columns. -/
def mapStates (f : PState → Option PState) (cols : List Column) : Option (List Column) :=
  cols.mapM (fun c => (c.states.mapM f).map (fun sts => { c with states := sts }))

/-- temporal_functions.py 83-152: `add_time_delay_generic` (with 154-168). -/
noncomputable def timeDelayFull (g : Cfg) (fuel : ℕ) (chs : List ℕ) (d : DelaySource) (w : ℝ) (l : List AState) : Option (List AState) :=
  (readGroups l).bind (fun G => (G.mapM (fun cols => (toPhotons g fuel cols).bind (mapStates (delayState g chs d w)))).map writeGroups)

/-- temporal_functions.py 203-215: pulse width for all channels: every state of the collection. -/
def widthAll (w : ℝ) (s : AState) : AState :=
  { s with aux := some { (s.aux.getD ⟨none, none⟩) with info := some ⟨(((s.aux.getD ⟨none, none⟩).info).getD ⟨0, 1⟩).delay, w⟩ } }

/-- temporal_functions.py 227-246: pulse width of one single-photon state. -/
def widthState (g : Cfg) (chs : List ℕ) (w : ℝ) (s : PState) : Option PState :=
  (firstValues g s).bind (fun v => (photonIn v chs).map (fun b =>
    let i := s.info.getD ⟨0, 1⟩
    { s with info := some ⟨i.delay, if b then w else i.width⟩ }))

/-- temporal_functions.py 171-251: `set_pulse_width`. -/
noncomputable def setPulseWidth (g : Cfg) (fuel : ℕ) (chs : List ℕ) (w : ℝ) (l : List AState) : Option (List AState) :=
  if chs = [] then some l
  else if (∀ n < g.C, n ∈ chs) ∧ (∀ n ∈ chs, n < g.C) then some (l.map (widthAll w))
  else (readGroups l).bind (fun G => (G.mapM (fun cols => (toPhotons g fuel cols).bind (mapStates (widthState g chs w)))).map writeGroups)

/-- temporal_functions.py 341: the overlap for a delay `t` and a pulse width `w`. -/
noncomputable def quickOverlap (t w : ℝ) : ℝ := Real.exp (-1 * Real.log 2 * (t / w) ^ 2)

/-- temporal_functions.py 349-355: the overlap part of one column. -/
noncomputable def overlapColumn (p : ℝ) (c : Column) : Option Column :=
  (c.states.mapM (fun s => (setCum (s.q.cum * p)).map (fun cum => ({ q := { s.q with cum := cum }, info := some ⟨0, 1⟩ } : PState)))).map (fun sts =>
    { c with states := sts, gprob := c.gprob * p })

/-- temporal_functions.py 371-374 and 386-389: the photon numbers in the channels selected by `keep`, 0 in the others. -/
def keepChannels (keep : ℕ → Bool) (v : Vals) : Vals := v.zipIdx.map (fun x => if keep x.2 then x.1 else 0)

/-- temporal_functions.py 366-381 and 382-395: a part of one state ('behind' or 'ahead'). -/
noncomputable def partState (g : Cfg) (keep : ℕ → Bool) (delay p : ℝ) (s : PState) : Option PState :=
  (s.q.comps.mapM (fun x => (g.parse x.1).bind (fun v => (g.render (keepChannels keep v)).map (fun nm => (nm, x.2.amp))))).bind (fun l =>
    (setFromList g l).bind (fun comps => (setCum (s.q.cum * p)).map (fun cum =>
      { q := { s.q with comps := comps, cum := cum }, info := some ⟨delay, 1⟩ })))

/-- temporal_functions.py 363-399: the separated part of one column: every state is replaced by its 'behind' and its 'ahead' part. -/
noncomputable def separateColumn (g : Cfg) (chs : List ℕ) (p : ℝ) (c : Column) : Option Column :=
  (c.states.mapM (fun s => (partState g (fun ch => !chs.contains ch) (-100) p s).bind (fun b =>
    (partState g (fun ch => chs.contains ch) 100 p s).map (fun a => [b, a])))).map (fun l => { c with states := l.flatten, gprob := c.gprob * p })

/-- temporal_functions.py 329-400: one group of the quick time delay: the columns of the overlap group and of the separation group. The delay is that of the first state. -/
noncomputable def quickGroup (g : Cfg) (fuel : ℕ) (chs : List ℕ) (d : DelaySource) (w : ℝ) (cols : List Column) : Option (List Column × List Column) :=
  (splitColumns g fuel cols).bind (fun cols => ((cols.flatMap (fun c => c.states)).head?).bind (fun s => (d.read s.q).bind (fun t =>
    if w = 0 then none
    else (cols.mapM (overlapColumn (quickOverlap t w))).bind (fun a => (cols.mapM (separateColumn g chs (1 - quickOverlap t w))).map (fun b => (a, b))))))

/-- temporal_functions.py 324-401: `add_quick_time_delay_generic`. All groups are visited in order; the new group identifiers start at 1. -/
noncomputable def timeDelayQuick (g : Cfg) (fuel : ℕ) (chs : List ℕ) (d : DelaySource) (w : ℝ) (l : List AState) : Option (List AState) :=
  (readGroups l).bind (fun G =>
    ((List.flatMap (fun (e : List Char × Dict ℕ (List Column)) => e.2.map Prod.snd) G).mapM (quickGroup g fuel chs d w)).map (fun r =>
      r.zipIdx.flatMap (fun x => writeGroup (2 * x.2 + 1) x.1.1 ++ writeGroup (2 * x.2 + 2) x.1.2)))

/-- spectral_nodes.py 312-321, collection_of_state_columns.py 235-266: photon-resolved measurement of a collection. The new groups are numbered from 0. -/
noncomputable def measureCollection (g : Cfg) (fuel : ℕ) (opt cls : List ℕ) (l : List AState) : Option (List AState) :=
  (readGroups l).bind (fun G =>
    (measureGroups g fuel opt cls (List.flatMap (fun (e : List Char × Dict ℕ (List Column)) => e.2.map Prod.snd) G)).map (fun r =>
      r.zipIdx.flatMap (fun x => writeGroup x.2 x.1)))

end Verif
