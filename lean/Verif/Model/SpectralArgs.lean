/-
The arguments of the spectral nodes as Python receives them: channels as a list, a single number or None, negative channel numbers, defaults of the pulse width. Models
spectral_nodes.py 93-284 (src/fock_state_circuit/nodes/) and temporal_functions.py 83-401 again, with the arguments unresolved (Model/Spectral has lists of natural numbers).
Exceptions are `none`. The conventions of Model/Spectral hold. Simplifications: a pulse width of None that reaches the photon information is not included (time_delay_full and
set_pulse_width called with pulse_width = None); numbers of channels are integers.
-/
import Verif.Model.Pipeline

namespace Verif

/-- spectral_nodes.py 94, 130, 166, 206, 250: the argument affected_channels: None, a number or a list of numbers. -/
inductive ChArg where
  | missing
  | one (ch : ℤ)
  | many (chs : List ℤ)

/-- Where the delay comes from: spectral_nodes.py 95 and 167 (a number), 131 and 207 (a classical channel). -/
inductive DelayArg where
  | value (t : ℝ)
  | classical (ch : ℤ)

/-- temporal_functions.py 119-122 and 333-337: the delay for a state (`none`: IndexError). -/
def DelayArg.read (d : DelayArg) (q : QState) : Option ℝ :=
  match d with
  | .value t => some t
  | .classical ch => pyGet q.classical ch

/-- temporal_functions.py 131-134 and 235-238: is there a photon in one of the channels (`none`: IndexError)? -/
def photonInPy (v : Vals) : List ℤ → Option Bool
  | [] => some false
  | ch :: chs => (pyGet v ch).bind (fun n => if n ≠ 0 then some true else photonInPy v chs)

/-- temporal_functions.py 131: `for channel in info['channels_to_be_delayed']`: the argument itself, not the list made in lines 108-111 (`none`: TypeError, None and numbers cannot be iterated). -/
def photonInArg (v : Vals) : ChArg → Option Bool
  | .missing => none
  | .one _ => none
  | .many chs => photonInPy v chs

/-- temporal_functions.py 119-146: the full time delay for one state. -/
noncomputable def delayStateArg (g : Cfg) (a : ChArg) (d : DelayArg) (w : ℝ) (s : PState) : Option PState :=
  (d.read s.q).bind (fun t => (firstValues g s).bind (fun v => (photonInArg v a).map (fun b =>
    let i := s.info.getD ⟨0, w⟩
    { s with info := some ⟨if b then i.delay + -1 * t else i.delay, w⟩ })))

/-- temporal_functions.py 83-152: `add_time_delay_generic` (with 154-168). -/
noncomputable def timeDelayFullArg (g : Cfg) (fuel : ℕ) (a : ChArg) (d : DelayArg) (w : ℝ) (l : List AState) : Option (List AState) :=
  (readGroups l).bind (fun G => (G.mapM (fun cols => (toPhotons g fuel cols).bind (mapStates (delayStateArg g a d w)))).map writeGroups)

/-- temporal_functions.py 227-246: pulse width of one single-photon state. -/
def widthStateArg (g : Cfg) (chs : List ℤ) (w : ℝ) (s : PState) : Option PState :=
  (firstValues g s).bind (fun v => (photonInPy v chs).map (fun b =>
    let i := s.info.getD ⟨0, 1⟩
    { s with info := some ⟨i.delay, if b then w else i.width⟩ }))

/-- spectral_nodes.py 261-262 (None: all channels) and temporal_functions.py 171-251: `set_pulse_width` (a number: `set(...)` raises a TypeError in line 201). -/
noncomputable def setPulseWidthArg (g : Cfg) (fuel : ℕ) (a : ChArg) (w : ℝ) (l : List AState) : Option (List AState) :=
  let a' : ChArg := match a with
    | .missing => .many ((List.range g.C).map (fun n : ℕ => (n : ℤ)))
    | a => a
  match a' with
  | .missing => none
  | .one _ => none
  | .many chs =>
    if chs = [] then some l
    else if (∀ n < g.C, (n : ℤ) ∈ chs) ∧ (∀ k ∈ chs, ∃ n < g.C, k = (n : ℤ)) then some (l.map (widthAll w))
    else (readGroups l).bind (fun G => (G.mapM (fun cols => (toPhotons g fuel cols).bind (mapStates (widthStateArg g chs w)))).map writeGroups)

/-- temporal_functions.py 317-319, 373, 388: `channel_index in channel_numbers` (a number is a list of one channel, None is the list [None]). -/
def inChannels (a : ChArg) (ch : ℕ) : Bool :=
  match a with
  | .missing => false
  | .one k => (ch : ℤ) == k
  | .many chs => chs.contains (ch : ℤ)

/-- temporal_functions.py 363-399: the separated part of one column. -/
noncomputable def separateColumnArg (g : Cfg) (a : ChArg) (p : ℝ) (c : Column) : Option Column :=
  (c.states.mapM (fun s => (partState g (fun ch => !inChannels a ch) (-100) p s).bind (fun b =>
    (partState g (fun ch => inChannels a ch) 100 p s).map (fun x => [b, x])))).map (fun l => { c with states := l.flatten, gprob := c.gprob * p })

/-- temporal_functions.py 329-400: one group of the quick time delay. -/
noncomputable def quickGroupArg (g : Cfg) (fuel : ℕ) (a : ChArg) (d : DelayArg) (w : ℝ) (cols : List Column) : Option (List Column × List Column) :=
  (splitColumns g fuel cols).bind (fun cols => ((cols.flatMap (fun c => c.states)).head?).bind (fun s => (d.read s.q).bind (fun t =>
    if w = 0 then none
    else (cols.mapM (overlapColumn (quickOverlap t w))).bind (fun x => (cols.mapM (separateColumnArg g a (1 - quickOverlap t w))).map (fun y => (x, y))))))

/-- temporal_functions.py 276-417: `add_quick_time_delay_generic` and its two shells. -/
noncomputable def timeDelayQuickArg (g : Cfg) (fuel : ℕ) (a : ChArg) (d : DelayArg) (w : ℝ) (l : List AState) : Option (List AState) :=
  (readGroups l).bind (fun G =>
    ((List.flatMap (fun (e : List Char × Dict ℕ (List Column)) => e.2.map Prod.snd) G).mapM (quickGroupArg g fuel a d w)).map (fun r =>
      r.zipIdx.flatMap (fun x => writeGroup (2 * x.2 + 1) x.1.1 ++ writeGroup (2 * x.2 + 2) x.1.2)))

/-- spectral_nodes.py 178-181 and 221-224: the pulse width of the quick delay from the arguments pulse_width and bandwidth (`none`: ZeroDivisionError). -/
noncomputable def quickWidth (pw bw : Option ℝ) : Option ℝ :=
  match pw, bw with
  | none, none => some 1
  | none, some b => if b = 0 then none else some (1 / b)
  | some w, _ => some w

/-- Calls that add a node to a circuit: an optical node, time_delay_full or time_delay_classical_control_full (spectral_nodes.py 93-163), time_delay or time_delay_classical_control (165-247),
set_pulse_width (249-284), a measurement. -/
inductive SCall where
  | optical (M : Opt) (tl : List ℕ)
  | delay (a : ChArg) (d : DelayArg) (w : ℝ)
  | quick (a : ChArg) (d : DelayArg) (pw bw : Option ℝ)
  | width (a : ChArg) (w : ℝ)
  | measure (opt cls : List ℕ)

/-- The steps of an evaluation, as `Stage`, with unresolved arguments. -/
inductive AStage where
  | optics (n : Opt × List ℕ) (l : List (Opt × List ℕ))
  | delay (a : ChArg) (d : DelayArg) (w : ℝ)
  | quick (a : ChArg) (d : DelayArg) (w : ℝ)
  | width (a : ChArg) (w : ℝ)
  | measure (opt cls : List ℕ)

/-- The nodes that the calls add (custom_nodes.py 535-612: `generic_function_on_collection` stores function and parameters unchecked; `none`: a call raises), collected as in circuit.py 323-338. -/
noncomputable def stagesOfCalls : List SCall → Option (List AStage)
  | [] => some []
  | .optical M tl :: rest => (stagesOfCalls rest).map (fun st =>
    match st with
    | .optics n l :: st => .optics (M, tl) (n :: l) :: st
    | st => .optics (M, tl) [] :: st)
  | .delay a d w :: rest => (stagesOfCalls rest).map (fun st => .delay a d w :: st)
  | .quick a d pw bw :: rest => (quickWidth pw bw).bind (fun w => (stagesOfCalls rest).map (fun st => .quick a d w :: st))
  | .width a w :: rest => (stagesOfCalls rest).map (fun st => .width a w :: st)
  | .measure opt cls :: rest => (stagesOfCalls rest).map (fun st => .measure opt cls :: st)

/-- circuit.py 348-358, 518-527, 402-419, as `runStage`. -/
noncomputable def runAStage (c : Circ) (fuel : ℕ) (coll : List AState) : AStage → Option (List AState)
  | .optics n l => opticalResolved c n l coll
  | .delay a d w => timeDelayFullArg c.g fuel a d w coll
  | .quick a d w => timeDelayQuickArg c.g fuel a d w coll
  | .width a w => setPulseWidthArg c.g fuel a w coll
  | .measure opt cls => if isPhotonResolved coll then measureCollection c.g fuel opt cls coll else none

/-- Build a circuit by the calls, then evaluate it (circuit.py 273-580). -/
noncomputable def evalCalls (c : Circ) (fuel : ℕ) (calls : List SCall) (coll : List AState) : Option (List AState) :=
  (stagesOfCalls calls).bind (fun st => st.foldlM (runAStage c fuel) coll)

end Verif
