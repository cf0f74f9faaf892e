/-
Model of `create_settings_for_drawing_stations` in `visualization/draw.py`: the labels of the channels in the drawings of the stations.
-/
import Verif.Model.Station
import Verif.Model.Names

namespace Verif

/-- The label of a channel. -/
abbrev ChanLabel := List Char

/-- draw.py 967–973: the default label, `kind` is 'optical ' or 'classical '. -/
def defaultLabel (kind : List Char) (i : ℕ) : ChanLabel := kind ++ pyStr i

/-- draw.py 1153, 1156: the label naming the station and the number of the channel there, `kind` is ', Opt.' or ', Clas.'. -/
def stationLabel (kind name : List Char) (i : ℕ) : ChanLabel := name ++ kind ++ pyStr i

/-- draw.py 1153, 1156, one assignment `labels[channel_number] = …`; `none`: IndexError. -/
def setLabel (labels : List ChanLabel) (p : ℕ × ChanLabel) : Option (List ChanLabel) :=
  if p.1 < labels.length then some (labels.set p.1 p.2) else none

/-- draw.py 1151–1157, for one kind of channels: the assignments of all stations, in order. -/
def stationAssignments (kind : List Char) (channels : Station → List ℕ) (all : List Station) : List (ℕ × ChanLabel) :=
  all.flatMap (fun s => (channels s).zipIdx.map (fun p => (p.1, stationLabel kind s.name p.2)))

/-- draw.py 1144 and 1150–1157, for one kind of channels: if there are labels in the settings nothing is assigned. `defined` tells whether there are OPTICAL labels in the
settings: this is what the code looks at for both kinds (line 1144). -/
def channelLabels (defined : Bool) (start : List ChanLabel) (assignments : List (ℕ × ChanLabel)) : Option (List ChanLabel) :=
  if defined then some start else assignments.foldlM setLabel start

/-- draw.py 967–973: the labels given in the settings, or default labels for `n` channels. -/
def startLabels (kind : List Char) (n : ℕ) (user : Option (List ChanLabel)) : List ChanLabel := user.getD ((List.range n).map (defaultLabel kind))

/-- draw.py 1113–1170: the labels of the optical and of the classical channels in the drawing of each station and (last two components) in the drawing of the total
circuit; `userO`, `userK` are the labels given in the settings, `a`, `c` the numbers of channels of the circuit. Lists given in the settings are themselves changed by the
assignments. `none`: an exception. -/
def stationSettings (a c : ℕ) (all : List Station) (userO userK : Option (List ChanLabel)) :
    Option (List (List ChanLabel × List ChanLabel) × List ChanLabel × List ChanLabel) :=
  if "total_circuit".toList ∈ all.map Station.name then none
  else do
    let o ← channelLabels userO.isSome (startLabels "optical ".toList a userO) (stationAssignments ", Opt.".toList Station.optical all)
    let k ← channelLabels userO.isSome (startLabels "classical ".toList c userK) (stationAssignments ", Clas.".toList Station.classical all)
    let r ← all.mapM (fun s => do
      let lo ← s.optical.mapM (fun ch => o[ch]?)
      let lk ← s.classical.mapM (fun ch => k[ch]?)
      some (lo, lk))
    some (r, o, k)

end Verif
