/-
Model of `draw_station` and `_filter_on_station` in `visualization/draw.py`: a circuit as seen by one of several stations.
-/
import Mathlib.Data.List.Basic

namespace Verif

/-- draw.py 1195–1201: a station with its optical and classical channels (a missing list is empty). -/
structure Station where
  name : List Char
  optical : List ℕ
  classical : List ℕ

/-- The types of nodes that draw.py 1226–1251 distinguishes. -/
inductive NodeType where
  | bridge | measurement | other
  deriving DecidableEq

/-- What draw.py 1211–1214 uses of a node of the circuit: its type and the channels in its `node_info`. -/
structure GlobalNode where
  type : NodeType
  optical : List ℕ
  classical : List ℕ

/-- A node of the circuit of one station (draw.py 1221–1223, 1307–1329): its channels, numbered within the station, the three lists of stations it is connected to, and the
number of the symbol that marks the connection (the argument of `chr`; `none` without connections). -/
structure LocalNode where
  type : NodeType
  optical : List ℕ
  classical : List ℕ
  toClassical : List (List Char)
  toOptical : List (List Char)
  toBoth : List (List Char)
  identifier : Option ℕ
  deriving DecidableEq

/-- draw.py 1217–1218: the positions, in the list of the channels of the station, of those that the node has. -/
def localChannels (own node : List ℕ) : List ℕ := (own.zipIdx.filter (fun p => decide (p.1 ∈ node))).map Prod.snd

/-- draw.py 1239–1249: the stations a measurement is connected to, one entry for each pair of a measured and a written channel that is divided between them. -/
def measurementLinks (s : Station) (all : List Station) (n : GlobalNode) : List (List Char) :=
  (n.optical.zip n.classical).flatMap (fun p =>
    (all.filter (fun t => decide (t.name ≠ s.name) && ((decide (p.1 ∈ s.optical) || decide (p.2 ∈ s.classical)) && (decide (p.1 ∈ t.optical) || decide (p.2 ∈ t.classical))))).map
      Station.name)

/-- draw.py 1273–1284: whether a station has one of the channels. -/
def touches (own node : List ℕ) : Bool := node.any (fun c => decide (c ∈ own))

/-- draw.py 1223: the three lists of connections. -/
structure Links where
  classical : List (List Char)
  optical : List (List Char)
  both : List (List Char)

/-- draw.py 1263–1304, one station `t`: `oh`, `kh` tell whether station `s` has optical and classical channels of the node. -/
def linkStep (s : Station) (n : GlobalNode) (oh kh : Bool) (l : Links) (t : Station) : Links :=
  if t.name = s.name then l
  else match touches t.optical n.optical, touches t.classical n.classical with
    | false, false => l
    | ot, kt =>
      if kh && !oh then { l with classical := l.classical ++ [t.name] }
      else if kt && !ot then { l with classical := l.classical ++ [t.name] }
      else if (oh && !kh) && (ot && !kt) then { l with optical := l.optical ++ [t.name] }
      else { l with both := l.both ++ [t.name] }

/-- draw.py 1258–1304: the connections of a node that is no bridge and no measurement, one station after the other. -/
def generalLinks (s : Station) (all : List Station) (n : GlobalNode) : Links :=
  all.foldl (linkStep s n (decide (localChannels s.optical n.optical ≠ [])) (decide (localChannels s.classical n.classical ≠ []))) ⟨[], [], []⟩

/-- draw.py 1225–1304: the connections of a node. -/
def rawLinks (s : Station) (all : List Station) (n : GlobalNode) : Links :=
  match n.type with
  | .bridge => ⟨[], [], []⟩
  | .measurement => ⟨measurementLinks s all n, [], []⟩
  | .other => generalLinks s all n

/-- draw.py 1307–1319: with different kinds of connections all of them are drawn as double lines. -/
def mergeLinks (l : Links) : Links :=
  if l.both ≠ [] ∨ (l.optical ≠ [] ∧ l.classical ≠ []) then { l with both := l.both ++ l.classical ++ l.optical } else l

/-- draw.py 1329: the number of the symbol for the node with this index. -/
def symbolNumber (i : ℕ) : ℕ := 1 + 16 * ((i + 30) / 9) + i % 10

/-- draw.py 1212–1331: the node as the station sees it (`none`: it is left out). -/
def localNode (s : Station) (all : List Station) (i : ℕ) (n : GlobalNode) : Option LocalNode :=
  let o := localChannels s.optical n.optical
  let k := localChannels s.classical n.classical
  if n.type ≠ .bridge ∧ o = [] ∧ k = [] then none
  else
    let l := mergeLinks (rawLinks s all n)
    some ⟨n.type, o, k, l.classical, l.optical, l.both, if l.classical ≠ [] ∨ l.optical ≠ [] ∨ l.both ≠ [] then some (symbolNumber i) else none⟩

/-- draw.py 1322–1328: the stations named at the connection (the text lists them sorted and without repetition: here the list with all entries). -/
def LocalNode.named (n : LocalNode) : List (List Char) :=
  if n.toBoth ≠ [] then n.toBoth else n.toOptical ++ n.toClassical

/-- draw.py 1211–1334: the circuit of the station (a bridge leads to the circuit of the station made of the next circuit, so that for circuits connected by bridges this is
done for each of them). -/
def stationCircuit (s : Station) (all : List Station) (nodes : List GlobalNode) : List LocalNode :=
  (nodes.zipIdx.filterMap (fun p => localNode s all p.2 p.1))

/-- draw.py 1071–1080: what can be given as `station_to_draw`: nothing, the name of a station or a list of names. -/
inductive StationChoice where
  | absent
  | single (name : List Char)
  | list (names : List (List Char))

/-- draw.py 1093–1099: the stations that are drawn. -/
def stationsDrawn (all : List Station) : StationChoice → List (List Char)
  | .absent => all.map Station.name
  | .single name => [name]
  | .list _ => all.map Station.name

end Verif
