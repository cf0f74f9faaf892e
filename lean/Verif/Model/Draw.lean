/-
Model of `visualization/draw.py`: the places at which the nodes of a circuit, and of circuits connected by bridges, are drawn.
Pictures themselves (lines, markers, texts) are not modelled.
-/
import Verif.Model.Evaluate

namespace Verif

/-- draw.py 67–92 and 134–198: what the placement uses of a node. A node drawn in the normal way has its `channels_optical`, `channels_classical`, whether it has a
connection to another station (lines 186–191) and its `combined_gate` (line 194; `none` is 'single'). -/
inductive DrawNode where
  | bridge
  | node (optical classical : List ℕ) (linked : Bool) (gate : Option (List Char))

/-- draw.py 194–199: the `combined_gate` of a node ('single', here `none`, for a bridge). -/
def DrawNode.gate : DrawNode → Option (List Char)
  | .bridge => none
  | .node _ _ _ s => s

/-- draw.py 231, 244, 259, `int(''.join(bitlist), 2)`: the number with the given binary digits, the first one being the most significant. -/
def bitsToNat (l : List Bool) : ℕ := l.foldl (fun n b => 2 * n + b.toNat) 0

/-- draw.py 257–259 (and 242–244): the bits of a node, one for each line of the drawing; `a` and `c` are the numbers of optical and of classical lines. -/
def usedBits (a c : ℕ) (optical classical : List ℕ) : ℕ :=
  bitsToNat ((List.range a).map (fun ch => decide (ch ∈ optical)) ++ (List.range c).map (fun ch => decide (ch ∈ classical)))

/-- draw.py 260–266 (and 247–253), one step of the loop: memory and the filled number. -/
def fillStep (used : ℕ) (s : Bool × ℕ) (k : ℕ) : Bool × ℕ :=
  let mem := (s.1 || used.testBit k) && decide (used >>> k ≠ 0)
  (mem, s.2 ||| (mem.toNat <<< k))

/-- draw.py 260–266: the lines between those of the node are filled up. -/
def fillBits (n used : ℕ) : ℕ := ((List.range n).foldl (fillStep used) (false, 0)).2

/-- draw.py 272–274: the first bit that is set (`fuel` bits are inspected). -/
def lowestBit (x : ℕ) : ℕ → ℕ → ℕ
  | 0, k => k
  | fuel + 1, k => if x.testBit k then k else lowestBit x fuel (k + 1)

/-- draw.py 268–276: with a connection to another station all lines below the node are occupied as well. -/
def linkBits (n occ : ℕ) (linked : Bool) : ℕ := if linked ∧ occ ≠ 0 then occ ||| (2 ^ lowestBit occ n 0 - 1) else occ

/-- draw.py 281: the occupied lines and their neighbours. -/
def wideBits (x : ℕ) : ℕ := ((x <<< 1) ||| x) ||| (x >>> 1)

/-- draw.py 294–300: from the end to the left, to the position right of the first one (from the right) with a common line. -/
def searchLeft (occ : List ℕ) (bits : ℕ) : ℕ → ℕ
  | 0 => 0
  | p + 1 => if occ.getD p 0 &&& bits ≠ 0 then p + 1 else searchLeft occ bits p

/-- draw.py 302–306: from there to the right, to the first position with no line in common with the node and its neighbouring lines, or the end. -/
def searchRight (occ : List ℕ) (wide : ℕ) : ℕ → ℕ → ℕ
  | 0, p => p
  | fuel + 1, p => if p ≥ occ.length ∨ occ.getD p 0 &&& wide = 0 then p else searchRight occ wide fuel (p + 1)

/-- draw.py 204–214: the number of nodes of a combined gate, from the current one on. -/
def gateRun (gate : List Char) : List DrawNode → ℕ
  | .node _ _ _ (some s) :: l => if s = gate then gateRun gate l + 1 else 0
  | _ => 0

/-- draw.py 233–245: the lines used by the nodes of a combined gate. -/
def gateBits (a c : ℕ) (l : List DrawNode) : ℕ :=
  l.foldl (fun b n => match n with
    | .node o k _ _ => b ||| usedBits a c o k
    | .bridge => b) 0

/-- What is kept while drawing: `node_positions_occupied`, and the `combined_node_x_values` that are left (draw.py 359–368, 393; the empty list also stands for the
variable not being set yet: reading its first element raises an exception in both cases). -/
structure DrawState where
  occ : List ℕ
  pending : List ℤ

/-- draw.py 291–321: a node that is placed between or after the others. Places are counted in quarters of the distance between two nodes, all pages side by side:
position `p` is the place `4 * p` (draw.py 316, `divmod(node_position, len(node_x_values))`). -/
def placeFit (s : DrawState) (bits : ℕ) : ℤ × DrawState :=
  let p := searchRight s.occ (wideBits bits) s.occ.length (searchLeft s.occ bits s.occ.length)
  if p ≥ s.occ.length then (4 * (s.occ.length : ℤ), { s with occ := s.occ ++ [bits] })
  else (4 * (p : ℤ), { s with occ := s.occ.set p (s.occ.getD p 0 ||| bits) })

/-- draw.py 323–335: a node that is added at the end. -/
def placeEnd (s : DrawState) (bits : ℕ) : ℤ × DrawState := (4 * (s.occ.length : ℤ), { s with occ := s.occ ++ [bits] })

/-- draw.py 323–335 and 567–571: a bridge is drawn before the next free position (half a distance to the left), and the first entry of the list is dropped. -/
def placeBridge (a c : ℕ) (s : DrawState) : ℤ × DrawState :=
  (4 * (s.occ.length : ℤ) - 2, { s with occ := (s.occ ++ [bitsToNat (List.replicate (a + c) true)]).drop 1 })

/-- draw.py 337–368: a combined gate of `n` nodes, on lines with `w` positions per page. If the gate does not end before the page does, the rest of the page is left
empty; it takes `(1 + n) / 2` positions, and its nodes are drawn at half the distance, starting a quarter before the position if their number is even. -/
def placeGate (w : ℕ) (s : DrawState) (bits n : ℕ) : List ℤ × DrawState :=
  let len := s.occ.length
  let size := (1 + n) / 2
  let first := len / w
  let last := (len + size) / w
  let fill := if last ≠ first then w - len % w else 0
  let start := if last ≠ first then 0 else len % w
  let shift : ℤ := if n % 2 = 0 then -1 else 0
  ((List.range n).map (fun k : ℕ => 4 * (w * last + start : ℕ) + shift + 2 * (k : ℤ)),
    { s with occ := s.occ ++ List.replicate fill 0 ++ List.replicate size bits })

/-- draw.py 144–394: one node of a circuit (the first of `l`): its place. `first` tells whether it is the first one of the circuit, `prev` the gate of the node before
(line 199). `none`: the code raises an exception. -/
def drawNode (a c w : ℕ) (first : Bool) (prev : Option (List Char)) (s : DrawState) (l : List DrawNode) : Option (ℤ × DrawState) :=
  match l with
  | [] => none
  | .bridge :: _ => some (placeBridge a c s)
  | .node o k linked gate :: rest =>
    let plain : ℤ × DrawState :=
      let bits := linkBits (a + c) (fillBits (a + c) (usedBits a c o k)) linked
      if first = true ∨ (o = [] ∧ k = []) then placeEnd s bits else placeFit s bits
    match gate with
    | none => some plain
    | some g =>
      if first = true ∨ prev ≠ some g then
        let n := gateRun g (.node o k linked gate :: rest)
        if n / 2 > w ∨ n ≤ 1 then some plain
        else
          let r := placeGate w s (fillBits (a + c) (gateBits a c ((.node o k linked gate :: rest).take n))) n
          match r.1 with
          | [] => none
          | x :: xs => some (x, { r.2 with pending := xs })
      else match s.pending with
        | [] => none
        | x :: xs => some (x, { s with pending := xs })

/-- draw.py 144–838: all nodes of one circuit. -/
def drawNodes (a c w : ℕ) : Bool → Option (List Char) → DrawState → List DrawNode → Option (List ℤ × DrawState)
  | _, _, s, [] => some ([], s)
  | first, prev, s, n :: l => do
    let r ← drawNode a c w first prev s (n :: l)
    let t ← drawNodes a c w false n.gate r.2 l
    some (r.1 :: t.1, t.2)

/-- draw.py 93–892: the circuits drawn one after the other (each but the last ends with a bridge to the next one); a circuit without nodes raises an exception
(lines 141–142). The places of all nodes, in the order of the circuits. -/
def drawCircuits (a c w : ℕ) : List ℕ → List (List DrawNode) → Option (List ℤ × List ℕ)
  | occ, [] => some ([], occ)
  | occ, l :: ls =>
    if l = [] then none
    else do
      let r ← drawNodes a c w true none ⟨occ, []⟩ l
      let t ← drawCircuits a c w r.2.occ ls
      some (r.1 ++ t.1, t.2)

/-- draw.py 919–941: the number of nodes counted for the pages; a bridge at the end of a circuit is not counted. -/
def countedNodes (ls : List (List DrawNode)) : ℕ :=
  (ls.map (fun l => match l.getLast? with
    | some .bridge => l.length - 1
    | _ => l.length)).sum

/-- draw.py 976–981 and 132: the number of pages that are prepared, twice the number needed if each node took a position of its own. Place `x` (in the units of
`placeFit`) is on page `(x + 2) / (4 * w)`, counted from 0. -/
def preparedPages (w : ℕ) (ls : List (List DrawNode)) : ℕ :=
  2 * (if countedNodes ls % w = 0 then countedNodes ls / w else 1 + countedNodes ls / w)

end Verif
