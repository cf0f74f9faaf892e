/-
Histogram and correlations. Models src/fock_state_circuit/visualization/plot.py 65-123 and 181-247.
Exceptions are `none`. Simplifications: collections without photon resolution (line 80 takes the collection itself; for the others see Model/PlotResolved); only the returned
dictionaries, not the drawing; the bars of height 0 added in lines 110-114 are added in the order of first appearance (Python: order of a set).
-/
import Verif.Model.Evaluate

namespace Verif

/-- Python `int(x)` of a number: truncation. -/
noncomputable def pyTrunc (x : ℝ) : ℤ := if 0 ≤ x then ⌊x⌋ else ⌈x⌉

/-- plot.py 181-201: `_create_state_name_from_list_of_photon_numbers`: `abs(int(number) % L)` for each value, fixed width; the whole string is
reversed if channel 0 is not on the left. -/
noncomputable def outcomeName (g : Cfg) (vals : List ℝ) : Name :=
  let name := (vals.map (fun x => fmt g.digits (pyTrunc x % (g.L : ℤ)).natAbs)).flatten
  if g.left then name else name.reverse

/-- plot.py 93-100: add the probability to the first bar with this outcome, or append a new bar. -/
def addBar (o : Name) (p : ℝ) : List (Name × ℝ) → List (Name × ℝ)
  | [] => [(o, p)]
  | (n, q) :: l => if o = n then (n, q + p) :: l else (n, q) :: addBar o p l

/-- plot.py 84-100: the bars per initial state, from initial states, outcomes and probabilities. -/
def collectBars (items : List (List Char × Name × ℝ)) : Dict (List Char) (List (Name × ℝ)) :=
  items.foldl (fun d it => d.set it.1 (addBar it.2.1 it.2.2 ((d.get? it.1).getD []))) []

/-- plot.py 103-108: all outcomes. -/
def allOutcomes (d : Dict (List Char) (List (Name × ℝ))) : List Name :=
  d.foldl (fun os kb => kb.2.foldl (fun (os : List Name) b => if b.1 ∈ os then os else os ++ [b.1]) os) []

/-- plot.py 65-118: `plot(..., histo_output_instead_of_plot=True)`. -/
noncomputable def histogram (g : Cfg) (m : ℕ) (initials : List (List Char)) (channels : List ℤ) (coll : Coll) :
    Option (Dict (List Char) (List (Name × ℝ))) := do
  let channels : List ℤ := if channels = [] then (List.range m).map (fun n : ℕ => (n : ℤ)) else channels
  let items ← (coll.filter (fun p => decide (initials.length = 0) || decide (p.2.initial ∈ initials))).mapM (fun p =>
    (channels.mapM (m := Option) (pyGet p.2.classical)).map (fun vals => (p.2.initial, outcomeName g vals, p.2.cum)))
  let d := collectBars items
  let outs := allOutcomes d
  some (d.map (fun kb => (kb.1, kb.2 ++ (outs.filter (fun o => !decide (o ∈ kb.2.map Prod.fst))).map (fun o => (o, 0)))))

/-- plot.py 203-214: `_create_list_of_values_from_name`. -/
def nameValues (g : Cfg) (name : Name) : Option (List ℕ) := (chunks g.digits name).mapM pyInt?

/-- plot.py 234-245: the correlation of two channels from the bars of one initial state (`none`: IndexError or ZeroDivisionError). -/
noncomputable def correlation (g : Cfg) (bars : List (Name × ℝ)) (ab : ℤ × ℤ) : Option ℝ := do
  let r ← bars.foldlM (fun (s : ℝ × ℝ) b => do
    let vals ← nameValues g b.1
    let x ← pyGet vals ab.1
    let y ← pyGet vals ab.2
    some (if x = y then s.1 + b.2 else s.1 - b.2, s.2 + b.2)) (0, 0)
  if r.2 = 0 then none else some (r.1 / r.2)

/-- plot.py 217-247: `_correlation_from_collection`. -/
noncomputable def correlations (g : Cfg) (m : ℕ) (coll : Coll) (combis : List (ℤ × ℤ)) : Option (Dict (List Char) (List ℝ)) := do
  let h ← histogram g m [] [] coll
  h.mapM (fun kb => (combis.mapM (m := Option) (correlation g kb.2)).map (fun l => (kb.1, l)))

end Verif
