/-
The drawn bar charts. Models src/fock_state_circuit/visualization/plot.py 125-161 (`plot`), 278-333 (`plot_correlations`), 335-406 (`plot_correlations_from_dict`);
popescu_rohrlich_correlations.py 578-639 (`plot_correlations_for_NS_boxes`) has the same body as the last one.
Exceptions are `none`. A figure is the list of calls of `ax.bar` in the order of drawing, the legend and the labels of the ticks 0, 1, 2, ... on the x-axis. Not modelled: sizes,
titles, and what matplotlib does with the calls (a bar is drawn centred at its x-value; later bars are drawn over earlier ones). Numbers are real.
-/
import Verif.Model.Plot

namespace Verif

/-- One call `ax.bar(centre, height, width=width, color=...)`. The colour is a position in the list of colours (`cycle`), or `none` for the grey background. -/
structure PlotBar where
  centre : ℝ
  height : ℝ
  width : ℝ
  color : Option ℕ

/-- What is drawn: bars in the order of drawing, the legend (colour and label), the labels of the ticks 0, 1, 2, ... -/
structure Figure (κ β : Type) where
  bars : List PlotBar
  legend : List (ℕ × β)
  ticks : List κ

/-- plot.py 127-128, 139, 148 (295-296, 306, 311, 319; 363-364, 375, 380, 393): the `i`-th of `n` bars at tick `x`. -/
noncomputable def barAt (n x i : ℕ) (h : ℝ) (color : Option ℕ) : PlotBar := ⟨(x : ℝ) + ((i : ℝ) - ((n / 2 : ℕ) : ℝ)) * (0.8 / (max n 1 : ℕ)), h, 0.8 / (max n 1 : ℕ), color⟩

/-- plot.py 136-156 (303-328, 372-401): grey background (also below the axis if `below`), then the bars, then the legend and the ticks. `rows`: for each initial state the indices of
the labels and the heights. `K` is the number of colours (line 130: ten, or the list given by the user). -/
noncomputable def drawFigure {κ β : Type} [DecidableEq κ] (K : ℕ) (below : Bool) (labels : List β) (rows : Dict κ (List (ℕ × ℝ))) : Figure κ β where
  bars := rows.flatMap (fun kb => (List.range labels.length).flatMap (fun i =>
      [barAt labels.length (rows.keys.idxOf kb.1) i 1.2 none] ++ (if below then [barAt labels.length (rows.keys.idxOf kb.1) i (-1.2) none] else [])))
    ++ rows.flatMap (fun kb => kb.2.map (fun b => barAt labels.length (rows.keys.idxOf kb.1) b.1 b.2 (some (b.1 % K))))
  legend := labels.zipIdx.map (fun b => (b.2 % K, b.1))
  ticks := rows.keys

/-- plot.py 65-161: `plot` (drawing). `none` also if there is something to draw but no colour (modulo 0). -/
noncomputable def plotFigure (g : Cfg) (m : ℕ) (initials : List (List Char)) (channels : List ℤ) (coll : Coll) (K : ℕ) : Option (Figure (List Char) Name) := do
  let chans : List ℤ := if channels = [] then (List.range m).map (fun n : ℕ => (n : ℤ)) else channels
  let items ← (coll.filter (fun p => decide (initials.length = 0) || decide (p.2.initial ∈ initials))).mapM (fun p =>
    (chans.mapM (m := Option) (pyGet p.2.classical)).map (fun vals => (p.2.initial, outcomeName g vals, p.2.cum)))
  let outs := allOutcomes (collectBars items)
  let h ← histogram g m initials channels coll
  if K = 0 ∧ outs ≠ [] then none
  else some (drawFigure K false outs (h.map (fun kb => (kb.1, kb.2.map (fun b => (outs.idxOf b.1, b.2))))))

/-- plot.py 278-290: the correlations shown by `plot_correlations`, restricted to the initial states asked for. -/
noncomputable def shownCorrelations (g : Cfg) (m : ℕ) (initials : List (List Char)) (coll : Coll) (combis : List (ℤ × ℤ)) : Option (Dict (List Char) (List ℝ)) :=
  (correlations g m coll combis).map (fun d => d.filter (fun kb => decide (initials.length = 0) || decide (kb.1 ∈ initials)))

/-- plot.py 278-333: `plot_correlations` (drawing). Line 295 divides by the number of channel combinations. -/
noncomputable def correlationFigure (g : Cfg) (m : ℕ) (initials : List (List Char)) (coll : Coll) (combis : List (ℤ × ℤ)) (K : ℕ) : Option (Figure (List Char) (ℤ × ℤ)) := do
  let d ← shownCorrelations g m initials coll combis
  if combis = [] ∨ K = 0 then none
  else some (drawFigure K true combis (d.map (fun kb => (kb.1, kb.2.zipIdx.map (fun b => (b.2, b.1))))))

/-- plot.py 338-343: an entry of the dictionary to be plotted, `{'output_state': ..., 'probability': ..., 'correlation': ...}`; the last two can be absent. -/
structure PlotEntry where
  out : Name
  prob : Option ℝ
  corr : Option ℝ

/-- plot.py 387-390: the plotted value (`none`: KeyError). -/
def PlotEntry.value (e : PlotEntry) : Option ℝ := match e.prob with
  | some p => some p
  | none => e.corr

/-- plot.py 354-359: the labels, in the order of first appearance. -/
def dictOutcomes (d : Dict (List Char) (List PlotEntry)) : List Name :=
  d.foldl (fun os kb => kb.2.foldl (fun (os : List Name) e => if e.out ∈ os then os else os ++ [e.out]) os) []

/-- plot.py 335-406: `plot_correlations_from_dict` (drawing; ten colours in line 366). Line 363 divides by the number of labels. -/
noncomputable def dictFigure (d : Dict (List Char) (List PlotEntry)) : Option (Figure (List Char) Name) :=
  let outs := dictOutcomes d
  if outs = [] then none
  else (d.mapM (fun (kb : List Char × List PlotEntry) => (kb.2.mapM (fun (e : PlotEntry) => e.value.map (fun v => (outs.idxOf e.out, v)))).map (fun l => (kb.1, l)))).map (drawFigure 10 true outs)

end Verif
