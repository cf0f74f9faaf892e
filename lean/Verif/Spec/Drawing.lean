/-
Independent specification of bar charts.
-/
import Verif.Model.Drawing

namespace Verif.Spec
open Verif

/-- All bars of a chart: position of the initial state (its tick), label, height. -/
def chartEntries {κ β : Type} (content : List (κ × List (β × ℝ))) : List (ℕ × β × ℝ) := content.zipIdx.flatMap (fun r => r.1.2.map (fun b => (r.2, b.1, b.2)))

/-- The two bars keep at least the distance `gap`. -/
def KeepDistance (gap : ℝ) (a b : PlotBar) : Prop := (a.width + b.width) / 2 + gap ≤ |a.centre - b.centre|

/-- The figure shows `content` (for each initial state its labels and values): one tick per initial state; in front of the grey background one bar for each entry, with the right height,
near its tick, in a colour that the legend has for its label; no two bars cover each other, and bars of different initial states keep a distance of 0.2. -/
structure ShowsChart {κ β : Type} (content : List (κ × List (β × ℝ))) (f : Figure κ β) : Prop where
  ticks : f.ticks = content.map Prod.fst
  bars : ∃ (grey : List PlotBar) (shown : List (ℕ × β × PlotBar)), f.bars = grey ++ shown.map (fun s => s.2.2) ∧ (∀ b ∈ grey, b.color = none) ∧
    shown.map (fun s => (s.1, s.2.1, s.2.2.height)) = chartEntries content ∧
    (∀ s ∈ shown, 0 < s.2.2.width ∧ |s.2.2.centre - s.1| ≤ 0.4 ∧ ∃ c, s.2.2.color = some c ∧ (c, s.2.1) ∈ f.legend) ∧
    shown.Pairwise (fun s t => KeepDistance (if s.1 = t.1 then 0 else 0.2) s.2.2 t.2.2)

/-- The dictionary for `plot_correlations_from_dict` asks for this chart: each entry gives its label and its probability, or its correlation if there is no probability. -/
def AsksFor (d : Dict (List Char) (List PlotEntry)) (content : List (List Char × List (Name × ℝ))) : Prop :=
  List.Forall₂ (fun kb kc => kb.1 = kc.1 ∧ List.Forall₂ (fun (e : PlotEntry) (b : Name × ℝ) => e.out = b.1 ∧ (e.prob = some b.2 ∨ (e.prob = none ∧ e.corr = some b.2))) kb.2 kc.2) d content

/-- Every colour of the legend has one label. -/
def ClearLegend {κ β : Type} (f : Figure κ β) : Prop := ∀ c o o', (c, o) ∈ f.legend → (c, o') ∈ f.legend → o = o'

end Verif.Spec
