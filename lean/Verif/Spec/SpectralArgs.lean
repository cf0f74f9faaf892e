/-
Independent specification of the arguments of the spectral nodes.
-/
import Verif.Model.SpectralArgs
import Verif.Spec.Spectral

namespace Verif.Spec
open Verif

/-- The channel with number `k` of `C` channels; negative numbers count from the end. -/
def channelNumber (C : ℕ) (k : ℤ) : ℕ := if k < 0 then ((C : ℤ) + k).toNat else k.toNat

/-- The delay argument stands for the delay source: a number, or the number of a classical channel. -/
def DelayMeans : DelayArg → DelaySource → Prop
  | .value t, .value t' => t = t'
  | .classical k, .classical n => k = n
  | _, _ => False

/-- A list of channel numbers that are not negative stands for these channels. -/
def ListMeans (a : ChArg) (chs : List ℕ) : Prop := a = .many (chs.map (fun n : ℕ => (n : ℤ)))

/-- A single number stands for one channel. -/
def OneMeans (a : ChArg) (chs : List ℕ) : Prop := ∃ n : ℕ, a = .one n ∧ chs = [n]

/-- The pulse width of a quick delay: the argument pulse_width if it is given, otherwise the inverse of the bandwidth, 1 by default. -/
def WidthMeans (pw bw : Option ℝ) (w : ℝ) : Prop := pw = some w ∨ (pw = none ∧ ∃ b, bw = some b ∧ b ≠ 0 ∧ w = b⁻¹) ∨ (pw = none ∧ bw = none ∧ w = 1)

/-- What a call stands for. -/
def CallMeans (g : Cfg) : SCall → SNode → Prop
  | .optical M tl, .optical M' tl' => M = M' ∧ tl = tl'
  | .delay a d w, .delay chs d' w' => ListMeans a chs ∧ DelayMeans d d' ∧ w = w'
  | .quick a d pw bw, .quick chs d' w => (ListMeans a chs ∨ OneMeans a chs) ∧ DelayMeans d d' ∧ WidthMeans pw bw w
  | .width a w, .width chs w' => (ListMeans a chs ∨ (a = .missing ∧ 0 < g.C ∧ chs = List.range g.C)) ∧ w = w'
  | .measure opt cls, .measure opt' cls' => opt = opt' ∧ cls = cls'
  | _, _ => False

end Verif.Spec
