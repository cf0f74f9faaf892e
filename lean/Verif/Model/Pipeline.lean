/-
Circuits of optical and spectral nodes. Models evaluate_circuit (circuit.py 273-580) for collections whose states carry photon information.
Exceptions are `none`. Floats are idealised; the conventions of Model/Spectral and Model/Evaluate hold. Simplifications: the other types of nodes are not included; all nodes of the
circuit are evaluated, in order; the number of splitting rounds is limited by `fuel` (the code has no limit).
-/
import Verif.Model.Spectral
import Verif.Model.Evaluate
import Verif.Model.PlotResolved

namespace Verif

/-- circuit.py 721-753 applied to a collection whose states carry auxiliary information: the copy at line 722 keeps the auxiliary information (state.py 434-439, a deep copy) and lines
724-752 change optical components only. Simplification: the identifiers of the states (random in the code) are their positions, written as decimal numbers. -/
noncomputable def opticalResolved (c : Circ) (n : Opt × List ℕ) (l : List (Opt × List ℕ)) (coll : List AState) : Option (List AState) :=
  (opticalColl c n l (coll.zipIdx.map (fun sk => (pyStr sk.2, sk.1.q)))).map (fun out => (out.zip coll).map (fun es => ⟨es.1.2, es.2.aux⟩))

/-- The nodes of a circuit: optical nodes (optical_nodes.py), time delay (full and quick) and pulse width (spectral_nodes.py 93-284), measurement (measurement_nodes.py 18-61). -/
inductive SNode where
  | optical (M : Opt) (tl : List ℕ)
  | delay (chs : List ℕ) (d : DelaySource) (w : ℝ)
  | quick (chs : List ℕ) (d : DelaySource) (w : ℝ)
  | width (chs : List ℕ) (w : ℝ)
  | measure (opt cls : List ℕ)

/-- The steps of an evaluation: optical nodes that follow each other are one step. -/
inductive Stage where
  | optics (n : Opt × List ℕ) (l : List (Opt × List ℕ))
  | delay (chs : List ℕ) (d : DelaySource) (w : ℝ)
  | quick (chs : List ℕ) (d : DelaySource) (w : ℝ)
  | width (chs : List ℕ) (w : ℝ)
  | measure (opt cls : List ℕ)

/-- circuit.py 323-338: collect the optical nodes that follow each other. -/
def stagesOf : List SNode → List Stage
  | [] => []
  | .optical M tl :: rest =>
    match stagesOf rest with
    | .optics n l :: st => .optics (M, tl) (n :: l) :: st
    | st => .optics (M, tl) [] :: st
  | .delay chs d w :: rest => .delay chs d w :: stagesOf rest
  | .quick chs d w :: rest => .quick chs d w :: stagesOf rest
  | .width chs w :: rest => .width chs w :: stagesOf rest
  | .measure opt cls :: rest => .measure opt cls :: stagesOf rest

/-- circuit.py 348-358 (optical nodes), 518-527 (the spectral nodes are functions on the collection, temporal_functions.py), 402-419 (measurement; only the case of a photon-resolved
collection is included here). -/
noncomputable def runStage (c : Circ) (fuel : ℕ) (coll : List AState) : Stage → Option (List AState)
  | .optics n l => opticalResolved c n l coll
  | .delay chs d w => timeDelayFull c.g fuel chs d w coll
  | .quick chs d w => timeDelayQuick c.g fuel chs d w coll
  | .width chs w => setPulseWidth c.g fuel chs w coll
  | .measure opt cls => if isPhotonResolved coll then measureCollection c.g fuel opt cls coll else none

/-- circuit.py 273-580: step by step; the recursive calls evaluate the remaining nodes. -/
noncomputable def runStages (c : Circ) (fuel : ℕ) (stages : List Stage) (coll : List AState) : Option (List AState) := stages.foldlM (runStage c fuel) coll

/-- circuit.py 273-580: evaluation of a circuit with the given nodes. -/
noncomputable def evalSpectral (c : Circ) (fuel : ℕ) (nodes : List SNode) (coll : List AState) : Option (List AState) := runStages c fuel (stagesOf nodes) coll

end Verif
