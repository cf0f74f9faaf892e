import Verif.Model.Dict
import Verif.Model.Names
import Verif.Spec.Names
import Verif.Lemmas.Names
import Verif.Lemmas.Dict
import Verif.Props.Names
import Verif.Model.Tables
import Verif.Spec.Tables
import Verif.Lemmas.Tables
import Verif.Props.Tables
import Verif.Model.TensorList
import Verif.Model.Fock
import Verif.Spec.Fock
import Verif.Lemmas.Fock2
import Verif.Lemmas.Gate
import Verif.Lemmas.FockFull
import Verif.Lemmas.TensorList
import Verif.Props.Fock
import Verif.Model.State
import Verif.Spec.State
import Verif.Lemmas.State
import Verif.Props.State
import Verif.Props.Apply
import Verif.Model.OpticalNodes
import Verif.Lemmas.OpticalNodes
import Verif.Props.OpticalNodes
import Verif.Props.Transition
import Verif.Props.BeamSplitter
import Verif.Lemmas.Decode
import Verif.Lemmas.Tensor
import Verif.Props.Tensor
import Verif.Model.Measurement
import Verif.Lemmas.Measurement
import Verif.Spec.Measurement
import Verif.Props.Measurement
import Verif.Model.Collection
import Verif.Lemmas.Collection
import Verif.Props.Collection
import Verif.Model.Reshape
import Verif.Spec.Reshape
import Verif.Lemmas.Reduce
import Verif.Lemmas.ReduceColl
import Verif.Props.Reduce
import Verif.Lemmas.Extend
import Verif.Props.Extend
import Verif.Props.AdjustLength
import Verif.Lemmas.CleanUp
import Verif.Props.CleanUp
import Verif.Model.Evaluate
import Verif.Spec.Evaluate
import Verif.Lemmas.Evaluate
import Verif.Props.Evaluate
import Verif.Model.Shift
import Verif.Spec.Shift
import Verif.Lemmas.Shift
import Verif.Props.Shift
import Verif.Model.Heap
import Verif.Spec.Heap
import Verif.Lemmas.Heap
import Verif.Lemmas.HeapEval
import Verif.Props.Heap
import Verif.Model.Classical
import Verif.Props.Classical
import Verif.Model.Plot
import Verif.Spec.Plot
import Verif.Lemmas.Plot
import Verif.Props.Plot
import Verif.Model.Operators
import Verif.Spec.Operators
import Verif.Lemmas.Operators
import Verif.Props.Operators
import Verif.Props.Operators2
import Verif.Props.Operators3
import Verif.Model.Columns
import Verif.Spec.Columns
import Verif.Lemmas.Columns
import Verif.Lemmas.Columns2
import Verif.Lemmas.Columns3
import Verif.Lemmas.Columns4
import Verif.Props.Columns
import Verif.Model.Resolved
import Verif.Spec.Resolved
import Verif.Lemmas.Resolved
import Verif.Lemmas.Resolved2
import Verif.Lemmas.Resolved3
import Verif.Lemmas.Resolved4
import Verif.Lemmas.Resolved5
import Verif.Lemmas.Resolved6
import Verif.Props.Resolved
import Verif.Props.Resolved2
import Verif.Props.Resolved3
import Verif.Model.Spectral
import Verif.Spec.Spectral
import Verif.Spec.Quick
import Verif.Lemmas.Spectral
import Verif.Lemmas.Spectral2
import Verif.Lemmas.Spectral3
import Verif.Lemmas.Spectral4
import Verif.Props.Spectral
import Verif.Props.Spectral2
import Verif.Props.Quick
import Verif.Props.Quick2
import Verif.Props.Quick3
import Verif.Model.PR
import Verif.Spec.PR
import Verif.Spec.PRRun
import Verif.Spec.PRGate
import Verif.Lemmas.PR
import Verif.Lemmas.PR2
import Verif.Lemmas.PR3
import Verif.Lemmas.PR4
import Verif.Lemmas.PR5
import Verif.Props.PR
import Verif.Lemmas.PR6
import Verif.Lemmas.PR7
import Verif.Lemmas.PR8
import Verif.Lemmas.PR9
import Verif.Props.PRGate
import Verif.Props.PRMeasure
import Verif.Props.PREntangled
import Verif.Spec.Conserve
import Verif.Lemmas.Conserve
import Verif.Lemmas.Progress
import Verif.Props.Conserve
import Verif.Model.MatrixApi
import Verif.Spec.MatrixApi
import Verif.Props.MatrixApi
import Verif.Model.OperatorNodes
import Verif.Lemmas.OneParam
import Verif.Lemmas.Quadratic
import Verif.Lemmas.OperatorNodes
import Verif.Props.OperatorNodes
import Verif.Lemmas.Truncation
import Verif.Props.Truncation
import Verif.Model.PRExperiment
import Verif.Spec.PRExperiment
import Verif.Lemmas.PRExperiment
import Verif.Lemmas.PRExperiment2
import Verif.Lemmas.PRExperiment3
import Verif.Lemmas.PRExperiment4
import Verif.Lemmas.PRExperiment5
import Verif.Props.PRExperiment
import Verif.Model.Compound
import Verif.Lemmas.Compound
import Verif.Spec.Bridge
import Verif.Lemmas.Bridge
import Verif.Lemmas.Bridge2
import Verif.Props.Bridge
import Verif.Props.Compound
import Verif.Props.Emptied
import Verif.Model.Validity
import Verif.Props.Validity
import Verif.Model.NoSignalling
import Verif.Props.NoSignalling
import Verif.Model.Session
import Verif.Lemmas.Session
import Verif.Props.Session
import Verif.Model.Spoiled
import Verif.Lemmas.Spoiled
import Verif.Props.Spoiled
import Verif.Model.Iterate
import Verif.Props.Iterate
import Verif.Model.PlotResolved
import Verif.Spec.PlotResolved
import Verif.Lemmas.PlotResolved
import Verif.Props.PlotResolved
import Verif.Spec.Creation
import Verif.Lemmas.Creation
import Verif.Props.Creation
import Verif.Spec.Interference
import Verif.Lemmas.Interference
import Verif.Lemmas.Interference2
import Verif.Lemmas.Interference3
import Verif.Props.Interference
import Verif.Model.Pipeline
import Verif.Spec.Pipeline
import Verif.Lemmas.Pipeline
import Verif.Lemmas.Pipeline2
import Verif.Lemmas.Pipeline3
import Verif.Lemmas.Pipeline4
import Verif.Lemmas.Pipeline5
import Verif.Lemmas.Pipeline6
import Verif.Lemmas.Pipeline7
import Verif.Lemmas.Pipeline8
import Verif.Lemmas.Pipeline9
import Verif.Lemmas.Pipeline10
import Verif.Props.Pipeline
import Verif.Lemmas.HongOuMandel
import Verif.Props.HongOuMandel
import Verif.Lemmas.FockForm
import Verif.Lemmas.FockForm2
import Verif.Lemmas.FockForm3
import Verif.Lemmas.FockForm4
import Verif.Lemmas.FockForm5
import Verif.Props.TotalProbability
import Verif.Lemmas.FockForm6
import Verif.Props.RelativeDelay
import Verif.Spec.QuickPipe
import Verif.Lemmas.QuickPipe
import Verif.Lemmas.QuickPipe2
import Verif.Lemmas.QuickPipe3
import Verif.Lemmas.QuickPipe4
import Verif.Lemmas.QuickPipe5
import Verif.Props.QuickPipe
import Verif.Model.SpectralArgs
import Verif.Spec.SpectralArgs
import Verif.Props.SpectralArgs
import Verif.Model.ShiftColl
import Verif.Spec.Convention
import Verif.Lemmas.Convention
import Verif.Lemmas.Convention2
import Verif.Props.Convention
import Verif.Model.CompHeap
import Verif.Spec.CompHeap
import Verif.Lemmas.CompHeap
import Verif.Lemmas.CompHeap2
import Verif.Lemmas.CompHeap3
import Verif.Lemmas.CompHeap4
import Verif.Lemmas.CompHeap5
import Verif.Props.CompHeap
import Verif.Spec.Locality
import Verif.Lemmas.Locality
import Verif.Lemmas.Locality2
import Verif.Props.Locality
import Verif.Spec.Independent
import Verif.Lemmas.Independent
import Verif.Lemmas.Independent2
import Verif.Lemmas.Independent3
import Verif.Props.Independent
import Verif.Spec.Successive
import Verif.Lemmas.Successive
import Verif.Props.Successive
import Verif.Spec.Born
import Verif.Lemmas.Born
import Verif.Props.Born
import Verif.Lemmas.Overall
import Verif.Props.Overall
import Verif.Props.Placeholder
import Verif.Spec.Pair
import Verif.Lemmas.Pair
import Verif.Props.Pair
import Verif.Props.PlateAlgebra
import Verif.Props.GroupBook
import Verif.Props.Feed
import Verif.Props.Teleport
import Verif.Props.OutcomeTable
import Verif.Props.Projections
import Verif.Props.Dephasing
import Verif.Props.Drawing
import Verif.Spec.Superposition
import Verif.Props.Superposition
import Verif.Spec.GlobalPhase
import Verif.Lemmas.GlobalPhase
import Verif.Props.GlobalPhase
import Verif.Spec.Bookkeeping
import Verif.Lemmas.Bookkeeping
import Verif.Props.Bookkeeping
import Verif.Spec.Remote
import Verif.Lemmas.Remote
import Verif.Props.Remote
import Verif.Model.ColumnObjects
import Verif.Spec.ColumnObjects
import Verif.Lemmas.ColumnObjects
import Verif.Lemmas.ColumnObjects2
import Verif.Lemmas.ColumnObjects3
import Verif.Props.ColumnObjects
import Verif.Model.HeapBridge
import Verif.Spec.HeapBridge
import Verif.Lemmas.HeapBridge
import Verif.Lemmas.HeapBridge2
import Verif.Lemmas.HeapBridge3
import Verif.Props.HeapBridge
import Verif.Spec.Perturb
import Verif.Lemmas.Perturb
import Verif.Props.Perturb
import Verif.Spec.PerturbMeasured
import Verif.Lemmas.PerturbMeasured
import Verif.Lemmas.PerturbTree
import Verif.Props.PerturbMeasured
import Verif.Spec.Network
import Verif.Lemmas.Network
import Verif.Lemmas.Network2
import Verif.Props.Network
import Verif.Spec.Environment
import Verif.Lemmas.Environment
import Verif.Props.Environment
import Verif.Model.Draw
import Verif.Spec.Draw
import Verif.Lemmas.Draw
import Verif.Lemmas.Draw2
import Verif.Lemmas.Draw3
import Verif.Lemmas.Draw4
import Verif.Props.Draw
import Verif.Model.Station
import Verif.Spec.Station
import Verif.Lemmas.Station
import Verif.Props.Station
import Verif.Model.StationLabels
import Verif.Lemmas.StationLabels
import Verif.Props.StationLabels
