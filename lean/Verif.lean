import Verif.Arc.Bank
import Verif.Arc.Examples
import Verif.Arc.Idle
import Verif.Arc.Lift
import Verif.Arc.Merged
import Verif.Arc.Model
import Verif.Arc.Names
import Verif.Arc.Plan
import Verif.Arc.Props
import Verif.Beam.C77
import Verif.Beam.C78
import Verif.Beam.C78Examples
import Verif.Beam.Cantilever
import Verif.Beam.Complete
import Verif.Beam.Examples
import Verif.Beam.Model
import Verif.Beam.Modes
import Verif.Beam.Names
import Verif.Beam.Net
import Verif.Beam.Omega
import Verif.Beam.Props
import Verif.Beam.Roots
import Verif.Beam.Spec
import Verif.Beam.Waves
import Verif.Circuit.Build
import Verif.Circuit.Classify
import Verif.Circuit.ClassifyProps
import Verif.Circuit.ClassifyRows
import Verif.Circuit.Contract
import Verif.Circuit.Dynamic
import Verif.Circuit.DynamicExamples
import Verif.Circuit.DynamicProps
import Verif.Circuit.Error
import Verif.Circuit.ErrorExamples
import Verif.Circuit.Exact
import Verif.Circuit.Examples
import Verif.Circuit.Linear
import Verif.Circuit.LinearExamples
import Verif.Circuit.Method
import Verif.Circuit.Model
import Verif.Circuit.Passive
import Verif.Circuit.Props
import Verif.Circuit.Quad
import Verif.Circuit.QuadForm
import Verif.Circuit.Run
import Verif.Circuit.RunExamples
import Verif.Circuit.Spec
import Verif.Circuit.Total
import Verif.Circuit.TotalExamples
import Verif.Circuit.Unique
import Verif.Circuit.UniqueExamples
import Verif.Compo.DissExamples
import Verif.Compo.DissProps
import Verif.Compo.Lemmas
import Verif.Compo.Model
import Verif.Compo.Pwl
import Verif.Compo.PwlProps
import Verif.Compo.StorProps
import Verif.Compo.ThermProps
import Verif.Const.Cpp
import Verif.Const.CppExamples
import Verif.Const.CppSimu
import Verif.Const.Examples
import Verif.Const.File
import Verif.Const.Mask
import Verif.Const.Model
import Verif.Const.Props
import Verif.Copy.Alias
import Verif.Copy.Lemmas
import Verif.Copy.Model
import Verif.Copy.Props
import Verif.Copy.Refine
import Verif.Copy.Spec
import Verif.Core.ConnLemmas
import Verif.Core.ConnProps
import Verif.Core.Model
import Verif.Core.MoveLemmas
import Verif.Core.MoveProps
import Verif.Core.PowerProps
import Verif.Core.ReduceProps
import Verif.Core.Spec
import Verif.Core.Split
import Verif.Core.SplitProps
import Verif.Core.StructProps
import Verif.Core.SumProps
import Verif.Cpp.Equiv
import Verif.Cpp.EquivInit
import Verif.Cpp.EquivMethod
import Verif.Cpp.EquivStep
import Verif.Cpp.EquivUpdate
import Verif.Cpp.Model
import Verif.Cpp.Params
import Verif.Cpp.Run
import Verif.Cpp.SampleRate
import Verif.Cpp.Simu
import Verif.Cpp.SimuMethod
import Verif.Cpp.SimuProps
import Verif.Cpp.SimuRun
import Verif.Faust.Circuit
import Verif.Faust.InvMat
import Verif.Faust.Iter
import Verif.Faust.Lemmas
import Verif.Faust.Model
import Verif.Faust.Process
import Verif.Faust.Props
import Verif.Faust.Python
import Verif.Faust.PythonProps
import Verif.Frac.C61
import Verif.Frac.Core
import Verif.Frac.Examples
import Verif.Frac.Lemmas
import Verif.Frac.Model
import Verif.Frac.Net
import Verif.Frac.Props
import Verif.Frac.Spec
import Verif.Graph.Build
import Verif.Graph.Connectors
import Verif.Graph.Controls
import Verif.Graph.Erase
import Verif.Graph.Inv
import Verif.Graph.Kirchhoff
import Verif.Graph.Lemmas
import Verif.Graph.Link
import Verif.Graph.Merge
import Verif.Graph.MergeNet
import Verif.Graph.MergeProps
import Verif.Graph.MergeStorage
import Verif.Graph.Model
import Verif.Graph.Order
import Verif.Graph.Props
import Verif.Graph.Repeat
import Verif.Graph.Run
import Verif.Graph.Steps
import Verif.Graph.Unlock
import Verif.H5.Chunk
import Verif.H5.Data
import Verif.H5.DataProps
import Verif.H5.Read
import Verif.H5.ReadProps
import Verif.H5.RunProps
import Verif.H5.Slice
import Verif.H5.Window
import Verif.Juce.Block
import Verif.Juce.Examples
import Verif.Juce.Method
import Verif.Juce.Model
import Verif.Juce.Props
import Verif.Juce.Spec
import Verif.Juce.Stream
import Verif.Mat.Lemmas
import Verif.Mat.Model
import Verif.Mat.Spec
import Verif.Netlist.Edit
import Verif.Netlist.Examples
import Verif.Netlist.Lemmas
import Verif.Netlist.Model
import Verif.Netlist.Props
import Verif.Numeric.Contract
import Verif.Numeric.Deps
import Verif.Numeric.Exists
import Verif.Numeric.HistoryProps
import Verif.Numeric.Init
import Verif.Numeric.Interp
import Verif.Numeric.IterProps
import Verif.Numeric.Lambdify
import Verif.Numeric.Monotone
import Verif.Numeric.Newton
import Verif.Numeric.NonsingProps
import Verif.Numeric.Program
import Verif.Numeric.Slots
import Verif.Numeric.StepExamples
import Verif.Numeric.StepProps
import Verif.Numeric.Total
import Verif.Numeric.TotalExamples
import Verif.Numeric.Unique
import Verif.Params.Lemmas
import Verif.Params.Model
import Verif.Params.Names
import Verif.Params.Props
import Verif.Params.Spec
import Verif.Pickup.Examples
import Verif.Pickup.Model
import Verif.Pickup.Net
import Verif.Pickup.Observe
import Verif.Pickup.Props
import Verif.Pickup.Spec
import Verif.Record.Examples
import Verif.Record.Model
import Verif.Record.Power
import Verif.Record.Props
import Verif.Scheme.BalanceExamples
import Verif.Scheme.BalanceProps
import Verif.Scheme.GradExamples
import Verif.Scheme.GradProps
import Verif.Scheme.Lemmas
import Verif.Scheme.Method
import Verif.Scheme.MethodLemmas
import Verif.Scheme.Model
import Verif.Scheme.SplitExact
import Verif.Signals.Model
import Verif.Signals.Props
import Verif.Signals.Wav
import Verif.Signals.Lowpass
import Verif.Signals.LowpassProps
import Verif.Signals.Transfer
import Verif.Signals.TransferProps
import Verif.Signals.Wave
import Verif.Signals.WaveProps
import Verif.Doc.Table
import Verif.Doc.TableProps
import Verif.Doc.Line
import Verif.Doc.LineProps
import Verif.Sim.Config
import Verif.Sim.ConfigProps
import Verif.Split.Assemble
import Verif.Split.Flow
import Verif.Split.Main
import Verif.Split.Model
import Verif.Split.Parallel
import Verif.Split.Props
import Verif.Split.Serial
import Verif.Split.Spec
import Verif.Split.Walk
import Verif.Sym.EvalPoint
import Verif.Sym.Inverse
import Verif.Sym.InverseProps
import Verif.Sym.Model
import Verif.Sym.Props
import Verif.System.Assemble
import Verif.System.Build
import Verif.System.Circuit
import Verif.System.Equations
import Verif.System.Examples
import Verif.System.Linear
import Verif.System.Model
import Verif.System.Power
import Verif.System.Props
import Verif.System.Rows
import Verif.System.Spec
import Verif.Tools.Lemmas
import Verif.Tools.Model
import Verif.Tools.Props
import Verif.Nonlin.Spec
import Verif.Nonlin.Model
import Verif.Nonlin.Rows
import Verif.Nonlin.RowsNl
import Verif.Nonlin.Build
import Verif.Nonlin.Generic
import Verif.Nonlin.Gradient
import Verif.Nonlin.Equations
import Verif.Nonlin.Power
import Verif.Nonlin.Props
import Verif.Nonlin.Unique
import Verif.Nonlin.Exists
import Verif.Nonlin.Examples
