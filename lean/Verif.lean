import Verif.Symmetry.Props
import Verif.Core.Props
import Verif.Tensor.Props
import Verif.Name.Props
import Verif.Cow.Props
import Verif.Transpose.Props
import Verif.EdgeMisc.Props
import Verif.EdgeMisc.MergeProps
import Verif.EdgeMisc.MergePlaces
import Verif.EdgeMisc.StepProps
import Verif.Scalar.Props
import Verif.TensorMisc.Props
import Verif.Contract.Props
import Verif.Contract.Restrict
import Verif.Contract.Sectors
import Verif.Contract.FermiProps
import Verif.Contract.FuseProps
import Verif.Trace.Props
import Verif.Shrink.Props
import Verif.Svd.CutProps
import Verif.Misc.Const
import Verif.Misc.Timer
import Verif.Pmr.Props
import Verif.Pmr.Scope
import Verif.Mpi.Props
import Verif.Lazy.Props
import Verif.Io.BinaryProps
import Verif.Io.TextProps
import Verif.Io.TextMore
import Verif.Io.TextTail
import Verif.Qr.Props
import Verif.Qr.Witness
import Verif.Svd.Props
import Verif.Svd.Witness
import Verif.Expo.Model
import Verif.Expo.Matrix
import Verif.Expo.Pade
import Verif.Expo.Run
import Verif.Expo.Pairs
import Verif.Expo.Scatter
import Verif.Expo.Spec
import Verif.Expo.Blocks
import Verif.Expo.Whole
import Verif.Expo.Reference
import Verif.Expo.Props
import Verif.Expo.Witness
import Verif.Square.Model
import Verif.Square.TableLemmas
import Verif.Square.TableProps
import Verif.Square.ErgodicLemmas
import Verif.Square.ErgodicProps
import Verif.Square.MarkovLemmas
import Verif.Square.MarkovProps
import Verif.Square.UpdateModel
import Verif.Square.OrderLemmas
import Verif.Square.OrderProps
import Verif.Square.UpdateLemmas
import Verif.Square.UpdateProps
import Verif.Square.DumpModel
import Verif.Square.DumpLemmas
import Verif.Square.DumpProps
import Verif.Square.Dense
import Verif.Square.DenseDecomp
import Verif.Square.DenseArith
import Verif.Square.DenseNew
import Verif.Square.ExactModel
import Verif.Square.ExactNames
import Verif.Square.ExactLemmas
import Verif.Square.ExactApply
import Verif.Square.ExactProps
import Verif.Square.AuxModel
import Verif.Square.AuxLegs
import Verif.Square.AuxLine
import Verif.Square.AuxSum
import Verif.Square.AuxStack
import Verif.Square.AuxLadder
import Verif.Square.AuxWindow
import Verif.Square.AuxCalls
import Verif.Square.AuxGrid
import Verif.Square.AuxProps
import Verif.Square.NetModel
import Verif.Square.NetSum
import Verif.Square.NetSpec
import Verif.Square.NetLegs
import Verif.Square.ConvLemmas
import Verif.Square.ConvProps
import Verif.Square.NetExample
import Verif.Square.SpinModel
import Verif.Square.SpinProps
import Verif.Square.SpinRun
import Verif.Square.SpinExample
import Verif.Square.DenseCut
import Verif.Square.BondAlgebra
import Verif.Square.BondCore
import Verif.Square.BondUpdate
import Verif.Square.UpdateNet
import Verif.Square.UpdateStep
import Verif.Square.UpdateBond
import Verif.Square.SimpleRun
import Verif.Square.SimpleProps
import Verif.Square.SimpleExample
import Verif.Square.CutProps
import Verif.Square.CutExample
import Verif.Square.GradModel
import Verif.Square.DenseGrad
import Verif.Square.GradSpec
import Verif.Square.GradHole
import Verif.Square.GradRun
import Verif.Square.GradProps
import Verif.Square.GradDerivative
import Verif.Square.GradExample
import Verif.Square.GradReal
import Verif.Square.StartModel
import Verif.Square.StartProps
import Verif.Square.SeedModel
import Verif.Square.SeedProps
import Verif.Square.PauliProps
import Verif.Square.StartExample
import Verif.Decomp.Isometry
import Verif.Qr.Orthonormal
import Verif.Svd.Orthonormal
import Verif.Svd.Norm
import Verif.Svd.NormCase
import Verif.Svd.Best
import Verif.Svd.BestProps
import Verif.Recorded
import Verif.Contract.Laws
import Verif.Contract.Laws2
import Verif.Contract.WhenOk
import Verif.Contract.LawProps
import Verif.Contract.LawCases
import Verif.Trace.LawCases
import Verif.Trace.LawCasesB
import Verif.Trace.LawCasesC
import Verif.Square.MixLemmas
import Verif.Square.MixClass
import Verif.Square.MixProps
import Verif.Square.MixRun
import Verif.Square.MixExample
import Verif.Square.MixGrad
import Verif.Square.MixGradCase
import Verif.Contract.LinearCases
import Verif.Contract.MixedCases
import Verif.Contract.InnerProps
import Verif.Py.BlockCases
import Verif.Py.DispatchProps
import Verif.Py.ViewCases
import Verif.Square.DescentCases
import Verif.Mps.Cases
import Verif.Mps.UpdateCases
import Verif.Grid.Cases
import Verif.Diag.Cases
import Verif.Torus.Cases
import Verif.Torus.LinesCases
import Verif.Ed.Cases
import Verif.Ed.Limit
import Verif.Ed.LimitCases
