import Verif.Model.Py
import Verif.Model.Tensor
import Verif.Model.QMath
import Verif.Model.QTensorNetwork
import Verif.Model.QOperator
import Verif.Model.QLayers
import Verif.Model.QCircuit
import Verif.Model.Measure
import Verif.Spec
import Verif.SpecInstr
import Verif.SpecLayer
import Verif.SpecTN
import Verif.SpecExp
import Verif.Build
import Verif.BuildLayer
import Verif.Lemmas.Index
import Verif.Lemmas.Bits
import Verif.Lemmas.Kron
import Verif.Lemmas.View
import Verif.Lemmas.SpecOps
import Verif.Lemmas.Gates
import Verif.Lemmas.Unitary
import Verif.Lemmas.Reject
import Verif.Lemmas.Layers
import Verif.Lemmas.Rings
import Verif.Lemmas.Items
import Verif.Lemmas.Circ
import Verif.Lemmas.Permute
import Verif.Lemmas.Contract
import Verif.Lemmas.Embed
import Verif.Lemmas.ContractOps
import Verif.Lemmas.ContractItems
import Verif.Lemmas.Amp
import Verif.Lemmas.Nd
import Verif.Lemmas.MpsVec
import Verif.Lemmas.Svd
import Verif.Lemmas.Decomp
import Verif.Lemmas.Merge
import Verif.Lemmas.MpsOps
import Verif.Lemmas.SwapChain
import Verif.Lemmas.MpsGates
import Verif.Lemmas.SvMps
import Verif.Lemmas.DecompRun
import Verif.Lemmas.MpsTensor
import Verif.Lemmas.SvdExists
import Verif.Lemmas.Holds
import Verif.Lemmas.MpsCircuit
import Verif.Lemmas.LosslessEx
import Verif.Lemmas.Expect
import Verif.Lemmas.Expval
import Verif.Lemmas.MeasureL
import Verif.SpecTrace
import Verif.Lemmas.PTrace
import Verif.Lemmas.PTraceRun
import Verif.Lemmas.PTraceOld
import Verif.Lemmas.Inner
import Verif.Lemmas.RhoMps
import Verif.SpecGrad
import Verif.Lemmas.Shift
import Verif.Lemmas.OpMono
import Verif.Lemmas.Grad
import Verif.Lemmas.GradEx
import Verif.Lemmas.Grad2
import Verif.Lemmas.Grad2Ex
import Verif.Model.Embedding
import Verif.Lemmas.Embedding
import Verif.Model.QGate
import Verif.SpecLegacy
import Verif.Lemmas.Legacy
import Verif.Lemmas.LegacyCalls
import Verif.Model.Quanv
import Verif.SpecQuanv
import Verif.Lemmas.Quanv
import Verif.Lemmas.BadWires
import Verif.Lemmas.NegWires
import Verif.SpecBond
import Verif.Lemmas.Bonds
import Verif.SpecQLayer
import Verif.Model.QLayer
import Verif.Lemmas.QLayerL
import Verif.Lemmas.KronOp
import Verif.SpecRepeat
import Verif.Lemmas.Repeat
import Verif.SpecAccuracy
import Verif.Lemmas.Contr
import Verif.Lemmas.Within
import Verif.Lemmas.Small
import Verif.Model.Objects
import Verif.Lemmas.Objects
import Verif.Lemmas.Shared
import Verif.Lemmas.SharedEx
import Verif.Lemmas.GradApprox
import Verif.Lemmas.Grad2Approx
import Verif.Model.InPlace
import Verif.Lemmas.InPlace
import Verif.Lemmas.InPlaceGrad
import Verif.SpecLayout
import Verif.Model.Layout
import Verif.Model.LayoutOps
import Verif.Lemmas.Stride
import Verif.Lemmas.LayoutSim
import Verif.Lemmas.LayoutTN
import Verif.Lemmas.LayoutGate
import Verif.Lemmas.LayoutCircuit
import Verif.Lemmas.LayoutType
import Verif.Model.Train
import Verif.Lemmas.ZeroState
import Verif.Lemmas.Train
import Verif.Model.ShiftDemo
import Verif.Model.Hybrid
import Verif.Model.Qnn
import Verif.Lemmas.Rows
import Verif.Model.Shadow
import Verif.Lemmas.Window
import Verif.Lemmas.Shadow
import Verif.Model.Cdo
import Verif.Lemmas.Cdo
import Verif.Lemmas.Sim
import Verif.Lemmas.CdoSim
import Verif.Model.Info
import Verif.SpecInfo
import Verif.Model.Classify
import Verif.Model.Methods
import Verif.Lemmas.Methods
import Verif.Model.DaggerTest
import Verif.Model.TnTest
import Verif.Lemmas.Ghz
import Verif.Model.Script
import Verif.SpecCut
import Verif.Lemmas.Schmidt
import Verif.SpecSpan
import Verif.Lemmas.Frame
import Verif.Lemmas.Local
import Verif.Model.BornScript
import Verif.Model.QmathTest
import Verif.SpecKL
import Verif.SpecGrowth
import Verif.Lemmas.Growth
import Verif.SpecTrig
import Verif.Lemmas.TrigPoly
import Verif.Model.DemoNet
import Verif.Lemmas.DemoNet
import Verif.Model.QuanNet
import Verif.Lemmas.QuanNet
import Verif.Model.ShadowNet
import Verif.SpecRewrite
import Verif.Lemmas.Rewrite
import Verif.SpecLip
import Verif.Lemmas.Lipschitz
import Verif.SpecRho
import Verif.Lemmas.RhoCanon
import Verif.Model.TrainNet
import Verif.Lemmas.Fit
import Verif.Lemmas.FitNet
import Verif.Lemmas.Strings
import Verif.Lemmas.StringsNet
import Verif.Lemmas.Random
import Verif.Lemmas.Moments
import Verif.Model.SelfTest
import Verif.Model.Round
import Verif.SpecRound
import Verif.Lemmas.RoundExact
import Verif.Lemmas.RoundNorm
import Verif.Lemmas.RoundGate
import Verif.Lemmas.RoundCircuit
import Verif.Lemmas.RoundBinary
import Verif.Lemmas.RoundAngles
import Verif.Model.RoundMeasure
import Verif.SpecRoundMeasure
import Verif.Model.RoundLayers
import Verif.SpecRoundLayers
import Verif.Model.RoundGrad
import Verif.SpecRoundGrad
import Verif.Model.RoundDescent
import Verif.SpecDescent
import Verif.Model.RoundTrace
import Verif.Model.RoundChecks
import Verif.Props.Gates
import Verif.Props.Layers
import Verif.Props.Circuit
import Verif.Props.Contract
import Verif.Props.Mps
import Verif.Props.Decomp
import Verif.Props.Reshape
import Verif.Props.Expect
import Verif.Props.Measure
import Verif.Props.Predicates
import Verif.Props.PTrace
import Verif.Props.MpsInner
import Verif.Props.RhoMps
import Verif.Props.Grad
import Verif.Props.Grad2
import Verif.Props.Embedding
import Verif.Props.Legacy
import Verif.Props.Quanv
import Verif.Props.Support
import Verif.Props.BadWires
import Verif.Props.Bonds
import Verif.Props.LegacyMeasure
import Verif.Props.QLayer
import Verif.Props.Repeat
import Verif.Props.RepeatedControls
import Verif.Props.Accuracy
import Verif.Props.Paths
import Verif.Props.Objects
import Verif.Props.Shared
import Verif.Props.EncCircuit
import Verif.Props.GradAccuracy
import Verif.Props.InPlace
import Verif.Props.Layout
import Verif.Props.DType
import Verif.Props.Train
import Verif.Props.ShiftDemo
import Verif.Props.Hybrid
import Verif.Props.Qnn
import Verif.Props.Shadow
import Verif.Props.Cdo
import Verif.Props.CdoState
import Verif.Props.Info
import Verif.Props.Classify
import Verif.Props.DaggerTest
import Verif.Props.TnTest
import Verif.Props.Script
import Verif.Props.Schmidt
import Verif.Props.Frame
import Verif.Props.Local
import Verif.Props.BornScript
import Verif.Props.QmathTest
import Verif.Props.Growth
import Verif.Props.Fourier
import Verif.Props.DemoNet
import Verif.Props.QuanNet
import Verif.Props.ShadowNet
import Verif.Props.Rewrite
import Verif.Props.Lipschitz
import Verif.Props.RhoCanon
import Verif.Props.Fit
import Verif.Props.Represent
import Verif.Props.Random
import Verif.Props.Plateau
import Verif.Props.SelfTest
import Verif.Props.Round
import Verif.Props.RoundMeasure
import Verif.Props.RoundLayers
import Verif.Props.RoundGrad
import Verif.Props.Descent
import Verif.Props.RoundDescent
import Verif.Props.FileRate
import Verif.Props.Stuck
import Verif.Props.RoundRho
import Verif.Props.RoundTrace
import Verif.Props.RoundChecks
