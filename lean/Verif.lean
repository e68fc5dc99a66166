import Verif.Props.Mixture
import Verif.Props.Uniform
import Verif.Props.TreePyramid
import Verif.Props.TPDensity
import Verif.Props.TPSampling
import Verif.Props.TPUnbiased
import Verif.Props.Normal
import Verif.Props.Densities
import Verif.Props.Metrics
import Verif.Props.NESS
import Verif.Props.AIS
import Verif.Props.AISUnbiased
import Verif.Props.MPMC
import Verif.Props.MPMCRun
import Verif.Props.MHRun
import Verif.Props.MHRefuted
import Verif.Props.MHConsistent
import Verif.Props.Portions
import Verif.Props.PortionsRejection
import Verif.Props.PortionsTP
import Verif.Props.Rejection
import Verif.Props.RejectionLaw
import Verif.Props.Nested
import Verif.Props.NestedSplit
import Verif.Props.MultiNested
import Verif.Props.MultiNestedRun
import Verif.Props.HiDaisee
import Verif.Props.HiDaiseeMass
import Verif.Props.Repeat
import Verif.Props.Reset
import Verif.Props.Benchmark
import Verif.Props.BenchmarkText
import Verif.Props.BenchmarkSeed
import Verif.Props.BenchmarkRepro
import Verif.Props.Plot
import Verif.Props.GMMSupport
import Verif.Model.Utils
import Verif.Props.Utils
import Verif.Model.Grid
import Verif.Props.Grid
import Verif.Model.GMM
import Verif.Props.GMM
import Verif.Model.Derived
import Verif.Props.Derived
import Verif.Model.Batch
import Verif.Props.Batch
import Verif.Props.Convergence
import Verif.Props.ConvergenceInf
import Verif.Props.MCConsistent
import Verif.Props.LAISInvariant
import Verif.Model.KDE
import Verif.Props.KDE
import Verif.Props.PopDensity
import Verif.Model.MCIntegral
import Verif.Props.MCIntegral
import Verif.Props.HiDaiseeDensity
import Verif.Props.DrawSequence
import Verif.Props.EllipsoidVolume
import Verif.Props.RunFiles
import Verif.Model.Base
import Verif.Props.Base
import Verif.Model.TPMixture
import Verif.Props.TPMixture
import Verif.Model.TPNormal
import Verif.Spec.TPNormal
import Verif.Props.TPNormal
import Verif.Model.Sample
import Verif.Spec.Sample
import Verif.Proof.Pick
import Verif.Proof.SampleLaw
import Verif.Proof.MixtureLaw
import Verif.Props.SampleShape
import Verif.Props.SampleLaw
import Verif.Spec.TPGreedy
import Verif.Proof.TPGreedy
import Verif.Proof.TPValue
import Verif.Props.TPGreedy
import Verif.Spec.TimeLimit
import Verif.Props.TimeLimit
import Verif.Proof.AdaptiveSLLN
import Verif.Proof.AISRound
import Verif.Spec.AISRun
import Verif.Proof.AISRun
import Verif.Props.AISConsistent
import Verif.Props.DMRun
import Verif.Spec.TPConsistent
import Verif.Proof.TPPotential
import Verif.Proof.TPRiemann
import Verif.Proof.TPConverge
import Verif.Proof.TPConvResample
import Verif.Proof.TPConvLoop
import Verif.Props.TPConsistent
import Verif.Spec.TPWeights
import Verif.Proof.TPCache
import Verif.Props.TPWeights
import Verif.Spec.TPLost
import Verif.Proof.TPLost
import Verif.Props.TPLost
import Verif.Spec.PMCRounds
import Verif.Proof.PMCRounds
import Verif.Props.PMCRounds
import Verif.Props.HiDaiseeWeights
import Verif.Props.AISRounds
import Verif.Model.AcceptRate
import Verif.Spec.AcceptRate
import Verif.Props.AcceptRate
import Verif.Props.TPRate
import Verif.Model.Support
import Verif.Spec.Support
import Verif.Proof.Support
import Verif.Props.Support
import Verif.Props.SupportBanana
import Verif.Props.RejectionMin
import Verif.Props.SearchSpace
import Verif.Props.RejectionRun
import Verif.Props.NestedShare
import Verif.Props.ResultText
import Verif.Props.KDELimit
import Verif.Spec.HiDaiseeLimit
import Verif.Proof.HiDaiseeChain
import Verif.Proof.HiDaiseeRun
import Verif.Props.HiDaiseeLimit
import Verif.Spec.Cost
import Verif.Proof.Cost
import Verif.Props.Cost
import Verif.Props.TPCost
import Verif.Model.Stats
import Verif.Props.Stats
import Verif.Model.Config
import Verif.Props.Config
import Verif.Model.Plots
import Verif.Props.Plots
import Verif.Model.Contour
import Verif.Props.Contour
import Verif.Model.ToDict
import Verif.Props.ToDict
import Verif.Model.Wait
import Verif.Props.Wait
import Verif.Model.ShippedRejection
import Verif.Props.ShippedRejection
import Verif.Model.Nonparam
import Verif.Props.Nonparam
import Verif.Props.MPMCFit
import Verif.Props.Scale
import Verif.Props.ScaleHiD
import Verif.Props.ScaleTP
import Verif.Props.Shift
import Verif.Props.ShiftNested
import Verif.Props.ShiftHiD
import Verif.Props.Units
import Verif.Props.UnitsHiD
import Verif.Props.UnitsNormal
import Verif.Props.AxisOrder
import Verif.Props.AxisOrderHiD
import Verif.Props.AxisOrderNested
import Verif.Model.TPEval
import Verif.Props.TPEval
