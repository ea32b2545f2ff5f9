import Verif.Base.Py
import Verif.Base.ND
import Verif.Base.NpOps
import Verif.Base.NpMore
import Verif.Model.Ncon
import Verif.Model.Fmps
import Verif.Model.TensorTools
import Verif.Spec.EinSum
import Verif.Spec.Mps
import Verif.Spec.Partial
import Verif.Lemmas.LabelSum
import Verif.Lemmas.NconStep
import Verif.Lemmas.NconLoop
import Verif.Lemmas.NconConnect
import Verif.Lemmas.NconCheck
import Verif.Lemmas.Chain
import Verif.Props.Ncon
import Verif.Lemmas.FmpsBasic
import Verif.Lemmas.FmpsArith
import Verif.Lemmas.FmpsExamples
import Verif.Props.FmpsArith
import Verif.Props.FmpsOverlap
import Verif.Props.Tools
import Verif.Props.Legs
import Verif.Lemmas.Einsum
import Verif.Model.Structure
import Verif.Model.Spin
import Verif.Props.PartialTrace
import Verif.Props.LeviCivita
import Verif.Props.Structure
import Verif.Props.Padding
import Verif.Props.Cache
import Verif.Props.Rk4
import Verif.Props.Trajectory
import Verif.Props.RunDirs
import Verif.Props.Gates
import Verif.Spec.Lapack
import Verif.Model.Orthogonalise
import Verif.Model.Canonicalise
import Verif.Lemmas.Gauge
import Verif.Lemmas.OrthoSteps
import Verif.Lemmas.OrthoSweeps
import Verif.Lemmas.CanonSteps
import Verif.Lemmas.CanonSweeps
import Verif.Lemmas.CanonBack
import Verif.Lemmas.CanonProj
import Verif.Props.LapackExists
import Verif.Props.LapackSvd
import Verif.Props.Orthogonalise
import Verif.Lemmas.ChainNet
import Verif.Model.Expect
import Verif.Spec.Expect
import Verif.Lemmas.Expect
import Verif.Props.Expect
import Verif.Props.ExpectMore
import Verif.Props.ExpectHistory
import Verif.Spec.Schmidt
import Verif.Lemmas.CanonFull
import Verif.Lemmas.Mirror
import Verif.Lemmas.CanonRight
import Verif.Props.Canonicalise
import Verif.Props.CanonicaliseFail
import Verif.Model.ExpectCanon
import Verif.Props.ExpectCanon
import Verif.Model.FromState
import Verif.Props.FromState
import Verif.Model.TwoSite
import Verif.Spec.Gate
import Verif.Lemmas.TwoSite
import Verif.Lemmas.TwoSiteSvd
import Verif.Props.TwoSite
import Verif.Props.TwoSiteSvd
import Verif.Model.SpinOps
import Verif.Model.NBody
import Verif.Model.Hamiltonian
import Verif.Spec.Sites
import Verif.Spec.Ham
import Verif.Lemmas.Kron
import Verif.Lemmas.Ham
import Verif.Props.SpinAlgebra
import Verif.Props.SuN
import Verif.Props.NBody
import Verif.Props.Hamiltonian
import Verif.Props.Mpo
import Verif.Lemmas.Envs
import Verif.Lemmas.TensordotRest
import Verif.Model.Envs
import Verif.Props.Transfer
import Verif.Props.Envs
import Verif.Spec.Env
import Verif.Model.Tests
import Verif.Props.Tests
import Verif.Model.Isometry
import Verif.Props.Isometry
import Verif.Model.TransferMatrix
import Verif.Props.TransferMatrix
import Verif.Model.MatchGauge
import Verif.Props.MatchGauge
import Verif.Model.Tfd
import Verif.Model.TfdExpect
import Verif.Props.Tfd
import Verif.Props.TfdExpect
import Verif.Lemmas.MatBridge
import Verif.Model.Vidal
import Verif.Props.Vidal
import Verif.Spec.Mpo
import Verif.Model.Fmpo
import Verif.Lemmas.MpoNet
import Verif.Props.Fmpo
import Verif.Spec.Peps
import Verif.Model.Peps
import Verif.Props.Peps
import Verif.Model.PepsOverlap
import Verif.Props.PepsOverlap
import Verif.Spec.Imps
import Verif.Model.Imps
import Verif.Lemmas.ImpsCore
import Verif.Props.Imps
import Verif.Props.ImpsEigs
import Verif.Props.ImpsExpect
import Verif.Props.ImpsWitness
import Verif.Model.ImpsEnergy
import Verif.Props.ImpsEnergy
import Verif.Model.Mixed
import Verif.Props.Mixed
import Verif.Props.MixedWitness
import Verif.Model.DAdt
import Verif.Spec.Tangent
import Verif.Spec.Chol
import Verif.Lemmas.Tangent
import Verif.Lemmas.TangentHam
import Verif.Lemmas.DAdtTerm
import Verif.Lemmas.DAdtSite
import Verif.Lemmas.DAdtFacts
import Verif.Props.Chol
import Verif.Props.LeftNull
import Verif.Props.DAdt
import Verif.Props.Tdvp
import Verif.Props.TdvpCanon
import Verif.Model.TangentVec
import Verif.Lemmas.TangentVec
import Verif.Props.TangentVec
import Verif.Props.TangentState
import Verif.Model.Heap
import Verif.Spec.Heap
import Verif.Lemmas.Heap
import Verif.Lemmas.HeapSim
import Verif.Lemmas.HeapFrame
import Verif.Props.Heap
import Verif.Model.Expand
import Verif.Props.Expand
import Verif.Model.SpinUnitary
import Verif.Props.SpinUnitary
import Verif.Props.SpinBasis
import Verif.Props.SpinEmbed
import Verif.Props.SpinLog
import Verif.Model.ExactDiag
import Verif.Props.ExactDiag
import Verif.Model.ImpsOverlap
import Verif.Spec.ImpsOverlap
import Verif.Lemmas.MixedTransfer
import Verif.Props.ImpsOverlap
import Verif.Model.ImpsFile
import Verif.Props.ImpsFile
import Verif.Model.Examples
import Verif.Spec.Examples
import Verif.Props.Examples
import Verif.Props.ExamplesAklt
import Verif.Lemmas.BrokenNet
import Verif.Model.DAdtFull
import Verif.Lemmas.DAdtFullLinks
import Verif.Spec.FullHam
import Verif.Lemmas.DAdtFullSite
import Verif.Props.TdvpFull
import Verif.Props.DAdtWitness
import Verif.Model.ImpsTdvp
import Verif.Spec.ImpsTdvp
import Verif.Lemmas.ImpsWindow
import Verif.Props.ImpsLh
import Verif.Props.ImpsLhWitness
import Verif.Props.ImpsTdvp
import Verif.Props.ImpsTdvpWitness
import Verif.Props.ImpsRh
import Verif.Model.IvMps
import Verif.Spec.IvMps
import Verif.Props.IvMps
import Verif.Props.IvMpsWitness
import Verif.Model.PepsDense
import Verif.Props.PepsAdd
import Verif.Lemmas.PepsJoin
import Verif.Props.PepsRecombine
import Verif.Props.PepsFromMps
import Verif.Lemmas.PepsWalk
import Verif.Props.PepsBlock
import Verif.Props.PepsRho
import Verif.Model.F2
import Verif.Lemmas.MixEnv
import Verif.Lemmas.F2Term
import Verif.Lemmas.F2Site
import Verif.Lemmas.F2Ctx
import Verif.Props.F2
import Verif.Model.F1
import Verif.Lemmas.F1Term
import Verif.Lemmas.F1Site
import Verif.Lemmas.F1Value
import Verif.Props.F1
import Verif.Model.Christoffel
import Verif.Lemmas.Christoffel
import Verif.Lemmas.ChristoffelVal
import Verif.Props.Christoffel
import Verif.Model.Jac
import Verif.Lemmas.Jac
import Verif.Lemmas.F1Diag
import Verif.Lemmas.JacFacts
import Verif.Props.Jac
import Verif.Props.JacSymplectic
import Verif.Model.JacFix
import Verif.Props.JacFix
import Verif.Model.Lyapunov
import Verif.Lemmas.Symplectic
import Verif.Lemmas.LyapunovFacts
import Verif.Props.Lyapunov
import Verif.Props.TsInt
import Verif.Props.TangentBasis
import Verif.Props.LyapunovJac
import Verif.Lemmas.SchmidtUnique
import Verif.Lemmas.Entropy
import Verif.Model.TrajObs
import Verif.Props.TrajObs
import Verif.Props.TrajEntropy
import Verif.Props.TrajReads
import Verif.Lemmas.IsoGrid
import Verif.Spec.IsoPeps
import Verif.Lemmas.IsoBraket
import Verif.Lemmas.Ungroup
import Verif.Model.PepsIso
import Verif.Lemmas.IsoTensor
import Verif.Lemmas.IsoTrunc
import Verif.Lemmas.Isometrise
import Verif.Lemmas.IsoStructure
import Verif.Props.PepsIso
import Verif.Model.DynExpand
import Verif.Spec.ProjError
import Verif.Lemmas.RightNull
import Verif.Lemmas.TwoSiteTangent
import Verif.Lemmas.HamTangent
import Verif.Lemmas.ProjErr
import Verif.Lemmas.ProjErrLoop
import Verif.Props.ProjError
import Verif.Props.DynExpand
import Verif.Model.ProjFmpo
import Verif.Model.Qmb
import Verif.Spec.MpoEff
import Verif.Lemmas.MpoEnv
import Verif.Lemmas.EffTensor
import Verif.Props.ProjFmpo
import Verif.Props.EffH
import Verif.Props.Qmb
import Verif.Lemmas.GaugeFix
import Verif.Props.TdvpExact
import Verif.Spec.TfdAct
import Verif.Model.TfdTdvp
import Verif.Props.TfdTdvp
import Verif.Model.Otoc
import Verif.Props.Otoc
import Verif.Model.RhoProj
import Verif.Props.RhoProj
import Verif.Model.IsoRandom
import Verif.Props.IsoRandom
import Verif.Props.TangentDeriv
import Verif.Model.EnergySearch
import Verif.Props.EnergySearch
import Verif.Model.ProjHam
import Verif.Props.ProjHam
import Verif.Props.ProjOptimise
import Verif.Model.SpinCheck
import Verif.Props.SpinCheck
import Verif.Model.TensorMisc
import Verif.Props.TensorMisc
import Verif.Model.SvdRobust
import Verif.Props.SvdRobust
import Verif.Model.Disentangle
import Verif.Props.Disentangle
import Verif.Props.DisentangleLoop
import Verif.Props.DisentangleUp
import Verif.Props.KLocal
import Verif.Model.FindGround
import Verif.Props.FindGround
import Verif.Model.ItdvpRun
import Verif.Props.ItdvpRun
import Verif.Model.IHamOpt
import Verif.Props.IHamOpt
import Verif.Model.TfdRandom
import Verif.Props.TfdRandom
import Verif.Model.TfdSymm
import Verif.Props.TfdSymm
import Verif.Model.QmbLocal
import Verif.Props.QmbLocal
import Verif.Model.ExamplesCat
import Verif.Props.ExamplesCat
import Verif.Model.PepsFix
import Verif.Props.PepsFix
import Verif.Model.EqMps
import Verif.Props.EqMps
import Verif.Model.PepsEq
import Verif.Props.PepsEq
import Verif.Model.FmpoMake
import Verif.Props.FmpoMake
import Verif.Model.LeftLoop
import Verif.Props.LeftLoop
import Verif.Model.IvMake
import Verif.Props.IvMake
import Verif.Model.TfdVL
import Verif.Props.TfdVL
