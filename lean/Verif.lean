import Verif.Props.Basis
import Verif.Props.Circuit
import Verif.Props.Computer
import Verif.Props.ComputerErr
import Verif.Props.ExpVal
import Verif.Props.Gates
import Verif.Props.QubitOperator
import Verif.Props.Sparse
import Verif.Props.Fermion
import Verif.Props.JW
import Verif.Props.JWForty
import Verif.Props.Lifecycle
import Verif.Props.Expo
import Verif.Props.QFT
import Verif.Props.Helper
import Verif.Props.StatePrep
import Verif.Props.MatrixElement
import Verif.Props.Spin
import Verif.Props.Oracles
import Verif.Props.QubitPool
import Verif.Props.SQPool
import Verif.Props.UCCPool
import Verif.Props.GSDPool
import Verif.Props.SaPool
import Verif.Props.Transforms
import Verif.Props.TransformsJW
import Verif.Props.TaperKernel
import Verif.Props.TaperComm
import Verif.Props.TaperGroup
import Verif.Props.TaperAbelian
import Verif.Props.TaperParity
import Verif.Props.TaperSym
import Verif.Props.TaperMain
import Verif.Props.TaperUnitary
import Verif.Props.TaperApply
import Verif.Props.TaperOp
import Verif.Props.TaperSep
import Verif.Props.TaperFinal
import Verif.Props.TaperC67
import Verif.Props.Compact
import Verif.Props.CompactMain
import Verif.Props.CompactGsd
import Verif.Props.CompactGsd2
import Verif.Props.TrotterExact
import Verif.Props.SQPoolQubit
import Verif.Props.UccAnsatz
import Verif.Props.UccGradient
import Verif.Props.UccGradient3
import Verif.Props.UccCompact
import Verif.Props.PQE
import Verif.Props.Penalty
import Verif.Props.Jacobi
import Verif.Props.GEig
import Verif.Props.Krylov
import Verif.Props.Experiment
import Verif.Props.Hadamard
import Verif.Props.SaAnsatz
import Verif.Props.QPERun
import Verif.Props.Qite
import Verif.Props.QiteRun
import Verif.Props.Ritz
import Verif.Props.QSD
import Verif.Props.QLanczos
import Verif.Props.QitePool
import Verif.Props.QiteDescent
import Verif.Props.QiteExample
import Verif.Props.Adapt
import Verif.Props.AdaptRun
import Verif.Props.AdaptTotal
import Verif.Props.AdaptExample
import Verif.Props.SpqePool
import Verif.Props.SpqeResidual
import Verif.Props.SpqeSelect
import Verif.Props.SpqeUpdate
import Verif.Props.SpqeRun
import Verif.Props.SpqeLoop
import Verif.Props.SpqeSampled
import Verif.Props.SpqeEstimate
import Verif.Props.SpqeExample
import Verif.Props.IO
import Verif.Props.TFIM
import Verif.Props.PointGroups
import Verif.Props.ExternalMol
import Verif.Props.PsiMol
import Verif.Props.PsiRef
import Verif.Props.Symmetry
import Verif.Props.Symmetry2
import Verif.Props.Moments
import Verif.Props.MomentSpace
import Verif.Props.MomentEnergy
import Verif.Props.OrbEnergies
import Verif.Props.Algorithm
import Verif.Props.AlgorithmArgs
import Verif.Props.UccRun
import Verif.Props.PqeRun
import Verif.Props.Mrsqk
import Verif.Props.MrsqkRun
import Verif.Props.Latex
import Verif.Props.TrotterConv
import Verif.Props.QPEOverlap
import Verif.Props.UccTrotterGrad
import Verif.Props.SaGradient
import Verif.Props.SaRefute
import Verif.Props.SaCompact
import Verif.Props.Resources
import Verif.Props.ResourcesUcc
import Verif.Props.ResourcesQk
import Verif.Props.Commutator
import Verif.Props.CommutatorCheck
import Verif.Props.SummaryFile
import Verif.Props.QiteStep
import Verif.Props.ComputerEq
import Verif.Props.Print
import Verif.Props.QiteOddY
import Verif.Props.EvenY
import Verif.Props.CommutatorPar
import Verif.Props.Builds
import Verif.Props.AdaptCount
import Verif.Props.NtSrqk
import Verif.Props.JacobiCount
import Verif.Props.ResidualSq
import Verif.Props.SpqeCount
import Verif.Props.Rerun
import Verif.Props.PenaltyEven
import Verif.Props.KrylovMono
import Verif.Props.SectorEx
import Verif.Props.SectorStay
import Verif.Props.Relabel
import Verif.Props.LanczosFile
import Verif.Props.LanczosMono
import Verif.Props.ZeroKrylov
import Verif.Props.ZeroUcc
import Verif.Props.ZeroQite
import Verif.Props.ZeroExample
import Verif.Props.Kept
import Verif.Props.UnitsKrylov
import Verif.Props.UnitsUcc
import Verif.Props.UnitsQite
import Verif.Props.RefOrder
import Verif.Props.KeptRank
import Verif.Props.UnitsRun
import Verif.Props.TimeReversal
import Verif.Props.PrintPool
import Verif.Props.HamForm
import Verif.Props.HamFormQite
