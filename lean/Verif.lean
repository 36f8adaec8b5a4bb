import Verif.Props.Matvec1
import Verif.Props.Matvec2
import Verif.Props.Matvec3
import Verif.Props.MatvecSplit
import Verif.Props.Assembly
import Verif.Props.Blocks
import Verif.Props.Convert1
import Verif.Props.Convert2
import Verif.Props.Convert2b
import Verif.Props.ConvertVbr
import Verif.Props.Convert
import Verif.Props.Sort
import Verif.Props.Bswap
import Verif.Props.Ranges
import Verif.Props.Vector
import Verif.Props.VectorAccess
import Verif.Props.CsrOps
import Verif.Props.CsrScale
import Verif.Props.CsrSolve
import Verif.Props.CsrExamples
import Verif.Props.Machine
import Verif.Props.SolverStatus
import Verif.Props.SolverResidual
import Verif.Props.SolverDoc
import Verif.Props.Orthomin
import Verif.Props.Idrs
import Verif.Props.Idr1
import Verif.Props.IdrsExamples
import Verif.Props.Tfqmr
import Verif.Props.BicgstablExamples
import Verif.Props.GmresExamples
import Verif.Props.MinresExamples
import Verif.Props.Stationary
import Verif.Props.Precon
import Verif.Props.ArraySolver
import Verif.Props.ArrayStationary
import Verif.Props.SolverExamples
import Verif.Props.Array
import Verif.Props.ArraySolve
import Verif.Props.Hash
import Verif.Props.Args
import Verif.Props.Options
import Verif.Props.Memory
import Verif.Props.MMIO
import Verif.Props.MMRoundTrip
import Verif.Props.MMFindings
import Verif.Props.SolveScale
import Verif.Props.SolveScaleFindings
import Verif.Props.Esolver
import Verif.Props.EsolverExact
import Verif.Props.EsolverCsr
import Verif.Props.EsolverFindings
import Verif.Props.Mpi
import Verif.Props.MpiSolver
import Verif.Props.MpiFindings
import Verif.Props.Omp
import Verif.Props.OmpFindings
import Verif.Props.IluExamples
import Verif.Model.AnyOps
import Verif.Spec.DiagOps
import Verif.Lemmas.AnyOps
import Verif.Props.AnyScale
import Verif.Props.AnyScaleBlk
import Verif.Props.AnyScaleVbr
import Verif.Lemmas.AnyDiag
import Verif.Lemmas.AnyDiag2
import Verif.Lemmas.AnyDiag3
import Verif.Lemmas.AnyDiag4
import Verif.Props.AnyDiag
import Verif.Props.AnyShift
import Verif.Props.AnyMatScale
import Verif.Props.AnyFindings
import Verif.Model.Lifetime
import Verif.Spec.Lifetime
import Verif.Lemmas.Lifetime
import Verif.Props.Lifetime
import Verif.Props.LifetimeUse
import Verif.Spec.CgExact
import Verif.Lemmas.CgExact
import Verif.Props.CgExact
import Verif.Props.CgArray
import Verif.Props.CgExamples
import Verif.Spec.Converge
import Verif.Lemmas.Converge
import Verif.Props.Converge
import Verif.Props.ConvergeCsr
import Verif.Props.ConvergeExamples
import Verif.Lemmas.CrExact
import Verif.Props.CrExact
import Verif.Props.CrArray
import Verif.Model.GramSchmidt
import Verif.Spec.GramSchmidt
import Verif.Lemmas.GramSchmidt
import Verif.Lemmas.GramSchmidt2
import Verif.Lemmas.GramSchmidt3
import Verif.Lemmas.QrAlg
import Verif.Props.GramSchmidt
import Verif.Model.Quad
import Verif.Spec.Fp
import Verif.Spec.FpRound
import Verif.Lemmas.Fp
import Verif.Lemmas.FpRound
import Verif.Lemmas.TwoSum
import Verif.Lemmas.TwoProd
import Verif.Lemmas.Quad
import Verif.Lemmas.Quad2
import Verif.Lemmas.Quad3
import Verif.Props.Quad
import Verif.Model.QuadVec
import Verif.Spec.QuadVec
import Verif.Lemmas.QuadVec
import Verif.Props.QuadVec
import Verif.Model.PreconIs
import Verif.Spec.PreconIs
import Verif.Lemmas.PreconIs
import Verif.Lemmas.PreconIs2
import Verif.Lemmas.PreconIs3
import Verif.Props.PreconIs
import Verif.Model.Adds
import Verif.Spec.Adds
import Verif.Props.Adds
import Verif.Spec.Stale
import Verif.Lemmas.Clean
import Verif.Lemmas.Clean2
import Verif.Lemmas.Clean3
import Verif.Lemmas.Clean4
import Verif.Lemmas.Sem
import Verif.Props.Stale
import Verif.Model.Hybrid
import Verif.Props.Hybrid
import Verif.Props.HybridExamples
import Verif.Model.Dispatch
import Verif.Props.Dispatch
import Verif.Model.Sainv
import Verif.Spec.Sainv
import Verif.Lemmas.Sainv
import Verif.Props.Sainv
import Verif.Props.SainvEx
import Verif.Model.Ilut
import Verif.Spec.Ilut
import Verif.Lemmas.Ilut
import Verif.Lemmas.Ilut2
import Verif.Lemmas.Ilut3
import Verif.Props.Ilut
import Verif.Model.EsolverCg
import Verif.Spec.EsolverCg
import Verif.Lemmas.EsolverCg
import Verif.Lemmas.EsolverCgExact
import Verif.Props.EsolverCg
import Verif.Props.EsolverCgExact
import Verif.Props.EsolverCgFindings
import Verif.Model.EsolverDriver
import Verif.Spec.EsolverDriver
import Verif.Props.EsolverDriver
import Verif.Model.EsolverLife
import Verif.Spec.EsolverLife
import Verif.Props.EsolverLife
import Verif.Model.Lanczos
import Verif.Model.Arnoldi
import Verif.Spec.Lanczos
import Verif.Props.Lanczos
import Verif.Props.Arnoldi
import Verif.Props.LanczosFindings
import Verif.Model.EsolverSi
import Verif.Spec.EsolverSi
import Verif.Props.EsolverSi
import Verif.Props.EsolverSiExact
import Verif.Model.VecIO
import Verif.Spec.VecIO
import Verif.Props.VecIO
import Verif.Props.VecRoundTrip
import Verif.Model.MatOps
import Verif.Props.MatOps
import Verif.Props.ShiftIgnored
import Verif.Model.EsolverGsi
import Verif.Spec.EsolverGsi
import Verif.Lemmas.EsolverGsi
import Verif.Props.EsolverGsi
import Verif.Props.EsolverGsiExact
import Verif.Props.EsolverGsiFindings
import Verif.Model.InputHb
import Verif.Spec.InputHb
import Verif.Lemmas.InputHb
import Verif.Props.InputHb
import Verif.Props.InputHbErrors
import Verif.Props.InputHbExamples
import Verif.Model.DiagBlock
import Verif.Spec.BlockJacobi
import Verif.Lemmas.DiagBlock
import Verif.Props.DiagBlock
import Verif.Props.BlockJacobi
import Verif.Props.BlockJacobiExamples
import Verif.Model.SolveBsr
import Verif.Spec.BlockTri
import Verif.Lemmas.SolveBsr
import Verif.Props.SolveBsr
import Verif.Props.SolveBsrExamples
import Verif.Model.SolvehBsr
import Verif.Lemmas.SolvehBsr
import Verif.Props.SolvehBsr
import Verif.Props.SolvehBsrExamples
import Verif.Model.SolveCscMsr
import Verif.Props.SolveCscMsr
import Verif.Props.SolveCscMsrExamples
import Verif.Model.SolveDnsEll
import Verif.Props.TriSweep
import Verif.Props.SolveDnsEll
import Verif.Props.SolveDnsEllExamples
import Verif.Model.SolveDia
import Verif.Props.SolveDia
import Verif.Model.SolveJad
import Verif.Props.SolveJad
import Verif.Spec.BlockTr
import Verif.Model.SolveBsc
import Verif.Props.SolveBsc
import Verif.Props.SolveBscExamples
