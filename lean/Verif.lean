import Verif.Tree
import Verif.Tiles
import Verif.Splitting
import Verif.ClusterBuild
import Verif.ClusterLemmas
import Verif.ClusterCounter
import Verif.Props.Tree
import Verif.Props.Splitting
import Verif.Props.Cluster
import Verif.BlockTree
import Verif.BlockLemmas
import Verif.BlockSym
import Verif.ClusterWF
import Verif.Props.BlockTree
import Verif.Numbering
import Verif.Props.Numbering
import Verif.ClusterSep
import Verif.Geometry
import Verif.Props.Geometry
import Verif.HMat
import Verif.HProd
import Verif.HProdRM
import Verif.Props.HProd
import Verif.Props.HProdRM
import Verif.HOps
import Verif.HBuild
import Verif.Assembled
import Verif.Props.HOps
import Verif.Props.HBuild
import Verif.LocalOp
import Verif.Distributed
import Verif.Props.LocalOp
import Verif.Props.Distributed
import Verif.Props.DistributedT
import Verif.Props.DistributedOps
import Verif.Props.DistributedBuilt
import Verif.Dense
import Verif.Props.Dense
import Verif.MatrixMemory
import Verif.Props.MatrixMemory
import Verif.ByteFiles
import Verif.Props.ByteFiles
import Verif.LowRank
import Verif.Aca
import Verif.Props.LowRank
import Verif.Props.Aca
import Verif.Svd
import Verif.Props.Svd
import Verif.Props.Lapack
import Verif.Compressors
import Verif.Props.Accuracy
import Verif.Logger
import Verif.Props.Logger
import Verif.Ddm
import Verif.Props.Ddm
import Verif.Geneo
import Verif.Props.Geneo
import Verif.ClusterIO
import Verif.Props.ClusterIO
import Verif.Props.ClusterCrash
import Verif.HLin
import Verif.HLinRep
import Verif.HLinProd
import Verif.HLinProd2
import Verif.HLinProd3
import Verif.HLinProd4
import Verif.HLinProd5
import Verif.HLinMask
import Verif.HLinBuild
import Verif.Props.HLinProd
import Verif.HLinTri
import Verif.HLinTri2
import Verif.HLinTri3
import Verif.HLinTri4
import Verif.HLinTri5
import Verif.Props.HLinSolve
import Verif.HLinFact
import Verif.HLinNum
import Verif.HLinLU
import Verif.HLinLU2
import Verif.HLinSub
import Verif.HLinLU3
import Verif.HLinPerm
import Verif.HLinPLU
import Verif.Props.HLinLU
import Verif.HLinChol
import Verif.HLinChol2
import Verif.HLinChol3
import Verif.Props.HLinChol
import Verif.Props.CholPosDef
import Verif.Overlap
import Verif.Props.Overlap
import Verif.LocalSolvers
import Verif.Props.LocalSolvers
import Verif.Props.MixedProd
import Verif.Direction
import Verif.Props.Direction
import Verif.HOutput
import Verif.Props.HOutput
import Verif.HLinBuilt
import Verif.HLinArity
import Verif.Props.HLinBuilt
import Verif.Admissibility
import Verif.Props.Admissibility
import Verif.Vectors
import Verif.Props.Vectors
import Verif.Props.Text
import Verif.ClusterText
import Verif.Props.ClusterText
import Verif.DdmInfo
import Verif.Props.DdmInfo
import Verif.GeneoBuilder
import Verif.Props.GeneoBuilder
import Verif.LrStats
import Verif.Props.LrStats
import Verif.SolverBuffer
import Verif.Props.SolverBuffer
import Verif.Report
import Verif.Props.Report
import Verif.TreeMoves
import Verif.Props.TreeMoves
import Verif.TreeData
import Verif.Props.TreeData
import Verif.Props.DenseBuilt
import Verif.IntRange
import Verif.Props.IntRange
import Verif.TwoLevel
import Verif.Props.TwoLevel
import Verif.Props.TwoLevelBuilt
import Verif.HLinAcc
import Verif.HLinAcc2
import Verif.HLinAcc3
import Verif.HLinAcc4
import Verif.Props.HLinAcc
import Verif.Props.SymBuilt
import Verif.Props.MixedAcc
import Verif.Props.MixedBuilt
import Verif.HLinTriAcc
import Verif.HLinTriAcc2
import Verif.HLinTriAcc3
import Verif.Props.HLinTriAcc
import Verif.HLinLUAcc
import Verif.HLinLUAcc2
import Verif.HLinPivots
import Verif.Props.HLinLUAcc
import Verif.HLinCholAcc
import Verif.HLinCholAcc2
import Verif.HLinCholPivots
import Verif.Props.HLinCholAcc
import Verif.TreeParams
import Verif.Props.TreeParams
import Verif.Props.HLinTriBuilt
import Verif.BuilderArgs
import Verif.Props.BuilderArgs
