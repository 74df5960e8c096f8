import Verif.Compiler.Props
import Verif.Compiler.Printing
import Verif.Compiler.PrintingNodes
import Verif.Symbolic.DofDesc
import Verif.Symbolic.Expr
import Verif.Symbolic.Tagger
import Verif.Symbolic.ProxyExpr
import Verif.Symbolic.QBXPre
import Verif.Symbolic.InterpPre
import Verif.Symbolic.IntGEq
import Verif.Symbolic.Derivative
import Verif.Collection.Props
import Verif.Exec.MatVec
import Verif.Exec.BMat
import Verif.Exec.MatBuild
import Verif.Exec.MatAccept
import Verif.Exec.ClusterMat
import Verif.Linalg.IndexList
import Verif.Linalg.GmresExact
import Verif.Linalg.GmresReasons
import Verif.Linalg.Muller
import Verif.QBX.TargetAssoc
import Verif.QBX.AreaQuery
import Verif.Util.Stores
import Verif.QBX.Dofs
import Verif.QBX.Tree
import Verif.QBX.Checks
import Verif.QBX.Refine
import Verif.Util.Scan
import Verif.QBX.Geometry
import Verif.QBX.FMM
import Verif.QBX.FMMLib
import Verif.QBX.Cost
import Verif.QBX.Direct
import Verif.Source.SortTogether
import Verif.Source.Copy
import Verif.Source.Memo
import Verif.Surface.SmallMat
import Verif.Surface.Frames
import Verif.Linalg.Proxy
import Verif.Linalg.Neighbors
import Verif.Linalg.Partition
import Verif.Linalg.Skeleton
import Verif.PDE.Expr
import Verif.PDE.Scalar
import Verif.PDE.ScalarProps
import Verif.PDE.ScalarWitness
import Verif.PDE.Stokes
import Verif.PDE.StokesProps
import Verif.PDE.Beltrami
import Verif.PDE.BeltramiProps
import Verif.Source.Exec
import Verif.Source.ExecProps
import Verif.Source.Dtype
import Verif.Exec.Norms
import Verif.Exec.NormsProps
import Verif.PDE.Maxwell
import Verif.PDE.MaxwellProps
import Verif.PDE.MaxwellMueller
import Verif.QBX.CostTotals
import Verif.QBX.CostTotalsProps
import Verif.QBX.CostBound
import Verif.Linalg.SkelError
import Verif.Linalg.SkelWeights
import Verif.PDE.Plate
import Verif.Surface.Curvature
import Verif.Surface.Radii
import Verif.Linalg.Vdot
import Verif.Bind.Model
import Verif.Bind.Passes
import Verif.Bind.Props
import Verif.Symbolic.Gradient
import Verif.QBX.Paths
import Verif.Symbolic.LayerOps
import Verif.QBX.Setup
import Verif.Linalg.GmresKrylov
import Verif.QBX.Legendre
import Verif.QBX.LegendreGen
import Verif.QBX.TsModel
import Verif.QBX.TsLaplace
import Verif.QBX.TsLaplaceProps
import Verif.QBX.SphBessel
import Verif.QBX.Addition
import Verif.QBX.TsHelmModel
import Verif.QBX.TsHelm
import Verif.QBX.TsMiller
import Verif.QBX.TsMillerAcc
import Verif.QBX.TsHelmProps
import Verif.Bind.Unreg
import Verif.Util.Tight
import Verif.QBX.TsHelmGrad
import Verif.QBX.TsEvalModel
import Verif.QBX.TsEvalRun
import Verif.QBX.TsEval
import Verif.QBX.TsBridge
import Verif.QBX.TsTiny
import Verif.PDE.FlowCalculus
import Verif.PDE.FlowKernels
import Verif.PDE.Flow
import Verif.PDE.FlowProps
import Verif.QBX.TsMillerMid
import Verif.QBX.RefineGeom
import Verif.Symbolic.Dispatch
import Verif.Bind.Linear
import Verif.Exec.LayerMat
import Verif.Compiler.Dataflow
import Verif.Bind.Layer
import Verif.Bind.Matrix
import Verif.Exec.MatTotal
import Verif.Bind.MatrixTotal
import Verif.Symbolic.IntGEqFull
import Verif.Exec.ClusterLayer
import Verif.Linalg.GmresBreakdown
import Verif.QBX.RefineDefault
import Verif.Linalg.SkelBound
import Verif.PDE.Solve
import Verif.Bind.FmmLayer
import Verif.Compiler.Sound
import Verif.Bind.Exact
import Verif.Bind.LayerExact
import Verif.Bind.Collapse
import Verif.Symbolic.QBXNest
import Verif.Bind.Nested
import Verif.Symbolic.Flatten
import Verif.Bind.Flatten
import Verif.Bind.Prepare
import Verif.Bind.LinearGen
import Verif.Compiler.Crash
import Verif.QBX.OwnCenter
import Verif.Compiler.Twice
import Verif.Bind.LayerAvg
import Verif.Symbolic.RefDeriv
import Verif.Surface.GA
import Verif.Surface.GAGram
import Verif.PDE.Waveguide
import Verif.Symbolic.Graph
