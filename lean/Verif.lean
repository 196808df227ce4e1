import Verif.Props.UnionFind
import Verif.Props.PriorityQueues
import Verif.Props.NOI
import Verif.Props.MutableGraph
import Verif.Props.NOIMutable
import Verif.Props.GraphAccess
import Verif.Props.Tools
import Verif.Props.Inexact
import Verif.Props.Structure
import Verif.Spec.Multiterminal
import Verif.Spec.MulticutProblem
import Verif.Model.Multicut
import Verif.Proof.Multicut
import Verif.Proof.Arcs
import Verif.Proof.MulticutProblem
import Verif.Proof.MulticutDelete
import Verif.Proof.HighDegree
import Verif.Proof.LowDegree
import Verif.Proof.Isolating
import Verif.Proof.Twins
import Verif.Proof.MulticutCheck
import Verif.Props.Multiterminal
import Verif.Model.MulticutBounds
import Verif.Proof.MulticutBounds
import Verif.Props.MulticutBounds
import Verif.Model.Branching
import Verif.Proof.Branching
import Verif.Proof.BranchChoice
import Verif.Props.Branching
import Verif.Model.LocalSearch
import Verif.Spec.LocalSearch
import Verif.Proof.LocalSearch
import Verif.Proof.LocalFlow
import Verif.Props.LocalSearch
import Verif.Model.PushRelabel
import Verif.Proof.PushRelabel
import Verif.Proof.PushRelabelStep
import Verif.Proof.PushRelabelDischarge
import Verif.Proof.PushRelabelGlobal
import Verif.Proof.PushRelabelSolve
import Verif.Proof.PushRelabelCut
import Verif.Props.PushRelabel
import Verif.Props.ParallelUF
import Verif.Props.ParallelCapforest
import Verif.Props.ParallelMinCut
import Verif.Props.WorkQueue
import Verif.Props.Transmit
import Verif.Props.GraphIO
import Verif.Model.Dynamic
import Verif.Spec.Dynamic
import Verif.Proof.DynamicPath
import Verif.Proof.DynamicMerge
import Verif.Proof.Dynamic
import Verif.Props.Dynamic
import Verif.Model.Cactus
import Verif.Spec.Cactus
import Verif.Proof.CactusPendant
import Verif.Proof.CactusKernel
import Verif.Proof.CactusUnpack
import Verif.Proof.CactusLocations
import Verif.Proof.CactusValue
import Verif.Proof.MutableSimple
import Verif.Proof.CactusReference
import Verif.Props.Cactus
import Verif.Model.BranchBound
import Verif.Proof.BranchRefine
import Verif.Proof.Simplify
import Verif.Proof.BranchBound
import Verif.Props.BranchBound
import Verif.Model.STCactus
import Verif.Proof.ChainCuts
import Verif.Proof.STCactusPath
import Verif.Proof.STCactusTable
import Verif.Proof.STCactusOrder
import Verif.Proof.STCactusBuild
import Verif.Proof.STCactusSpec
import Verif.Proof.STCactusFlow
import Verif.Props.STCactus
import Verif.Model.AllCutRed
import Verif.Proof.AllCutRed
import Verif.Props.AllCutRed
import Verif.Spec.Balanced
import Verif.Model.BalancedCut
import Verif.Proof.BalancedWindow
import Verif.Proof.BalancedTree
import Verif.Proof.BalancedCuts
import Verif.Proof.BalancedCycle
import Verif.Proof.BalancedDFS
import Verif.Proof.BalancedMark
import Verif.Props.Balanced
import Verif.Model.Articulation
import Verif.Spec.Articulation
import Verif.Proof.ArticulationDFS
import Verif.Proof.ArticulationLow
import Verif.Proof.ArticulationMerge
import Verif.Proof.ArticulationPass
import Verif.Props.Articulation
import Verif.Model.KernelNOI
import Verif.Proof.KernelNOI
import Verif.Props.KernelNOI
import Verif.Spec.MulticutDriver
import Verif.Model.MulticutDriver
import Verif.Proof.GroupContract
import Verif.Proof.MulticutDriver
import Verif.Props.MulticutDriver
import Verif.Model.Terminals
import Verif.Spec.Terminals
import Verif.Proof.Terminals
import Verif.Proof.Distant
import Verif.Props.Terminals
import Verif.Model.VectorIO
import Verif.Props.VectorIO
import Verif.Spec.CactusPieces
import Verif.Model.HeavyEdges
import Verif.Proof.CactusOps
import Verif.Proof.CactusPieces
import Verif.Proof.HeavyLeaf
import Verif.Proof.HeavyEdges
import Verif.Proof.CyclePart
import Verif.Props.HeavyEdges
import Verif.Model.GraphModification
import Verif.Proof.Glue
import Verif.Proof.GlueVertices
import Verif.Proof.GlueCactus
import Verif.Proof.CanonizeCuts
import Verif.Proof.CanonizeContract
import Verif.Proof.CanonizeJoints
import Verif.Proof.CanonizeDelete
import Verif.Proof.CanonizeTriangle
import Verif.Proof.CanonizeReplace
import Verif.Proof.CanonizeSearch
import Verif.Proof.CanonizeParity
import Verif.Proof.CanonizeSpec
import Verif.Proof.CactusCheck
import Verif.Props.GraphModification
import Verif.Model.ParallelPR
import Verif.Proof.ParallelPR
import Verif.Props.ParallelPR
import Verif.Model.ParallelContract
import Verif.Proof.ParallelContract
import Verif.Proof.ParallelContractWrite
import Verif.Proof.ParallelContractMutable
import Verif.Proof.ParallelContractProgress
import Verif.Props.ParallelContract
import Verif.Proof.ParallelContractMesh
import Verif.Proof.ParallelContractNumber
import Verif.Props.ParallelRound
import Verif.Model.RecursiveCactus
import Verif.Props.RecursiveCactus
import Verif.Proof.RecFlow
import Verif.Proof.RecSplit
import Verif.Proof.RecComponent
import Verif.Proof.TidyOps
import Verif.Proof.RecMerge
import Verif.Proof.RecLeaf
import Verif.Proof.RecMain
import Verif.Proof.RecPick
import Verif.Proof.PrefixCuts
import Verif.Proof.PrefixTurn
import Verif.Proof.QueueLast
import Verif.Proof.TurnOrder
import Verif.Proof.CycleLayout
import Verif.Proof.ChainCost
import Verif.Proof.ChainBuild
import Verif.Proof.ChainLoop
import Verif.Proof.ChainAll
import Verif.Proof.STCycles
import Verif.Proof.RecSize
import Verif.Model.CactusRun
import Verif.Proof.CactusRun
import Verif.Props.CactusRun
import Verif.Model.FlowEdge
import Verif.Proof.FlowEdge
import Verif.Props.FlowEdge
import Verif.Model.EdgeSelection
import Verif.Proof.EdgeSelection
import Verif.Props.EdgeSelection
import Verif.Proof.CactusShape
import Verif.Proof.CactusRunShape
import Verif.Props.CactusRunShape
import Verif.Proof.CactusRunMutable
import Verif.Props.CactusRunMutable
import Verif.Model.CactusFile
import Verif.Spec.CactusFile
import Verif.Proof.CactusFile
import Verif.Props.CactusFile
import Verif.Proof.CactusFileIds
import Verif.Props.CactusFileIds
import Verif.Model.TemporalIO
import Verif.Spec.TemporalIO
import Verif.Proof.TemporalIO
import Verif.Props.TemporalIO
import Verif.Model.CutFile
import Verif.Spec.CutFile
import Verif.Props.CutFile
import Verif.Model.LargestComponent
import Verif.Spec.LargestComponent
import Verif.Proof.LargestComponent
import Verif.Props.LargestComponent
