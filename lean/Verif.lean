import Verif.Props.RandomAccessSet
import Verif.Props.GraphicalModel
import Verif.Props.FactorGraph
import Verif.Props.Partition
import Verif.Props.Connectivity
import Verif.Props.Acyclic
import Verif.Props.Movemaker
import Verif.Props.ICM
import Verif.Props.Bruteforce
import Verif.Props.Walkers
import Verif.Props.Marray
import Verif.Props.FactorOps
import Verif.Props.ViewFix
import Verif.Props.Manipulator
import Verif.Props.ModelCopy
import Verif.Props.Queues
import Verif.Props.DynamicProgramming
import Verif.Props.Utilities
import Verif.Props.Operations
import Verif.Props.Partitions
import Verif.Props.FunctionValues
import Verif.Props.FunctionStructure
import Verif.Props.PottsG
import Verif.Props.SparseFunction
import Verif.Props.Serialization
import Verif.Props.GraphCut
import Verif.Props.AlphaExpansion
import Verif.Props.Sequences
import Verif.Props.Decomposition
import Verif.Props.Decomposer
import Verif.Props.DualDecomposition
import Verif.Props.Hdf5
import Verif.Props.LazyFlipper
import Verif.Props.AStar
import Verif.Props.AlphaBetaSwap
import Verif.Spec.Marginals
import Verif.Lemmas.BPMain
import Verif.Lemmas.BPMarginal
import Verif.Props.MessagePassing
import Verif.Spec.Mode
import Verif.Model.Mode
import Verif.Lemmas.ModeGraph
import Verif.Lemmas.ModeFactor
import Verif.Lemmas.ModeMain
import Verif.Lemmas.ModeLoop
import Verif.Props.Mode
import Verif.Model.DisjointSet
import Verif.Lemmas.DisjointSet
import Verif.Props.DisjointSet
import Verif.Model.InfAndFlip
import Verif.Props.InfAndFlip
import Verif.Spec.Fusion
import Verif.Model.FusionMover
import Verif.Lemmas.FusionMover
import Verif.Lemmas.FusionModel
import Verif.Lemmas.FusionEnergy
import Verif.Lemmas.FusionQpbo
import Verif.Props.FusionMover
import Verif.Spec.PseudoBoolean
import Verif.Model.HigherOrderEnergy
import Verif.Lemmas.HigherOrderEnergy
import Verif.Lemmas.HigherOrderElim
import Verif.Lemmas.HigherOrderReduce
import Verif.Props.HigherOrderEnergy
import Verif.Model.FixFusion
import Verif.Lemmas.Moebius
import Verif.Lemmas.FixFusion
import Verif.Lemmas.FixMove
import Verif.Props.Hqpbo
import Verif.Spec.Expansion
import Verif.Props.AlphaExpansionFusion
import Verif.Props.FixQpbo
import Verif.Spec.Reparametrization
import Verif.Model.Reparametrization
import Verif.Lemmas.Reparametrization
import Verif.Lemmas.ReparametrizationModel
import Verif.Lemmas.ReparametrizationSerial
import Verif.Lemmas.ReparametrizationArc
import Verif.Props.Reparametrization
import Verif.Model.Gibbs
import Verif.Lemmas.Gibbs
import Verif.Props.Gibbs
import Verif.Spec.SwendsenWang
import Verif.Model.SwendsenWang
import Verif.Lemmas.SwendsenWangEdge
import Verif.Lemmas.SwendsenWangCluster
import Verif.Lemmas.SwendsenWangBalance
import Verif.Lemmas.SwendsenWang
import Verif.Props.SwendsenWang
import Verif.Model.FactorGraphPaths
import Verif.Spec.Paths
import Verif.Lemmas.ShortestPath
import Verif.Lemmas.IsChain
import Verif.Lemmas.FactorGraphPaths
import Verif.Props.FactorGraphPaths
import Verif.Model.Learnable
import Verif.Spec.Learnable
import Verif.Lemmas.Learnable
import Verif.Props.Learnable
import Verif.Model.SoftConstraint
import Verif.Spec.SoftConstraint
import Verif.Lemmas.SoftConstraint
import Verif.Props.SoftConstraint
import Verif.Model.LinearConstraint
import Verif.Spec.LinearConstraint
import Verif.Lemmas.LinearConstraint
import Verif.Props.LinearConstraint
import Verif.Model.GreedyGremlin
import Verif.Spec.GreedyGremlin
import Verif.Lemmas.GreedyGremlin
import Verif.Props.GreedyGremlin
import Verif.Model.Spaces
import Verif.Spec.Spaces
import Verif.Props.Spaces
import Verif.Model.SingleSite
import Verif.Spec.SingleSite
import Verif.Props.SingleSite
import Verif.Model.FieldOfExperts
import Verif.Spec.FieldOfExperts
import Verif.Props.FieldOfExperts
import Verif.Model.Views
import Verif.Spec.Views
import Verif.Props.Views
import Verif.Model.Tentacle
import Verif.Spec.Tentacle
import Verif.Props.Tentacle
import Verif.Model.ExplicitModel
import Verif.Lemmas.ExplicitModel
import Verif.Props.ExplicitModel
import Verif.Model.PartitionMove
import Verif.Spec.PartitionProblem
import Verif.Lemmas.PartitionMoveKL
import Verif.Lemmas.PartitionMoveRounds
import Verif.Lemmas.PartitionMoveBuild
import Verif.Props.PartitionMove
import Verif.Model.Sat
import Verif.Spec.TwoSat
import Verif.Lemmas.Sat
import Verif.Props.Sat
import Verif.Model.ModelTrees
import Verif.Spec.ModelTrees
import Verif.Lemmas.ModelTrees
import Verif.Props.ModelTrees
import Verif.Props.Submodel
import Verif.Props.CanonicalView
import Verif.Props.PrimalBound
import Verif.Props.Iterators
import Verif.Props.DMC
import Verif.Props.MergeFactors
import Verif.Props.StartingPoint
import Verif.Props.PermutableFusion
