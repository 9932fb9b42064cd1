import Verif.Props.History
import Verif.Props.Inbox
import Verif.Props.Agent
import Verif.Props.Network
import Verif.Props.Construct
import Verif.Props.Weights
import Verif.Props.Schemes
import Verif.Props.Selection
import Verif.Props.Compression
import Verif.Props.Run
import Verif.Props.P2P
import Verif.Props.Alias
import Verif.Props.Fed
import Verif.Props.FedDrift
import Verif.Props.FedMore
import Verif.Props.Checkpoint
import Verif.Props.Rng
import Verif.Props.Benchmark
import Verif.Props.FedLocal
import Verif.Props.Partition
import Verif.Props.LabelQuantity
import Verif.Model.Batch
import Verif.Props.Batch
import Verif.Props.BatchMore
import Verif.Props.CostsCalc
import Verif.Lemmas.Descent
import Verif.Props.CostsConst
import Verif.Props.CostsProx
import Verif.Props.CostAlgebra
import Verif.Props.CostCompose
import Verif.Model.Solver
import Verif.Lemmas.Convergence
import Verif.Props.Solver
import Verif.Props.SolverRates
import Verif.Props.SolverLimits
import Verif.Model.Metrics
import Verif.Props.Metrics
import Verif.Props.Aggregate
import Verif.Model.Progress
import Verif.Props.Progress
import Verif.Model.Display
import Verif.Props.Display
import Verif.Model.StateMetrics
import Verif.Props.StateMetrics
import Verif.Props.StateMetricsMore
import Verif.Model.Elbow
import Verif.Props.Elbow
import Verif.Lemmas.Consensus
import Verif.Lemmas.Rates
import Verif.Props.Rates
import Verif.Model.Admm
import Verif.Lemmas.Tell
import Verif.Lemmas.Arcs
import Verif.Lemmas.Admm
import Verif.Props.Admm
import Verif.Props.AdmmMore
import Verif.Lemmas.Variance
import Verif.Props.Variance
import Verif.Model.FedPd
import Verif.Lemmas.FedPd
import Verif.Props.FedPd
import Verif.Lemmas.FedPdRate
import Verif.Props.FedPdRate
import Verif.Props.FedRate
import Verif.Lemmas.FedRest
import Verif.Props.FedRest
import Verif.Model.RuntimeMetric
import Verif.Props.RuntimeMetric
import Verif.Props.RuntimeValues
import Verif.Model.TorchCost
import Verif.Props.TorchBatch
import Verif.Props.TorchEval
import Verif.Props.TorchTrain
import Verif.Model.Iop
import Verif.Props.IopOps
import Verif.Props.IopMemory
import Verif.Props.IopConvert
import Verif.Props.IopCost
import Verif.Lemmas.SmallStep
import Verif.Lemmas.SmallStep2
import Verif.Props.Tracking
import Verif.Props.PrimalDual
import Verif.Lemmas.CoinTape
import Verif.Props.ProxSkip
import Verif.Props.Limits
import Verif.Model.BenchDir
import Verif.Lemmas.BenchDir
import Verif.Props.BenchDir
import Verif.Model.MetricsFile
import Verif.Props.MetricsFile
import Verif.Model.Problems
import Verif.Props.Problems
import Verif.Lemmas.RandomArcs
import Verif.Lemmas.AdmmLoss
import Verif.Props.AdmmRandom
import Verif.Lemmas.Sampling
import Verif.Props.FedSample
import Verif.Model.Params
import Verif.Props.Params
import Verif.Model.Tables
import Verif.Props.Tables
import Verif.Model.Logging
import Verif.Props.Logging
import Verif.Model.Handlers
import Verif.Props.Handlers
import Verif.Model.Linearised
import Verif.Lemmas.Linearised
import Verif.Props.Linearised
import Verif.Model.Mlp
import Verif.Lemmas.Mlp
import Verif.Props.Mlp
import Verif.Model.CkptNames
import Verif.Lemmas.CkptNames
import Verif.Props.CkptNames
import Verif.Model.Starts
import Verif.Props.Starts
import Verif.Lemmas.FedLtRate
import Verif.Props.FedLtRate
import Verif.Lemmas.Tape
import Verif.Props.Frequencies
import Verif.Props.FedLossy
import Verif.Lemmas.LossyAny
import Verif.Props.LossyDgd
import Verif.Model.Results
import Verif.Props.Results
import Verif.Props.FedChance
import Verif.Model.Topology
import Verif.Lemmas.Topology
import Verif.Props.Topology
import Verif.Props.FedNovaRate
import Verif.Model.Views
import Verif.Props.Views
import Verif.Props.FedOptStep
import Verif.Model.Metadata
import Verif.Props.Metadata
import Verif.Model.Backup
import Verif.Props.Backup
import Verif.Props.FedBias
