import Verif.Model.Basic
import Verif.Model.Bids
import Verif.Model.Call
import Verif.Model.Curves
import Verif.Model.Datasets
import Verif.Model.Float
import Verif.Model.FloatDatasets
import Verif.Model.FloatHuang
import Verif.Model.FloatMuda
import Verif.Model.FloatP2P
import Verif.Model.FloatProcessing
import Verif.Model.FloatStats
import Verif.Model.FloatUniform
import Verif.Model.Huang
import Verif.Model.Ieee
import Verif.Model.Market
import Verif.Model.MarketOrders
import Verif.Model.Mechanism
import Verif.Model.MergeMissing
import Verif.Model.MergeMissingPrices
import Verif.Model.MergeUnlimited
import Verif.Model.Missing
import Verif.Model.MissingPrices
import Verif.Model.Muda
import Verif.Model.MudaMarketOrders
import Verif.Model.MudaMissingPrices
import Verif.Model.MudaUnlimited
import Verif.Model.Nan
import Verif.Model.P2P
import Verif.Model.Plot
import Verif.Model.Processing
import Verif.Model.RandomState
import Verif.Model.Stats
import Verif.Model.Transactions
import Verif.Model.Uniform
import Verif.Model.Unlimited
import Verif.Spec.Basic
import Verif.Spec.Call
import Verif.Spec.Datasets
import Verif.Spec.Envy
import Verif.Spec.Float
import Verif.Spec.FloatDatasets
import Verif.Spec.Graph
import Verif.Spec.GroupReports
import Verif.Spec.Groups
import Verif.Spec.LP
import Verif.Spec.MarketOrders
import Verif.Spec.MergeMissing
import Verif.Spec.MergeMissingPrices
import Verif.Spec.MergeUnlimited
import Verif.Spec.Mirror
import Verif.Spec.Missing
import Verif.Spec.MissingPrices
import Verif.Spec.Muda
import Verif.Spec.MudaMarketOrders
import Verif.Spec.MudaUnlimited
import Verif.Spec.Nudge
import Verif.Spec.Outcome
import Verif.Spec.Profit
import Verif.Spec.Remainder
import Verif.Spec.Reprice
import Verif.Spec.Rounding
import Verif.Spec.Scale
import Verif.Spec.Shift
import Verif.Spec.Surcharge
import Verif.Spec.Twister
import Verif.Spec.Uniform
import Verif.Spec.Unlimited
import Verif.Lemmas.Accounting
import Verif.Lemmas.Blank
import Verif.Lemmas.Call
import Verif.Lemmas.Curves
import Verif.Lemmas.Erase
import Verif.Lemmas.FalseNames
import Verif.Lemmas.Fill
import Verif.Lemmas.Float
import Verif.Lemmas.FloatDatasets
import Verif.Lemmas.FloatHuang
import Verif.Lemmas.FloatHuangOut
import Verif.Lemmas.FloatMerge
import Verif.Lemmas.FloatMuda
import Verif.Lemmas.FloatMudaRun
import Verif.Lemmas.FloatP2P
import Verif.Lemmas.FloatSplit
import Verif.Lemmas.FloatStats
import Verif.Lemmas.FloatUniform
import Verif.Lemmas.Graph
import Verif.Lemmas.GroupReports
import Verif.Lemmas.Groups
import Verif.Lemmas.Huang
import Verif.Lemmas.HuangClear
import Verif.Lemmas.HuangMerged
import Verif.Lemmas.HuangOutcome
import Verif.Lemmas.HuangReport
import Verif.Lemmas.HuangSigned
import Verif.Lemmas.Ieee
import Verif.Lemmas.IeeeHuang
import Verif.Lemmas.IeeeMuda
import Verif.Lemmas.IeeeP2P
import Verif.Lemmas.IeeeRun
import Verif.Lemmas.Intersect
import Verif.Lemmas.KnownBids
import Verif.Lemmas.LP
import Verif.Lemmas.Lift
import Verif.Lemmas.Managers
import Verif.Lemmas.MarketBook
import Verif.Lemmas.MarketOrders
import Verif.Lemmas.Merge
import Verif.Lemmas.MergeMissing
import Verif.Lemmas.MergeMissingPrices
import Verif.Lemmas.MergeUnlimited
import Verif.Lemmas.Mirror
import Verif.Lemmas.MirrorMech
import Verif.Lemmas.MirrorP2P
import Verif.Lemmas.Missing
import Verif.Lemmas.MissingPrices
import Verif.Lemmas.MissingPricesBook
import Verif.Lemmas.MissingPricesHuang
import Verif.Lemmas.MudaFees
import Verif.Lemmas.MudaHalf
import Verif.Lemmas.MudaIndex
import Verif.Lemmas.MudaMarketOrders
import Verif.Lemmas.MudaMissingPrices
import Verif.Lemmas.MudaReject
import Verif.Lemmas.MudaResidue
import Verif.Lemmas.MudaRun
import Verif.Lemmas.MudaServed
import Verif.Lemmas.MudaSide
import Verif.Lemmas.MudaUnlimited
import Verif.Lemmas.MudaVcg
import Verif.Lemmas.MudaWalk
import Verif.Lemmas.NegativeMuda
import Verif.Lemmas.NegativeQty
import Verif.Lemmas.P2P
import Verif.Lemmas.P2PExec
import Verif.Lemmas.Phantom
import Verif.Lemmas.Polyhedron
import Verif.Lemmas.Pools
import Verif.Lemmas.RandomState
import Verif.Lemmas.Remainder
import Verif.Lemmas.Reprice
import Verif.Lemmas.Scale
import Verif.Lemmas.ScaleMuda
import Verif.Lemmas.Sort
import Verif.Lemmas.Split
import Verif.Lemmas.Stable
import Verif.Lemmas.Surcharge
import Verif.Lemmas.Table
import Verif.Lemmas.TradingBids
import Verif.Lemmas.Twister
import Verif.Lemmas.Uniform
import Verif.Lemmas.UniformSides
import Verif.Lemmas.Unlimited
import Verif.Lemmas.UnlimitedBook
import Verif.Lemmas.UnlimitedP2P
import Verif.Lemmas.WaterFill
import Verif.Lemmas.Welfare
import Verif.Lemmas.Whole
import Verif.Lemmas.WholeHuang
import Verif.Lemmas.WholeMoney
import Verif.Lemmas.WholeMuda
import Verif.Lemmas.ZeroGroups
import Verif.Props.Anonymity
import Verif.Props.Attributes
import Verif.Props.Call
import Verif.Props.Cancelling
import Verif.Props.ClosedForm
import Verif.Props.Comparative
import Verif.Props.Curves
import Verif.Props.Datasets
import Verif.Props.Entry
import Verif.Props.Envy
import Verif.Props.Equilibrium
import Verif.Props.FalseNames
import Verif.Props.Figures
import Verif.Props.FloatDatasets
import Verif.Props.FloatHuang
import Verif.Props.FloatMerge
import Verif.Props.FloatMergedRuns
import Verif.Props.FloatMuda
import Verif.Props.FloatP2P
import Verif.Props.FloatRun
import Verif.Props.FloatStats
import Verif.Props.FloatStatsRuns
import Verif.Props.FloatUniform
import Verif.Props.Graph
import Verif.Props.GroupReports
import Verif.Props.Groups
import Verif.Props.GroupsMuda
import Verif.Props.Huang
import Verif.Props.HuangCritical
import Verif.Props.HuangLosers
import Verif.Props.HuangMerged
import Verif.Props.HuangNoTies
import Verif.Props.HuangOrder
import Verif.Props.HuangQuantity
import Verif.Props.HuangReport
import Verif.Props.HuangShare
import Verif.Props.HuangTies
import Verif.Props.HuangTotal
import Verif.Props.HuangTruthful
import Verif.Props.HuangVolume
import Verif.Props.HuangWelfare
import Verif.Props.Ieee
import Verif.Props.Joining
import Verif.Props.Managers
import Verif.Props.MarketHistory
import Verif.Props.MarketOrders
import Verif.Props.MarketPrice
import Verif.Props.Merge
import Verif.Props.MergeMissing
import Verif.Props.MergeMissingPrices
import Verif.Props.MergeUnlimited
import Verif.Props.MergedMuda
import Verif.Props.MergedRuns
import Verif.Props.MergedStatistics
import Verif.Props.Mirror
import Verif.Props.Missing
import Verif.Props.MissingPrices
import Verif.Props.Muda
import Verif.Props.MudaEfficient
import Verif.Props.MudaGains
import Verif.Props.MudaIndex
import Verif.Props.MudaMarketOrders
import Verif.Props.MudaMissingPrices
import Verif.Props.MudaPartition
import Verif.Props.MudaResidue
import Verif.Props.MudaSeveral
import Verif.Props.MudaThin
import Verif.Props.MudaTruthful
import Verif.Props.MudaUnlimited
import Verif.Props.MudaUnlimitedFee
import Verif.Props.NegativePrices
import Verif.Props.NegativeQuantities
import Verif.Props.NoLosses
import Verif.Props.Nudge
import Verif.Props.P2P
import Verif.Props.P2PCoef
import Verif.Props.P2PDistribution
import Verif.Props.P2PHalf
import Verif.Props.P2PRounds
import Verif.Props.P2PTruth
import Verif.Props.P2PWelfare
import Verif.Props.Phantom
import Verif.Props.Plot
import Verif.Props.Profits
import Verif.Props.RandomCoin
import Verif.Props.RandomDraws
import Verif.Props.Remainder
import Verif.Props.RemainderMerged
import Verif.Props.Replicas
import Verif.Props.Report
import Verif.Props.Reprice
import Verif.Props.Shift
import Verif.Props.SplitFees
import Verif.Props.Statistics
import Verif.Props.StepFunctions
import Verif.Props.SubmissionOrder
import Verif.Props.Surcharge
import Verif.Props.Totals
import Verif.Props.Twister
import Verif.Props.Uniform
import Verif.Props.UniformMerged
import Verif.Props.UniformTruth
import Verif.Props.Units
import Verif.Props.Unlimited
import Verif.Props.Volumes
import Verif.Props.WaterFill
import Verif.Props.WelfareTheorem
import Verif.Props.WhoTrades
import Verif.Props.Whole
import Verif.Props.Withdraw
import Verif.Props.ZeroGroups
import Verif.Tests.Docs
import Verif.Tests.NewMechanism
import Verif.Tests.Programs
import Verif.Tests.Suite
