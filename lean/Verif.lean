import Verif.Props.Gibbs
import Verif.Props.RandomWalk
import Verif.Props.MathUtil
import Verif.Props.BlockGibbs
import Verif.Props.HammingBall
import Verif.Props.LocallyBalanced
import Verif.Props.GWG
import Verif.Props.DMALA
import Verif.Props.DLMC
import Verif.Props.DAdapt
import Verif.Props.PathAux
import Verif.Props.Counters
import Verif.Props.Batch
import Verif.Props.LBStep
import Verif.Props.Moves
import Verif.Props.RBM
import Verif.Props.Lattice
import Verif.Props.Factorized
import Verif.Props.FHMM
import Verif.Props.Comb
import Verif.Props.NormCut
import Verif.Props.Gradient
import Verif.Props.Loader
import Verif.Props.Sat
import Verif.Props.Experiment
import Verif.Props.COExperiment
import Verif.Props.AIS
import Verif.Props.Learning
import Verif.Props.Convergence
import Verif.Props.Periodic
import Verif.Props.FHMMPosterior
import Verif.Props.BatchKernel
import Verif.Props.Gumbel
import Verif.Props.Keys
import Verif.Props.NormCutEval
import Verif.Props.BernEval
import Verif.Props.LMEval
import Verif.Props.TextEnergy
import Verif.Props.TextDataset
import Verif.Props.TextTopk
import Verif.Props.MainConfig
import Verif.Props.PlotClusters
import Verif.Props.FolderNames
import Verif.Lemmas.Walks
import Verif.Lemmas.Forget
import Verif.Spec.Runs
import Verif.Lemmas.Runs
import Verif.Props.ConvergenceGWG
import Verif.Props.ConvergenceHB
import Verif.Props.Averages
import Verif.Spec.Adaptive
import Verif.Lemmas.Adaptive
import Verif.Props.AdaptiveRW
import Verif.Lemmas.Irreducible
import Verif.Props.PeriodicIff
import Verif.Lemmas.SiteRun
import Verif.Props.AdaptiveLB
import Verif.Props.ProposalLaw
import Verif.Lemmas.SiteAverage
import Verif.Props.AdaptiveAverages
import Verif.Model.Training
import Verif.Props.TrainLoss
import Verif.Props.TrainLoop
import Verif.Model.TorchConvert
import Verif.Props.TorchConvert
import Verif.Model.ImageGrid
import Verif.Props.ImageGrid
import Verif.Model.RawData
import Verif.Props.RawData
import Verif.Model.Labels
import Verif.Props.Labels
import Verif.Model.Bars
import Verif.Props.Bars
import Verif.Model.Curve
import Verif.Props.Curve
import Verif.Model.Bert
import Verif.Props.Bert
import Verif.Model.Resnet
import Verif.Props.Resnet
import Verif.Props.BertSpec
import Verif.Model.Ess
import Verif.Props.Ess
import Verif.Spec.Grid
import Verif.Lemmas.Grid
import Verif.Model.GridNoise
import Verif.Props.GridNoise
import Verif.Lemmas.GridNoise
import Verif.Model.GridCateg
import Verif.Props.GridCateg
import Verif.Model.GraphFiles
import Verif.Props.GraphFiles
import Verif.Props.Optsicom
import Verif.Spec.Start
import Verif.Model.InitSamples
import Verif.Props.InitSamples
import Verif.Spec.Forget
import Verif.Lemmas.ForgetStart
import Verif.Props.PeriodicGrid
import Verif.Spec.Float32
import Verif.Lemmas.Float32
import Verif.Lemmas.NearMH
import Verif.Model.Float32
import Verif.Props.Float32
import Verif.Props.Float32Energy
import Verif.Props.Float32Runs
import Verif.Lemmas.NearMHLaw
import Verif.Model.Float32LB
import Verif.Props.Float32LB
import Verif.Props.Float32Flip
import Verif.Props.Float32Categ
import Verif.Props.Float32LBBlind
import Verif.Spec.Anneal
import Verif.Lemmas.Anneal
import Verif.Model.Anneal
import Verif.Props.AnnealSchedule
import Verif.Props.Anneal
import Verif.Props.AnnealBest
import Verif.Props.AnnealGap
import Verif.Model.Build
import Verif.Props.Build
import Verif.Props.BuildTarget
import Verif.Model.BuildModel
import Verif.Props.BuildModel
import Verif.Props.BuildRun
import Verif.Props.IsingSampler
import Verif.Props.BuildScores
import Verif.Lemmas.Touch
import Verif.Model.AnnealGibbs
import Verif.Props.AnnealGibbs
import Verif.Props.BuildAttrs
import Verif.Lemmas.AnnealWalk
import Verif.Model.AnnealGWG
import Verif.Props.AnnealGWG
import Verif.Model.GraphConfig
import Verif.Props.GraphConfig
import Verif.Props.AdaptiveD
import Verif.Spec.PathMean
import Verif.Lemmas.SiteAIS
import Verif.Props.AISAdaptive
import Verif.Props.AISHammingBall
import Verif.Spec.Trap
import Verif.Lemmas.Trap
import Verif.Props.Trap
import Verif.Spec.Search
import Verif.Lemmas.Search
import Verif.Model.AnnealPAFS
import Verif.Props.Search
import Verif.Lemmas.Report
import Verif.Model.AnnealBatch
import Verif.Lemmas.ReportHold
import Verif.Lemmas.ReportExact
import Verif.Props.Report
import Verif.Props.ReportEven
import Verif.Model.Launcher
import Verif.Model.ShippedFiles
import Verif.Props.Launcher
import Verif.Props.Shipped
import Verif.Model.Devices
import Verif.Props.Devices
import Verif.Model.PathAuxRun
import Verif.Lemmas.PathAuxHot
import Verif.Props.TrapPAFS
import Verif.Model.Bleu
import Verif.Spec.Bleu
import Verif.Lemmas.Bleu
import Verif.Props.Bleu
import Verif.Model.EstimationError
import Verif.Props.EstimationError
import Verif.Spec.DrawPath
import Verif.Model.RWBatch
import Verif.Lemmas.TrapBatch
import Verif.Props.TrapBatch
import Verif.Lemmas.AdaptiveHits
import Verif.Props.AdaptiveVisits
import Verif.Model.TempPlot
import Verif.Lemmas.TempPlot
import Verif.Props.TempPlot
import Verif.Model.EbmGrid
import Verif.Props.EbmGrid
import Verif.Spec.BatchRun
import Verif.Lemmas.BatchRun
import Verif.Props.AdaptiveReport
import Verif.Model.LogzPlot
import Verif.Props.LogzPlot
import Verif.Model.LoadModel
import Verif.Props.LoadModel
import Verif.Model.NormCutTable
import Verif.Props.NormCutTable
import Verif.Props.ReportPath
import Verif.Props.Neighbors
import Verif.Props.FirstStep
import Verif.Props.BuiltDim
import Verif.Model.Optimizer
import Verif.Props.Optimizer
import Verif.Props.Disc
import Verif.Props.BuildMask
import Verif.Props.BuildLangevin
import Verif.Model.GenConnected
import Verif.Props.GenConnected
import Verif.Props.Reported
import Verif.Props.AdaptiveDCateg
import Verif.Props.NumFlips
import Verif.Model.JobFolder
import Verif.Props.JobFolder
import Verif.Props.SweptSettings
import Verif.Props.EmptyGraph
import Verif.Model.TypedMerge
import Verif.Props.TypedMerge
import Verif.Props.SmallMath
import Verif.Props.AdaptivePathReport
import Verif.Model.ModelSettings
import Verif.Props.LaunchedProblem
import Verif.Props.ErGraphs
import Verif.Props.PenaltyOverride
import Verif.Model.JobNames
import Verif.Props.ShippedLabels
import Verif.Spec.JobLabels
import Verif.Lemmas.LabelChecks
import Verif.Props.FloatText
import Verif.Model.Ticks
import Verif.Props.Ticks
import Verif.Props.TickFigure
