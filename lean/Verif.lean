import Verif.Model.ConformalClassification
import Verif.Lemmas.ListAux
import Verif.Lemmas.ConformalClassification
import Verif.Lemmas.Exchangeable
import Verif.Props.ConformalClassification
import Verif.Model.AdaptiveConformal
import Verif.Props.AdaptiveConformal
import Verif.Model.Quantile
import Verif.Lemmas.Quantile
import Verif.Model.ConformalRegression
import Verif.Lemmas.ConformalRegression
import Verif.Props.ConformalRegression
import Verif.Props.Jackknife
import Verif.Props.JackknifeMore
import Verif.Props.JackknifeCoverage
import Verif.Props.Sharing
import Verif.Props.FitRun
import Verif.Props.EnbPI
import Verif.Model.ArrayOps
import Verif.Lemmas.ArrayOps
import Verif.Model.Multivalid
import Verif.Props.Multivalid
import Verif.Props.MultivalidEntry
import Verif.Props.MultivalidEntryMore
import Verif.Props.MultivalidRounds
import Verif.Props.MultivalidCells
import Verif.Props.MultivalidError
import Verif.Model.MaxCoverage
import Verif.Props.MaxCoverage
import Verif.Props.MultivalidMore
import Verif.Model.Loader
import Verif.Props.Loader
import Verif.Model.NestedDict
import Verif.Props.NestedDict
import Verif.Props.Frozen
import Verif.Model.Training
import Verif.Props.Training
import Verif.Model.StateRepo
import Verif.Props.StateRepo
import Verif.Model.SGMCMC
import Verif.Props.SGMCMC
import Verif.Model.Metrics
import Verif.Props.Metrics
import Verif.Model.Predictive
import Verif.Props.Predictive
import Verif.Props.PredictiveSets
import Verif.Model.OutputLayer
import Verif.Model.Likelihood
import Verif.Props.OutputLayer
import Verif.Props.Likelihood
import Verif.Model.Calibration
import Verif.Model.Hallucination
import Verif.Model.OOD
import Verif.Props.Calibration
import Verif.Props.Hallucination
import Verif.Props.Detector
import Verif.Props.OOD
import Verif.Props.Extras
import Verif.Model.SubsetRepo
import Verif.Model.FitStart
import Verif.Props.SubsetRepo
import Verif.Props.FitStart
import Verif.Model.GaussPost
import Verif.Model.AdviRun
import Verif.Props.Laplace
import Verif.Props.ADVI
import Verif.Props.AdviRun
import Verif.Model.SNGP
import Verif.Props.SNGP
import Verif.Props.RandomFeatures
import Verif.Props.LangevinLaw
import Verif.Props.LangevinSchedule
import Verif.Props.ProperScores
import Verif.Props.MetricLaw
import Verif.Props.RegressionCoverage
import Verif.Props.MonteCarlo
import Verif.Props.MaskLaw
import Verif.Lemmas.GaussDensity
import Verif.Props.GaussLaw
import Verif.Model.EditorApply
import Verif.Props.EditorApply
import Verif.Props.SpectralNorm
import Verif.Model.Probit
import Verif.Model.Diagnostic
import Verif.Props.Probit
import Verif.Props.Diagnostic
import Verif.Model.HuggingFace
import Verif.Props.HuggingFace
import Verif.Model.Utils
import Verif.Model.Checkpoint
import Verif.Model.CalibModel
import Verif.Props.Checkpoint
import Verif.Props.CalibModel
import Verif.Props.Utils
import Verif.Model.OutputCalib
import Verif.Props.OutputCalib
import Verif.Model.MultiDevice
import Verif.Props.MultiDevice
import Verif.Model.ProbModel
import Verif.Props.ProbModel
import Verif.Model.Networks
import Verif.Props.Networks
import Verif.Model.LoaderViews
import Verif.Props.LoaderViews
import Verif.Model.PosteriorSample
import Verif.Props.PosteriorSample
import Verif.Model.TrainerMetrics
import Verif.Props.TrainerMetrics
import Verif.Props.Exact
import Verif.Model.PredictiveMore
import Verif.Props.PredictiveMore
import Verif.Model.TempFit
import Verif.Props.TempFit
import Verif.Props.Buckets
import Verif.Props.SamplerRun
import Verif.Model.AdaptivePrediction
import Verif.Props.AdaptivePrediction
import Verif.Props.ClassCoverage
import Verif.Props.CredibleCoverage
import Verif.Props.SteinLaw
import Verif.Props.SNGPLaw
import Verif.Props.SwagLaw
import Verif.Props.KernelLimits
import Verif.Model.SwagRun
import Verif.Props.SwagRun
import Verif.Model.Transformers
import Verif.Props.Transformers
import Verif.Props.TempLaw
import Verif.Props.BatchLaw
import Verif.Props.Averaging
import Verif.Props.OODLaw
import Verif.Props.PrecisionLaw
import Verif.Model.SpectralConv
import Verif.Props.PowerIter
import Verif.Props.DistanceLaw
import Verif.Props.ConvNorm
import Verif.Props.OneShotLaw
import Verif.Props.BatchMVPLaw
import Verif.Props.Plot
import Verif.Props.SagemakerJob
import Verif.Props.Monitor
import Verif.Props.ConditionalCoverage
import Verif.Props.ScalingLaw
import Verif.Props.LaplaceSample
import Verif.Props.ValidationLaw
import Verif.Props.EnbPILaw
import Verif.Props.CyclicalLaw
import Verif.Props.MapLaw
import Verif.Props.LogConcave
import Verif.Props.MapSchedule
import Verif.Props.TextBatch
import Verif.Props.StringClean
import Verif.Props.ResampleLaw
import Verif.Props.RmspropLaw
import Verif.Props.LikelihoodApi
import Verif.Props.Wiring
import Verif.Props.EnsembleTemp
import Verif.Props.EnsembleFit
import Verif.Props.BatchMomentum
import Verif.Props.LoaderEpochs
import Verif.Props.Reshuffle
import Verif.Props.CalibMetrics
import Verif.Model.Fft
import Verif.Props.EssLaw
import Verif.Props.AdviBound
import Verif.Props.AdviNewData
import Verif.Props.EarlyStopLaw
import Verif.Audit
