import Verif.Props.ConformalClassification
import Verif.Props.AdaptiveConformal
import Verif.Props.CredibleCoverage
import Verif.Props.SteinLaw
import Verif.Props.SNGPLaw
import Verif.Props.ConformalRegression
import Verif.Props.Jackknife
import Verif.Props.JackknifeMore
import Verif.Props.JackknifeCoverage
import Verif.Props.Sharing
import Verif.Props.FitRun
import Verif.Props.EnbPI
import Verif.Props.Multivalid
import Verif.Props.MultivalidEntry
import Verif.Props.MultivalidEntryMore
import Verif.Props.MultivalidRounds
import Verif.Props.MultivalidCells
import Verif.Props.MultivalidError
import Verif.Props.MaxCoverage
import Verif.Props.MultivalidMore
import Verif.Props.Loader
import Verif.Props.NestedDict
import Verif.Props.Frozen
import Verif.Props.Training
import Verif.Props.StateRepo
import Verif.Props.SGMCMC
import Verif.Props.Metrics
import Verif.Props.Predictive
import Verif.Props.PredictiveSets
import Verif.Props.OutputLayer
import Verif.Props.Likelihood
import Verif.Props.Calibration
import Verif.Props.Hallucination
import Verif.Props.Detector
import Verif.Props.Buckets
import Verif.Props.SamplerRun
import Verif.Props.OOD
import Verif.Props.Extras
import Verif.Props.SubsetRepo
import Verif.Props.FitStart
import Verif.Props.Laplace
import Verif.Props.ADVI
import Verif.Props.AdviRun
import Verif.Props.AdaptivePrediction
import Verif.Props.ClassCoverage
import Verif.Props.SNGP
import Verif.Props.RandomFeatures
import Verif.Props.LangevinLaw
import Verif.Props.LangevinSchedule
import Verif.Props.ProperScores
import Verif.Props.MetricLaw
import Verif.Props.RegressionCoverage
import Verif.Props.MonteCarlo
import Verif.Props.MaskLaw
import Verif.Props.GaussLaw
import Verif.Props.EditorApply
import Verif.Props.SpectralNorm
import Verif.Props.Probit
import Verif.Props.Diagnostic
import Verif.Props.HuggingFace
import Verif.Props.Checkpoint
import Verif.Props.CalibModel
import Verif.Props.Utils
import Verif.Props.OutputCalib
import Verif.Props.MultiDevice
import Verif.Props.ProbModel
import Verif.Props.Networks
import Verif.Props.LoaderViews
import Verif.Props.PosteriorSample
import Verif.Props.TrainerMetrics
import Verif.Props.Exact
import Verif.Props.PredictiveMore
import Verif.Props.TempFit
import Verif.Props.SwagLaw
import Verif.Props.KernelLimits
import Verif.Props.SwagRun
import Verif.Props.Transformers
import Verif.Props.TempLaw
import Verif.Props.BatchLaw
import Verif.Props.Averaging
import Verif.Props.OODLaw
import Verif.Props.PrecisionLaw
import Verif.Props.PowerIter
import Verif.Props.DistanceLaw
import Verif.Props.ConvNorm
import Verif.Props.OneShotLaw
import Verif.Props.BatchMVPLaw
import Verif.Props.Plot
import Verif.Props.SagemakerJob
import Verif.Props.Monitor
import Verif.Props.ConditionalCoverage
import Verif.Props.ScalingLaw
import Verif.Props.LaplaceSample
import Verif.Props.ValidationLaw
import Verif.Props.EnbPILaw
import Verif.Props.CyclicalLaw
import Verif.Props.MapLaw
import Verif.Props.LogConcave
import Verif.Props.MapSchedule
import Verif.Props.TextBatch
import Verif.Props.StringClean
import Verif.Props.ResampleLaw
import Verif.Props.RmspropLaw
import Verif.Props.LikelihoodApi
import Verif.Props.Wiring
import Verif.Props.EnsembleTemp
import Verif.Props.EnsembleFit
import Verif.Props.BatchMomentum
import Verif.Props.LoaderEpochs
import Verif.Props.Reshuffle
import Verif.Props.CalibMetrics
import Verif.Props.EssLaw
import Verif.Props.AdviBound
import Verif.Props.AdviNewData
import Verif.Props.EarlyStopLaw
import Lean.Elab.Command
import Lean.Util.CollectAxioms

/-!
# Audit

Fails to build if any theorem of this project depends on an axiom other than the three standard ones, or if a constant
of this project is an axiom.
-/

open Lean Elab Command in
run_cmd do
  let env ← getEnv
  let allowed : List Name := [``propext, ``Classical.choice, ``Quot.sound]
  let mut theorems := 0
  let mut used : List Name := []
  for (c, info) in env.constants.map₁.toList do
    if (`Verif).isPrefixOf c then
      if info matches .axiomInfo _ then throwError "{c} is an axiom"
      if info matches .thmInfo _ then theorems := theorems + 1
      for a in (← collectAxioms c) do
        unless allowed.contains a do throwError "{c} depends on {a}"
        unless used.contains a do used := a :: used
  if theorems < 1000 then throwError "only {theorems} theorems found"
  logInfo m!"{theorems} theorems, depending on {used} only"
