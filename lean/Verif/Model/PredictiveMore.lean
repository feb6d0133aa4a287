import Mathlib.Data.List.Dedup
import Verif.Model.OutputLayer
import Verif.Model.Predictive

/-!
# Entropies of regression predictions, credible intervals as arrays, and conformal sets from loader to sets

Sources: `/repo/fortuna/prob_model/predictive/regression.py` L51-369, `/repo/fortuna/prob_output_layer/regression.py` L91-144,
`/repo/fortuna/prob_model/predictive/classification.py` L485-626, `/repo/fortuna/prob_model/predictive/base.py` L54-128.
-/

set_option linter.unusedSectionVars false

namespace Verif.PredictiveMore
open Verif.Predictive Verif.OutputLayer Verif.Loader

/-! ## Entropies, predictive/regression.py L51-267 -/

noncomputable section entropies
variable {d : ℕ}

/-- The calibrated outputs of one posterior sample at one input: means and log-variances. -/
abbrev Out (d : ℕ) := (Fin d → ℝ) × (Fin d → ℝ)

/-- `ensemble_target_samples[i]` at one input, L100-105 (L171-176, L246-251): `z i t` are the standard normal numbers drawn with the
key of posterior sample `i`. -/
def targets {T : ℕ} (o : ℕ → Out d) (z : ℕ → Fin T → Fin d → ℝ) (i : ℕ) (t : Fin T) : Fin d → ℝ :=
  regSample (o i).1 (o i).2 (z i t)

/-- `_log_pred_fun` at one input, L179-184 and L254-259. -/
def logPred (n : ℕ) (o : ℕ → Out d) (y : Fin d → ℝ) : ℝ :=
  logsumexp (fun s : Fin n => regLogProb (o s).1 (o s).2 y) - Real.log n

/-- `RegressionPredictive.aleatoric_entropy` at one input, L89-116. -/
def regAleatoric {T : ℕ} (n : ℕ) (o : ℕ → Out d) (z : ℕ → Fin T → Fin d → ℝ) : ℝ :=
  loopSum n (fun i => -((∑ t, regLogProb (o i).1 (o i).2 (targets o z i t)) / T)) / n

/-- `RegressionPredictive.epistemic_entropy` at one input, L160-195. -/
def regEpistemic {T : ℕ} (n : ℕ) (o : ℕ → Out d) (z : ℕ → Fin T → Fin d → ℝ) : ℝ :=
  loopSum n (fun i => -((∑ t, (logPred n o (targets o z i t) -
    regLogProb (o i).1 (o i).2 (targets o z i t))) / T)) / n

/-- `RegressionPredictive.entropy` at one input, L235-267. -/
def regEntropy {T : ℕ} (n : ℕ) (o : ℕ → Out d) (z : ℕ → Fin T → Fin d → ℝ) : ℝ :=
  loopSum n (fun i => -((∑ t, logPred n o (targets o z i t)) / T)) / n

end entropies

/-! ## Credible intervals as arrays -/

section intervals
variable {K : Type} [Field K] [LinearOrder K] [IsStrictOrderedRing K] [FloorRing K]

/-- `RegressionPredictive.credible_interval`, predictive/regression.py L302-329, for all inputs: `cols x` are the columns of target
samples of input `x`, one for each of `d` components. The check on the number of components follows the one on the type. -/
def credibleIntervals (d : ℕ) (cols : List (List (List K))) (error : K) (type : String) : Except String (List (List K)) :=
  if ¬ ["two-tailed", "right-tailed", "left-tailed"].contains type then .error "ValueError"
  else if d ≠ 1 then .error "ValueError"
  else cols.mapM fun c => credibleInterval (c.headD []) error type

/-- `RegressionProbOutputLayer.credible_interval`, prob_output_layer/regression.py L121-144: the same, but the message for an unknown type has two
placeholders and `format` gets one argument (L124-126). -/
def layerIntervals (d : ℕ) (cols : List (List (List K))) (error : K) (type : String) : Except String (List (List K)) :=
  if ¬ ["two-tailed", "right-tailed", "left-tailed"].contains type then .error "IndexError"
  else if d ≠ 1 then .error "ValueError"
  else cols.mapM fun c => credibleInterval (c.headD []) error type

end intervals

/-! ## Conformal sets, predictive/classification.py L485-626 -/

section conformal
variable {K Θ X Z : Type} [Field K] [LinearOrder K] [IsStrictOrderedRing K]

/-- `ensemble_log_prob`, base.py L54-128, after `exp`: axes (sample, data point). The key, hence the posterior samples `ths`,
are the same for all batches and devices. -/
def ensembleLiks (lik : Θ → Z → K) (ths : List Θ) (devices : Option ℕ) (loader : List (List Z)) :
    Except String (List (List K)) := do
  let cols ← loopFun (fun z => ths.map fun θ => lik θ z) devices loader
  .ok (transpose ths.length cols)

/-- The batches of `test_data_grid_loader`, classification.py L527-532: for every label below the number of distinct training labels, the
batches of test inputs with that label. -/
def gridBatches (testLoader : List (List X)) (nClasses : ℕ) : List (List (X × ℕ)) :=
  (List.range nClasses).flatMap fun c => testLoader.map fun b => b.map fun x => (x, c)

/-- `conformal_set`, classification.py L522-596: `order` is `np.argsort` of a row of booleans. Training data are not empty. -/
def conformalSets (lik : Θ → X × ℕ → K) (ths : List Θ) (devices : Option ℕ) (order : List Bool → List ℕ)
    (trainLoader : List (List (X × ℕ))) (testLoader : List (List X)) (error : K) : Except String (List (List ℕ)) := do
  let nTrain := (trainLoader.map List.length).sum
  let nClasses := (trainLoader.flatten.map (·.2)).dedup.length
  let nTest := (testLoader.map List.length).sum
  let rows ← ensembleLiks lik ths devices (concatLoaders [trainLoader, gridBatches testLoader nClasses])
  let train := (List.range nTrain).map fun i => rows.filterMap fun row => row[i]?
  .ok ((List.range nTest).map fun t =>
    let region := (List.range nClasses).map fun c =>
      inRegion train (rows.filterMap fun row => gridEntry nTrain nTest row t c) error
    regionToSet region (order region))

end conformal

end Verif.PredictiveMore
