import Verif.Model.ProbModel
import Verif.Model.OutputLayer

/-!
# Temperature calibration of an ensemble of outputs

Source: `/repo/fortuna/output_calibrator/regression.py` L14-19, `/repo/fortuna/output_calibrator/classification.py` L14-19, `/repo/fortuna/output_calibrator/output_calib_manager/base.py` L59-86,
`/repo/fortuna/likelihood/base.py` L251-255, `/repo/fortuna/prob_model/predictive/base.py` L132-203.

The objective itself is `Verif.ProbModel.predJoint`. Outputs of a row are its means and log-variances; real arithmetic.
-/

set_option linter.unusedSectionVars false

namespace Verif.EnsembleTemp

open Verif.OutputLayer Verif.ProbModel

noncomputable section
variable {d : ℕ}

/-- `RegressionTemperatureScaler` as the calibrator of a batch of outputs, output_calibrator/regression.py L14-19: one log-temperature
for all rows and dimensions, no state. -/
def tempCal (φ : ℝ) (_calib : Bool) (_m : Option Unit) (os : List ((Fin d → ℝ) × (Fin d → ℝ))) : List ((Fin d → ℝ) × (Fin d → ℝ)) × Unit :=
  (os.map (scaleVar φ), ())

/-- `self.prob_output_layer.log_prob(outputs, targets)`, likelihood/base.py L251-253: the log-probabilities of the rows. -/
def regRows (ys : List (Fin d → ℝ)) (os : List ((Fin d → ℝ) × (Fin d → ℝ))) : List ℝ :=
  List.zipWith (fun o y => regLogProb o.1 o.2 y) os ys

/-- `ClassificationTemperatureScaler` as the calibrator of a batch of logits, output_calibrator/classification.py L14-19: one
log-temperature for all rows and classes, no state. -/
def logitCal {c : ℕ} (φ : ℝ) (_calib : Bool) (_m : Option Unit) (os : List (Fin c → ℝ)) : List (Fin c → ℝ) × Unit :=
  (os.map (scaleLogits φ), ())

/-- `self.prob_output_layer.log_prob(outputs, targets)`, likelihood/base.py L251-253, of a classifier: the log-probabilities of the labels. -/
def classRows {c : ℕ} (ys : List (Fin c)) (os : List (Fin c → ℝ)) : List ℝ :=
  List.zipWith (fun o (y : Fin c) => classLogProb o (y : ℕ)) os ys

/-- `Predictive.log_prob`, predictive/base.py L179-203, of the calibrated ensemble: for every row the logarithm of the mean likelihood of
the members (the row's target under each member's output). -/
def predLogProbs (φ : ℝ) (ys : List (Fin d → ℝ)) (ensemble : List (List ((Fin d → ℝ) × (Fin d → ℝ)))) : List ℝ :=
  ys.mapIdx fun i _ => logMeanExp (ensemble.map fun os => (regRows ys (os.map (scaleVar φ))).getD i 0)

end

end Verif.EnsembleTemp
