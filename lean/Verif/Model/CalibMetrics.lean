import Verif.Model.OutputLayer
import Verif.Model.Predictive
import Verif.Model.TrainerMetrics

/-!
# The metrics reported while a probabilistic model is calibrated

Source: `/repo/fortuna/prob_model/predictive/base.py` L205-316, `/repo/fortuna/prob_model/prob_model_calibrator.py` L30-80,
`/repo/fortuna/training/output_calibrator.py` L265-320, L366-412, L477-490, `/repo/fortuna/prob_model/base.py` L166-186,
`/repo/fortuna/prob_model/classification.py` L288-299, `/repo/fortuna/prob_model/regression.py` L195-205.

One device; a calibrator without state that treats every row by itself, such as temperature scaling. `E s i` are the outputs of member `s` of the ensemble for
row `i` of the batch, `S` the number of members. Real arithmetic.
-/

set_option linter.unusedSectionVars false

namespace Verif.CalibMetrics

open Verif.OutputLayer Verif.TrainerMetrics

noncomputable section
variable {J : Type} {n c d : ℕ}

/-- The auxiliary outputs, predictive/base.py L262-279: every member's outputs are calibrated (likelihood/base.py L223-247, L261), then averaged over the members. -/
def auxOutputs (S : ℕ) (cal : (J → ℝ) → J → ℝ) (E : ℕ → Fin n → J → ℝ) : Fin n → J → ℝ :=
  fun i j => (∑ s ∈ Finset.range S, cal (E s i) j) / S

/-- A metric of calibration: its `__name__` and the function of the predictions, uncertainties and targets of the rows. -/
structure Metric (P U T : Type) where
  name : String
  fn : P → U → T → ℝ

variable {P U T : Type}

/-- `compute_metrics`, training/output_calibrator.py L477-490. -/
def computeMetrics (metrics : List (Metric P U T)) (p : P) (u : U) (t : T) : List (String × ℝ) :=
  metrics.foldl (fun dict m => setKey dict m.name (m.fn p u t)) []

/-- The dictionary of a training step, `training_step_end`, training/output_calibrator.py L295-320; nothing is logged besides, prob_model_calibrator.py L50.
`outs` are the auxiliary outputs, `predict` and `uncertainty` the functions handed over in prob_model/base.py L177-178. -/
def trainDict (disabled : Bool) (loss : ℝ) (metrics : Option (List (Metric (Fin n → P) (Fin n → U) T))) (predict : (J → ℝ) → P) (uncertainty : (J → ℝ) → U)
    (outs : Fin n → J → ℝ) (t : T) : List (String × ℝ) :=
  match disabled, metrics with
  | false, some ms => (computeMetrics ms (fun i => predict (outs i)) (fun i => uncertainty (outs i)) t).foldl (fun dict e => setKey dict e.1 e.2) [("loss", loss)]
  | _, _ => [("loss", loss)]

/-- The dictionary of a validation step, `val_step` and `val_metrics_step`, training/output_calibrator.py L366-412. -/
def valDict (loss : ℝ) (metrics : Option (List (Metric (Fin n → P) (Fin n → U) T))) (predict : (J → ℝ) → P) (uncertainty : (J → ℝ) → U)
    (outs : Fin n → J → ℝ) (t : T) : List (String × ℝ) :=
  match metrics with
  | some ms => (computeMetrics ms (fun i => predict (outs i)) (fun i => uncertainty (outs i)) t).foldl (fun dict e => setKey dict ("val_" ++ e.1) e.2) [("val_loss", loss)]
  | none => [("val_loss", loss)]

/-! ## The predictive distribution on the same ensemble -/

/-- `random.split(rng, n)[i]` stands for the member `i`: the posterior samples of the predictive are the members of the ensemble. -/
def member (_ _ i : ℕ) : ℕ := i

/-- `ClassificationPredictive.mean`, predictive/base.py L624-647: the mean over the members of the calibrated class probabilities. -/
def classMean (S : ℕ) (cal : (Fin c → ℝ) → Fin c → ℝ) (E : ℕ → Fin n → Fin c → ℝ) (i : Fin n) (k : Fin c) : ℝ :=
  Predictive.predMean member (fun s => softmax (cal (E s i)) k) S 0

/-- `ClassificationPredictive.mode`, predictive/classification.py L71-86. -/
def classMode (S : ℕ) (cal : (Fin c → ℝ) → Fin c → ℝ) (E : ℕ → Fin n → Fin c → ℝ) (i : Fin n) : ℕ := ArrayOps.argmax (List.ofFn (classMean S cal E i))

/-- The outputs of a row in regression: means, then log-variances. -/
def means (o : Fin d ⊕ Fin d → ℝ) : Fin d → ℝ := fun j => o (.inl j)

/-- The second half of the outputs. -/
def logVars (o : Fin d ⊕ Fin d → ℝ) : Fin d → ℝ := fun j => o (.inr j)

/-- `RegressionTemperatureScaler`, output_calibrator/regression.py L14-19. -/
def regScale (φ : ℝ) (o : Fin d ⊕ Fin d → ℝ) : Fin d ⊕ Fin d → ℝ := Sum.elim (scaleVar φ (means o, logVars o)).1 (scaleVar φ (means o, logVars o)).2

/-- `prob_output_layer.predict` of a regressor: the first half of the outputs. -/
def regPred (o : Fin d ⊕ Fin d → ℝ) : Fin d → ℝ := regPredict (means o) (logVars o)

/-- `prob_output_layer.variance` of a regressor. -/
def regVar (o : Fin d ⊕ Fin d → ℝ) : Fin d → ℝ := regVariance (means o) (logVars o)

/-- `RegressionPredictive.mean`, predictive/base.py L624-647. -/
def regMean (S : ℕ) (cal : (Fin d ⊕ Fin d → ℝ) → Fin d ⊕ Fin d → ℝ) (E : ℕ → Fin n → Fin d ⊕ Fin d → ℝ) (i : Fin n) (j : Fin d) : ℝ :=
  Predictive.predMean member (fun s => regPred (cal (E s i)) j) S 0

/-- `RegressionPredictive.aleatoric_variance`, predictive/base.py L735-758. -/
def regAleatoric (S : ℕ) (cal : (Fin d ⊕ Fin d → ℝ) → Fin d ⊕ Fin d → ℝ) (E : ℕ → Fin n → Fin d ⊕ Fin d → ℝ) (i : Fin n) (j : Fin d) : ℝ :=
  Predictive.aleatoric member (fun s => regVar (cal (E s i)) j) S 0

/-- `RegressionPredictive.variance`, predictive/base.py L806-836, L880-898. -/
def regTotal (S : ℕ) (cal : (Fin d ⊕ Fin d → ℝ) → Fin d ⊕ Fin d → ℝ) (E : ℕ → Fin n → Fin d ⊕ Fin d → ℝ) (i : Fin n) (j : Fin d) : ℝ :=
  Predictive.varianceOf (regAleatoric S cal E i j) (Predictive.epistemic member (fun s => regPred (cal (E s i)) j) S 0)

end

end Verif.CalibMetrics
