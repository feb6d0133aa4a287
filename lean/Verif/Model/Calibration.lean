import Mathlib.Analysis.SpecialFunctions.Log.Basic
import Mathlib.Analysis.SpecialFunctions.Pow.Real
import Mathlib.Algebra.BigOperators.Fin
import Verif.Model.ArrayOps
import Verif.Model.OutputLayer

/-!
# Stand-alone temperature scaling, kernel regression and losses

Source: `/repo/fortuna/calibration/{classification,binary_classification}/temp_scaling/*.py`,
`/repo/fortuna/kernel_regression/nadaraya_watson.py`, `/repo/fortuna/loss/**`.

Exact arithmetic; `none` stands for the NaN or infinity produced by a division by zero.
-/

set_option linter.unusedSectionVars false

namespace Verif.Calibration

open Verif.ArrayOps

/-! ## Binary temperature scaling -/

section binary
variable {K : Type} [Field K] [LinearOrder K] [IsStrictOrderedRing K]

/-- `predict_proba`, binary temp_scaling/base.py L24-38. -/
def binProba (T : K) (probs : List K) : List K := probs.map fun p => clip (p / T) 0 1

/-- `predict`, base.py L40-58. -/
def binPredict (T threshold : K) (probs : List K) : List ℕ :=
  (binProba T probs).map fun p => if threshold ≤ p then 1 else 0

/-- `BiasBinaryClassificationTemperatureScaling.fit`, bias_binary_temp_scaling.py L17-20. -/
def biasFit (probs targets : List K) : Option K :=
  if mean targets = 0 then none else some (mean probs / mean targets)

/-- `BrierBinaryClassificationTemperatureScaling.fit`, brier_binary_temp_scaling.py L17-20. -/
def brierFit (probs targets : List K) : Option K :=
  let d := mean (List.zipWith (· * ·) probs targets)
  if d = 0 then none else some (mean (probs.map (· ^ 2)) / d)

/-- The predictions compared in `loss_fn`, f1_temp_scaling.py L31: `probs >= threshold * tau`. -/
def f1Preds (probs : List K) (threshold tau : K) : List ℕ :=
  probs.map fun p => if threshold * tau ≤ p then 1 else 0

/-- `loss_fn`, f1_temp_scaling.py L30-38. `none` when there is no positive target (division by zero). -/
def f1Loss (probs : List K) (targets : List ℕ) (threshold tau : K) : Option K :=
  let preds := f1Preds probs threshold tau
  let nPos : K := (targets.sum : ℕ)
  let nPred : K := (preds.sum : ℕ)
  let nJoint : K := ((List.zipWith (fun a b : ℕ => a * b) targets preds).sum : ℕ)
  if nPos = 0 then none
  else
    let prec := if nPred > 0 then nJoint / nPred else 0
    let rec' := nJoint / nPos
    if prec + rec' = 0 then some 0 else some (-2 * prec * rec' / (prec + rec'))

end binary

/-! ## Multi-class temperature scaling -/

noncomputable section multiclass
variable {c : ℕ}

/-- `exp(log(p) / T)` for a probability `p`: `exp(-inf) = 0` when `p` is 0 (and `T` is positive). -/
def tempered (T p : ℝ) : ℝ := if p = 0 then 0 else Real.exp (Real.log p / T)

/-- `predict_proba`, classification temp_scaling/base.py L40-55: `softmax(np.log(probs) / T)`, one row. -/
def tempProba (T : ℝ) (p : Fin c → ℝ) (i : Fin c) : ℝ := tempered T (p i) / ∑ j, tempered T (p j)

/-- `predict`, base.py L57-72: the arg-max of the probabilities passed in. -/
def tempPredict (p : Fin c → ℝ) : ℕ := argmax (List.ofFn p)

/-- `temp_scaling_fn`, base.py L34-36, for targets in range and positive probabilities. -/
def tempLoss {n : ℕ} (p : Fin n → Fin c → ℝ) (y : Fin n → Fin c) (tau : ℝ) : ℝ :=
  -∑ k, Real.log (tempProba tau (p k) (y k))

end multiclass

/-! ## Kernel regression -/

noncomputable section kernel

/-- `jnp.std` of a vector. -/
def stdDev (l : List ℝ) : ℝ := Real.sqrt (mean (l.map fun a => (a - mean l) ^ 2))

/-- `NadarayaWatsonKernelRegressor`, nadaraya_watson.py L29-92, at one input. The construction standardises
the targets (L40-44); `none` is the NaN of a division by zero. -/
def nwPredict (kernel : ℝ → ℝ) (xs ys : List ℝ) (bandwidth x : ℝ) : Except String (Option ℝ) :=
  if xs.length ≠ ys.length then .error "ValueError"
  else
    let ks := xs.map fun a => kernel ((x - a) / bandwidth) / bandwidth
    let std := stdDev ys
    if std = 0 ∨ ks.sum = 0 then .ok none
    else
      let standardized := ys.map fun y => (y - mean ys) / std
      .ok (some ((List.zipWith (· * ·) ks standardized).sum / ks.sum * std + mean ys))

/-- `gaussian_kernel`, kernels/gaussian.py. -/
def gaussianKernel (x : ℝ) : ℝ := Real.exp (-(1 / 2) * x ^ 2) / Real.sqrt (2 * Real.pi)

end kernel

/-! ## Losses -/

noncomputable section losses
variable {c d : ℕ}
open Verif.OutputLayer (oneHot softmax)
open Verif.Predictive (logsumexp)

/-- `cross_entropy_loss_fn`, loss/classification/cross_entropy.py L27-28. -/
def crossEntropy (rows : List ((Fin c → ℝ) × ℤ)) : ℝ :=
  mean (rows.map fun (o, y) => logsumexp o - ∑ j, oneHot c y j * o j)

/-- `focal_loss_fn`, loss/classification/focal_loss.py L33-36. -/
def focalLoss (gamma : ℝ) (rows : List ((Fin c → ℝ) × ℤ)) : ℝ :=
  -mean (rows.map fun (o, y) =>
    let p := ∑ j, softmax o j * oneHot c y j
    (1 - p) ^ gamma * Real.log p)

/-- `scaled_mse_fn`, loss/regression/scaled_mse.py L25-26: rows of means, log-variances and targets. -/
def scaledMse (rows : List ((Fin d → ℝ) × (Fin d → ℝ) × (Fin d → ℝ))) : ℝ :=
  mean (rows.map fun (m, lv, t) => ∑ i, (Real.exp (-lv i) * (t i - m i) ^ 2 + lv i))

end losses

end Verif.Calibration
