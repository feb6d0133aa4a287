import Mathlib.Analysis.SpecialFunctions.Log.Basic
import Mathlib.Analysis.SpecialFunctions.Pow.Real
import Mathlib.Analysis.Real.Pi.Bounds
import Mathlib.Algebra.BigOperators.Fin
import Verif.Model.ArrayOps
import Verif.Model.Predictive

/-!
# Probabilistic output layers, priors and temperature scalers

Source: `/repo/fortuna/prob_output_layer/{base,classification,regression}.py`,
`/repo/fortuna/prob_model/prior/gaussian.py`, `/repo/fortuna/output_calibrator/{classification,regression}.py`.

One row of outputs at a time; real arithmetic. A classification row is `Fin c → ℝ` (logits); a regression
row of `d` target components is split into means and log-variances, `Fin d → ℝ` each (regression.py
L30-34, `jnp.split(outputs, 2, axis=-1)`).
-/

set_option linter.unusedSectionVars false

namespace Verif.OutputLayer

open Verif.Predictive (logsumexp)
open Verif.ArrayOps (argmax)

noncomputable section

/-! ## Classification -/

variable {c : ℕ}

/-- `jax.nn.one_hot(y, c)`: a row of zeros when `y` is not in `[0, c)`. -/
def oneHot (c : ℕ) (y : ℤ) (j : Fin c) : ℝ := if (j : ℤ) = y then 1 else 0

/-- `ClassificationProbOutputLayer.log_prob`, classification.py L25-28. -/
def classLogProb (o : Fin c → ℝ) (y : ℤ) : ℝ := (∑ j, oneHot c y j * o j) - logsumexp o

/-- `ClassificationMaskedProbOutputLayer.log_prob`, classification.py L151-158. -/
def maskedLogProb (o : Fin c → ℝ) (y : ℤ) : ℝ :=
  ((∑ j, oneHot c y j * o j) - logsumexp o) * (if 0 < y then 1 else 0)

/-- `predict` and `mode`, classification.py L30-31, L71-86. -/
def classPredict (o : Fin c → ℝ) : ℕ := argmax (List.ofFn o)

/-- `mean`, classification.py L54-69: `softmax`. -/
def softmax (o : Fin c → ℝ) (i : Fin c) : ℝ := Real.exp (o i) / ∑ j, Real.exp (o j)

/-- `variance`, classification.py L88-104. -/
def classVariance (o : Fin c → ℝ) (i : Fin c) : ℝ := softmax o i * (1 - softmax o i)

/-- `entropy`, classification.py L125-148, with the log-probability of the layer as an argument (it is
overridden in the masked layer). -/
def classEntropy (logProb : (Fin c → ℝ) → ℤ → ℝ) (o : Fin c → ℝ) : ℝ :=
  -∑ i : Fin c, Real.exp (logProb o (i : ℕ)) * logProb o (i : ℕ)

/-- `std`, base.py L152 (both layers): one component. -/
def std (variance : ℝ) (variances : Option ℝ) : ℝ :=
  match variances with
  | none => Real.sqrt variance
  | some v => v

/-! ## Regression -/

variable {d : ℕ}

/-- `RegressionProbOutputLayer.log_prob`, regression.py L30-34. -/
def regLogProb (m lv t : Fin d → ℝ) : ℝ :=
  -(1 / 2) * ∑ i, (Real.exp (-lv i) * (t i - m i) ^ 2 + lv i + Real.log (2 * Real.pi))

/-- `predict`, `mean` and `mode`, regression.py L36-37. -/
def regPredict (m _lv : Fin d → ℝ) : Fin d → ℝ := m

/-- `variance`, regression.py L73. -/
def regVariance (_m lv : Fin d → ℝ) (i : Fin d) : ℝ := Real.exp (lv i)

/-- `sample` for one draw `z` of standard normal numbers, regression.py L39-51. -/
def regSample (m lv z : Fin d → ℝ) (i : Fin d) : ℝ := m i + Real.exp (1 / 2 * lv i) * z i

/-- `entropy`, regression.py L76-89, from the target samples. -/
def regEntropy {n : ℕ} (m lv : Fin d → ℝ) (samples : Fin n → Fin d → ℝ) : ℝ :=
  -((∑ s, regLogProb m lv (samples s)) / n)

/-! ## Gaussian priors, prior/gaussian.py -/

/-- `IsotropicGaussianPrior.log_joint_prob`, L24-32, of the ravelled parameters. -/
def isoLogProb (logVar : ℝ) (x : List ℝ) : ℝ :=
  -(1 / 2) * (Real.exp (-logVar) * (x.map fun a => a ^ 2).sum +
    x.length * (Real.log (2 * Real.pi) + logVar))

/-- `IsotropicGaussianPrior.sample`, L34-40, from `n` standard normal numbers. -/
def isoSample (logVar : ℝ) (z : List ℝ) : List ℝ := z.map fun a => Real.exp (1 / 2 * logVar) * a

/-- jax broadcasting of two vectors, as the list of pairs. -/
def broadcast2 (a b : List ℝ) : Except String (List (ℝ × ℝ)) :=
  if a.length = b.length then .ok (a.zip b)
  else if a.length = 1 then .ok (b.map fun y => (a.headD 0, y))
  else if b.length = 1 then .ok (a.map fun x => (x, b.headD 0))
  else .error "TypeError"

/-- `DiagonalGaussianPrior.log_joint_prob`, L54-60. -/
def diagLogProb (logVar x : List ℝ) : Except String ℝ := do
  let ps ← broadcast2 logVar x
  .ok (-(1 / 2) * (ps.map fun (l, a) => Real.exp (-l) * a ^ 2 + Real.log (2 * Real.pi) + l).sum)

/-- `DiagonalGaussianPrior.sample`, L62-69, from as many standard normal numbers as there are parameters;
`unravel` raises when the result has another length. -/
def diagSample (logVar z : List ℝ) : Except String (List ℝ) := do
  let ps ← broadcast2 logVar z
  if ps.length ≠ z.length then .error "TypeError"
  else .ok (ps.map fun (l, a) => Real.exp (1 / 2 * l) * a)

/-! ## Temperature scalers -/

/-- `ClassificationTemperatureScaler.__call__`, output_calibrator/classification.py L14-17. -/
def scaleLogits (logTemp : ℝ) (o : Fin c → ℝ) (i : Fin c) : ℝ := o i * Real.exp (-logTemp)

/-- `RegressionTemperatureScaler.__call__`, output_calibrator/regression.py L14-19: means and
log-variances. -/
def scaleVar (logTemp : ℝ) (o : (Fin d → ℝ) × (Fin d → ℝ)) : (Fin d → ℝ) × (Fin d → ℝ) :=
  (o.1, fun i => o.2 i + logTemp)

/-- `SNGPClassificationModelManagerMixin._mean_field_logits`, model/model_manager/classification.py
L219-235: one row of logits; `var` is its entry of the covariance diagonal, `none` for no covariance. -/
def meanFieldLogits (factor : ℝ) (var : Option ℝ) (o : Fin c → ℝ) : Except String (Fin c → ℝ) :=
  if factor < 0 then .error "ValueError"
  else .ok fun i => o i / Real.sqrt (1 + var.getD 1 * factor)

end

end Verif.OutputLayer
