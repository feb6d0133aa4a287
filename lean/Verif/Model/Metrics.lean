import Mathlib.Analysis.Real.Sqrt
import Verif.Model.ArrayOps

/-!
# Metrics

Source: `/repo/fortuna/metric/classification.py`, `/repo/fortuna/metric/regression.py`.

Arrays of the same length that the code indexes together (predictions, probabilities, targets) are one
list of rows. Plotting is not modelled. A `TargetsLoader` argument has been converted to an array.
Exact arithmetic.
-/

set_option linter.unusedSectionVars false

namespace Verif.Metrics
open Verif.ArrayOps

variable {K : Type} [Field K] [LinearOrder K] [IsStrictOrderedRing K]

/-- `preds[i]`, `probs[i]` (one-dimensional, or the maximum of the row, classification.py L74-75) and
`targets[i]`. -/
structure Point (K : Type) where
  pred : ℤ
  prob : K
  target : ℤ
  deriving DecidableEq

/-- `accuracy`, classification.py L16-40 (one-dimensional inputs). -/
def accuracy (rows : List (Point K)) : K :=
  mean (rows.map fun r => if r.pred = r.target then 1 else 0)

/-- `thresholds`, classification.py L76. -/
def thresholds (n : ℕ) : List K := linspace (1 / (n : K)) 1 10

/-- The rows with index in `indices[i]`, classification.py L78-82. -/
def bin (ts : List K) (i : ℕ) (rows : List (Point K)) : List (Point K) :=
  if i = 0 then rows.filter fun r => decide (r.prob ≤ ts.getD 0 0)
  else rows.filter fun r => decide (r.prob ≤ ts.getD i 0) && decide (r.prob > ts.getD (i - 1) 0)

/-- `compute_counts_confs_accs`, classification.py L43-95: for every bin the count, the mean probability
and the accuracy. `nan_to_num` turns the mean of an empty bin into zero, as does `mean` here. -/
def countsConfsAccs (rows : List (Point K)) : List (ℕ × K × K) :=
  let ts := thresholds (K := K) rows.length
  (List.range ts.length).map fun i =>
    let b := bin ts i rows
    (b.length, mean (b.map (·.prob)), mean (b.map fun r => if r.target - r.pred = 0 then 1 else 0))

/-- `expected_calibration_error`, classification.py L98-133. -/
def ece (rows : List (Point K)) : K :=
  ((countsConfsAccs rows).map fun c => (c.1 : K) * |c.2.2 - c.2.1|).sum / (rows.length : K)

/-- `maximum_calibration_error`, classification.py L147-181. -/
def mce (rows : List (Point K)) : K :=
  ((countsConfsAccs rows).map fun c => (c.1 : K) * |c.2.2 - c.2.1|).foldl max 0

/-- `jax.nn.one_hot(y, n)`: all zero when `y` is out of range. -/
def oneHot (n : ℕ) (y : ℤ) : List K :=
  (List.range n).map fun j : ℕ => if (j : ℤ) = y then 1 else 0

/-- One row of `brier_score` for two-dimensional `probs`, classification.py L217-219. -/
def brierRow (p : List K) (y : ℤ) : K :=
  (List.zipWith (fun a b => (a - b) ^ 2) p (oneHot p.length y)).sum

/-- `brier_score`, two-dimensional `probs`, classification.py L195-219. -/
def brier (rows : List (List K × ℤ)) : K := mean (rows.map fun r => brierRow r.1 r.2)

/-- `brier_score`, one-dimensional `probs` and 0/1 targets, classification.py L220. -/
def brierBinary (rows : List (K × ℤ)) : K := mean (rows.map fun r => (r.1 - (r.2 : K)) ^ 2)

/-- `mean_squared_error`, regression.py L30-46: rows of predictions and targets. -/
def mse (rows : List (List K × List K)) : K :=
  mean (rows.map fun r => (List.zipWith (fun a b => (a - b) ^ 2) r.1 r.2).sum)

/-- `mean_absolute_error`, regression.py L78-94. -/
def mae (rows : List (List K × List K)) : K :=
  mean (rows.map fun r => (List.zipWith (fun a b => |a - b|) r.1 r.2).sum)

/-- `root_mean_squared_error`, regression.py L6-22. -/
noncomputable def rmse (rows : List (List ℝ × List ℝ)) : ℝ :=
  Real.sqrt (mean (rows.map fun r => (List.zipWith (fun a b => (a - b) ^ 2) r.1 r.2).sum))

/-- `root_mean_absolute_error`, regression.py L54-70. -/
noncomputable def rmae (rows : List (List ℝ × List ℝ)) : ℝ :=
  Real.sqrt (mean (rows.map fun r => (List.zipWith (fun a b => |a - b|) r.1 r.2).sum))

/-- `mean_squared_error`, regression.py L46, of predictions of shape `(n, 1)` and targets of shape `(m,)`: the difference is
broadcast to shape `(n, m)` and summed along the targets. -/
def mseFlat (preds targets : List K) : K :=
  mean (preds.map fun p => (targets.map fun t => (p - t) ^ 2).sum)

/-- The shapes that `prediction_interval_coverage_probability` accepts, regression.py L127-147; `none` is one-dimensional, `some c` has
`c` columns. -/
def picpShapes (targets upper lower : Option ℕ) : Except String Unit :=
  if targets.any (· > 1) then .error "ValueError"
  else if upper.any (· ≠ 1) then .error "ValueError"
  else if lower.any (· ≠ 1) then .error "ValueError"
  else .ok ()

/-- A row of `prediction_interval_coverage_probability`. -/
structure Interval (K : Type) where
  lower : K
  upper : K
  target : K

/-- `prediction_interval_coverage_probability`, regression.py L102-151 (one column each). -/
def picp (rows : List (Interval K)) : K :=
  mean (rows.map fun r =>
    (if r.target ≥ r.lower then 1 else 0) * (if r.target ≤ r.upper then 1 else 0))

end Verif.Metrics
