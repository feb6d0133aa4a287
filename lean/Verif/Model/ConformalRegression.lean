import Verif.Model.Quantile

/-!
Model of `/repo/fortuna/conformal/regression/`: `base.py`, `quantile.py`, `onedim_uncertainty.py`,
`jackknifeplus.py`, `jackknife_minmax.py`, `cvplus.py`, `enbpi.py`.

Arrays with one scalar component per point are lists; the optional trailing axis of size one (`[:, None]`, `squeeze`)
is dropped.  A matrix of shape `(n, m)` is a list of `n` rows.  Exceptions are `Except.error` with the Python exception
class.  Numbers are an arbitrary ordered field with floor (exact arithmetic, no NaN).
-/
namespace Verif.ConformalRegression

open Verif.Quantile

variable {K : Type*} [Field K] [LinearOrder K] [IsStrictOrderedRing K] [FloorRing K]

/-- `ConformalRegressor.is_in`, base.py L25-27. -/
def isIn (values : List K) (intervals : List (K × K)) : List Bool :=
  List.zipWith (fun v i => decide (v ≤ i.2) && decide (v ≥ i.1)) values intervals

/-- Result of a reduction which is NaN on an empty axis: reported as an error. -/
def ofNan : Option K → Except String K
  | some v => .ok v
  | none => .error "nan"

/-- `if quantile is None: quantile = self.quantile(...)`, quantile.py L173-176, onedim_uncertainty.py L146-147. -/
def orCompute (q : Option K) (x : Except String K) : Except String K :=
  match q with
  | some q => .ok q
  | none => x

/-! ### quantile.py -/

/-- `QuantileConformalRegressor.score`, quantile.py L33-51.  Simplified: a number of targets different from the number
of bounds is an error (jax broadcasting of a single element is not modelled). -/
def quantileScore (lo hi y : List K) : Except String (List K) :=
  if lo.length ≠ hi.length then .error "ValueError"
  else if y.length ≠ lo.length then .error "TypeError"
  else .ok (List.zipWith (fun b t => max (b.1 - t) (t - b.2)) (lo.zip hi) y)

/-- Tail of `quantile`, quantile.py L85-90 and onedim_uncertainty.py L85-90, once the scores are available. -/
def scoresQuantile (scores : List K) (error : K) : Except String K :=
  if error < 0 ∨ error > 1 then .error "ValueError"
  else
    let n : K := scores.length
    ofNan (quantile scores ((⌈(n + 1) * (1 - error)⌉ : K) / n))

/-- `QuantileConformalRegressor.quantile`, quantile.py L85-90 (`scores=None`). -/
def quantileQuantile (lo hi y : List K) (error : K) : Except String K :=
  if error < 0 ∨ error > 1 then .error "ValueError"
  else do
    let s ← quantileScore lo hi y
    scoresQuantile s error

/-- `QuantileConformalRegressor.conformal_interval`, quantile.py L132-179. -/
def quantileInterval (valLo valHi testLo testHi valY : List K) (error : K) (q : Option K) :
    Except String (List (K × K)) :=
  if valLo.length ≠ valHi.length then .error "ValueError"
  else if testLo.length ≠ testHi.length then .error "ValueError"
  else do
    let q ← orCompute q (quantileQuantile valLo valHi valY error)
    .ok ((testLo.map (· - q)).zip (testHi.map (· + q)))

/-! ### onedim_uncertainty.py -/

/-- `OneDimensionalUncertaintyConformalRegressor.score`, onedim_uncertainty.py L34-52. -/
def onedimScore (preds unc y : List K) : Except String (List K) :=
  if unc.any (fun u => decide (u ≤ 0)) then .error "ValueError"
  else if y.length ≠ preds.length ∨ unc.length ≠ preds.length then .error "TypeError"
  else .ok (List.zipWith (fun pu t => |t - pu.1| / pu.2) (preds.zip unc) y)

/-- `OneDimensionalUncertaintyConformalRegressor.quantile`, onedim_uncertainty.py L85-90 (`scores=None`). -/
def onedimQuantile (preds unc y : List K) (error : K) : Except String K :=
  if error < 0 ∨ error > 1 then .error "ValueError"
  else do
    let s ← onedimScore preds unc y
    scoresQuantile s error

/-- `OneDimensionalUncertaintyConformalRegressor.conformal_interval`, onedim_uncertainty.py L132-150. -/
def onedimInterval (valPreds valUnc testPreds testUnc valY : List K) (error : K) (q : Option K) :
    Except String (List (K × K)) :=
  if testUnc.any (fun u => decide (u ≤ 0)) then .error "ValueError"
  else do
    let q ← orCompute q (onedimQuantile valPreds valUnc valY error)
    if testUnc.length ≠ testPreds.length then .error "TypeError" else
    .ok ((List.zipWith (fun p u => p - u * q) testPreds testUnc).zip
      (List.zipWith (fun p u => p + u * q) testPreds testUnc))

/-! ### jackknife -/

/-- `r = |targets - outputs|`, jackknifeplus.py L77, jackknife_minmax.py L78, cvplus.py L88. -/
def absResiduals (targets outputs : List K) : List K := List.zipWith (fun y m => |y - m|) targets outputs

/-- Column `j` of a matrix. -/
def column (rows : List (List K)) (j : ℕ) : List K := rows.map fun r => r.getD j 0

/-- Number of columns of a matrix. -/
def ncols (rows : List (List K)) : ℕ := (rows.headD []).length

/-- A list of rows is an array of shape `(n, ncols)`. -/
def isMatrix (rows : List (List K)) : Bool := rows.all fun r => r.length = ncols rows

/-- `JackknifePlusConformalRegressor.conformal_interval`, jackknifeplus.py L48-83.  `test` has one row per left-out
point and one column per test input.  Simplified: a first dimension of `loo_test_outputs` different from `n` is an error
(no broadcasting of a single row).  Without test inputs the stacked bounds have shape `(0,)` and `squeeze(2)` raises. -/
def jackknifePlus (valOut valY : List K) (test : List (List K)) (error : K) : Except String (List (K × K)) :=
  if valOut.length ≠ valY.length then .error "ValueError"
  else if test.length ≠ valOut.length ∨ !isMatrix test then .error "TypeError"
  else if ncols test = 0 then .error "ValueError"
  else
    let r := absResiduals valY valOut
    (List.range (ncols test)).mapM fun j => do
      let left := List.zipWith (· - ·) (column test j) r
      let right := List.zipWith (· + ·) (column test j) r
      let ql ← ofNan (quantile left error)
      let qr ← ofNan (quantile right (1 - error))
      .ok (ql, qr)

/-- `jnp.min(axis=0)` of a column; an empty axis raises. -/
def minOf (l : List K) : Except String K :=
  match l.min? with
  | some v => .ok v
  | none => .error "ValueError"

/-- `jnp.max(axis=0)` of a column; an empty axis raises. -/
def maxOf (l : List K) : Except String K :=
  match l.max? with
  | some v => .ok v
  | none => .error "ValueError"

/-- `JackknifeMinmaxConformalRegressor.conformal_interval`, jackknife_minmax.py L49-82.  The minimum over no left-out
models raises, and so does `squeeze(2)` without test inputs. -/
def jackknifeMinmax (valOut valY : List K) (test : List (List K)) (error : K) : Except String (List (K × K)) :=
  if valOut.length ≠ valY.length then .error "ValueError"
  else if !isMatrix test then .error "TypeError"
  else if test = [] then .error "ValueError"
  else if ncols test = 0 then .error "ValueError"
  else
    let r := absResiduals valY valOut
    (List.range (ncols test)).mapM fun j => do
      let q ← ofNan (quantile r (1 - error))
      let lo ← minOf (column test j)
      let hi ← maxOf (column test j)
      .ok (lo - q, hi + q)

/-- One cross-validation fold: outputs and targets on the fold, outputs on the test inputs. -/
structure Fold (K : Type*) where
  valOut : List K
  valY : List K
  test : List K

/-- `CVPlusConformalRegressor.conformal_interval`, cvplus.py L52-98.  The three parallel lists of arrays are one list
of folds (`zip` truncates to the shortest); `jnp.concatenate` of no array raises, and so does `squeeze(2)` without test inputs; all folds are evaluated at the same test inputs. The in-place rewriting of
the caller's lists into column form (L67, 74, 81) is not modelled. -/
def cvPlus (folds : List (Fold K)) (error : K) : Except String (List (K × K)) :=
  if folds.any (fun f => f.valOut.length ≠ f.valY.length) then .error "ValueError"
  else if folds = [] then .error "ValueError"
  else if !isMatrix (folds.map Fold.test) then .error "TypeError"
  else if ncols (folds.map Fold.test) = 0 then .error "ValueError"
  else
    (List.range (ncols (folds.map Fold.test))).mapM fun j => do
      let left := folds.flatMap fun f => (absResiduals f.valY f.valOut).map fun ri => f.test.getD j 0 - ri
      let right := folds.flatMap fun f => (absResiduals f.valY f.valOut).map fun ri => f.test.getD j 0 + ri
      let ql ← ofNan (quantile left error)
      let qr ← ofNan (quantile right (1 - error))
      .ok (ql, qr)

/-! ### EnbPI -/

/-- The bootstraps, in order, that do not contain training time `t`: enbpi.py L145-146, L153. -/
def outOfBag (indices : List (List ℕ)) (t : ℕ) : List ℕ :=
  (List.range indices.length).filter fun b => !(indices.getD b []).contains t

/-- `preds[which, t]`. -/
def pickAt (preds : List (List K)) (which : List ℕ) (t : ℕ) : List K :=
  which.map fun b => (preds.getD b []).getD t 0

/-- `train_residuals`, enbpi.py L150-165. `agg` is `aggregation_fun` on one column. -/
def enbpiResiduals (agg : List K → K) (indices : List (List ℕ)) (trainPreds : List (List K)) (targets : List K) :
    List K :=
  (List.range targets.length).map fun t =>
    let which := outOfBag indices t
    if which.length > 0 then |targets.getD t 0 - agg (pickAt trainPreds which t)| else |targets.getD t 0|

/-- `aggr_bootstrap_test_preds[:, j]`, enbpi.py L147-163: zero where no bootstrap leaves `t` out. -/
def enbpiTest (agg : List K → K) (indices : List (List ℕ)) (testPreds : List (List K)) (nTrain j : ℕ) : List K :=
  (List.range nTrain).map fun t =>
    let which := outOfBag indices t
    if which.length > 0 then agg (pickAt testPreds which j) else 0

/-- `EnbPI.conformal_interval` with `return_residuals=True`, enbpi.py L84-176. -/
def enbpiInterval (agg : List K → K) (indices : List (List ℕ)) (trainPreds testPreds : List (List K))
    (targets : List K) (error : K) : Except String (List (K × K) × List K) :=
  let nTrain := (indices.headD []).length
  if indices.any (fun row => row.any fun i => decide (nTrain ≤ i)) then .error "ValueError"
  else if trainPreds.length ≠ indices.length then .error "ValueError"
  else if trainPreds.any (fun r => r.length ≠ nTrain) then .error "ValueError"
  else if testPreds.length ≠ indices.length then .error "ValueError"
  else if targets.length ≠ nTrain then .error "ValueError"
  else do
    let res := enbpiResiduals agg indices trainPreds targets
    let rq ← ofNan (quantile res (1 - error))
    let ivs ← (List.range (ncols testPreds)).mapM fun j => do
      let c ← ofNan (quantile (enbpiTest agg indices testPreds nTrain j) (1 - error))
      .ok (c - rq, c + rq)
    .ok (ivs, res)

/-- The in-place window update of `EnbPI.conformal_interval_from_residuals`, enbpi.py L276-279:
`res[:-1] = res[1:]; res[-1] = |y - agg(preds)|`.  The right-hand side of the last assignment has one entry per new
training time, so anything but exactly one new time raises; an empty window raises. -/
def enbpiShift (agg : List K → K) (res : List K) (newPreds : List (List K)) (newY : List K) : Except String (List K) :=
  match newY with
  | [y] => if res = [] then .error "IndexError" else .ok (res.tail ++ [|y - agg (column newPreds 0)|])
  | _ => .error "ValueError"

/-- `EnbPI.conformal_interval_from_residuals`, enbpi.py L235-286. -/
def enbpiFromResiduals (agg : List K → K) (res : List K) (newPreds testPreds : List (List K)) (newY : List K)
    (error : K) : Except String (List (K × K) × List K) :=
  if newPreds.length ≠ testPreds.length then .error "ValueError"
  else if newY.length ≠ ncols newPreds then .error "ValueError"
  else do
    let res' ← enbpiShift agg res newPreds newY
    let rq ← ofNan (quantile res' (1 - error))
    .ok ((List.range (ncols testPreds)).map fun j =>
      (agg (column testPreds j) - rq, agg (column testPreds j) + rq), res')

/-- One online update: the new predictions, test predictions, target and error. -/
structure EnbpiStep (K : Type*) where
  newPreds : List (List K)
  testPreds : List (List K)
  newY : List K
  error : K

/-- A history of updates, each reusing the residuals returned by the previous one. -/
def enbpiRun (agg : List K → K) (res : List K) : List (EnbpiStep K) → Except String (List K)
  | [] => .ok res
  | s :: rest => do
    let out ← enbpiFromResiduals agg res s.newPreds s.testPreds s.newY s.error
    enbpiRun agg out.2 rest

end Verif.ConformalRegression
