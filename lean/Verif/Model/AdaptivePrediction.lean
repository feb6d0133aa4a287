import Verif.Model.ConformalClassification
import Verif.Model.Predictive

/-!
Model of the score functions of conformal classification, `/repo/fortuna/conformal/classification/adaptive_prediction.py` and
`simple_prediction.py`, and of `get_scores` and `conformal_set` of `base.py` from probabilities to sets. Arrays are lists, a matrix is
a list of rows; exact arithmetic in an ordered field instead of floating point.
-/
set_option linter.unusedSectionVars false

namespace Verif.AdaptivePrediction

open Verif.ConformalClassification

/-- `jnp.argsort` of a vector: stable, ascending (`adaptive_prediction.py:20-21`). -/
def argsort {α : Type*} [LinearOrder α] [Zero α] (l : List α) : List ℕ :=
  (List.range l.length).insertionSort fun a b => l.getD a 0 ≤ l.getD b 0

variable {K : Type} [Field K] [LinearOrder K]

/-- One row of `score_fn`, `adaptive_prediction.py:11-22`: `perm` is the ascending order reversed (line 20), `inv_perm` its argsort
(line 21), the score is `cumsum(probs[perm])[inv_perm[target]]` (line 13). `none`: the target is not a label of the row (the code does
not raise; what jax returns for an index out of range is not modelled). Targets are not negative. -/
def adaptiveScore (p : List K) (y : ℕ) : Option K :=
  let perm := (argsort p).reverse
  let inv := argsort perm
  (inv[y]?).bind fun i => (Predictive.cumsum (perm.map fun a => p.getD a 0))[i]?

/-- One row of `score_fn`, `simple_prediction.py:10-19`. -/
def simpleScore (p : List K) (y : ℕ) : Option K := (p[y]?).map (1 - ·)

/-- Out of range indices are outside of the model. -/
def inRange (x : Option K) : Except String K :=
  match x with
  | some x => .ok x
  | none => .error "index out of range"

/-- `self.score_fn(probs, targets)`: a `vmap` over rows and targets, which raises if their numbers differ
(`adaptive_prediction.py:11,22`, `simple_prediction.py:10,19`). -/
def scoreFn (score : List K → ℕ → Option K) (probs : List (List K)) (targets : List ℕ) : Except String (List K) :=
  if probs.length ≠ targets.length then .error "ValueError"
  else (probs.zip targets).mapM fun pt => inRange (score pt.1 pt.2)

/-- The scores of all labels `0 … c - 1` for every test row, `base.py:76-81` and `:122-129`. -/
def testScores (score : List K → ℕ → Option K) (c : ℕ) (testProbs : List (List K)) : Except String (List (List K)) :=
  testProbs.mapM fun p => (List.range c).mapM fun i => inRange (score p i)

/-- `SplitConformalClassifier.conformal_set`, `base.py:72-92`. `c` is the number of columns of `val_probs`. -/
def splitSet (score : List K → ℕ → Option K) (c : ℕ) (valProbs : List (List K)) (valTargets : List ℕ)
    (testProbs : List (List K)) (error : ℚ) : Except String (List (Option (List ℕ))) := do
  let val ← scoreFn score valProbs valTargets
  let test ← testScores score c testProbs
  pure (conformalSetsFromScores val test error)

/-- One fold of the arguments of `CVPlusConformalClassifier.conformal_set`. -/
structure Fold (K : Type) where
  valProbs : List (List K)
  valTargets : List ℕ
  testProbs : List (List K)

/-- `CVPlusConformalClassifier.conformal_set`, `base.py:95-132`: the folds are the zipped arguments (lines 118-120); `c` is the number
of columns of the first fold (line 129). `jnp.concatenate` of no array raises (line 132). -/
def cvPlusSet (score : List K → ℕ → Option K) (c : ℕ) (folds : List (Fold K)) (error : ℚ) :
    Except String (List (Option (List ℕ))) := do
  let scores ← folds.mapM fun f => do
    let val ← scoreFn score f.valProbs f.valTargets
    let test ← testScores score c f.testProbs
    pure (val, test)
  if scores.isEmpty then .error "ValueError"
  else pure (cvPlusConformalSet scores error)

end Verif.AdaptivePrediction
