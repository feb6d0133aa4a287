import Mathlib.Data.Rat.Floor
import Mathlib.Data.List.Sort

/-!
Model of `/repo/fortuna/conformal/classification/base.py`, `simple_prediction.py`, `adaptive_prediction.py`.

Scores live in an arbitrary linear order `α` (the code only compares them); the error level is an exact rational.
Arrays are lists, a matrix is a list of rows.
-/
namespace Verif.ConformalClassification

variable {α : Type*} [LinearOrder α]

/-- `/repo/fortuna/conformal/classification/base.py:51-53`, one row of `conds`:
`jnp.sum(val_scores[:, None, None] > test_scores[None], axis=0) < (1 - error) * (len(val_scores) + 1)`.
Exact rational arithmetic instead of floating point. -/
def condRow (val : List α) (row : List α) (error : ℚ) : List Bool :=
  row.map fun t => decide (((val.countP fun v => decide (v > t) : ℕ) : ℚ) < (1 - error) * ((val.length : ℚ) + 1))

/-- `base.py:51-53`: the whole boolean matrix `conds`. -/
def conds (val : List α) (test : List (List α)) (error : ℚ) : List (List Bool) :=
  test.map fun row => condRow val row error

/-- `base.py:54`: `sizes = conds.sum(1)`. -/
def sizes (c : List (List Bool)) : List ℕ := c.map fun r => r.count true

/-- numpy `np.where(r)[0]` on a boolean vector, starting at column `k`. -/
def whereTrue : List Bool → ℕ → List ℕ
  | [], _ => []
  | true :: bs, k => k :: whereTrue bs (k + 1)
  | false :: bs, k => whereTrue bs (k + 1)

/-- `jnp.unique(sizes)` (`base.py:57`): the distinct values in ascending order. -/
def unique (l : List ℕ) : List ℕ := l.dedup.mergeSort (· ≤ ·)

/-- `jnp.where(sizes == us)[0]` (`base.py:58`). -/
def idxOfSize (sz : List ℕ) (us : ℕ) : List ℕ := whereTrue (sz.map fun s => s == us) 0

/-- numpy `a.reshape(-1, us)` of a vector, for `us > 0` (`base.py:62`). -/
def chunk (us : ℕ) (l : List ℕ) : List (List ℕ) :=
  if _h : us = 0 ∨ l = [] then [] else l.take us :: chunk us (l.drop us)
termination_by l.length
decreasing_by
  rcases l with _ | ⟨a, l⟩
  · simp_all
  · simp; omega

/-- numpy fancy assignment `sets[idx] = vals` on an object vector, with as many values as indices. -/
def scatter (sets : List (Option (List ℕ))) : List ℕ → List (List ℕ) → List (Option (List ℕ))
  | i :: is, v :: vs => scatter (sets.set i (some v)) is vs
  | _, _ => sets

/-- numpy fancy assignment with a single broadcast value (`sets[idx] = [len(idx) * []]`, i.e. `[[]]`; `base.py:60`). -/
def scatterAll (sets : List (Option (List ℕ))) (idx : List ℕ) (v : List ℕ) : List (Option (List ℕ)) :=
  idx.foldl (fun s i => s.set i (some v)) sets

/-- Loop body `base.py:57-62`. -/
def stepSize (c : List (List Bool)) (sets : List (Option (List ℕ))) (us : ℕ) : List (Option (List ℕ)) :=
  let idx := idxOfSize (sizes c) us
  if us = 0 then scatterAll sets idx []
  else scatter sets idx (chunk us ((idx.filterMap fun i => c[i]?).flatMap fun r => whereTrue r 0))

/-- `_get_conformal_sets_from_scores`, `base.py:46-64`. The result is `none` at a row exactly where the object array
would still hold its initial `0` (line 56). -/
def conformalSetsFromScores (val : List α) (test : List (List α)) (error : ℚ) : List (Option (List ℕ)) :=
  let c := conds val test error
  (unique (sizes c)).foldl (stepSize c) (List.replicate test.length none)

/-- `SimplePredictionConformalClassifier._score_fn`, `simple_prediction.py:10-12`: `1 - probs[target]`.
`none` stands for an index that is out of range (jax would clamp it; callers never rely on that). -/
def simpleScore (probs : List ℚ) (target : ℕ) : Option ℚ := (probs[target]?).map (1 - ·)

/-- `SplitConformalClassifier.get_scores`, `base.py:72-82`, for the simple score.  The test scores of a row are the
scores of every label `0 … n_classes-1`, which for the simple score is `1 - p` entry by entry. -/
def simpleTestScores (testProbs : List (List ℚ)) : List (List ℚ) := testProbs.map fun r => r.map (1 - ·)

/-- Validation scores `base.py:75`. -/
def simpleValScores (valProbs : List (List ℚ)) (valTargets : List ℕ) : List ℚ :=
  (valProbs.zip valTargets).filterMap fun pt => simpleScore pt.1 pt.2

/-- `SplitConformalClassifier.conformal_set`, `base.py:84-92`, with the simple score. -/
def simpleConformalSet (valProbs : List (List ℚ)) (valTargets : List ℕ) (testProbs : List (List ℚ)) (error : ℚ) :
    List (Option (List ℕ)) :=
  conformalSetsFromScores (simpleValScores valProbs valTargets) (simpleTestScores testProbs) error

/-- `CVPlusConformalClassifier.conformal_set`, `base.py:95-132`: per-fold validation and test scores are both
concatenated along axis 0 (line 132). The folds are given by their scores. -/
def cvPlusConformalSet (folds : List (List α × List (List α))) (error : ℚ) : List (Option (List ℕ)) :=
  conformalSetsFromScores (folds.flatMap (·.1)) (folds.flatMap (·.2)) error

/-- `ConformalClassifier.is_in`, `base.py:19-35`: `[v in s for v, s in zip(values, conformal_sets)]`. -/
def isIn (values : List ℕ) (sets : List (List ℕ)) : List Bool :=
  (values.zip sets).map fun vs => decide (vs.1 ∈ vs.2)

end Verif.ConformalClassification
