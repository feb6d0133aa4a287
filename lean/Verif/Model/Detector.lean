import Verif.Model.Hallucination
import Verif.Model.MultivalidEntry

/-!
# The hallucination detector from `fit` to `predict_proba`

Source: `/repo/fortuna/hallucination/base.py`, `/repo/fortuna/hallucination/grouping/clustering/base.py` and, for the calibrator,
`MultivalidEntry.lean`.

External and therefore arbitrary: the language model with tokenizer and scoring function, the dimension reduction, the
clustering models, the standard deviation of a column. A clustering model refuses NaN (sklearn contract). Exact arithmetic. The
numbers of texts and targets are equal.
-/

set_option linter.unusedSectionVars false

namespace Verif.Detector
open Verif.Hallucination Verif.MultivalidEntry Verif.Multivalid

/-- What the detector is built from. `run` is `_get_logits_scores` on one batch, base.py L270-292, with the mean over tokens of
L257: a score and an embedding per row. `reduceFit` and `reduceOn` are `fit_transform` and `transform`; `R` is the fitted
reduction, `M` a fitted clustering model. -/
structure Env (T C K R M : Type) where
  run : List T → List C → Except String (List K × List (List K))
  reduceFit : List (List K) → R × List (List K)
  reduceOn : R → List (List K) → List (List K)
  std : List K → K
  fitModels : List (List (List K) → M)
  bic : M → List (List K) → Option K
  proba : M → List (List K) → List (List K)

/-- A fitted `GroupingModel`: `_mean`, `_std`, `_clustering_model`. -/
structure Grouping (K M : Type) where
  mean : List K
  std : List K
  model : M
  deriving DecidableEq

/-- The attributes of the detector that change: L65-75. `grouping` is `none` before its `fit` has ended. `calibrator` is `none`
before `fit`; its patches are `none` (`_patches`) before `calibrate`, multivalid/base.py L24. The random
generator is an argument of `fit`. -/
structure Obj (K R M : Type) where
  reduction : R
  grouping : Option (Grouping K M)
  quantiles : Option (List K)
  calibrator : Option (Option (List (Patch K)))

section
variable {T C K R M : Type} [Field K] [LinearOrder K] [IsStrictOrderedRing K]

/-- `_compute_scores_embeddings`, base.py L245-263: the division by the batch size comes first; `np.concatenate` refuses an
empty list. -/
def scoresEmb (env : Env T C K R M) (texts : List T) (contexts : List C) (size : ℕ) :
    Except String (List K × List (List K)) :=
  if size = 0 then .error "ZeroDivisionError"
  else do
    let bs ← batches texts contexts size
    let out ← bs.mapM fun b => env.run b.1 b.2
    if out = [] then .error "ValueError"
    else .ok ((out.map Prod.fst).flatten, (out.map Prod.snd).flatten)

/-- `np.concatenate((embeddings, scores[:, None]), axis=1)`, base.py L130 and L189. -/
def withScores (emb : List (List K)) (scores : List K) : List (List K) := List.zipWith (fun r s => r ++ [s]) emb scores

/-- The columns of a matrix. -/
def columns (rows : List (List K)) : List (List K) :=
  (List.range (rows.headD []).length).map fun j => Multivalid.col rows j

/-- `_normalize`, clustering/base.py L115-121: entrywise `(x - mean) / std`. A zero deviation gives NaN, refused by the
clustering model. -/
def normalize (g : List K × List K) (rows : List (List K)) : Except String (List (List K)) :=
  if g.2.contains 0 then .error "ValueError"
  else .ok (rows.map fun r => List.zipWith (fun (x : K) (ms : K × K) => (x - ms.1) / ms.2) r (g.1.zip g.2))

/-- `GroupingModel.fit`, clustering/base.py L20-38, L123-133. -/
def fitGrouping (env : Env T C K R M) (rows : List (List K)) : Except String (Grouping K M) := do
  let mean := (columns rows).map ArrayOps.mean
  let std := (columns rows).map env.std
  let z ← normalize (mean, std) rows
  let models := env.fitModels.map fun f => f z
  let i ← bestModel (models.map fun m => env.bic m z)
  match models[i]? with
  | some m => .ok ⟨mean, std, m⟩
  | none => .error "UnboundLocalError"

/-- `GroupingModel.predict_proba`, clustering/base.py L40-57. -/
def groupProba (env : Env T C K R M) (g : Grouping K M) (rows : List (List K)) : Except String (List (List K)) := do
  let z ← normalize (g.mean, g.std) rows
  .ok (env.proba g.model z)

variable [FloorRing K]

/-- `compute_quantile`, clustering/base.py L111-113: numpy refuses levels outside the unit interval. -/
def quantilesOf (probs : List (List K)) (threshold : K) : Except String (List K) :=
  if threshold < 0 ∨ 1 < threshold then .error "ValueError"
  else .ok ((columns probs).map fun c => (Quantile.quantile c threshold).getD 0)

/-- The call of `calibrate`, base.py L143-146, with the defaults of binary_multicalibrator.py L22-38. -/
def calibCall (scores : List K) (targets : List ℤ) (groups : List (List Bool)) : Call K :=
  { kind := .binary
    scores := ⟨1, true, targets.map fun y : ℤ => (y : K)⟩
    groups := some ⟨2, true, groups⟩
    values := some ⟨1, scores.map fun s => [s]⟩
    testGroups := none
    testValues := none
    atol := 1 / 10000
    rtol := 1 / 1000000
    minProbB := none
    nBuckets := 100
    nRounds := 1000
    eta := 1 / 10
    split := 4 / 5
    bucketTypes := ["<=", ">="]
    patchType := "additive"
    coverage := 0 }

/-- What `apply_patches` reads of the calibrator, besides the patches. -/
def calibConfig : Config K := ⟨100, 1 / 10, .additive⟩

/-- The lists the caller gave, base.py L118-119: `_balance_data` appends to them. -/
def balanced (bal : Bool) (draw : ℕ → ℕ) (texts : List T) (contexts : List C) (targets : List ℤ) :
    Except String (List T × List C × List ℤ) :=
  if bal then balance texts contexts targets draw else .ok (texts, contexts, targets)

/-- The part of `fit` after balancing, base.py L121-148: the object afterwards and the status. `perm` is the permutation the
calibrator draws. -/
def fitOn (env : Env T C K R M) (o : Obj K R M) (texts : List T) (contexts : List C) (targets : List ℤ) (size : ℕ)
    (threshold : K) (perm : List ℕ) : Obj K R M × Except String (Status K) :=
  match scoresEmb env texts contexts size with
  | .error e => (o, .error e)
  | .ok (scores, emb) =>
    let red := env.reduceFit emb
    let rows := withScores red.2 scores
    let o := { o with reduction := red.1, grouping := none }
    match fitGrouping env rows with
    | .error e => (o, .error e)
    | .ok g =>
      let o := { o with grouping := some g }
      match groupProba env g rows with
      | .error e => (o, .error e)
      | .ok probs =>
        match quantilesOf probs threshold with
        | .error e => (o, .error e)
        | .ok qs =>
          let o := { o with quantiles := some qs, calibrator := some none }
          match calibrateCall (calibCall scores targets (probs.map (groupsOf qs))) perm (fun _ _ => 0) (fun _ _ => 0) with
          | .error e => (o, .error e)
          | .ok (st, patches, _) => ({ o with calibrator := some (some patches) }, .ok st)

/-- `fit`, base.py L77-148: the object afterwards, the status, and the caller's lists afterwards. -/
def fit (env : Env T C K R M) (o : Obj K R M) (texts : List T) (contexts : List C) (targets : List ℤ) (size : ℕ)
    (threshold : K) (bal : Bool) (draw : ℕ → ℕ) (perm : List ℕ) :
    Obj K R M × Except String (Status K) × (List T × List C × List ℤ) :=
  match balanced bal draw texts contexts targets with
  | .error e => (o, .error e, (texts, contexts, targets))
  | .ok (t, c, y) =>
    let r := fitOn env o t c y size threshold perm
    (r.1, r.2, (t, c, y))

/-- The groups of new rows, base.py L188-194. `GroupingModel` has no `__init__`, so its check for `None` (clustering/base.py L54)
raises `AttributeError` when its `fit` has not ended. -/
def groupsFor (env : Env T C K R M) (o : Obj K R M) (scores : List K) (emb : List (List K)) :
    Except String (List (List Bool)) :=
  match o.grouping, o.quantiles with
  | some g, some qs => do
    let probs ← groupProba env g (withScores (env.reduceOn o.reduction emb) scores)
    .ok (probs.map (groupsOf qs))
  | some _, none => .error "TypeError"
  | none, _ => .error "AttributeError"

/-- `predict_proba`, base.py L150-196. -/
def predictProba (env : Env T C K R M) (o : Obj K R M) (texts : List T) (contexts : List C) (size : ℕ) (calibrate : Bool) :
    Except String (List K) :=
  match o.calibrator with
  | none => .error "ValueError"
  | some patches => do
    let se ← scoresEmb env texts contexts size
    if !calibrate then .ok se.1
    else do
      let groups ← groupsFor env o se.1 se.2
      match patches with
      | none => .error "TypeError"
      | some ps =>
        let out ← applyCall .binary calibConfig ps (fun _ _ => 0) (some ⟨2, true, groups⟩)
          (some ⟨1, se.1.map fun s => [s]⟩)
        .ok ((out.getD []).map fun r => r.headD 0)

/-- `predict`, base.py L198-237; `probs = none` for `None`. -/
def predictLabels (env : Env T C K R M) (o : Obj K R M) (texts : List T) (contexts : List C) (size : ℕ) (calibrate : Bool)
    (probs : Option (List K)) : Except String (List ℕ) :=
  match probs with
  | some p => .ok (p.map Hallucination.predict)
  | none => (predictProba env o texts contexts size calibrate).map fun p => p.map Hallucination.predict

/-- The dictionary written by `save`, base.py L309-318. -/
structure Saved (K R M : Type) where
  reduction : R
  grouping : Option (Grouping K M)
  calibrator : Option (Option (List (Patch K)))
  quantiles : Option (List K)

/-- `save`, base.py L309-318. -/
def save (o : Obj K R M) : Saved K R M := ⟨o.reduction, o.grouping, o.calibrator, o.quantiles⟩

/-- `load`, base.py L320-323. -/
def load (o : Obj K R M) (s : Saved K R M) : Obj K R M :=
  { o with reduction := s.reduction, grouping := s.grouping, calibrator := s.calibrator, quantiles := s.quantiles }

end

end Verif.Detector
