import Verif.Model.ArrayOps
import Mathlib.Data.Rat.Floor
import Mathlib.Data.List.Sort

/-!
Model of `/repo/fortuna/conformal/multivalid/`: `base.py`, `iterative/base.py`, `iterative/multicalibrator.py`,
`iterative/batch_mvp.py`, `iterative/classification/top_label_multicalibrator.py`, `one_shot/base.py`,
`one_shot/multicalibrator.py` and the loss mixins.

A value array of shape `(n,)` is a list of `n` one-element rows, an array of shape `(n, n_dims)` a list of rows of
length `n_dims`.  In all methods with one-dimensional values the scores have a single column (`_check_scores` +
`_process_scores`), so `n_dims` is the row length in both cases.  `groups` is a list of boolean rows.
Exact arithmetic; NaN is `none`.
-/
namespace Verif.Multivalid

open Verif.ArrayOps

variable {K : Type*} [Field K] [LinearOrder K] [IsStrictOrderedRing K]

/-- `patch_type`, iterative/base.py L137-141. -/
inductive PatchType
  | additive
  | multiplicative
  deriving DecidableEq

/-- One stored patch `(taut, gt, vt, ct, patch)`, iterative/base.py L287. -/
structure Patch (K : Type*) where
  tau : ℕ
  g : ℕ
  v : K
  c : ℕ
  delta : K
  deriving DecidableEq

/-- The attributes of a fitted object which `apply_patches` reads: `_n_buckets`, `_eta`, `_patch_type`. -/
structure Config (K : Type*) where
  nBuckets : ℕ
  eta : K
  ptype : PatchType

/-- The bucket predicate of `_get_b`, iterative/base.py L495-501. -/
def inBucket (nBuckets tau : ℕ) (v x : K) : Bool :=
  if tau = 0 then decide (|x - v| < (1 / 2) / (nBuckets : K))
  else if tau = 1 then decide (x + (1 / 2) / (nBuckets : K) ≥ v)
  else decide (x - (1 / 2) / (nBuckets : K) ≤ v)

/-- `_get_b` for one row: iterative/base.py L495-503, and the restriction to the arg-max class of
top_label_multicalibrator.py L104-114 (which is vacuous for one-element rows). -/
def getB (nBuckets tau g : ℕ) (v : K) (c : ℕ) (group : List Bool) (row : List K) : Bool :=
  inBucket nBuckets tau v (row.getD c 0) && group.getD g false && decide (argmax row = c)

/-- New entry computed by `_patch`, iterative/base.py L533-538. -/
def patchEntry (ptype : PatchType) (eta delta x : K) : K :=
  match ptype with
  | .additive => clip (x + eta * delta) 0 1
  | .multiplicative => clip (x * (1 - eta * (1 - delta))) 0 1

/-- `_patch` on one row, iterative/base.py L522-550: entry `c` of a selected row is replaced. -/
def patchRow (ptype : PatchType) (eta delta : K) (c : ℕ) (b : Bool) (row : List K) : List K :=
  if b then row.set c (patchEntry ptype eta delta (row.getD c 0)) else row

/-- `_patch`, iterative/base.py L522-550. -/
def patchValues (ptype : PatchType) (eta delta : K) (c : ℕ) (b : List Bool) (values : List (List K)) : List (List K) :=
  List.zipWith (patchRow ptype eta delta c) b values

/-- `_get_b` on all rows. -/
def getBs (nBuckets tau g : ℕ) (v : K) (c : ℕ) (groups : List (List Bool)) (values : List (List K)) : List Bool :=
  List.zipWith (getB nBuckets tau g v c) groups values

/-- One iteration of the loop of `apply_patches`, iterative/base.py L346-363. -/
def applyPatch (cfg : Config K) (groups : List (List Bool)) (values : List (List K)) (p : Patch K) : List (List K) :=
  patchValues cfg.ptype cfg.eta p.delta p.c (getBs cfg.nBuckets p.tau p.g p.v p.c groups values) values

/-- The loop of `apply_patches`, iterative/base.py L346-364. -/
def replay (cfg : Config K) (groups : List (List Bool)) (values : List (List K)) (patches : List (Patch K)) :
    List (List K) :=
  patches.foldl (applyPatch cfg groups) values

/-- `_maybe_check_values`, multivalid/base.py L41-52. -/
def valuesOk (values : List (List K)) : Bool := values.all fun r => r.all fun x => decide (0 ≤ x) && decide (x ≤ 1)

/-- `apply_patches` with both `groups` and `values` given, iterative/base.py L330-364. Simplified: a different number of
group rows and value rows is rejected (jax would raise or broadcast). -/
def applyPatches (cfg : Config K) (patches : List (Patch K)) (groups : List (List Bool)) (values : List (List K)) :
    Except String (List (List K)) :=
  if patches = [] then .ok values
  else if !valuesOk values then .error "ValueError"
  else if groups.length ≠ values.length then .error "TypeError"
  else .ok (replay cfg groups values patches)

/-! ### Calibration loop -/

/-- A calibration data set: groups, values and scores of the same length. -/
structure Data (K : Type*) where
  groups : List (List Bool)
  values : List (List K)
  scores : List (List K)

/-- The parts of `calibrate` which subclasses override: `_calibration_error`, `_get_patch` (`none` for NaN) and
`_loss_fn` (`none` for NaN). -/
structure Method (K : Type*) where
  calibErr : (b : List Bool) → (c : ℕ) → (values scores : List (List K)) → K
  getPatch : (b : List Bool) → (c : ℕ) → (values scores : List (List K)) → Option K
  loss : (values scores : List (List K)) → Option K

/-- A cell of the search grid. -/
structure Cell (K : Type*) where
  tau : ℕ
  g : ℕ
  v : K
  c : ℕ
  deriving DecidableEq

/-- The grid in row-major order `(tau, g, v, c)`, iterative/base.py L185-203, L477-480. -/
def grid (taus : List ℕ) (nGroups : ℕ) (buckets : List K) (nDims : ℕ) : List (Cell K) :=
  taus.flatMap fun tau => (List.range nGroups).flatMap fun g => buckets.flatMap fun v =>
    (List.range nDims).map fun c => ⟨tau, g, v, c⟩

/-- `_get_bucket_type_indices`, iterative/base.py L578-586. -/
def bucketTypeIndices (types : List String) : List ℕ :=
  (if types.contains "=" then [0] else []) ++ (if types.contains ">=" then [1] else []) ++
    (if types.contains "<=" then [2] else [])

/-- Arguments of `calibrate` used by the loop. -/
structure Params (K : Type*) where
  cfg : Config K
  taus : List ℕ
  nGroups : ℕ
  nDims : ℕ
  minProbB : K
  atol : K
  rtol : K

/-- `jnp.mean(b)`. -/
def probB (b : List Bool) : K := ((b.count true : ℕ) : K) / (b.length : K)

/-- Membership of all rows in a cell. -/
def cellB (nBuckets : ℕ) (cell : Cell K) (groups : List (List Bool)) (values : List (List K)) : List Bool :=
  getBs nBuckets cell.tau cell.g cell.v cell.c groups values

/-- Masked calibration error of a cell: iterative/base.py L205, L213. -/
def cellScore (m : Method K) (p : Params K) (d : Data K) (cell : Cell K) : K :=
  let b := cellB p.cfg.nBuckets cell d.groups d.values
  if probB b ≥ p.minProbB then m.calibErr b cell.c d.values d.scores else 0

/-- Loop state: current calibration and validation values, recorded validation losses, last accepted training loss,
accepted patches. -/
structure State (K : Type*) where
  data : Data K
  val : Data K
  valLosses : List (Option K)
  oldLoss : Option K
  patches : List (Patch K)

/-- How a round ends. -/
inductive Stop
  | noCells
  | lossIncreased
  | atol
  | valIncreased
  | rtol
  | nan
  deriving DecidableEq

/-- Python/IEEE comparison `a > b` where NaN compares false. -/
def gtN (a b : Option K) : Bool :=
  match a, b with
  | some x, some y => decide (x > y)
  | _, _ => false

/-- `a <= x` where NaN compares false. -/
def leN (a : Option K) (x : K) : Bool :=
  match a with
  | some y => decide (y ≤ x)
  | none => false

/-- `(prev - cur) / prev` with NaN propagation. Simplified: a zero `prev` gives `0` instead of raising; it is only
reachable for a negative `atol`. -/
def relDecrease (prev cur : Option K) : Option K :=
  match prev, cur with
  | some x, some y => some ((x - y) / x)
  | _, _ => none

/-- The cell chosen by `_get_taut_and_gt_and_vt_and_ct_and_bt`, iterative/base.py L477-483. -/
def bestCell (m : Method K) (p : Params K) (d : Data K) : Option (Cell K) :=
  let cells := grid p.taus p.nGroups (linspace 0 1 p.cfg.nBuckets) p.nDims
  cells[argmax (cells.map (cellScore m p d))]?

/-- Last entry of the recorded losses. -/
def lastLoss (l : List (Option K)) : Option K := l.getLastD none

/-- Body of the loop, iterative/base.py L185-287: either the next state or (state, reason to stop). A NaN patch stops the
model (the code would go on with NaN values). -/
def round (m : Method K) (p : Params K) (s : State K) : State K × Option Stop :=
  let cells := grid p.taus p.nGroups (linspace 0 1 p.cfg.nBuckets) p.nDims
  if !(cells.any fun cell => decide (probB (cellB p.cfg.nBuckets cell s.data.groups s.data.values) ≥ p.minProbB)) then
    (s, some .noCells)
  else
    match bestCell m p s.data with
    | none => (s, some .noCells)
    | some cell =>
      let bt := cellB p.cfg.nBuckets cell s.data.groups s.data.values
      match m.getPatch bt cell.c s.data.values s.data.scores with
      | none => (s, some .nan)
      | some delta =>
        let patch : Patch K := ⟨cell.tau, cell.g, cell.v, cell.c, delta⟩
        let values := patchValues p.cfg.ptype p.cfg.eta delta cell.c bt s.data.values
        let valBt := cellB p.cfg.nBuckets cell s.val.groups s.val.values
        let valValues := patchValues p.cfg.ptype p.cfg.eta delta cell.c valBt s.val.values
        let loss := m.loss values s.data.scores
        let valLoss := m.loss valValues s.val.scores
        let prev := lastLoss s.valLosses
        let s' : State K :=
          { data := { s.data with values := values }, val := { s.val with values := valValues },
            valLosses := s.valLosses ++ [valLoss], oldLoss := s.oldLoss, patches := s.patches }
        if gtN loss s.oldLoss then (s', some .lossIncreased)
        else if leN valLoss p.atol then (s', some .atol)
        else if gtN valLoss prev then (s', some .valIncreased)
        else if valBt.any id && leN (relDecrease prev valLoss) p.rtol then (s', some .rtol)
        else ({ s' with oldLoss := loss, patches := s.patches ++ [patch] }, none)

/-- The loop over rounds with its `break`s, iterative/base.py L184-287. -/
def loop (m : Method K) (p : Params K) : ℕ → State K → State K × Option Stop
  | 0, s => (s, none)
  | n + 1, s =>
    match round m p s with
    | (s', some stop) => (s', some stop)
    | (s', none) => loop m p n s'

/-- The dictionary returned by `calibrate`, iterative/base.py L289-293. -/
structure Status (K : Type*) where
  nRounds : ℕ
  losses : List (Option K)
  converged : Bool
  deriving DecidableEq

/-- Initial state, iterative/base.py L179-182. -/
def initState (m : Method K) (d val : Data K) : State K :=
  { data := d, val := val, valLosses := [m.loss val.values val.scores], oldLoss := m.loss d.values d.scores,
    patches := [] }

/-- Did the loop set `converged = True`? L268-271, L278-284. -/
def convergedOf : Option Stop → Bool
  | some .atol => true
  | some .rtol => true
  | _ => false

/-- `calibrate` after the split into calibration and validation data: returns the status and the stored patches. -/
def calibrateSplit (m : Method K) (p : Params K) (nRounds : ℕ) (d val : Data K) : Status K × List (Patch K) :=
  let r := loop m p nRounds (initState m d val)
  (⟨r.1.patches.length, r.1.valLosses, convergedOf r.2⟩, r.1.patches)

/-- Row selection `x[perm]`. -/
def pick {β : Type*} (l : List β) (idx : List ℕ) : List β := idx.filterMap fun i => l[i]?

/-- Row selection of a whole data set. -/
def Data.pick (d : Data K) (idx : List ℕ) : Data K :=
  ⟨Multivalid.pick d.groups idx, Multivalid.pick d.values idx, Multivalid.pick d.scores idx⟩

/-- `calibrate`, iterative/base.py L108-306, for given groups and values.  `perm` is the random permutation of L172-174
(external); returns the status and the stored patches. -/
def calibrate [FloorRing K] (m : Method K) (p : Params K) (nRounds : ℕ) (split : K) (perm : List ℕ) (d : Data K) :
    Except String (Status K × List (Patch K)) :=
  if nRounds < 1 then .error "ValueError"
  else if p.cfg.eta ≤ 0 ∨ p.cfg.eta > 1 then .error "ValueError"
  else if split ≤ 0 ∨ split > 1 then .error "ValueError"
  else if p.minProbB < 0 ∨ p.minProbB > 1 then .error "ValueError"
  else if !valuesOk d.values then .error "ValueError"
  else
    let calibSize := (⌈split * (d.scores.length : K)⌉).toNat
    .ok (calibrateSplit m p nRounds (d.pick (perm.take calibSize)) (d.pick (perm.drop calibSize)))

/-! ### Multicalibrator -/

/-- Column `c`. -/
def col (rows : List (List K)) (c : ℕ) : List K := rows.map fun r => r.getD c 0

/-- `jnp.mean(x * b)`. -/
def maskedMean (b : List Bool) (x : List K) : K :=
  (List.zipWith (fun t y => if t then y else 0) b x).sum / (b.length : K)

/-- Additive patch `E[score | b] - E[value | b]`, zero for an empty cell: iterative/multicalibrator.py L66-78, L147-151. -/
def mcDelta (b : List Bool) (c : ℕ) (values scores : List (List K)) : K :=
  if probB (K := K) b > 0 then
    maskedMean b (col scores c) / probB b - maskedMean b (col values c) / probB b
  else 0

/-- `_calibration_error`, iterative/multicalibrator.py L29-52. -/
def mcErr (b : List Bool) (c : ℕ) (values scores : List (List K)) : K :=
  probB b * (mcDelta b c values scores) ^ 2

/-- `_get_patch`, iterative/multicalibrator.py L107-145.  The multiplicative patch is NaN when the cell is empty or the
mean value of the cell is zero (0/0, or an infinity which turns the zero values into NaN in `_patch`). -/
def mcPatch (ptype : PatchType) (b : List Bool) (c : ℕ) (values scores : List (List K)) : Option K :=
  match ptype with
  | .additive => some (mcDelta b c values scores)
  | .multiplicative =>
    if probB (K := K) b = 0 then none
    else
      let ey := maskedMean b (col scores c) / probB b
      let ev := maskedMean b (col values c) / probB b
      if ev = 0 then none else some (ey / ev)

/-- Sum of squared differences of all entries. -/
def sqErr (values scores : List (List K)) : K :=
  (List.zipWith (fun v s => (List.zipWith (fun x y => (x - y) ^ 2) v s).sum) values scores).sum

/-- `_loss_fn` of `MulticalibratorMixin` for one-dimensional values, mixins/multicalibrator.py L27-30: `scores` has
been turned into a column, so the inner sum runs over the data and the outer mean over a scalar. -/
def mcLoss1d (values scores : List (List K)) : Option K := some (sqErr values scores)

/-- `_loss_fn` of `MulticalibratorMixin` for two-dimensional values, mixins/multicalibrator.py L31. -/
def mcLoss2d (values scores : List (List K)) : Option K :=
  let n := (values.map List.length).sum
  if n = 0 then none else some (sqErr values scores / (n : K))

/-- `BinaryClassificationMulticalibrator` / one-dimensional `Multicalibrator`. -/
def multicalibrator (ptype : PatchType) : Method K := ⟨mcErr, mcPatch ptype, mcLoss1d⟩

/-- `TopLabelMulticalibrator`. -/
def topLabelMulticalibrator (ptype : PatchType) : Method K := ⟨mcErr, mcPatch ptype, mcLoss2d⟩

/-! ### BatchMVP -/

/-- `_compute_probability`, iterative/batch_mvp.py L233-235: the fraction of rows in the cell with
`score ≤ threshold + shift`. -/
def mvpProb (b : List Bool) (values scores : List K) (shift : K) : K :=
  if probB (K := K) b > 0 then
    maskedMean b (List.zipWith (fun s v => if s ≤ v + shift then 1 else 0) scores values) / probB b
  else 0

/-- `_calibration_error`, iterative/batch_mvp.py L164-176, L206. -/
def mvpErr (coverage : K) (b : List Bool) (c : ℕ) (values scores : List (List K)) : K :=
  probB b * (coverage - mvpProb b (col values c) (col scores c) 0) ^ 2

/-- The shifts searched by `_get_patch`, iterative/batch_mvp.py L257. -/
def mvpShifts (nBuckets : ℕ) : List K :=
  let buckets : List K := linspace 0 1 nBuckets
  (buckets.reverse.dropLast.map fun x => -x) ++ buckets

/-- `_get_patch`, iterative/batch_mvp.py L254-276. -/
def mvpPatch (coverage : K) (nBuckets : ℕ) (b : List Bool) (c : ℕ) (values scores : List (List K)) : Option K :=
  let shifts : List K := mvpShifts nBuckets
  let errors := shifts.map fun d => (coverage - mvpProb b (col values c) (col scores c) d) ^ 2
  match errors.min? with
  | none => none
  | some minErr =>
    let idx := (List.range errors.length).filter fun i => decide (errors[i]? = some minErr)
    if idx.any fun i => decide (nBuckets ≤ i) then shifts[idx.headD 0]? else shifts[idx.getLastD 0]?

/-- `pinball_loss`/`_loss_fn`, mixins/batchmvp.py L29-40; NaN on empty data. -/
def pinball (coverage : K) (values scores : List (List K)) : Option K :=
  let terms := List.zipWith (fun v s => let diff := s - v
    (if s > v then diff * coverage else 0) - (if s ≤ v then diff * (1 - coverage) else 0)) (col values 0) (col scores 0)
  if terms = [] then none else some (terms.sum / (terms.length : K))

/-- `BatchMVPConformalMethod` (additive patches only). -/
def batchMVP (coverage : K) (nBuckets : ℕ) : Method K :=
  ⟨mvpErr coverage, mvpPatch coverage nBuckets, pinball coverage⟩

/-! ### `calibration_error` -/

/-- `calibration_error`, iterative/base.py L395-429, for group `g` and class `c` (bucket type `=`); NaN for an empty
group. -/
def calibrationError (m : Method K) (nBuckets : ℕ) (d : Data K) (g c : ℕ) : Option K :=
  let pg : K := probB (d.groups.map fun r => r.getD g false)
  if pg = 0 then none
  else some (((linspace 0 1 nBuckets).map fun v =>
    m.calibErr (getBs nBuckets 0 g v c d.groups d.values) c d.values d.scores).sum / pg)

/-! ### One-shot methods -/

/-- `_get_b` of the one-shot methods, one_shot/base.py L130 and one_shot/classification/top_label L50. -/
def oneShotB (nBuckets : ℕ) (v : K) (c : ℕ) (row : List K) : Bool :=
  decide (|row.getD c 0 - v| < (1 / 2) / (nBuckets : K)) && decide (argmax row = c)

/-- `_compute_expectation`, one_shot/multicalibrator.py L19-26. -/
def oneShotPatch (nBuckets : ℕ) (minProbB v : K) (c : ℕ) (values scores : List (List K)) : K :=
  let b := values.map (oneShotB nBuckets v c)
  if probB (K := K) b > minProbB then maskedMean b (col scores c) / probB b else v

/-- The matrix of patches of `calibrate`, one_shot/base.py L88-94: one row per bucket. -/
def oneShotCalibrate (nBuckets nDims : ℕ) (minProbB : K) (values scores : List (List K)) : List (List K) :=
  (linspace 0 1 nBuckets).map fun v => (List.range nDims).map fun c => oneShotPatch nBuckets minProbB v c values scores

/-- `jnp.unique`: sorted without duplicates. -/
def unique (l : List K) : List K := (l.insertionSort (· ≤ ·)).dedup

/-- One assignment of `_patch`, one_shot/base.py L138-146. -/
def oneShotStep (nBuckets : ℕ) (patches : List (List K)) (orig : List (List K)) (v : K) (c : ℕ)
    (cur : List (List K)) : List (List K) :=
  let idx := argmin ((linspace 0 1 nBuckets).map fun u => |u - v|)
  List.zipWith (fun o r => if oneShotB nBuckets v c o then r.set c ((patches.getD idx []).getD c 0) else r) orig cur

/-- `apply_patches`, one_shot/base.py L99-147. -/
def oneShotApply (nBuckets : ℕ) (patches : List (List K)) (values : List (List K)) : List (List K) :=
  let nDims := (values.headD []).length
  (unique values.flatten).foldl (fun cur v => (List.range nDims).foldl
    (fun cur c => oneShotStep nBuckets patches values v c cur) cur) values

end Verif.Multivalid
