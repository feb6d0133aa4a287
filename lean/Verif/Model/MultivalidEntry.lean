import Verif.Model.Multivalid
import Verif.Model.ConformalClassification

/-!
# Entry points of the multivalid methods

Sources: `/repo/fortuna/conformal/multivalid/base.py`, `/repo/fortuna/conformal/multivalid/iterative/base.py`,
`/repo/fortuna/conformal/multivalid/iterative/batch_mvp.py`,
`/repo/fortuna/conformal/multivalid/iterative/classification/binary_multicalibrator.py`,
`/repo/fortuna/conformal/multivalid/iterative/classification/top_label_multicalibrator.py`,
`/repo/fortuna/conformal/multivalid/iterative/regression/batch_mvp.py` and the mixins for classification.

The checks and defaults around the loop of `Multivalid.lean`. An array is its number of dimensions and its rows; random numbers are
arguments; exact arithmetic.
-/

set_option linter.unusedSectionVars false

namespace Verif.MultivalidEntry
open Verif.Multivalid Verif.ArrayOps

variable {K : Type} [Field K] [LinearOrder K] [IsStrictOrderedRing K]

/-- `Multicalibrator`, `BinaryClassificationMulticalibrator`, `TopLabelMulticalibrator(n_classes)`, `BatchMVPConformalMethod`. -/
inductive Kind where
  | base
  | binary
  | topLabel (n : ℕ)
  | mvp
  deriving DecidableEq

/-- Values (probabilities, thresholds): number of dimensions and rows (one entry per row in one dimension). -/
structure Arr (K : Type) where
  ndim : ℕ
  rows : List (List K)
  deriving DecidableEq

/-- Scores or targets: number of dimensions, whether the type is an integer type, entries. -/
structure Scores (K : Type) where
  ndim : ℕ
  isInt : Bool
  vals : List K

/-- Groups: number of dimensions, whether the type is `bool`, rows. -/
structure Groups where
  ndim : ℕ
  isBool : Bool
  rows : List (List Bool)

/-- `_check_scores` and `_check_targets`: multivalid/base.py L54-59, mixins/classification/binary_multicalibrator.py L34-41,
mixins/classification/top_label_multicalibrator.py L31-47 (`jnp.stack` of no columns raises). -/
def checkScores (kind : Kind) (s : Scores K) : Except String Unit :=
  if s.ndim ≠ 1 then .error "ValueError"
  else match kind with
    | .binary =>
      if !(s.vals.all fun y => decide (y = 0 ∨ y = 1)) || !s.vals.contains 0 || !s.vals.contains 1 then .error "ValueError"
      else if !s.isInt then .error "ValueError" else .ok ()
    | .topLabel n => if !s.isInt then .error "ValueError" else if n = 0 then .error "ValueError" else .ok ()
    | _ => if s.vals.any fun y => decide (y < 0 ∨ y > 1) then .error "ValueError" else .ok ()

/-- The score matrix: `_process_scores`, multivalid/base.py L61-66, and `_get_scores`,
mixins/classification/top_label_multicalibrator.py L31-36. -/
def scoreRows (kind : Kind) (s : Scores K) : List (List K) :=
  match kind with
  | .topLabel n => s.vals.map fun y => (List.range n).map fun i : ℕ => if y = (i : K) then 1 else 0
  | _ => s.vals.map fun y => [y]

/-- Number of columns of the score matrix. -/
def nDims : Kind → ℕ
  | .topLabel n => n
  | _ => 1

/-- Is an array of values of the right dimension with entries in the unit interval? -/
def goodArr (ndim : ℕ) (a : Arr K) : Bool := decide (a.ndim = ndim) && valuesOk a.rows

/-- `_maybe_check_values`: multivalid/base.py L41-52, mixins/classification/binary_multicalibrator.py L13-32,
mixins/classification/top_label_multicalibrator.py L49-68, iterative/batch_mvp.py L278-283 (where `None < 0` raises). -/
def checkValues (kind : Kind) (values test : Option (Arr K)) : Except String Unit :=
  match kind with
  | .mvp =>
    match values with
    | none => .error "TypeError"
    | some a => if !valuesOk a.rows then .error "ValueError" else .ok ()
  | .base =>
    if !(values.all fun a => goodArr 1 a) then .error "ValueError"
    else if !(test.all fun a => valuesOk a.rows) then .error "ValueError" else .ok ()
  | .binary => if !(values.all fun a => goodArr 1 a) || !(test.all fun a => goodArr 1 a) then .error "ValueError" else .ok ()
  | .topLabel _ => if !(values.all fun a => goodArr 2 a) || !(test.all fun a => goodArr 2 a) then .error "ValueError" else .ok ()

/-- One row of the initial values of the top-label method, top_label_multicalibrator.py L124-130; `z` are the normal variates. -/
def topRow (n : ℕ) (z : ℕ → K) : List K :=
  let v := (List.range n).map fun c => |1 / (n : K) + 1 / 100 * z c|
  let w := v.map fun x => x - 2 * max 0 (x - 1)
  w.map fun x => x / w.sum

/-- `_maybe_init_values`: iterative/base.py L443-450, binary_multicalibrator.py L92-103, top_label_multicalibrator.py L116-133;
`z` are the normal variates. -/
def initValues (kind : Kind) (z : ℕ → ℕ → K) (values : Option (Arr K)) (size : ℕ) : Arr K :=
  match values with
  | some a => a
  | none =>
    match kind with
    | .binary => ⟨1, (List.range size).map fun i => [1 / 2 + 1 / 100 * z i 0]⟩
    | .topLabel n => ⟨2, (List.range size).map fun i => topRow n (z i)⟩
    | _ => ⟨1, List.replicate size [0]⟩

/-- `_maybe_check_groups`, iterative/base.py L556-565. -/
def checkGroups (groups test : Option Groups) : Except String Unit :=
  if !(groups.all fun g => decide (g.ndim = 2) && g.isBool) || !(test.all fun g => decide (g.ndim = 2) && g.isBool) then
    .error "ValueError"
  else .ok ()

/-- `_init_groups`, iterative/base.py L567-571. -/
def initGroups (groups : Option Groups) (size : ℕ) : List (List Bool) :=
  match groups with
  | some g => g.rows
  | none => List.replicate size [true]

/-- `apply_patches` with its defaults, iterative/base.py L330-364. -/
def applyCall (kind : Kind) (cfg : Config K) (patches : List (Patch K)) (z : ℕ → ℕ → K) (groups : Option Groups)
    (values : Option (Arr K)) : Except String (Option (List (List K))) :=
  if groups.isNone ∧ values.isNone then .error "ValueError"
  else if patches = [] then .ok (values.map (·.rows))
  else do
    let v := initValues kind z values ((groups.map fun g => g.rows.length).getD 0)
    checkValues kind (some v) none
    checkGroups groups none
    let out ← applyPatches cfg patches (initGroups groups v.rows.length) v.rows
    .ok (some out)

/-- The arguments of `calibrate`. -/
structure Call (K : Type) where
  kind : Kind
  scores : Scores K
  groups : Option Groups
  values : Option (Arr K)
  testGroups : Option Groups
  testValues : Option (Arr K)
  atol : K
  rtol : K
  /-- `none` for `"auto"`. -/
  minProbB : Option K
  nBuckets : ℕ
  nRounds : ℕ
  eta : K
  split : K
  bucketTypes : List String
  patchType : String
  coverage : K

/-- `patch_type` as it is understood after the check of L137-141. -/
def Call.ptype (c : Call K) : PatchType := if c.patchType = "additive" then .additive else .multiplicative

/-- The overridden methods of the class. -/
def Call.method (c : Call K) : Method K :=
  match c.kind with
  | .mvp => batchMVP c.coverage c.nBuckets
  | .topLabel _ => topLabelMulticalibrator c.ptype
  | _ => multicalibrator c.ptype

/-- What the loop gets, iterative/base.py L145-167. -/
def Call.params (c : Call K) : Params K :=
  { cfg := ⟨c.nBuckets, c.eta, c.ptype⟩
    taus := bucketTypeIndices c.bucketTypes
    nGroups := (c.groups.map fun g => (g.rows.head?.map List.length).getD 0).getD 1
    nDims := nDims c.kind
    minProbB := c.minProbB.getD (1 / ((c.nBuckets : K) * (nDims c.kind : K)))
    atol := c.atol
    rtol := c.rtol }

/-- The calibration data with their defaults, iterative/base.py L143-155. -/
def Call.data (c : Call K) (z : ℕ → ℕ → K) : Data K :=
  let groups := initGroups c.groups c.scores.vals.length
  ⟨groups, (initValues c.kind z c.values groups.length).rows, scoreRows c.kind c.scores⟩

/-- The checks of the optional arguments, iterative/base.py L111-126. -/
def badOptions (c : Call K) : Bool :=
  (c.testValues.isSome && c.values.isNone) || (c.values.isSome && c.testGroups.isSome && c.testValues.isNone) ||
  (c.testGroups.isSome && c.groups.isNone) || (c.groups.isSome && c.testValues.isSome && c.testGroups.isNone)

/-- The division of `_maybe_init_min_prob_b`, multivalid/base.py L68-74. -/
def minProbDefined (c : Call K) : Except String Unit :=
  if c.minProbB.isNone ∧ c.nBuckets * nDims c.kind = 0 then .error "ZeroDivisionError" else .ok ()

/-- `_check_bucket_types`, iterative/base.py L589-593. -/
def checkTypes (c : Call K) : Except String Unit :=
  if !(c.bucketTypes.all fun t => ["=", ">=", "<="].contains t) then .error "ValueError" else .ok ()

/-- The division `0.5 / n_buckets` of `_get_b`, iterative/base.py L497, evaluated in the first round. -/
def bucketsDefined (nBuckets : ℕ) : Except String Unit :=
  if nBuckets = 0 then .error "ZeroDivisionError" else .ok ()

/-- Is there a cell of sufficient probability in the first round, so that a patch is computed? iterative/base.py L205-212. -/
def somePatch (p : Params K) (d : Data K) : Bool :=
  (grid p.taus p.nGroups (linspace 0 1 p.cfg.nBuckets) p.nDims).any fun cell =>
    decide (probB (cellB p.cfg.nBuckets cell d.groups d.values) ≥ p.minProbB)

/-- The first `⌈split · n⌉` permuted rows, iterative/base.py L169-177. -/
def Call.calib [FloorRing K] (c : Call K) (perm : List ℕ) (z : ℕ → ℕ → K) : Data K :=
  (c.data z).pick (perm.take (⌈c.split * (c.scores.vals.length : K)⌉).toNat)

/-- `_get_patch` of `BatchMVPConformalMethod`, iterative/batch_mvp.py L254-255, in the first round. -/
def patchTypeDefined (c : Call K) (d : Data K) : Except String Unit :=
  if c.kind = .mvp ∧ c.patchType = "multiplicative" ∧ somePatch c.params d = true then .error "NotImplementedError" else .ok ()

/-- `calibrate`, iterative/base.py L108-306 and, for the coverage, iterative/batch_mvp.py L107, L285-288: status, stored
patches, and the patched test values if test data are given. Simplified: numbers of groups, values and scores are equal. -/
def calibrateCall [FloorRing K] (c : Call K) (perm : List ℕ) (z zTest : ℕ → ℕ → K) :
    Except String (Status K × List (Patch K) × Option (Option (List (List K)))) :=
  if c.kind = .mvp ∧ (c.coverage < 0 ∨ c.coverage > 1) then .error "ValueError"
  else if c.nRounds < 1 ∨ badOptions c then .error "ValueError"
  else if c.eta ≤ 0 ∨ c.eta > 1 ∨ c.split ≤ 0 ∨ c.split > 1 then .error "ValueError"
  else if (c.minProbB.any fun m => decide (m < 0 ∨ m > 1)) then .error "ValueError"
  else if c.patchType ≠ "additive" ∧ c.patchType ≠ "multiplicative" then .error "ValueError"
  else do
    checkScores c.kind c.scores
    minProbDefined c
    checkGroups c.groups c.testGroups
    checkValues c.kind (some (initValues c.kind z c.values (initGroups c.groups c.scores.vals.length).length)) c.testValues
    checkTypes c
    bucketsDefined c.nBuckets
    patchTypeDefined c (c.calib perm z)
    let r ← calibrate c.method c.params c.nRounds c.split perm (c.data z)
    if c.testGroups.isSome || c.testValues.isSome then
      let out ← applyCall c.kind c.params.cfg r.2 zTest c.testGroups c.testValues
      .ok (r.1, r.2, some out)
    else .ok (r.1, r.2, none)

/-- `calibration_error`, iterative/base.py L395-429, iterative/batch_mvp.py L134-149: one row per group, one entry per column.
`coverage` is `_coverage`, `none` before `calibrate`. -/
def calibrationErrorCall (kind : Kind) (coverage : Option K) (ptype : PatchType) (z : ℕ → ℕ → K) (scores : Scores K)
    (groups : Option Groups) (values : Option (Arr K)) (nBuckets : ℕ) : Except String (List (List (Option K))) := do
  checkScores kind scores
  checkGroups groups none
  checkValues kind values none
  bucketsDefined nBuckets
  let g := initGroups groups scores.vals.length
  let v := initValues kind z values scores.vals.length
  let m : Method K ← match kind, coverage with
    | .mvp, none => .error "TypeError"
    | .mvp, some q => .ok (batchMVP q nBuckets)
    | .topLabel _, _ => .ok (topLabelMulticalibrator ptype)
    | _, _ => .ok (multicalibrator ptype)
  .ok ((List.range ((g.head?.map List.length).getD 0)).map fun j => (List.range (nDims kind)).map fun c =>
    calibrationError m nBuckets ⟨g, v.rows, scoreRows kind scores⟩ j c)

/-- `BatchMVPConformalClassifier.conformal_set`, iterative/regression/batch_mvp.py L49-69. The loop over sizes is the one of
`ConformalClassification.lean`. -/
def mvpConformalSet (scoresNdim thresholdsNdim : ℕ) (classScores : List (List K)) (thresholds : List K) :
    Except String (List (Option (List ℕ))) :=
  if scoresNdim ≠ 2 then .error "ValueError"
  else if thresholdsNdim ≠ 1 then .error "ValueError"
  else if classScores.length ≠ thresholds.length then .error "ValueError"
  else
    let bools := List.zipWith (fun row t => row.map fun s => decide (s ≤ t)) classScores thresholds
    .ok ((ConformalClassification.unique (ConformalClassification.sizes bools)).foldl (ConformalClassification.stepSize bools) (List.replicate bools.length none))

end Verif.MultivalidEntry
