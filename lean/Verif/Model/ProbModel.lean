import Mathlib.Analysis.SpecialFunctions.Log.Basic
import Verif.Model.Checkpoint
import Verif.Model.Likelihood
import Verif.Model.Loader
import Verif.Model.Predictive
import Verif.Model.StateRepo
import Mathlib.Data.List.Dedup

/-!
# Training and calibrating a probabilistic model

Sources: `/repo/fortuna/prob_model/base.py` L50-234, `/repo/fortuna/prob_model/classification.py`
L218-298, `/repo/fortuna/prob_model/regression.py` L130-205,
`/repo/fortuna/prob_model/predictive/base.py` L205-316 and L537-580.
-/

set_option linter.unusedSectionVars false

namespace Verif.ProbModel
open Verif.StateRepo Verif.Likelihood

/-! ## Precomputed ensemble of outputs, predictive/base.py L537-580 -/

section outputs
variable {Q X R : Type}

/-- One pass of the loop, L561-576: the outputs with axes (sample, row) and what is added to `size`.
`keys s` is the key of sample `s` of `n`; `net k x` is the output at `x` of the posterior sample drawn with key `k` (outside training a row's output
does not depend on the other rows). With devices the batch has been reshaped to a leading device axis
(L549-550), every key is split into one per device (`shard_prng_key`), and `inputs.shape[0]` is the number of
devices. -/
def batchOutputs (n : ℕ) (keys : ℕ → Q) (split : Q → ℕ → Q) (net : Q → X → R) (devices : Option ℕ)
    (b : List X) : Except String (List (List R) × ℕ) :=
  match devices with
  | none => .ok ((List.range n).map fun s => b.map (net (keys s)), b.length)
  | some d => do
    let sh ← Verif.Loader.shard d b
    let a := sh.mapIdx fun i rows => (List.range n).map fun s => rows.map (net (split (keys s) i))
    .ok (Verif.Predictive.unshardEnsemble n a, sh.length)

/-- `_sample_outputs_loader`, L537-580, with `return_size`: one ensemble of outputs per batch, made with the
same keys, and `size`. -/
def outputsLoader (n : ℕ) (keys : ℕ → Q) (split : Q → ℕ → Q) (net : Q → X → R) (devices : Option ℕ)
    (loader : List (List X)) : Except String (List (List (List R)) × ℕ) := do
  let r ← loader.mapM (batchOutputs n keys split net devices)
  .ok (r.map (·.1), (r.map (·.2)).sum)

end outputs

/-! ## Objective, predictive/base.py L205-316 -/

section objective
variable {O M CM P : Type}

/-- L282-284: `logsumexp(v) - log(len(v))`. -/
noncomputable def logMeanExp (v : List ℝ) : ℝ :=
  Real.log (v.map Real.exp).sum - Real.log v.length

/-- `_batched_log_joint_prob` given an ensemble of outputs, L256-287. `stored` are the calibration parameters
and state held by the posterior, which replace both arguments when no parameters are passed (L257-260).
`ll o` are the log-probabilities of the batch's targets. The auxiliary outputs, averaged over the ensemble
(L279), are in `Verif.CalibMetrics`. `lax.map` over an empty ensemble raises. -/
noncomputable def predJoint (cal : Option (P → Bool → Option CM → O → O × CM)) (ll : O → List ℝ) (n : ℕ)
    (ensemble : List O) (stored : Option P × Option (CalibVal CM)) (params : Option P)
    (mutable : Option (CalibVal CM)) : Except String ℝ := do
  let (p, m) := if params.isNone then stored else (params, mutable)
  let vals ← ensemble.mapM fun o =>
    (logJoint (M := Unit) (some cal) (fun _ _ => (o, ())) ll n
      { outputs := some o, calibParams := p, calibMutable := m }).map (·.1)
  if vals.length = 0 then .error "ValueError" else .ok (logMeanExp vals)

end objective

/-! ## Calibration and training -/

/-- `_check_output_dim`, classification.py L218-242, on the labels of the batches of a loader without a given
number of labels, for a network with `modelDim` outputs. -/
def checkDimCls (modelDim : ℕ) (batches : List (List ℕ)) : Except String Unit :=
  if batches.flatten.length = 0 then .error "ValueError"
  else if modelDim ≠ batches.flatten.dedup.length then .error "ValueError"
  else .ok ()

/-- `_check_output_dim`, regression.py L130-149: `width` is `y.shape[1]` of the first batch, if there is one;
the model and the log-variance model together have `modelDim` outputs. -/
def checkDimReg (modelDim : ℕ) (width : Option ℕ) : Except String Unit :=
  if width.getD 0 = 0 then .error "ValueError"
  else if modelDim ≠ 2 * width.getD 0 then .error "ValueError"
  else .ok ()

/-- The checks at the start of `calibrate`, classification.py L285-287 / regression.py L192-194. -/
def checkBoth {D : Type} (check : D → Except String Unit) (calib : D) (val : Option D) :
    Except String Unit := do
  check calib
  match val with
  | none => .ok ()
  | some v => check v

section world
variable {A V : Type} [DecidableEq A]

/-- The posterior's state: a repository with one state, or one repository per state. -/
inductive Post (A V : Type) where
  | one (r : Repo (TS A V))
  | many (m : List (Repo (TS A V)))

/-- `posterior.state.extract_calib_keys()`: the calibration parameters and state, of slot 0 when there are
several (posterior_multi_state_repository.py L142-160). -/
def calibKeys (cp cm : A) : Post A V → Except String (V × V)
  | .one r => match getState r false with
    | .error _ => .error "repository"
    | .ok s => .ok (s.attr cp, s.attr cm)
  | .many m => match multiGet m 0 with
    | .error _ => .error "repository"
    | .ok s => .ok (s.attr cp, s.attr cm)

/-- `posterior.state.update(variables=…)`, keeping one checkpoint. -/
def setCalib (cp cm : A) (v : V × V) : Post A V → Except String (Post A V)
  | .one r => match update r [(cp, v.1), (cm, v.2)] false 1 with
    | .error _ => .error "repository"
    | .ok r' => .ok (.one r')
  | .many m => match multiUpdateAll m [(cp, v.1), (cm, v.2)] 1 with
    | .error _ => .error "repository"
    | .ok m' => .ok (.many m')

/-- The start of a calibration read from a checkpoint, base.py L196-200: the parameters and the state of whatever
`posterior.restore_checkpoint` returns go to the calibrator, which calls them calibration parameters and state (L204-206,
output_calibrator.py L240-254). -/
def restoredStart {P M C O G D : Type} (tx : Ckpt.Tx P O G) (d : Ckpt.Dict P M C O D) : Except String (P × Option M) := do
  let s ← Ckpt.restorePosterior (some tx) d
  .ok (s.params, s.mutbl)

/-- What a call to `calibrate` works with. `dim` is the outcome of `checkBoth`; `random` that of
`check_data_loader_is_not_random` on both (base.py L117-119); `restored` the state read from
`restore_checkpoint_path` (`restoredStart`); `run` computes the outputs and trains the calibrator from a starting point. -/
structure CalibJob (V St : Type) where
  dim : Except String Unit
  random : Except String Unit
  hasCalibrator : Bool
  restored : Option (Except String (V × V))
  run : V × V → Except String ((V × V) × St)

/-- `calibrate`, classification.py L263-298 / regression.py L170-205 and `_calibrate`, base.py L109-234. The
posterior as left, and the status or the exception. The final dump to disk (L225-233) is left out, as is a
failing update, which can leave the repository without its state (see C33). -/
def calibrate {St : Type} (cp cm : A) (post : Option (Post A V)) (j : CalibJob V St) :
    Option (Post A V) × Except String (Option St) :=
  match j.dim with
  | .error e => (post, .error e)
  | .ok () =>
    match j.random with
    | .error e => (post, .error e)
    | .ok () =>
      if !j.hasCalibrator then (post, .ok none)
      else match post with
        | none => (none, .error "ValueError")
        | some p =>
          match (match j.restored with
            | none => calibKeys cp cm p
            | some r => r) with
          | .error e => (some p, .error e)
          | .ok start =>
            match j.run start with
            | .error e => (some p, .error e)
            | .ok (v, st) =>
              match setCalib cp cm v p with
              | .error e => (some p, .error e)
              | .ok p' => (some p', .ok (some st))

/-- `train`, classification.py L244-261 / regression.py L151-168 and base.py L50-107. `dim` is the outcome of
`_check_output_dim` on the training data (only), `fit` the posterior's `fit`, which leaves a state
or raises; `calibBatches` is the number of batches of the calibration loader, if one is passed: Python takes
a loader without batches for false (L100): `DataLoader.__len__` counts batches. -/
def train {F St : Type} (cp cm : A) (post : Option (Post A V)) (dim : Except String Unit)
    (fit : Option (Post A V) → Option (Post A V) × Except String F) (calibBatches : Option ℕ)
    (j : CalibJob V St) : Option (Post A V) × Except String (F × Option St) :=
  match dim with
  | .error e => (post, .error e)
  | .ok () =>
    match fit post with
    | (p, .error e) => (p, .error e)
    | (p, .ok f) =>
      if calibBatches.getD 0 = 0 then (p, .ok (f, none))
      else match calibrate cp cm p j with
        | (p', .error e) => (p', .error e)
        | (p', .ok st) => (p', .ok (f, st))

end world

end Verif.ProbModel
