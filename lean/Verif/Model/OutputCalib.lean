import Mathlib.Algebra.Order.Field.Basic
import Mathlib.Algebra.Module.Basic
import Mathlib.Algebra.BigOperators.Group.List.Basic
import Mathlib.Data.List.Dedup
import Verif.Model.Training
import Verif.Model.Likelihood

/-!
# Calibration of outputs: the loss, the loop, several devices, the predictive methods

Sources: `/repo/fortuna/output_calib_model/{base,classification,regression,loss}.py`,
`/repo/fortuna/output_calib_model/output_calib_model_calibrator.py`,
`/repo/fortuna/output_calib_model/predictive/base.py`,
`/repo/fortuna/training/output_calibrator.py`, `/repo/fortuna/prob_model/prob_model_calibrator.py`.

Both calibrators run the same loop; `OutputCalibModelCalibrator` has the whole data set as its only
batch. Checkpoint directories and early stopping are those of `Verif.Training`.
-/

set_option linter.unusedSectionVars false

namespace Verif.OutputCalib

open Verif.Training Verif.Likelihood

/-! ## Argument checks -/

/-- `OutputCalibClassifier._check_output_dim`, output_calib_model/classification.py L118-125: `width` is
`outputs.shape[1]`. -/
def checkClasses (width : ℕ) (targets : List ℤ) : Bool := decide (width = targets.dedup.length)

/-- The checks of `OutputCalibClassifier.calibrate` (classification.py L101-103, before the call of
`_calibrate`) and of `_calibrate` (base.py L62-67). Validation outputs without targets reach
`np.unique(None)`, an array with one element. -/
def calibrateGuards (width : ℕ) (targets : List ℤ) (valWidth : Option ℕ) (valTargets : Option (List ℤ)) :
    Except String Unit :=
  if !checkClasses width targets then .error "ValueError"
  else match valWidth, valTargets with
    | some w, some t => if !checkClasses w t then .error "ValueError" else .ok ()
    | some _, none => .error "ValueError"
    | none, some _ => .error "ValueError"
    | none, none => .ok ()

/-! ## The loss -/

section loss
variable {O CM P K : Type}

/-- The dictionary returned by `Loss.__call__`. -/
structure LossAux (O CM : Type) where
  outputs : Option O := none
  mutable : Option (Option (CalibVal CM)) := none
deriving DecidableEq, Repr

/-- `Loss.__call__`, output_calib_model/loss.py L31-79. `mutable` is `none` for `mutable=None` (then
`mutable["output_calibrator"]` raises) and otherwise the entry `"output_calibrator"`. The value of the
loss comes with the dictionary, or alone when nothing is asked for. -/
def lossCall (cal : Option (P → Bool → Option CM → O → O × CM)) (lossFn : O → K) (params : P) (o : O)
    (mutable : Option (Option (CalibVal CM))) (aux : List String) :
    Except String (K × Option (LossAux O CM)) :=
  if aux.any (fun s => !["outputs", "mutable"].contains s) then .error "TypeError"
  else match mutable with
    | none => .error "TypeError"
    | some m =>
      match calibApply cal (some params) m (aux.contains "mutable") o with
      | .error e => .error e
      | .ok outs =>
        let want := aux.contains "mutable"
        let res : Except String (O × Option (Option (CalibVal CM))) :=
          if m.isSome && want then
            match outs with
            | .pair o s => .ok (o, some (some s))
            | .plain _ => .error "unpack"
          else match outs with
            | .plain o => .ok (o, if want then some none else none)
            | .pair _ _ => .error "AttributeError"
        match res with
        | .error e => .error e
        | .ok (o, s) =>
          if aux.length = 0 then .ok (lossFn o, none)
          else .ok (lossFn o, some { outputs := if aux.contains "outputs" then some o else none,
                                     mutable := s })

/-- The predictive methods `log_prob`, `mean`, `mode`, `variance`, `entropy`, ...,
predictive/base.py L38-261: `layer` is the method of the output layer; `state` is `none` before
calibration, otherwise parameters and state of the calibrator. -/
def predictive {R : Type} (cal : Option (P → Bool → Option CM → O → O × CM))
    (state : Option (P × Option (CalibVal CM))) (layer : O → R) (calibrated : Bool) (o : O) :
    Except String R :=
  if calibrated then
    match state with
    | none => .error "ValueError"
    | some (p, m) =>
      match calibApply cal (some p) m false o with
      | .error e => .error e
      | .ok (.plain o) => .ok (layer o)
      | .ok (.pair _ _) => .error "AttributeError"
  else .ok (layer o)

end loss

/-! ## The loop -/

/-- The arguments of a calibration run. `train key s b` is one gradient step on the batch `b` with its
precomputed outputs, `loss key s b` the loss it reports (evaluated before the step); `key` is the number
folded into the random key. `val` is the validation metric monitored by early stopping, averaged over the
validation batches (at least one), `none` without validation data. -/
structure Job (S B K : Type) where
  stepOf : S → ℕ
  train : ℕ → S → B → S
  loss : ℕ → S → B → K
  hasDir : Bool
  saveEvery : Option ℕ
  keep : ℕ
  es : ESConfig K
  evalEvery : ℤ
  val : Option (S → K)

/-- What the loop writes: the state, the checkpoint directory, the early-stopping state, the reported
training losses (one per epoch), the validation values, the keys used and the number of epochs run. -/
structure Loop (S K : Type) where
  state : S
  dir : Dir S
  es : ES K
  losses : List K
  vals : List K
  keys : List ℕ
  trained : ℕ

section loop
variable {S B K : Type} [Field K] [LinearOrder K]

/-- The periodic checkpoint of `training_step_end`, training/output_calibrator.py L287-294 and
output_calib_model_calibrator.py L299-306: every batch of the epochs divisible by `save_every_n_steps`. -/
def saveStep (j : Job S B K) (epoch : ℕ) (s : S) (d : Dir S) : Option (Dir S) :=
  if j.hasDir && (match j.saveEvery with | none => false | some n => decide (n ≠ 0) && decide (epoch % n = 0))
  then saveCkpt d (j.stepOf s) s j.keep false
  else some d

/-- The batches of one epoch, training/output_calibrator.py L190-208 with `training_step` L233-262 (for
the other calibrator output_calib_model_calibrator.py L184-199, L224-257): the key is folded with the
step of the state. Returns state, directory and the losses of the batches. -/
def batches (j : Job S B K) (epoch : ℕ) : List B → S → Dir S → Option (S × Dir S × List (ℕ × K))
  | [], s, d => some (s, d, [])
  | b :: bs, s, d =>
    let key := j.stepOf s
    let s' := j.train key s b
    match saveStep j epoch s' d with
    | none => none
    | some d' =>
      match batches j epoch bs s' d' with
      | none => none
      | some (sf, df, ls) => some (sf, df, (key, j.loss key s b) :: ls)

/-- `_get_mean_losses_and_metrics`, training/output_calibrator.py L434-439. -/
def meanOf (xs : List K) : K := xs.sum / (xs.length : K)

/-- `_training_loop` and `training_epoch_end`, training/output_calibrator.py L173-231, L413-418. The
batches come from `zip(training_data_loader, calib_outputs_loader)`. Without a batch there is nothing to average: `stack_forest`
(flax: `tree_map` over all dictionaries) of an empty list raises, which is `none` here. -/
def calibEpoch {D O : Type} (j : Job S (D × O) K) (epoch : ℕ) (data : List D) (outs : List O)
    (l : Loop S K) : Option (Loop S K) :=
  if (data.zip outs).isEmpty then none else
  match batches j epoch (data.zip outs) l.state l.dir with
  | none => none
  | some (s, d, ls) => some { l with state := s, dir := d, losses := l.losses ++ [meanOf (ls.map (·.2))],
                                     keys := l.keys ++ ls.map (·.1), trained := l.trained + 1 }

/-- `should_perform_validation`, training/output_calibrator.py L441-448. -/
def shouldVal (j : Job S B K) (epoch : ℕ) : Bool :=
  j.val.isSome && decide (j.evalEvery > 0) && decide ((epoch : ℤ) % j.evalEvery = 0)

/-- `_val_loop` and `val_epoch_end`, training/output_calibrator.py L324-364, L420-432. -/
def validate (j : Job S B K) (l : Loop S K) : Option (Loop S K) :=
  match j.val with
  | none => some l
  | some f =>
    let r := esUpdate j.es l.es (f l.state)
    let l' := { l with es := r.1, vals := l.vals ++ [f l.state] }
    if r.2 = some true ∧ j.hasDir then
      (saveCkpt l.dir (j.stepOf l.state) l.state 1 true).map fun d => { l' with dir := d }
    else some l'

/-- The loop over epochs, training/output_calibrator.py L109-161. -/
def epochs {D O : Type} (j : Job S (D × O) K) (data : ℕ → List D) (outs : List O) :
    ℕ → ℕ → Loop S K → Option (Loop S K)
  | 0, _, l => some l
  | n + 1, e, l =>
    match calibEpoch j e (data e) outs l with
    | none => none
    | some l1 =>
      if shouldVal j e then
        match validate j l1 with
        | none => none
        | some l2 => if j.es.active && l2.es.stop then some l2 else epochs j data outs n (e + 1) l2
      else epochs j data outs n (e + 1) l1

/-- `train`, training/output_calibrator.py L83-171, with the final checkpoint of `on_train_end` L465-472. -/
def run {D O : Type} (j : Job S (D × O) K) (data : ℕ → List D) (outs : List O) (n : ℕ) (s : S) (dir : Dir S) :
    Option (Loop S K) :=
  (epochs j data outs n 0 { state := s, dir := dir, es := j.es.init, losses := [], vals := [], keys := [],
                            trained := 0 }).bind fun l =>
    if j.hasDir then
      (saveCkpt l.dir (j.stepOf l.state) l.state j.keep true).map fun d => { l with dir := d }
    else some l

end loop

/-! ## Several devices -/

section devices
variable {α : Type}

/-- The first `k` blocks of length `b` of a list. -/
def blocks (b : ℕ) : ℕ → List α → List (List α)
  | 0, _ => []
  | k + 1, xs => xs.take b :: blocks b k (xs.drop b)

/-- `_add_device_dim_to_array`, output_calib_model_calibrator.py L537-545, and `_reshape_batch` of the data
loader, training/output_calibrator.py L527-535: refused unless the number of rows is a multiple of the
number of devices; otherwise `reshape((n_devices, -1) + …)`. -/
def shard (devices : ℕ) (xs : List α) : Except String (List (List α)) :=
  if xs.length % devices ≠ 0 then .error "ValueError"
  else .ok (blocks (xs.length / devices) devices xs)

/-- A two-dimensional array of rows of type `α` as a function of its indices, with its shape. -/
structure Arr2 (α : Type) where
  d0 : ℕ
  d1 : ℕ
  get : ℕ → ℕ → α

/-- `swapaxes(0, 1)`. -/
def Arr2.swap (a : Arr2 α) : Arr2 α := { d0 := a.d1, d1 := a.d0, get := fun i s => a.get s i }

/-- Splitting the first axis into `(devices, d0 / devices)` by a row-major reshape. -/
def Arr2.split (a : Arr2 α) (devices : ℕ) : ℕ → Arr2 α := fun k =>
  { d0 := a.d0 / devices, d1 := a.d1, get := fun i s => a.get (k * (a.d0 / devices) + i) s }

/-- `_reshape_batch` of the ensemble outputs, prob_model_calibrator.py L91-104: the array has shape
(samples, rows); the result has one (samples, rows / devices) array per device. -/
def shardEnsemble (devices : ℕ) (a : Arr2 α) : Except String (ℕ → Arr2 α) :=
  if a.d1 % devices ≠ 0 then .error "ValueError"
  else .ok fun k => ((a.swap.split devices) k).swap

variable {K G : Type} [Field K] [AddCommGroup G] [Module K G]

/-- A mean over a list of vectors. -/
def vmean (K : Type) [Field K] [Module K G] (xs : List G) : G := ((xs.length : K)⁻¹) • xs.sum

/-- The gradient used by one step on one device: of a loss that averages over the rows. -/
def gradOne (K : Type) [Field K] [Module K G] (rowGrad : α → G) (rows : List α) : G :=
  vmean K (rows.map rowGrad)

/-- The gradient used by one step on several devices, output_calib_model_calibrator.py L555-561: every
device computes its own, `lax.pmean` averages. -/
def gradMany (K : Type) [Field K] [Module K G] (rowGrad : α → G) (shards : List (List α)) : G :=
  vmean K (shards.map (gradOne K rowGrad))

/-- Full-batch training for `n` epochs: `upd` is the optimizer, `rowGrad θ` the gradient of the loss of one
row. On one device (`devices = none`) or several. `training_step`, output_calib_model_calibrator.py
L224-257, with L603-612. -/
def fullBatch {P Q : Type} (K : Type) [Field K] [Module K G] (upd : G → P × Q → P × Q) (rowGrad : P → α → G)
    (devices : Option ℕ) (rows : List α) : ℕ → P × Q → Except String (P × Q)
  | 0, s => .ok s
  | n + 1, s => do
    let g ← match devices with
      | none => .ok (gradOne K (rowGrad s.1) rows)
      | some d => (shard d rows).map (gradMany K (rowGrad s.1))
    fullBatch K upd rowGrad devices rows n (upd g s)

/-- The outputs on which validation metrics are computed: on one device those of the rows; on several
devices `lax.pmean` is also applied to the auxiliary outputs (L642-643), so that every device holds the
average over the devices, and the copies are put one after another (L653-654). -/
def valOutputs (K : Type) [Field K] [Module K G] (devices : Option ℕ) (outs : List G) :
    Except String (List G) :=
  match devices with
  | none => .ok outs
  | some d => (shard d outs).map fun sh =>
      (List.replicate d ((List.range (outs.length / d)).map fun i =>
        vmean K (sh.map fun row => row.getD i 0))).flatten

/-- `accuracy`, metric/classification.py L16-43, on predictions and on targets with `ndim` dimensions. -/
def accuracyMetric (ndim : ℕ) (preds targets : List ℕ) : Except String ℚ :=
  if ndim > 1 then .error "ValueError"
  else .ok (((preds.zip targets).countP fun p => p.1 = p.2 : ℚ) / preds.length)

/-- Number of dimensions of the targets handed to the validation metrics: on several devices they are
reshaped to two dimensions, output_calib_model_calibrator.py L655, training/output_calibrator.py L693. -/
def valTargetDims (devices : Option ℕ) (ndim : ℕ) : ℕ :=
  match devices with
  | none => ndim
  | some _ => 2

end devices

end Verif.OutputCalib
