import Mathlib.Algebra.Order.Field.Basic
import Mathlib.Algebra.Module.Basic

/-!
# Training: early stopping, gradient accumulation, checkpoints, the epoch loop

Sources: `/repo/fortuna/training/mixin.py`, `/repo/fortuna/training/trainer.py`,
`/repo/fortuna/training/train_state_repository.py`.

Library contracts used (stated here because the code relies on them):

* `flax.training.early_stopping.EarlyStopping.update`;
* `flax.training.checkpoints.{save_checkpoint, restore_checkpoint, latest_checkpoint}`: a
  checkpoint directory holds at most one file per step; `restore` and `latest_checkpoint` take the
  file with the highest step; `save` without `overwrite` refuses a step that is not beyond every
  stored one; with `overwrite` it deletes all later files; then only the `keep` highest are kept
  (`keep ≥ 1`; with `keep = 0` flax deletes nothing, and the theorems assume `keep ≥ 1`).
-/

set_option linter.unusedSectionVars false

namespace Verif.Training

/-! ## Early stopping -/

/-- The fields of flax's `EarlyStopping`; `best = none` is its initial value `inf`. -/
structure ES (K : Type) where
  minDelta : K
  patience : ℤ
  best : Option K
  count : ℤ
  stop : Bool
  improved : Bool

/-- The trainer's early-stopping arguments (mixin.py L93-103). `mode` is the string given by the
user, `none` for Python's `None`. -/
structure ESConfig (K : Type) where
  minDelta : K
  patience : Option ℤ
  mode : Option String

section es
variable {K : Type} [Field K] [LinearOrder K]

/-- `is_early_stopping_active`, mixin.py L129-137. -/
def ESConfig.active (c : ESConfig K) : Bool :=
  !((match c.patience with | none => true | some p => decide (p ≤ 0)) ||
    (match c.mode with | none => true | some m => !(m == "min" || m == "max")))

/-- `EarlyStopping(min_delta=…, patience=…)`, mixin.py L121-123. -/
def ESConfig.init (c : ESConfig K) : ES K :=
  { minDelta := c.minDelta, patience := c.patience.getD 0, best := none, count := 0,
    stop := false, improved := false }

/-- flax `EarlyStopping.update`: the metric counts as an improvement when nothing was seen before
or it is better than the best by more than `min_delta`. The monitored values are finite numbers;
a metric equal to `inf` or `nan` is outside the model. -/
def ES.update (e : ES K) (m : K) : ES K :=
  match e.best with
  | none => { e with best := some m, count := 0, improved := true }
  | some b =>
    if b - m > e.minDelta then { e with best := some m, count := 0, improved := true }
    else { e with stop := decide (e.count ≥ e.patience) || e.stop, count := e.count + 1,
                  improved := false }

/-- `early_stopping_update`, mixin.py L139-151: does nothing when inactive (returns `None`);
negates the metric in mode "max"; returns whether the metric improved. -/
def esUpdate (c : ESConfig K) (e : ES K) (m : K) : ES K × Option Bool :=
  if c.active then
    let m := if c.mode = some "max" then -m else m
    (e.update m, some (e.update m).improved)
  else (e, none)

end es

/-! ## Checkpoint directories -/

/-- A checkpoint directory: the stored `(step, content)` pairs in increasing order of step. -/
abbrev Dir (S : Type) := List (ℕ × S)

/-- `checkpoints.save_checkpoint(ckpt_dir, target, step, keep, overwrite)`; `none` when flax
refuses to write (`InvalidCheckpointError`). -/
def saveCkpt {S : Type} (d : Dir S) (step : ℕ) (s : S) (keep : ℕ) (overwrite : Bool) :
    Option (Dir S) :=
  if !overwrite && d.any (fun p => decide (step ≤ p.1)) then none
  else
    let d' := d.filter (fun p => decide (p.1 < step)) ++ [(step, s)]
    some (d'.drop (d'.length - keep))

/-- `checkpoints.restore_checkpoint(ckpt_dir, step=None)`: the content with the highest step. -/
def restoreCkpt {S : Type} (d : Dir S) : Option S := d.getLast?.map (·.2)

/-! ## One training step -/

/-- The part of a train state that a training step touches. `acc` is `grad_accumulated`. -/
structure TState (P O G : Type) where
  step : ℕ
  params : P
  opt : O
  acc : Option G
  deriving DecidableEq

section step
variable {P O G K : Type} [Field K] [AddCommGroup G] [Module K G]

/-- `state.apply_gradients(grads)` of flax: the optimizer turns gradient, optimizer state and
parameters into new ones, and the step counter grows by one. `upd` is that optimizer. -/
def TState.applyGrad (upd : G → P × O → P × O) (s : TState P O G) (g : G) : TState P O G :=
  { s with step := s.step + 1, params := (upd g (s.params, s.opt)).1,
           opt := (upd g (s.params, s.opt)).2 }

/-- The gradient added to what has been accumulated so far, trainer.py L201-205. -/
def addAcc (acc : Option G) (g : G) : G :=
  match acc with
  | some a => g + a
  | none => g

/-- `params_update_with_grad_accumulation`, trainer.py L193-226. `clip` is
`clip_grandients_by_norm(·, max_grad_norm)`, or the identity when `max_grad_norm` is 0. The
`mutable` field is left out. -/
def accumStep (K : Type) [Field K] [Module K G] (upd : G → P × O → P × O) (clip : G → G) (k : ℕ)
    (s : TState P O G) (g : G) : TState P O G :=
  let gradAcc := addAcc s.acc g
  if (s.step + 1) % k = 0 then
    { s.applyGrad upd (clip ((1 / (k : K)) • gradAcc)) with acc := some 0 }
  else { s with acc := some gradAcc, step := s.step + 1 }

/-- The update part of `training_step`, trainer.py L154-168: with `gradient_accumulation_steps`
above one accumulate, otherwise clip and apply the gradient at once. -/
def trainStep (K : Type) [Field K] [Module K G] (upd : G → P × O → P × O) (clip : G → G) (k : ℕ)
    (s : TState P O G) (g : G) : TState P O G :=
  if k > 1 then accumStep K upd clip k s g else s.applyGrad upd (clip g)

/-- `training_step` with a dynamic loss scale, trainer.py L170-182: `fin` tells whether this
gradient is finite; if it is not, parameters and optimizer state are restored. -/
def scaledStep (K : Type) [Field K] [Module K G] (upd : G → P × O → P × O) (clip : G → G) (k : ℕ)
    (s : TState P O G) (g : G) (fin : Bool) : TState P O G :=
  let s' := trainStep K upd clip k s g
  { s' with opt := if fin then s'.opt else s.opt, params := if fin then s'.params else s.params }

end step

/-! ## The epoch loop -/

/-- Everything the training loop writes: the state, the trainer's own step counter
`_global_training_step`, the checkpoint directory, the early-stopping state, the arguments folded
into the random key of every training step, the steps at which `training_step_end` (metrics,
callbacks, periodic checkpoints) ran, how many epochs were trained, and the monitored validation
metric of every validated epoch (the history returned in the status). -/
structure Loop (S K : Type) where
  state : S
  global : ℕ
  dir : Dir S
  es : ES K
  keys : List ℕ
  ends : List ℕ
  trained : ℕ
  vals : List K

/-- The arguments of a run. `stepOf` reads the step counter of a state, `strip` is what
`save_checkpoint` does to a state before writing it (drop accumulated gradients, merge frozen
parameters), `train` is one training step with the given key argument. -/
structure Job (S B K : Type) where
  stepOf : S → ℕ
  strip : S → S
  train : ℕ → S → B → S
  gas : ℕ
  hasDir : Bool
  saveEvery : Option ℕ
  keep : ℕ
  es : ESConfig K
  evalEvery : ℤ
  metric : Option (S → K)

section loop
variable {S B K : Type} [Field K] [LinearOrder K]

/-- `training_step_end`, trainer.py L242-319: the periodic checkpoint, then metrics and callbacks
(recorded in `ends`). Callbacks are taken to return the state unchanged. `none`: flax refused the
checkpoint. -/
def stepEnd (j : Job S B K) (l : Loop S K) : Option (Loop S K) :=
  let save := j.hasDir && (match j.saveEvery with
    | none => false
    | some n => decide (n > 0) && decide (l.global ≥ n) && decide (l.global % n = 0))
  let l' := { l with ends := l.ends ++ [j.stepOf l.state] }
  if save then
    (saveCkpt l.dir (j.stepOf (j.strip l.state)) (j.strip l.state) j.keep false).map
      fun d => { l' with dir := d }
  else some l'

/-- The body of `_training_loop`, trainer.py L478-532, for the batches from position `i` on with
current key argument `key`. -/
def epochFrom (j : Job S B K) : ℕ → ℕ → List B → Loop S K → Option (Loop S K)
  | _, _, [], l => some l
  | i, key, b :: bs, l =>
    let l1 := { l with state := j.train key l.state b, global := l.global + 1,
                       keys := l.keys ++ [key] }
    if j.gas > 0 ∧ (i + 1) % j.gas ≠ 0 then epochFrom j (i + 1) key bs l1
    else
      match stepEnd j l1 with
      | none => none
      | some l2 => epochFrom j (i + 1) (j.stepOf l1.state) bs l2

/-- One call of `_training_loop`, trainer.py L455-532. When no batch reached `training_step_end` there
are no losses to average and `stack_forest` raises (`training_epoch_end`, L326-336, L584-589). -/
def trainEpoch (j : Job S B K) (bs : List B) (l : Loop S K) : Option (Loop S K) :=
  (epochFrom j 0 (j.stepOf l.state) bs l).bind fun l' =>
    if l'.ends.length = l.ends.length then none else some { l' with trained := l'.trained + 1 }

/-- `should_perform_validation`, trainer.py L591-598. -/
def shouldValidate (j : Job S B K) (epoch : ℕ) : Bool :=
  j.metric.isSome && decide (j.evalEvery > 0) && decide ((epoch : ℤ) % j.evalEvery = 0)

/-- `_validation_loop` and `validation_epoch_end`, trainer.py L338-352: feed the metric to early
stopping, and write a checkpoint (keeping only that one) when it improved. -/
def validate (j : Job S B K) (l : Loop S K) : Option (Loop S K) :=
  match j.metric with
  | none => some l
  | some f =>
    let r := esUpdate j.es l.es (f l.state)
    let l' := { l with es := r.1, vals := l.vals ++ [f l.state] }
    if r.2 = some true ∧ j.hasDir then
      (saveCkpt l.dir (j.stepOf (j.strip l.state)) (j.strip l.state) 1 true).map
        fun d => { l' with dir := d }
    else some l'

/-- The loop over epochs in `train`, trainer.py L382-438: `n` more epochs starting with number
`epoch`; stops early after a validation that tells it to. `data e` are the batches of epoch `e`. -/
def epochs (j : Job S B K) (data : ℕ → List B) : ℕ → ℕ → Loop S K → Option (Loop S K)
  | 0, _, l => some l
  | n + 1, epoch, l =>
    match trainEpoch j (data epoch) l with
    | none => none
    | some l1 =>
      if shouldValidate j epoch then
        match validate j l1 with
        | none => none
        | some l2 => if j.es.active && l2.es.stop then some l2 else epochs j data n (epoch + 1) l2
      else epochs j data n (epoch + 1) l1

/-- `on_train_end`, trainer.py L643-655 (the final checkpoint). -/
def trainEnd (j : Job S B K) (l : Loop S K) : Option (Loop S K) :=
  if j.hasDir then
    (saveCkpt l.dir (j.stepOf (j.strip l.state)) (j.strip l.state) j.keep true).map
      fun d => { l with dir := d }
  else some l

/-- `train`, trainer.py L354-453, on a fresh trainer with checkpoint directory content `dir`. -/
def train (j : Job S B K) (data : ℕ → List B) (n : ℕ) (s : S) (dir : Dir S) :
    Option (Loop S K) :=
  (epochs j data n 0
    { state := s, global := 0, dir := dir, es := j.es.init, keys := [], ends := [],
      trained := 0, vals := [] }).bind (trainEnd j)

end loop

end Verif.Training
