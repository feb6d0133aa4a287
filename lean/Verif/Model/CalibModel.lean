import Verif.Model.Likelihood

/-!
# Models calibrated by a loss: `CalibClassifier`, `CalibRegressor`

Sources: `/repo/fortuna/calib_model/{base,classification,regression,loss}.py`,
`/repo/fortuna/calib_model/calib_model_calibrator.py`, `/repo/fortuna/calib_model/predictive/base.py`.

The likelihood of these models always has `output_calib_manager=None` (classification.py L74-78, regression.py L74-78), and
`CalibState.calib_params`, `calib_mutable` are always `None`. `O` are the outputs on a batch, `M` the state of the network, `W` its
parameters, `B` batches. The trainer's checkpoints, metrics, callbacks and early stopping are in `Training.lean`.
-/

set_option linter.unusedSectionVars false

namespace Verif.CalibModel
open Verif.Likelihood

section loss
variable {O M CM P K : Type}

/-- `Loss.__call__`, loss.py L33-128: the guards, the forward pass and the (absent) output calibration are those of
`_batched_log_joint_prob` (`Verif.Likelihood`); the value always comes with the dictionary. -/
def lossCall (forward : Bool → Option M → O × M) (lossFn : O → K) (c : Call O M CM P) : Except String (K × Aux O M CM) :=
  match guards c with
  | some e => .error e
  | none => do
    let (o, mutable, bound) ← modelPart forward c
    let (o, calibAux) ← calibPart none forward c o bound
    .ok (lossFn o,
      { outputs := if c.aux.contains "outputs" then some o else none
        mutable := if c.aux.contains "mutable" then mutable else none
        calibMutable := calibAux })

/-- The call of `training_loss_step`, calib_model_calibrator.py L45-58. -/
def trainCall (mutable : Option M) : Call O M CM P :=
  { aux := if mutable.isSome then ["outputs", "mutable"] else ["outputs"], train := true, mutable := mutable }

/-- The call of `validation_step`, L80-89. -/
def valCall (mutable : Option M) : Call O M CM P := { aux := ["outputs"], train := false, mutable := mutable }

end loss

/-! ## Where calibration starts and ends -/

/-- `config.checkpointer` and `config.hyperparameters`, as far as read. -/
structure Conf where
  restorePath : Bool := false
  startCurrent : Bool := false
  dumpState : Bool := false
  saveDir : Bool := false
  /-- `max_grad_norm`, hyperparameters.py. -/
  maxGradNorm : Option ℕ := none

/-- The state calibration starts from. -/
inductive Start where
  | restored | current | fresh
  deriving DecidableEq, Repr

/-- `_init_state`, base.py L226-242: `hasState` tells whether the model has been calibrated or loaded before; without,
`self.predictive.state.get` is an attribute of `None`. -/
def initState (c : Conf) (hasState : Bool) : Except String Start :=
  if c.restorePath then .ok .restored
  else if c.startCurrent then (if hasState then .ok .current else .error "AttributeError")
  else .ok .fresh

/-- Where the calibrated state is kept, base.py L149-156. -/
inductive Kept where
  | memory | disk
  deriving DecidableEq, Repr

/-- `CalibClassifier._check_output_dim`, classification.py L137-152: `size` is the number of data points, `labels` the labels seen in
the loader, `width` the number of outputs of the network. -/
def checkClassifier (size : ℕ) (labels : List ℤ) (width : ℕ) : Except String Unit :=
  if size = 0 then .error "ValueError"
  else if width ≠ labels.dedup.length then .error "ValueError"
  else .ok ()

/-- `CalibRegressor._check_output_dim`, regression.py L82-98: `dim` is the second dimension of the targets of the first batch, `none`
without batches. -/
def checkRegressor (dim : Option ℕ) (width : ℕ) : Except String Unit :=
  if dim.getD 0 = 0 then .error "ValueError"
  else if width ≠ 2 * dim.getD 0 then .error "ValueError"
  else .ok ()

/-! ## The run -/

section run
variable {O M K B W G : Type}

/-- The network: training flag, parameters, state, batch. -/
abbrev Net (O M B W : Type) := Bool → W → B → Option M → O × M

/-- The objective of a training step on the batch `b` as a function of the parameters. -/
def objective (net : Net O M B W) (lossFn : O → B → K) (mutable : Option M) (b : B) (w : W) : Except String (K × Aux O M Unit) :=
  lossCall (P := Unit) (fun t m => net t w b m) (fun o => lossFn o b) (trainCall mutable)

/-- One training step (trainer.py L110-248): `grad` is differentiation with respect to the parameters, `upd` the optimizer (with its
state in `W`). An exception while evaluating the objective goes through. The network's state is replaced by the one returned. -/
def calibStep (net : Net O M B W) (lossFn : O → B → K) (grad : (W → Except String K) → W → G) (upd : G → W → W)
    (s : W × Option M) (b : B) : Except String (W × Option M) := do
  let (_, aux) ← objective net lossFn s.2 b s.1
  .ok (upd (grad (fun w => (objective net lossFn s.2 b w).map Prod.fst) s.1) s.1,
    match aux.mutable with
    | some m => some m
    | none => s.2)

/-- The batches of one epoch. -/
def calibBatches (net : Net O M B W) (lossFn : O → B → K) (grad : (W → Except String K) → W → G) (upd : G → W → W) :
    W × Option M → List B → Except String (W × Option M)
  | s, [] => .ok s
  | s, b :: bs => do
    let s' ← calibStep net lossFn grad upd s b
    calibBatches net lossFn grad upd s' bs

/-- All epochs. -/
def calibEpochs (net : Net O M B W) (lossFn : O → B → K) (grad : (W → Except String K) → W → G) (upd : G → W → W) (bs : List B) :
    ℕ → W × Option M → Except String (W × Option M)
  | 0, s => .ok s
  | n + 1, s => do
    let s' ← calibBatches net lossFn grad upd s bs
    calibEpochs net lossFn grad upd bs n s'

/-- The sources of a starting state. -/
structure Sources (M W : Type) where
  restored : W × Option M
  current : Option (W × Option M)
  fresh : W × Option M

/-- `calibrate` and `_calibrate`, base.py L65-159: the checks of the loaders (`checks`, calibration and validation), the directory, the
start, training, and where the state is kept. `config.hyperparameters` is not passed to the trainer. -/
def calibrate (checks : List (Except String Unit)) (c : Conf) (src : Sources M W) (net : Net O M B W) (lossFn : O → B → K)
    (grad : (W → Except String K) → W → G) (upd : G → W → W) (bs : List B) (epochs : ℕ) :
    Except String ((W × Option M) × Kept) := do
  checks.forM id
  if c.dumpState && !c.saveDir then .error "ValueError"
  else
    let start ← initState c src.current.isSome
    let s ← calibEpochs net lossFn grad upd bs epochs (match start with
      | .restored => src.restored
      | .current => src.current.getD src.fresh
      | .fresh => src.fresh)
    .ok (s, if c.dumpState then .disk else .memory)

end run

/-- The predictive methods, predictive/base.py L27-250 (`self.state.get()`), and `save_state`, base.py L179-186: `None` before
calibration. -/
def stateOf {S : Type} (state : Option S) : Except String S :=
  match state with
  | none => .error "AttributeError"
  | some s => .ok s

end Verif.CalibModel
