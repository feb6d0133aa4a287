import Verif.Model.Training
import Verif.Model.FitStart
import Verif.Model.StateRepo
import Verif.Model.SGMCMC

/-!
# What a fit makes of its configuration

Source: the `fit` methods in `/repo/fortuna/prob_model/posterior/` (`map/map_posterior.py`,
`normalizing_flow/advi/advi_posterior.py`, `swag/swag_posterior.py`, `laplace/laplace_posterior.py`,
`deep_ensemble/deep_ensemble_posterior.py`, `sgmcmc/sghmc/sghmc_posterior.py`,
`sgmcmc/cyclical_sgld/cyclical_sgld_posterior.py`), from the configuration to the trainer, the returned status and the repository
the state is kept in. The run itself is `Training.train`. Gradients are families of real numbers. Where a fit starts is `FitStart`,
objects shared by configurations are `Sharing`. A member of an ensemble is one run of MAP. ADVI's trainable parameters are mean and
logarithm of the standard deviation; its loss and gradient are arbitrary functions here.
-/

set_option linter.unusedSectionVars false

namespace Verif.FitRun

open Verif.Training Verif.FitStart

/-- The parts of a `FitConfig` a fit reads, fit_config/{optimizer,checkpointer,monitor,hyperparameters}.py and base.py L43-48.
`monitorLoss`: `early_stopping_monitor` is "val_loss" (the default), otherwise the name of a metric. `patience` as given. -/
structure Cfg where
  epochs : ℕ
  saveDir : Bool
  saveEvery : Option ℕ
  keep : ℕ
  dump : Bool
  evalEvery : ℤ
  monitorLoss : Bool
  patience : Option ℤ
  minDelta : ℝ
  maxNorm : Option ℝ
  accSteps : Option ℕ
  callbacks : List ℕ

/-- What a trainer is given. `ascend`: its loss is the logarithm of the joint probability, not the negative. -/
structure Args where
  epochs : ℕ
  hasDir : Bool
  saveEvery : Option ℕ
  keep : ℕ
  evalEvery : ℤ
  monitorLoss : Bool
  es : ESConfig ℝ
  maxNorm : Option ℝ
  accSteps : Option ℕ
  callbacks : List ℕ
  ascend : Bool

/-- The arguments of trainer and `train`; Laplace trains nothing. map_posterior.py L68-79, L95-111; advi_posterior.py L144-160,
L171-189; deep_ensemble_posterior.py L134-161; swag_posterior.py L140-169: nothing on early stopping, so that the patience is 0
(mixin.py L99), no norm, no accumulation; sghmc_posterior.py L118-129, L170-184 and cyclical_sgld_posterior.py L122-133, L175-189: no
norm, no accumulation, no callbacks of the user. No fit passes `early_stopping_mode`, which is "min" (mixin.py L100). -/
def trainerArgs (m : Method) (c : Cfg) : Option Args :=
  let es : ESConfig ℝ := ⟨c.minDelta, c.patience, some "min"⟩
  match m with
  | .map | .advi | .deepEnsemble =>
    some ⟨c.epochs, c.saveDir, c.saveEvery, c.keep, c.evalEvery, c.monitorLoss, es, c.maxNorm, c.accSteps, c.callbacks, false⟩
  | .swag =>
    some ⟨c.epochs, c.saveDir, c.saveEvery, c.keep, c.evalEvery, true, ⟨0, some 0, some "min"⟩, none, none, c.callbacks, false⟩
  | .sghmc | .cyclicalSGLD =>
    some ⟨c.epochs, c.saveDir, c.saveEvery, c.keep, c.evalEvery, c.monitorLoss, es, none, none, [], true⟩
  | .laplace => none

noncomputable section

/-- `clip_grandients_by_norm` if the norm is given and positive, trainer.py L154, L163-164 and utils/training.py L14-20. -/
def clipFn {ι : Type} [Fintype ι] (m : Option ℝ) (g : ι → ℝ) : ι → ℝ :=
  if m.getD 0 > 0 then (min 1 (m.getD 0 / (1 / 10 ^ 7 + Real.sqrt (∑ i, g i ^ 2)))) • g else g

/-- What is fitted. `grad key s b` is the gradient of the logarithm of the joint probability of batch `b` at state `s`; `upd` the
optimizer; `valLogProb` the mean over the validation batches of the logarithm of the joint probability, `metric` the one monitored
when it is not the loss. `hasVal`: a validation loader is given. -/
structure Problem (ι P O B : Type) where
  grad : ℕ → TState P O (ι → ℝ) → B → ι → ℝ
  upd : (ι → ℝ) → P × O → P × O
  strip : TState P O (ι → ℝ) → TState P O (ι → ℝ)
  hasVal : Bool
  valLogProb : TState P O (ι → ℝ) → ℝ
  metric : TState P O (ι → ℝ) → ℝ

/-- The run: trainer.py L112-191 for a step (without a dynamic scale) and L338-346 for the monitored value. -/
def jobOf {ι P O B : Type} [Fintype ι] (a : Args) (p : Problem ι P O B) : Job (TState P O (ι → ℝ)) B ℝ where
  stepOf s := s.step
  strip := p.strip
  train key s b := trainStep ℝ p.upd (clipFn a.maxNorm) (a.accSteps.getD 0) s (if a.ascend then p.grad key s b else -p.grad key s b)
  gas := a.accSteps.getD 0
  hasDir := a.hasDir
  saveEvery := a.saveEvery
  keep := a.keep
  es := a.es
  evalEvery := a.evalEvery
  metric :=
    if p.hasVal then
      some (if a.monitorLoss then (fun s => if a.ascend then p.valLogProb s else -p.valLogProb s) else p.metric)
    else none

/-- The training of a fit from state `s` with `dir` in the trainer's directory. `none`: a checkpoint was refused. -/
def runFit {ι P O B : Type} [Fintype ι] (a : Args) (p : Problem ι P O B) (data : ℕ → List B) (s : TState P O (ι → ℝ))
    (dir : Dir (TState P O (ι → ℝ))) : Option (Loop (TState P O (ι → ℝ)) ℝ) :=
  train (jobOf a p) data a.epochs s dir

end

/-! ## Status -/

/-- What `fit` returns, by the keys under which the statuses of the runs are found: `one keys` a dictionary of statuses, `flat` the
status of the run itself, `members` a list with the status of every member. map_posterior.py L119; advi_posterior.py L107, L171, L198;
swag_posterior.py L103, L154, L178; laplace_posterior.py L246, L314; sghmc_posterior.py L85, L170, L187;
cyclical_sgld_posterior.py L89, L175, L192 (`status` is assigned anew); deep_ensemble_posterior.py L97, L181-192 (likewise). -/
inductive Status where
  | flat
  | one (keys : List String)
  | members
  deriving DecidableEq, Repr

/-- The status of a fit that did or did not run MAP before, same lines. -/
def statusOf (m : Method) (ranMap : Bool) : Status :=
  let pre := if ranMap then ["map"] else []
  match m with
  | .map => .flat
  | .advi => .one (pre ++ ["advi"])
  | .swag => .one (pre ++ ["swag"])
  | .laplace => .one pre
  | .sghmc => .one (pre ++ ["sghmc"])
  | .cyclicalSGLD => .flat
  | .deepEnsemble => .members

/-! ## Where the state is kept -/

/-- Whether the repository works on `save_checkpoint_dir`: map_posterior.py L112-116, advi_posterior.py L191-195,
swag_posterior.py L171-175, deep_ensemble_posterior.py L165-179; laplace_posterior.py L296-298, sghmc_posterior.py L151-153 and
cyclical_sgld_posterior.py L155-157 without a look at `dump_state`. -/
def keptOnDisk (m : Method) (c : Cfg) : Bool :=
  match m with
  | .map | .advi | .swag | .deepEnsemble => c.saveDir && c.dump
  | .laplace | .sghmc | .cyclicalSGLD => c.saveDir

section
variable {A V : Type} [DecidableEq A]

open Verif.StateRepo

/-- The end of `fit` of the methods with one state, e.g. map_posterior.py L112-117: a new repository, on the directory the trainer
left behind (`disk`), into which the state is put. -/
def storeState (m : Method) (c : Cfg) (disk : Loc (TS A V)) (final : TS A V) : Except Err (Repo (TS A V)) :=
  put { dirSet := keptOnDisk m c, ckpt := disk, other := .absent, mem := none } final false c.keep

end

end Verif.FitRun
