import Mathlib.Algebra.Field.Basic
import Mathlib.Data.List.Basic

/-!
# Losses and metrics reported by the trainers

Source: `/repo/fortuna/training/trainer.py`, `/repo/fortuna/prob_model/posterior/map/map_trainer.py`,
`/repo/fortuna/prob_model/posterior/normalizing_flow/normalizing_flow_trainer.py`,
`/repo/fortuna/prob_model/posterior/normalizing_flow/advi/advi_trainer.py`.

A dictionary is the list of its items in insertion order. Numbers are elements of a field; the loss, the predictions and the
metrics are arguments. Uncertainties passed to metrics are left out (they are part of the predictions here).
-/

set_option linter.unusedSectionVars false

namespace Verif.TrainerMetrics

/-- `d[key] = v`: an existing key keeps its place. -/
def setKey {β : Type} (d : List (String × β)) (key : String) (v : β) : List (String × β) :=
  if d.any (fun e => e.1 == key) then d.map fun e => if e.1 = key then (key, v) else e else d ++ [(key, v)]

/-- `d[key]`. -/
def look {β : Type} (d : List (String × β)) (key : String) : Option β := (d.find? fun e => e.1 == key).map (·.2)

/-- A metric: its `__name__` and the function of predictions and targets. -/
structure Metric (P T K : Type) where
  name : String
  fn : P → T → K

section
variable {P T K : Type} [Field K]

/-- `compute_metrics`, trainer.py L667-674. -/
def computeMetrics (metrics : List (Metric P T K)) (p : P) (t : T) : List (String × K) :=
  metrics.foldl (fun d m => setKey d m.name (m.fn p t)) []

/-- The dictionary of one training step, `training_step_end`, trainer.py L270-319: the loss, then the logged values, then the
metrics unless these are disabled. -/
def trainingDict (disabled : Bool) (loss : K) (logging : Option (List (String × K)))
    (metrics : Option (List (Metric P T K))) (p : P) (t : T) : List (String × K) :=
  let d := (logging.getD []).foldl (fun d e => setKey d e.1 e.2) [("loss", loss)]
  match disabled, metrics with
  | false, some ms => (computeMetrics ms p t).foldl (fun d e => setKey d e.1 e.2) d
  | _, _ => d

/-- The dictionary of one validation step, `MAPTrainer.validation_step`, map_trainer.py L94-102. -/
def validationDict (loss : K) (metrics : Option (List (Metric P T K))) (p : P) (t : T) : List (String × K) :=
  match metrics with
  | some ms => (computeMetrics ms p t).foldl (fun d e => setKey d ("val_" ++ e.1) e.2) [("val_loss", loss)]
  | none => [("val_loss", loss)]

/-- `jnp.mean` of a list. -/
def meanList (l : List K) : K := l.sum / (l.length : K)

/-- The values of a key in several dictionaries. -/
def values (ds : List (List (String × K))) (key : String) : List K := ds.filterMap fun d => look d key

/-- `_get_mean_losses_and_metrics`, trainer.py L584-589: `stack_forest` (flax: `tree_map` of `np.stack` over all dictionaries;
without dictionaries `tree_map` lacks an argument, with different keys it raises) and the mean under every key. The keys come
in the order of the first dictionary (jax sorts them). -/
def epochMean (ds : List (List (String × K))) : Except String (List (String × K)) :=
  match ds with
  | [] => .error "TypeError"
  | d :: _ =>
    if ds.all fun d' => (d'.all fun e => (look d e.1).isSome) && (d.all fun e => (look d' e.1).isSome)
    then .ok (d.map fun e => (e.1, meanList (values ds e.1))) else .error "ValueError"

/-! ## Flow trainers -/

/-- Metrics of a flow trainer on one device, normalizing_flow_trainer.py L182-189 and L222-226: the metric of every sample's
predictions, then the mean over the samples. -/
def flowMetric {α β : Type} (metric : List α → List β → K) (preds : List (List α)) (targets : List β) : K :=
  meanList (preds.map fun p => metric p targets)

/-- Row-major `reshape` of a list of numbers to `(s, w)`. -/
def regroup {α : Type} (s w : ℕ) (flat : List α) : List (List α) :=
  (List.range s).map fun i => (flat.drop (i * w)).take w

/-- Training metrics of a flow trainer on several devices, normalizing_flow_trainer.py L163-181: `preds` has shape
`(devices, samples, rows per device)` and is reshaped to `(samples, devices * rows per device)`; the targets, of shape
`(devices, rows per device)`, are flattened. `s` and `w` are `preds.shape[1]` and `preds.shape[0] * preds.shape[2]`. -/
def flowMetricDevices {α β : Type} (metric : List α → List β → K) (s w : ℕ) (preds : List (List (List α)))
    (targets : List (List β)) : K :=
  meanList ((regroup s w preds.flatten.flatten).map fun p => metric p targets.flatten)

end

/-! ## The end of ADVI training on several devices -/

/-- The numbers of rows of the pieces into which `jnp.split(arr, indices[:-1])` cuts `n` rows at the positions given by the
sizes (`indices` are their partial sums); `done` is the sum of the sizes before. The last piece takes the rest. -/
def pieceRows (n : ℕ) : ℕ → List ℕ → List ℕ
  | _, [] => []
  | done, [_] => [n - min n done]
  | done, s :: s' :: l => (min n (done + s) - min n done) :: pieceRows n (done + s) (s' :: l)

/-- `unravel` of `ravel_pytree` for leaves of these sizes (jax contract: `jnp.split` along the first axis, then `reshape` of
every piece to the shape of its leaf) applied to an array with `n` rows of length `sizes.sum`: whether all pieces have the
right number of elements; otherwise an exception is raised. -/
def unravelRows (n : ℕ) (sizes : List ℕ) : Bool :=
  ((pieceRows n 0 sizes).zip sizes).all fun p => decide (p.1 * sizes.sum = p.2)

/-- `MultiDeviceADVITrainer.on_train_end`, advi_trainer.py L162-176 with `save_checkpoint`, L51-56, and `_unravel_params`,
L73-93: the first thing done, also without a checkpoint directory, is to unravel the means of the replicated state, an array
of shape `(devices, number of parameters)`. -/
def adviDevicesTrainEnd (devices : ℕ) (sizes : List ℕ) : Except String Unit :=
  if unravelRows devices sizes then .ok () else .error "TypeError"

end Verif.TrainerMetrics
