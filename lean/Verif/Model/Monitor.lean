import Verif.Model.SGMCMC

/-!
# What is monitored

Source: `/repo/fortuna/prob_model/fit_config/monitor.py`, `prob_model/calib_config/monitor.py` (and its copies in `output_calib_model/config`, `calib_model/config`), `training/trainer.py`,
`training/mixin.py`, `prob_model/posterior/map/map_trainer.py`, `prob_model/posterior/sgmcmc/sghmc/sghmc_approximator.py`.

Only names and exceptions; the values are in `TrainerMetrics`. Metrics are assumed not to raise.
-/

namespace Verif.Monitor

/-- A python object: whether it can be called, and its `__name__`, which functions and classes have but e.g. a `functools.partial` has not. -/
structure Obj where
  callable : Bool
  name : Option String
  deriving DecidableEq

/-- The argument `metrics`: `None`, a tuple, or anything else. -/
inductive Metrics
  | none
  | tuple (l : List Obj)
  | other
  deriving DecidableEq

/-- The constructors of the monitors, fit_config/monitor.py L50-59, calib_config/monitor.py L62-74 (`FitMonitor` has no `uncertainty_fn`). -/
def monitorInit (m : Metrics) (uncertaintyFn : Option Obj) : Except String (Option (List Obj)) :=
  let rest (r : Option (List Obj)) : Except String (Option (List Obj)) :=
    match uncertaintyFn with
    | some f => if f.callable then .ok r else .error "ValueError"
    | none => .ok r
  match m with
  | .none => rest none
  | .other => .error "ValueError"
  | .tuple l => if l.all (·.callable) then rest (some l) else .error "ValueError"

/-- The keys of `compute_metrics`, trainer.py L667-674: `metric.__name__` raises if there is none. -/
def names : List Obj → Except String (List String)
  | [] => .ok []
  | m :: ms =>
    match m.name with
    | none => .error "AttributeError"
    | some n =>
      match names ms with
      | .ok l => .ok (n :: l)
      | .error e => .error e

/-- The keys of an epoch's training losses and metrics, trainer.py L270-319 (no logged values). -/
def trainKeys (disabled : Bool) (metrics : Option (List Obj)) : Except String (List String) :=
  match disabled, metrics with
  | false, some ms => (names ms).map ("loss" :: ·)
  | _, _ => .ok ["loss"]

/-- The keys of a validation, map_trainer.py L94-102. -/
def valKeys (metrics : Option (List Obj)) : Except String (List String) :=
  match metrics with
  | some ms => (names ms).map fun l => "val_loss" :: l.map ("val_" ++ ·)
  | none => .ok ["val_loss"]

/-- `should_perform_validation`, trainer.py L591-598: comparing `None` with 0 raises. -/
def shouldValidate (hasVal : Bool) (every : Option ℤ) (epoch : ℕ) : Except String Bool :=
  if hasVal then
    match every with
    | none => .error "TypeError"
    | some k => .ok (0 < k ∧ (epoch : ℤ) % k = 0)
  else .ok false

/-- `is_early_stopping_active`, mixin.py L131-139; fits always use the mode `min`. -/
def active (patience : Option ℤ) : Bool :=
  match patience with
  | none => false
  | some p => 0 < p

/-- What a fit reads of its monitor. -/
structure Config where
  metrics : Option (List Obj)
  disabled : Bool
  every : Option ℤ
  patience : Option ℤ
  monitor : String

/-- One epoch: the keys of training and of validation, trainer.py L385-437, with `early_stopping_update`, mixin.py L141-152. -/
def epoch (c : Config) (hasVal : Bool) (e : ℕ) : Except String (List String × Option (List String)) := do
  let t ← trainKeys c.disabled c.metrics
  let v ← shouldValidate hasVal c.every e
  if v then
    let k ← valKeys c.metrics
    if active c.patience && !(k.contains c.monitor) then .error "KeyError" else pure (t, some k)
  else pure (t, none)

/-- The loop over epochs, trainer.py L385-441, from epoch `e` on; `stops` says after which validations early stopping ends it. Returns the keys seen in training and in validations. -/
def epochs (c : Config) (hasVal : Bool) (stops : ℕ → Bool) : ℕ → ℕ → Except String (List String × List String)
  | 0, _ => .ok ([], [])
  | n + 1, e => do
    let r ← epoch c hasVal e
    let v := r.2.getD []
    if r.2.isSome && active c.patience && stops e then pure (r.1, v)
    else
      let s ← epochs c hasVal stops n (e + 1)
      pure (r.1 ++ s.1, v ++ s.2)

/-- The keys of the status, trainer.py L443-450: `dict(**a, **b)` raises for a key in both. -/
def status (c : Config) (hasVal : Bool) (stops : ℕ → Bool) (n : ℕ) : Except String (List String) := do
  let r ← epochs c hasVal stops n 0
  if r.1.any (fun k => r.2.contains k) then .error "TypeError" else pure (r.1 ++ r.2)

/-- An argument `step_schedule`: a float, a function, or anything else, an integer for example. -/
inductive Step
  | float (x : ℝ)
  | fn (f : ℕ → ℝ)
  | int (z : ℤ)
  | other

/-- `SGHMCPosteriorApproximator.__init__`, sghmc_approximator.py L57-63. -/
noncomputable def stepSchedule : Step → Except String (ℕ → ℝ)
  | .float x =>
    match SGMCMC.constantSchedule x with
    | some f => .ok f
    | none => .error "ValueError"
  | .fn f => .ok f
  | .int _ => .error "ValueError"
  | .other => .error "ValueError"

end Verif.Monitor
