import Mathlib.Algebra.Field.Basic
import Mathlib.Algebra.BigOperators.Group.List.Basic

/-!
# Batched log joint probability

Source: `/repo/fortuna/likelihood/base.py` `_batched_log_joint_prob` L125-264,
`/repo/fortuna/prob_model/joint/base.py` L31-155,
`/repo/fortuna/output_calibrator/output_calib_manager/{base,state}.py`,
`/repo/fortuna/model/model_manager/{classification,regression}.py` `apply`.

`O` is the type of a batch of outputs, `M` of the model's state collections (`mutable`), `CM` of the
calibrator's, `P` of its parameters. The forward passes are arbitrary functions. Python exceptions are
named by their class.
-/

set_option linter.unusedSectionVars false

namespace Verif.Likelihood

/-- What a model manager or a calibration manager returns: an array, or a pair of an array and state. -/
inductive Ret (O S : Type) where
  | plain (o : O)
  | pair (o : O) (s : S)
deriving DecidableEq, Repr

/-- The value stored under `"output_calibrator"` in `calib_mutable`: a `FrozenDict` of collections, or
the plain dictionary `{"mutable": …}` returned by `OutputCalibManager.apply`,
output_calib_manager/base.py L77. -/
inductive CalibVal (CM : Type) where
  | frozen (m : CM)
  | wrapped (m : CM)
deriving DecidableEq, Repr

section
variable {O M CM P K : Type}

/-- `ClassificationModelManager.apply`, model_manager/classification.py L49-99, on fixed parameters and
inputs: `forward train mutable` is the flax forward pass, with the updated collections. Without `mutable`
nothing is updated; outside training the updated collections are dropped (L78-79, L84, L97-99). -/
def modelApply (forward : Bool → Option M → O × M) (train : Bool) (mutable : Option M) : Ret O M :=
  match mutable with
  | none => .plain (forward train none).1
  | some m => if train then .pair (forward train (some m)).1 (forward train (some m)).2
    else .plain (forward train (some m)).1

/-- `OutputCalibManager.apply`, output_calib_manager/base.py L57-82. `calibrator` is `none` for
`output_calibrator=None`; `f p calib m o` is the calibrator's forward pass. -/
def calibApply (calibrator : Option (P → Bool → Option CM → O → O × CM)) (params : Option P)
    (mutable : Option (CalibVal CM)) (calib : Bool) (o : O) : Except String (Ret O (CalibVal CM)) :=
  match calibrator with
  | none => .ok (.plain o)
  | some f =>
    match params with
    | none => .error "AttributeError"
    | some p =>
      match mutable with
      | none => .ok (.plain (f p calib none o).1)
      | some (.wrapped _) => .error "AttributeError"
      | some (.frozen m) =>
        if calib then .ok (.pair (f p calib (some m) o).1 (.wrapped (f p calib (some m) o).2))
        else .ok (.plain (f p calib (some m) o).1)

/-- The arguments of a call. `calibMutable` is `calib_mutable["output_calibrator"]` (with `none` also for
`calib_mutable=None`, which only changes the returned empty entry). -/
structure Call (O M CM P : Type) where
  aux : List String := []
  train : Bool := false
  outputs : Option O := none
  mutable : Option M := none
  calibParams : Option P := none
  calibMutable : Option (CalibVal CM) := none

/-- The returned dictionary; `none` for an absent key. -/
structure Aux (O M CM : Type) where
  outputs : Option O := none
  mutable : Option M := none
  calibMutable : Option (Option (CalibVal CM)) := none
deriving DecidableEq, Repr

/-- The guards, L173-206: the exception raised, if any. -/
def guards (c : Call O M CM P) : Option String :=
  if c.aux.any (fun s => !["outputs", "mutable", "calib_mutable"].contains s) then some "TypeError"
  else if c.train && c.outputs.isSome then some "ValueError"
  else if c.aux.contains "mutable" && c.outputs.isSome then some "ValueError"
  else if !c.train && c.aux.contains "mutable" then some "ValueError"
  else if c.aux.contains "mutable" && c.mutable.isNone then some "ValueError"
  else if !c.aux.contains "mutable" && c.mutable.isSome && c.train then some "ValueError"
  else none

/-- L208-221: outputs, the state to return, and the Python variable `outs` if it is bound. -/
def modelPart (forward : Bool → Option M → O × M) (c : Call O M CM P) :
    Except String (Ret O M × Option M × Bool) :=
  match c.outputs with
  | some o => .ok (.plain o, c.mutable, false)
  | none =>
    if c.aux.contains "mutable" then
      match modelApply forward c.train c.mutable with
      | .pair o m => .ok (.plain o, some m, true)
      | .plain _ => .error "unpack"
    else .ok (modelApply forward c.train c.mutable, c.mutable, true)

/-- L223-249. `manager` is `none` for `output_calib_manager=None`, in which case `outs` is still what the
model manager returned (a call with `calib_mutable` but without manager is not modelled). -/
def calibPart (manager : Option (Option (P → Bool → Option CM → O → O × CM)))
    (forward : Bool → Option M → O × M) (c : Call O M CM P) (o : Ret O M) (outsBound : Bool) :
    Except String (O × Option (Option (CalibVal CM))) :=
  let want := c.aux.contains "calib_mutable"
  match manager with
  | none =>
    if c.calibMutable.isSome then .error "unmodelled"
    else if !outsBound then .error "UnboundLocalError"
    else match modelApply forward c.train c.mutable with
      | .plain o => .ok (o, if want then some none else none)
      | .pair _ _ => .error "AttributeError"
  | some cal =>
    match o with
    | .pair _ _ => .error "AttributeError"
    | .plain o =>
      match calibApply cal c.calibParams c.calibMutable want o with
      | .error e => .error e
      | .ok outs =>
        if c.calibMutable.isSome && want then
          match outs with
          | .pair o m => .ok (o, some (some m))
          | .plain _ => .error "unpack"
        else
          match outs with
          | .plain o => .ok (o, if want then some none else none)
          | .pair _ _ => .error "AttributeError"

variable [Field K]

/-- L251-255: the sum of the per-row log-probabilities, times `n_data / targets.shape[0]`. -/
def weighted (nData : ℕ) (rows : List K) : K := rows.sum * ((nData : K) / (rows.length : K))

/-- `_batched_log_joint_prob`, likelihood/base.py L125-264; `ll o` are the log-probabilities of the rows of
the batch. -/
def logJoint (manager : Option (Option (P → Bool → Option CM → O → O × CM)))
    (forward : Bool → Option M → O × M) (ll : O → List K) (nData : ℕ) (c : Call O M CM P) :
    Except String (K × Option (Aux O M CM)) :=
  match guards c with
  | some e => .error e
  | none => do
    let (o, mutable, bound) ← modelPart forward c
    let (o, calibAux) ← calibPart manager forward c o bound
    if (ll o).length = 0 then .error "ZeroDivisionError"
    else if c.aux.length = 0 then .ok (weighted nData (ll o), none)
    else .ok (weighted nData (ll o),
      some { outputs := if c.aux.contains "outputs" then some o else none
             mutable := if c.aux.contains "mutable" then mutable else none
             calibMutable := calibAux })

/-- `Joint._batched_log_joint_prob`, joint/base.py L102-122. -/
def joint (logPrior : K) (lik : Except String (K × Option (Aux O M CM))) :
    Except String (K × Option (Aux O M CM)) := do
  let (v, a) ← lik
  .ok (v + logPrior, a)

/-- `_batched_negative_log_joint_prob`, joint/base.py L124-155: `none` is `return_aux=None`, the
default, for which `len(return_aux)` raises after the evaluation. -/
def negJoint (returnAux : Option (List String)) (val : Except String (K × Option (Aux O M CM))) :
    Except String (K × Option (Aux O M CM)) := do
  let (v, a) ← val
  match returnAux with
  | none => .error "TypeError"
  | some _ => .ok (-v, a)

end

/-! ## Calibration manager state, output_calib_manager/state.py L50-72 -/

/-- A dictionary from names to values. -/
abbrev Dict (V : Type) := List (String × V)

/-- Dictionary lookup. -/
def Dict.get {V : Type} (d : Dict V) (k : String) : Option V := (d.find? (·.1 = k)).map (·.2)

/-- `init_from_dict`: for each calibrator, its `"params"` entry and the other collections, `none` when
there are none; a calibrator that is `None` (or has no variables) has parameters `None`. -/
def splitState {V : Type} (d : Dict (Option (Dict V))) :
    Dict (Option V) × Dict (Option (Dict V)) :=
  (d.map fun (name, v) => (name, match v with
    | some vars => if vars.isEmpty then none else vars.get "params"
    | none => none),
   d.map fun (name, v) => (name, match v with
    | some vars => let rest := vars.filter (·.1 ≠ "params"); if rest.isEmpty then none else some rest
    | none => none))

/-! ## Regression model manager, model_manager/regression.py L49-131 -/

section
variable {O M : Type}

/-- The state returned by `RegressionModelManager.apply`: `model` and `lik` are the updated collections of
the model and of the log-variance model (during training, L86-89) or the ones passed in (otherwise);
`none` when the network has none. Truthiness of the collections (L94-98); both entries are filled with the
model's. -/
def regressionAux (model lik : Option M) : Option (Option M × Option (Option M)) :=
  if model.isSome || lik.isSome then
    some (model, if lik.isSome then some model else none)
  else none

/-- `RegressionModelManager.apply`, L49-131, on fixed parameters and inputs: the outputs come with state
whenever `aux` is not empty, whether training or not (L128-130). `frozen` tells whether `mutable` is a
`FrozenDict`, to which `mutable["model"] = …` (L67) cannot assign; `state` is `none` for `mutable=None`. -/
def regressionApply (fm fl : Bool → Option M → O × M) (cat : O → O → O) (train frozen : Bool)
    (state : Option (Option M × Option M)) : Except String (Ret O (Option M × Option (Option M))) :=
  if state.isSome && frozen then .error "TypeError"
  else
    let model := state.bind (·.1)
    let lik := state.bind (·.2)
    let om := fm train model
    let ol := fl train lik
    let m' := if train then model.map fun _ => om.2 else model
    let l' := if train then lik.map fun _ => ol.2 else lik
    .ok (match regressionAux m' l' with
      | none => .plain (cat om.1 ol.1)
      | some s => .pair (cat om.1 ol.1) s)

end

/-- `ModelManagerState.init_from_dict`, model_manager/state.py L50-66: parameters and the other
collections of each network; `none` when no network has any. -/
def splitModel {V : Type} (d : Dict (Dict V)) :
    Dict (Option V) × Option (Dict (Dict V)) :=
  let rest := d.map fun (name, vars) => (name, vars.filter (·.1 ≠ "params"))
  (d.map fun (name, vars) => (name, vars.get "params"),
   if rest.all (·.2.isEmpty) then none else some rest)

end Verif.Likelihood
