import Mathlib.Data.List.Basic
import Mathlib.Data.String.Basic

/-!
# Training jobs on SageMaker

Source: `/repo/fortuna/sagemaker/{utils,base}.py`.

A configuration is read from yaml files by hydra and checked on access: reading an entry which is not there raises a ConfigAttributeError, and `hasattr` says no. An entry
is missing, null or a text. Texts are lists of characters. Modelled up to the arguments of the estimator; not modelled: the AWS session, the profiler, the job itself.
-/

namespace Verif.Sagemaker

/-- A text. -/
abbrev Text := List Char

/-- An entry of the configuration. -/
inductive Entry
  | missing
  | null
  | text (t : Text)
  deriving DecidableEq

/-- A section of hyperparameters: missing, null, or its items in order; keys are different. -/
inductive Params
  | missing
  | null
  | items (l : List (String × Text))
  deriving DecidableEq

/-- The parts of the configuration which decide about the job, base.py L44-110. `hyperparams` is `none` if there is no such section, else whether it has a tuner. -/
structure Config where
  base : Entry := .missing
  train : Entry := .missing
  test : Entry := .missing
  validation : Entry := .missing
  taskName : Entry := .missing
  methodName : Entry := .missing
  modelName : Entry := .missing
  modelPath : Entry := .missing
  suffix : Entry := .missing
  taskHparams : Params := .missing
  modelHparams : Params := .missing
  methodHparams : Params := .missing
  outputDataPath : Entry := .missing
  hyperparams : Option Bool := none
  sagemakerTuner : Bool := false
  deriving DecidableEq

/-- `cfg.section.name`. -/
def entry : Entry → Except String Entry
  | .missing => .error "ConfigAttributeError"
  | e => .ok e

/-- `base_path if base_path.endswith("/") else base_path + "/"`, utils.py L10-11. -/
def withSlash (t : Text) : Text := if t.getLast? = some '/' then t else t ++ ['/']

/-- One optional channel, utils.py L13-31: `hasattr` and different from the empty text; adding null to a text raises. -/
def channel (base : Text) : Entry → Except String (Option Text)
  | .missing => .ok none
  | .null => .error "TypeError"
  | .text t => if t = [] then .ok none else .ok (some (base ++ t))

/-- `create_input_channels`, utils.py L9-32. -/
def inputChannels (c : Config) : Except String (List (String × Text)) := do
  let e ← entry c.base
  let base ← (match e with
    | .text t => Except.ok (withSlash t)
    | _ => .error "AttributeError")
  let train ← channel base c.train
  let test ← channel base c.test
  let validation ← channel base c.validation
  pure ([("train", train.getD base)] ++ (test.map fun t => ("test", t)).toList ++ (validation.map fun t => ("validation", t)).toList)

/-- A text put into an f-string: null shows as `None`. -/
def shown : Entry → Text
  | .text t => t
  | _ => "None".toList

/-- `replace("_", "-")`. -/
def dashes (t : Text) : Text := t.map fun ch => if ch = '_' then '-' else ch

/-- `get_base_job_name`, utils.py L35-41. -/
def jobName (c : Config) : Except String Text := do
  let task ← entry c.taskName
  let method ← entry c.methodName
  let model ← entry c.modelName
  let name := dashes ("fortuna-".toList ++ shown task ++ ['-'] ++ shown method ++ ['-'] ++ shown model)
  let suffix ← entry c.suffix
  match suffix with
  | .null => pure name
  | s => pure (name ++ dashes ('-' :: shown s))

/-- `cfg.section.hparams.items()`. -/
def items : Params → Except String (List (String × Text))
  | .missing => .error "ConfigAttributeError"
  | .null => .error "AttributeError"
  | .items l => .ok l

/-- `get_hparams`, utils.py L44-51: `dict(**a, **b, **c)` raises for a key that occurs twice. -/
def hparams (c : Config) : Except String (List (String × Text)) := do
  let task ← items c.taskHparams
  let model ← items c.modelHparams
  let method ← items c.methodHparams
  if ((task ++ model ++ method).map Prod.fst).Nodup then pure (task ++ model ++ method) else .error "TypeError"

/-- What is submitted. -/
structure Job where
  channels : List (String × Text)
  hparams : List (String × Text)
  name : Text
  tuned : Bool
  deriving DecidableEq

/-- `_run_training_job`, base.py L32-110: `loadmodel` is added to the channels for a model path (null is passed on as such, here as the empty text). -/
def run (c : Config) : Except String Job := do
  let channels ← inputChannels c
  let h ← hparams c
  let channels := match c.modelPath with
    | .missing => channels
    | .null => channels ++ [("loadmodel", [])]
    | .text t => channels ++ [("loadmodel", t)]
  let name ← jobName c
  let _ ← entry c.outputDataPath
  match c.hyperparams with
  | none => .error "ConfigAttributeError"
  | some tuner => pure ⟨channels, h, name, tuner⟩

end Verif.Sagemaker
