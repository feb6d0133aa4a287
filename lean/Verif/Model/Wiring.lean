import Mathlib.Data.List.Basic
import Mathlib.Data.Rat.Defs

/-!
# What a probabilistic model is put together from

Source: `/repo/fortuna/prob_model/classification.py` L113-218, `/repo/fortuna/prob_model/regression.py` L108-133,
`/repo/fortuna/calib_model/classification.py` L70-130, `/repo/fortuna/model/model_manager/name_to_model_manager.py` L17-27,
`/repo/fortuna/prob_model/posterior/posterior_approximations.py` L27-37, the `__str__` of the approximators,
`/repo/fortuna/prob_model/posterior/base.py` L36-47, `/repo/fortuna/prob_model/posterior/sngp/{sngp_approximator,sngp_posterior}.py`,
`/repo/fortuna/model/model_manager/classification.py` L33-46 and L130-201.

A model is its class name and whether it is an instance of `FlaxPreTrainedModel`; the values of hyperparameters are rationals. The
members of an enumeration are looked up by name in a list. Not modelled: the warning when `transformers` is missing, the rng given to
the parts, import errors other than `ModuleNotFoundError`.
-/

namespace Verif.Wiring

/-- The value of a keyword argument. -/
inductive Val
  | nat (n : ℕ) | bool (b : Bool) | num (q : ℚ) | none
deriving DecidableEq, Repr

/-- `PosteriorApproximator`: what its `__str__` returns and its `posterior_method_kwargs`, posterior/base.py L36-47. -/
structure Approximator where
  name : String
  kwargs : List (String × Val)
deriving DecidableEq, Repr

/-- The hyperparameters of `SNGPPosteriorApproximator`, sngp_approximator.py L12-22. -/
structure Sngp where
  outputDim : ℕ
  gpHiddenFeatures : ℕ := 1024
  normalizeInput : Bool := false
  ridgePenalty : ℚ := 1
  momentum : Option ℚ := none
  meanFieldFactor : ℚ := 1
deriving DecidableEq, Repr

/-- The value of an optional number. -/
def Val.ofOption : Option ℚ → Val
  | some q => .num q
  | Option.none => .none

/-- The approximators of the library: the names are the constants `…_NAME` of the packages; only SNGP has keyword arguments,
sngp_approximator.py L65-78. -/
def mapA : Approximator := ⟨"map", []⟩
@[inherit_doc mapA] def advi : Approximator := ⟨"advi", []⟩
@[inherit_doc mapA] def deepEnsemble : Approximator := ⟨"deep_ensemble", []⟩
@[inherit_doc mapA] def laplace : Approximator := ⟨"laplace", []⟩
@[inherit_doc mapA] def swag : Approximator := ⟨"swag", []⟩
@[inherit_doc mapA] def sghmc : Approximator := ⟨"sghmc", []⟩
@[inherit_doc mapA] def cyclicalSgld : Approximator := ⟨"cyclical_sgld", []⟩
@[inherit_doc mapA] def sngp (h : Sngp) : Approximator :=
  ⟨"sngp", [("output_dim", .nat h.outputDim), ("gp_hidden_features", .nat h.gpHiddenFeatures), ("normalize_input", .bool h.normalizeInput),
    ("ridge_penalty", .num h.ridgePenalty), ("momentum", Val.ofOption h.momentum), ("mean_field_factor", .num h.meanFieldFactor)]⟩

/-- The classes of model managers. -/
inductive ManagerCls
  | plain | sngp | huggingFace | sngpHuggingFace | regression
deriving DecidableEq, Repr

/-- The classes of posteriors. -/
inductive PosteriorCls
  | map | advi | deepEnsemble | laplace | swag | sngp | sghmc | cyclicalSgld
deriving DecidableEq, Repr

/-- `ClassificationModelManagers`, name_to_model_manager.py L17-27. -/
def managers : List (String × ManagerCls) :=
  [("map", .plain), ("advi", .plain), ("deep_ensemble", .plain), ("laplace", .plain), ("swag", .plain), ("sngp", .sngp), ("sghmc", .plain),
    ("cyclical_sgld", .plain)]

/-- `PosteriorApproximations`, posterior_approximations.py L27-37. -/
def posteriors : List (String × PosteriorCls) :=
  [("map", .map), ("advi", .advi), ("deep_ensemble", .deepEnsemble), ("laplace", .laplace), ("swag", .swag), ("sngp", .sngp),
    ("sghmc", .sghmc), ("cyclical_sgld", .cyclicalSgld)]

/-- `getattr` of an enumeration. -/
def member {A : Type} (e : List (String × A)) (n : String) : Except String A :=
  match e.lookup n with
  | some a => .ok a
  | Option.none => .error "AttributeError"

/-- A model and an editor given by the user. -/
structure Model where
  id : ℕ
  className : String
  preTrained : Bool
deriving DecidableEq, Repr

/-- A model manager: its class, the model, the editor, and the hyperparameters kept by the SNGP managers. -/
structure Manager where
  cls : ManagerCls
  model : Model
  editor : Option ℕ
  sngp : Option (List (String × Val))
deriving DecidableEq, Repr

/-- The keyword arguments of `SNGPClassificationModelManagerMixin.__init__`, classification.py L131-141, with their defaults; the first
has none. -/
def sngpDefaults : List (String × Option Val) :=
  [("output_dim", Option.none), ("gp_hidden_features", some (.nat 1024)), ("normalize_input", some (.bool false)),
    ("ridge_penalty", some (.num 1)), ("momentum", some .none), ("mean_field_factor", some (.num 1))]

/-- A call `cls(model=model, model_editor=editor, **kwargs)`. The SNGP managers keep their six arguments and hand the others on
(classification.py L176), the other managers take only a model and an editor (L34); an unknown, missing or doubled keyword is a
`TypeError`. -/
def construct (cls : ManagerCls) (m : Model) (editor : Option ℕ) (kwargs : List (String × Val)) : Except String Manager :=
  match cls with
  | .sngp | .sngpHuggingFace =>
    if kwargs.any (fun k => (sngpDefaults.lookup k.1).isNone) then .error "TypeError"
    else do
      let vals ← sngpDefaults.mapM fun d => match (kwargs.lookup d.1).or d.2 with
        | some v => (.ok (d.1, v) : Except String (String × Val))
        | Option.none => .error "TypeError"
      .ok ⟨cls, m, editor, some vals⟩
  | _ => if kwargs.isEmpty then .ok ⟨cls, m, editor, Option.none⟩ else .error "TypeError"

/-- Which modules can be imported, and the names in `FLAX_MODEL_FOR_MASKED_LM_MAPPING_NAMES`. -/
structure Env where
  transformers : Bool
  flaxAuto : Bool
  maskedNames : List String
deriving DecidableEq, Repr

/-- `ProbClassifier._get_model_manager`, prob_model/classification.py L161-218. -/
def classifierManager (env : Env) (m : Model) (editor : Option ℕ) (cls : ManagerCls) (a : Approximator) : Except String Manager :=
  if env.transformers then
    if m.preTrained && cls == .sngp then construct .sngpHuggingFace m editor a.kwargs
    else if m.preTrained then construct .huggingFace m editor []
    else construct cls m editor a.kwargs
  else construct cls m editor a.kwargs

/-- `CalibClassifier._get_model_manager`, calib_model/classification.py L102-130, called with `ClassificationModelManager` (L70-72). -/
def calibManager (env : Env) (m : Model) (editor : Option ℕ) : Except String Manager :=
  if env.transformers then
    if m.preTrained then construct .huggingFace m editor [] else construct .plain m editor []
  else construct .plain m editor []

/-- The output layers. -/
inductive Layer
  | masked | classification | regression
deriving DecidableEq, Repr

/-- `_get_prob_output_layer`, prob_model/classification.py L141-159 and calib_model/classification.py L82-100. -/
def outputLayer (env : Env) (m : Model) : Layer :=
  if env.flaxAuto then if m.className ∈ env.maskedNames then .masked else .classification
  else .classification

/-- The parts of a probabilistic model. -/
structure Parts where
  layer : Layer
  manager : Manager
  posterior : PosteriorCls
deriving DecidableEq, Repr

/-- `ProbClassifier.__init__`, prob_model/classification.py L113-139. -/
def probClassifier (env : Env) (m : Model) (editor : Option ℕ) (a : Approximator) : Except String Parts := do
  let layer := outputLayer env m
  let cls ← member managers a.name
  let manager ← classifierManager env m editor cls a
  let p ← member posteriors a.name
  .ok ⟨layer, manager, p⟩

/-- `ProbRegressor.__init__`, prob_model/regression.py L108-133: the keyword arguments of the approximator are not used. -/
def probRegressor (m : Model) (editor : Option ℕ) (a : Approximator) : Except String Parts := do
  let manager ← construct .regression m editor []
  let p ← member posteriors a.name
  .ok ⟨.regression, manager, p⟩

/-- The arguments of `RandomFeatureGaussianProcess`. -/
structure Head where
  features : Val
  hiddenFeatures : Val
  normalizeInput : Val
  ridgePenalty : Val
  momentum : Val
  hiddenCollection : String
  covarianceCollection : String
deriving DecidableEq, Repr

/-- `SNGPClassificationModelManagerMixin._get_output_model`, classification.py L189-200. -/
def head (mm : Manager) : Option Head := do
  let s ← mm.sngp
  .some ⟨← s.lookup "output_dim", ← s.lookup "gp_hidden_features", ← s.lookup "normalize_input", ← s.lookup "ridge_penalty",
    ← s.lookup "momentum", "sngp_random_features", "sngp_laplace_covariance"⟩

/-- The start of `fit`, sngp_posterior.py L46-51 for SNGP: the ridge penalty of the callback is an attribute of the manager. The other
posteriors read no attribute of the manager here. -/
def fitCallbackRidge (p : Parts) : Except String (Option Val) :=
  match p.posterior with
  | .sngp => match p.manager.sngp.bind (fun s => s.lookup "ridge_penalty") with
    | some v => .ok (some v)
    | Option.none => .error "AttributeError"
  | _ => .ok Option.none

end Verif.Wiring
