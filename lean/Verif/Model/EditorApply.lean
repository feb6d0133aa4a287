import Mathlib.Data.List.Basic

/-!
# Model editors in the model managers

Source: `/repo/fortuna/model_editor/{base,probit}.py`, `/repo/fortuna/model/model_manager/classification.py` L49-99 and L237-309,
`/repo/fortuna/model/model_manager/transformers/classification.py` L33-85, `/repo/fortuna/model/model_manager/regression.py` L49-131,
`/repo/fortuna/utils/probit.py` L57-69 and L91.

A dictionary carries a flag that tells a `FrozenDict` from a plain `dict`: `unfreeze` is a method of the former only and its result,
and everything in it, is of the latter kind. A forward pass returns its outputs and its updated collections, dropped by the caller
if not wanted. Not modelled: dropout keys, the Jacobians of the probit editor (its scaling is any function of the forward pass, the
parameters and the inputs; see `Model/Probit.lean` for it).
-/

set_option linter.unusedSectionVars false

namespace Verif.Editor

/-- A value of type `V` held in a `FrozenDict` or in a `dict`. -/
structure Dict (V : Type) where
  frozen : Bool
  val : V

/-- `d.unfreeze()`: a `dict` has no such method. -/
def Dict.unfreeze {V : Type} (d : Dict V) : Except String (Dict V) :=
  if d.frozen then .ok ⟨false, d.val⟩ else .error "AttributeError"

/-- A forward pass on parameters `P`. -/
abbrev Forward (P X O M : Type) : Type := P → X → Except String (O × M)

/-- A model editor: whether it begins by unfreezing the parameters (as `sequential_probit_scaling` does, probit.py L69), and what it
makes of the outputs of the forward pass, given its own parameters, the forward pass, the parameters and the inputs. -/
structure ModelEditor (E X O M : Type) where
  unfreezes : Bool
  out : ∀ {V : Type}, E → Forward (Dict V) X O M → Dict V → X → O → O

variable {E X O M V W : Type}

/-- `self.model_editor.apply(editor_params, apply_fn=…, model_params=…, x=…)`, model_editor/probit.py L32-57 with utils/probit.py
L69 and L91-93. -/
def runEditor (ed : ModelEditor E X O M) (e : E) (applyFn : Forward (Dict V) X O M) (p : Dict V) (x : X) : Except String (O × M) := do
  let p ← if ed.unfreezes then p.unfreeze else .ok p
  let r ← applyFn p x
  .ok (ed.out e applyFn p x r.1, r.2)

/-- The parameters of a probabilistic model: those of the model and those of the editor. -/
structure Params (V E : Type) where
  model : V
  editor : E

/-- `params["model"]`: frozen if `params` is. -/
def getModel (p : Dict (Params V E)) : Dict V := ⟨p.frozen, p.val.model⟩

/-- `ClassificationModelManager.apply`, classification.py L57 and L69-99. -/
def classApply (forward : V → X → Except String (O × M)) (ed : Option (ModelEditor E X O M)) (params : Dict (Params V E)) (x : X) :
    Except String (O × M) := do
  let vars ← (getModel params).unfreeze
  let applyFn : Forward (Dict V) X O M := fun v x => forward v.val x
  match ed with
  | some ed => runEditor ed params.val.editor applyFn vars x
  | none => applyFn vars x

/-- `HuggingFaceClassificationModelManager.apply`, transformers/classification.py L52-85: the parameters of the model are passed on as
they are. -/
def hfApply (forward : V → X → Except String (O × M)) (ed : Option (ModelEditor E X O M)) (params : Dict (Params V E)) (x : X) :
    Except String (O × M) :=
  let applyFn : Forward (Dict V) X O M := fun v x => forward v.val x
  match ed with
  | some ed => runEditor ed params.val.editor applyFn (getModel params) x
  | none => applyFn (getModel params) x

/-- `RegressionModelManager.apply`, regression.py L75-131: the editor is given all parameters, and the forward pass reads those of the
models. -/
def regApply (forward : V → X → Except String (O × M)) (ed : Option (ModelEditor E X O M)) (params : Dict (Params V E)) (x : X) :
    Except String (O × M) :=
  let applyFn : Forward (Dict (Params V E)) X O M := fun p x => forward p.val.model x
  match ed with
  | some ed => runEditor ed params.val.editor applyFn params x
  | none => applyFn params x

/-- `SNGPClassificationModelManagerMixin.apply`, classification.py L265-281: the features given to the Gaussian process, where
`super().apply` is `classApply` (L313) with the same editor. -/
def sngpFeatures (forward : V → X → Except String (O × M)) (ed : Option (ModelEditor E X O M)) (params : Dict (Params V E)) (x : X) :
    Except String (O × M) :=
  let applyFn : Forward (Dict (Params V E)) X O M := fun p x => classApply forward ed p x
  match ed with
  | some ed => runEditor ed params.val.editor applyFn params x
  | none => applyFn params x

end Verif.Editor
