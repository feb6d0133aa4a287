import Mathlib.Data.List.Basic

/-!
# SNGP feature extractors from the transformers library

Source: `/repo/fortuna/prob_model/posterior/sngp/transformers/auto_factory.py` and `models/modeling_flax_{bert,distilbert,roberta}.py` there.

A nested dictionary of arrays is a partial function of the path (`flatten_dict`); empty dictionaries inside are not seen. The transformers library is used by its
contract: `from_pretrained` of its base class (`hfLoad`), `save_pretrained` and `create_position_ids_from_input_ids`. Not modelled: the networks, downloads,
configuration objects beyond their class, shapes (checkpoints with arrays of other shapes are refused by the library).
-/

set_option linter.unusedSectionVars false

namespace Verif.Transformers

variable {V : Type}

/-- A nested dictionary of arrays. -/
abbrev Flat (V : Type) := List String → Option V

/-- `d[k] = v`. -/
def Flat.set (d : Flat V) (k : List String) (v : V) : Flat V := fun j => if j = k then some v else d j

/-- What `self.module.init` gives, as `init_weights` puts it together, modeling_flax_roberta.py L123-128 (bert L121-126, distilbert L97-102): the spectral statistics
under their name beside the top-level modules; a module of that name would hide them. -/
def freshParams (P S : Flat V) : Flat V
  | [] => none
  | c :: r =>
    match P (c :: r) with
    | some v => some v
    | none => if c = "spectral_stats" then S r else none

/-- The loop over the missing keys in `init_weights`, modeling_flax_roberta.py L130-136: parameters that were passed are completed by fresh ones. -/
def completeMissing (fresh : Flat V) (missing : List (List String)) (params : Flat V) : Except String (Flat V) :=
  missing.foldlM (fun d k => match fresh k with
    | some v => .ok (d.set k v)
    | none => .error "KeyError") params

/-- `init_weights`, modeling_flax_roberta.py L97-138: the parameters, and the keys still missing afterwards. -/
def initWeights (P S : Flat V) (missing : List (List String)) (params : Option (Flat V)) : Except String (Flat V × List (List String)) :=
  match params with
  | none => .ok (freshParams P S, missing)
  | some p => (completeMissing (freshParams P S) missing p).map fun d => (d, [])

/-- `from_pretrained` of the base class (transformers contract): if the model has a module named like the base model and the checkpoint has not, the checkpoint is
that of a base model; required parameters that are missing are fresh, others are dropped. -/
def hfLoad (base : String) (required : List (List String)) (fresh ckpt : Flat V) (ckptHasBase : Bool) : Flat V :=
  let state : Flat V :=
    if required.any (fun k => k.head? == some base) && !ckptHasBase then
      fun k => match k with
        | [] => none
        | c :: r => if c = base then ckpt r else none
    else ckpt
  fun k => if k ∈ required then (match state k with
    | some v => some v
    | none => fresh k) else none

/-- `from_pretrained`, auto_factory.py L96-114: the collections are taken out of the parameters and put beside them. -/
def restructure (d : Flat V) : Flat V
  | [] => none
  | c :: r =>
    if c = "params" then
      (if r.head? = some "spectral_stats" ∨ r.head? = some "batch_stats" then none else d r)
    else if c = "spectral_stats" ∨ c = "batch_stats" then d (c :: r)
    else none

/-- `from_pretrained`, auto_factory.py L56-118: the variables of the model. `base` is the name of the base model for its configuration class. -/
def fromPretrained (base : Option String) (required : List (List String)) (P S ckpt : Flat V) (ckptHasBase : Bool) : Except String (Flat V) :=
  match base with
  | none => .error "ValueError"
  | some b => .ok (restructure (hfLoad b required (freshParams P S) ckpt ckptHasBase))

/-- The configurations that are supported, modeling_flax_auto.py L10-17, with the name of the base model in each network. -/
def modelClasses : List (String × String) := [("bert", "bert"), ("distilbert", "distilbert"), ("roberta", "roberta")]

/-- `FlaxAutoSNGPModelForSequenceClassification.from_pretrained`, modeling_flax_auto.py L24-25: by the type of the model in its configuration. -/
def autoFromPretrained (modelType : String) (required : List (List String)) (P S ckpt : Flat V) (ckptHasBase : Bool) : Except String (Flat V) :=
  fromPretrained (modelClasses.lookup modelType) required P S ckpt ckptHasBase

/-- `_get_model_class`, auto_factory.py L18-36: `supported` are the names of the classes of a configuration, one or a list of them. -/
def modelClass (supported : String ⊕ List String) (architectures : List String) : Except String String :=
  match supported with
  | .inl m => .ok m
  | .inr names =>
    match architectures.findSome? fun a =>
      if a ∈ names then some a else if "TF" ++ a ∈ names then some ("TF" ++ a) else if "Flax" ++ a ∈ names then some ("Flax" ++ a) else none with
    | some m => .ok m
    | none => match names with
      | m :: _ => .ok m
      | [] => .error "IndexError"

/-! ## Calls -/

/-- What the network is applied to, besides the inputs: variables, which collections may change, whether noise is used. -/
structure Applied (V : Type) where
  vars : Flat V
  mutables : List String
  noise : Bool

/-- `__call__`, modeling_flax_roberta.py L190-216 (bert L188-214, distilbert L142-165): what the network is applied to, and the variables that the model object stores
afterwards. `stored` is `self.params`; `params` are a tree without collections; `mutables` are the collections of the state of the network, with their names.
Without `params` the dictionary that is updated is the stored one. -/
def callWith (stored : Flat V) (params : Option (Flat V)) (mutables : Option (List String × Flat V)) (train rng : Bool) : Applied V × Flat V :=
  let vars : Flat V := match params with
    | some p => fun k => match k with
      | [] => none
      | c :: r => if c = "params" then p r else none
    | none => stored
  let vars' : Flat V := match mutables with
    | none => vars
    | some (names, m) => fun k => match k with
      | [] => vars []
      | c :: r => if c ∈ names then m (c :: r) else vars (c :: r)
  (⟨vars', if train then (match mutables with | some (names, _) => names | none => []) else [], train && rng⟩,
    match params with
    | some _ => stored
    | none => vars')

/-- The four inputs of a row of tokens. -/
structure Inputs where
  mask : List ℕ
  types : List ℕ
  positions : List ℕ
  deriving DecidableEq

/-- `create_position_ids_from_input_ids` (transformers contract): `cumsum(ids != pad) * (ids != pad) + pad`. -/
def robertaPositions (pad : ℕ) (ids : List ℕ) : List ℕ :=
  ids.mapIdx fun i t => if t = pad then pad else ((ids.take (i + 1)).countP (· ≠ pad)) + pad

/-- The inputs that `__call__` makes if they are not passed: bert L171-187, roberta L173-188; `roberta` selects the positions. -/
def defaultInputs (roberta : Bool) (pad : ℕ) (ids : List ℕ) (mask types positions : Option (List ℕ)) : Inputs where
  types := types.getD (ids.map fun _ => 0)
  positions := positions.getD (if roberta then robertaPositions pad ids else List.range ids.length)
  mask := mask.getD (ids.map fun _ => 1)

end Verif.Transformers
