import Verif.Model.NestedDict

/-!
# Train states on disk

Sources: `/repo/fortuna/training/mixin.py` (L32-85), `/repo/fortuna/training/train_state.py`,
`/repo/fortuna/prob_model/posterior/state.py`, `/repo/fortuna/output_calib_model/state.py`, `/repo/fortuna/calib_model/state.py`,
`/repo/fortuna/output_calib_model/output_calib_mixin.py`, `/repo/fortuna/calib_model/calib_mixin.py` and
`/repo/fortuna/prob_model/posterior/name_to_posterior_state.py`.

flax's `save_checkpoint` turns the state into nested dictionaries: a tuple becomes a dictionary with the keys `"0"`, `"1"`, …, an
object with fields becomes the dictionary of its fields; `restore_checkpoint` with `target=None` gives these dictionaries back, in the
order in which they were written. `jax` rebuilds the dictionaries that pass through a compiled function with sorted keys.

`P` are parameters, `M` mutable objects, `C` calibration objects, `O` optimizer states, `G` gradients, `D` dynamic scales. An optimizer
is known by its `init` and its `update`. Fields of single posterior classes (`prior_log_var`, `mean`, …, selections of parameters) are
left out; for the latter see `NestedDict.lean`.
-/

set_option linter.unusedSectionVars false

namespace Verif.Ckpt
open Verif.Nested

/-- The field `encoded_name` of a live state: the tuple of the class, or the dictionary read from a checkpoint. -/
inductive Enc where
  | tuple (l : List ℕ)
  | dict (items : List (List ℕ × ℕ))
  deriving DecidableEq, Repr

/-- `to_state_dict` of the field. -/
def Enc.stored : Enc → List (List ℕ × ℕ)
  | .tuple l => toStateDict l
  | .dict items => items

/-- The field after the state passed through a compiled function. -/
def Enc.compiled : Enc → Enc
  | .tuple l => .tuple l
  | .dict items => .dict (sortItems items)

/-- `"".join([chr(n) for n in d["encoded_name"].values()])`, mixin.py L84. -/
def nameOf (items : List (List ℕ × ℕ)) : List Char := items.map fun kv => Char.ofNat kv.2

/-- `convert_string_to_tuple`, strings.py L14-15. -/
def encodeName (s : String) : Enc := .tuple (s.toList.map Char.toNat)

/-- A field of a state that is an object: as the object, or as the dictionary of its fields read from a checkpoint. -/
inductive Rep (α : Type) where
  | obj (a : α)
  | raw (a : α)
  deriving DecidableEq, Repr

def Rep.val {α : Type} : Rep α → α
  | .obj a => a
  | .raw a => a

/-- The classes of states. `CalibState` does not give a name of its own and inherits that of `TrainState`. -/
inductive Cls where
  | outputCalib | posterior | map | advi | laplace | swag | sghmc | cyclicalSGLD | calib
  deriving DecidableEq, Repr

/-- The strings encoded in the classes (train_state.py L18, state.py L36, map_state.py L15, advi_state.py L24, laplace_state.py L38,
swag_state.py L38, sghmc_state.py L31, cyclical_sgld_state.py L31, output_calib_model/state.py L24). -/
def Cls.name : Cls → String
  | .outputCalib => "OutputCalibState"
  | .posterior => "PosteriorState"
  | .map => "MAPState"
  | .advi => "ADVIState"
  | .laplace => "LaplaceState"
  | .swag => "SWAGState"
  | .sghmc => "SGHMCState"
  | .cyclicalSGLD => "CyclicalSGLDState"
  | .calib => "TrainState"

/-- `__name__` of the classes (`class` lines of the same files; `CalibState` is calib_model/state.py). -/
def Cls.pyName : Cls → String
  | .outputCalib => "OutputCalibState"
  | .posterior => "PosteriorState"
  | .map => "MAPState"
  | .advi => "ADVIState"
  | .laplace => "LaplaceState"
  | .swag => "SWAGState"
  | .sghmc => "SGHMCState"
  | .cyclicalSGLD => "CyclicalSGLDState"
  | .calib => "CalibState"

/-- The members of `NameToPosteriorState`, name_to_posterior_state.py L15-23. -/
def posteriorClasses : List Cls := [.outputCalib, .posterior, .map, .advi, .laplace, .swag, .sghmc, .cyclicalSGLD]

/-- `NameToPosteriorState[name]`, whose keys are the `__name__`s of the classes: `KeyError` for an unknown name. -/
def classOf (name : List Char) : Except String Cls :=
  match posteriorClasses.find? fun c => c.pyName.toList == name with
  | some c => .ok c
  | none => .error "KeyError"

/-- An optimizer. -/
structure Tx (P O G : Type) where
  init : P → O
  update : G → P × O → P × O

section
variable {P M C O G D : Type}

/-- A live state. `OutputCalibState` has no `calib_params`, `calib_mutable` and `grad_accumulated`, `CalibState` no
`grad_accumulated`: they are `none` there. -/
structure State (P M C O G D : Type) where
  cls : Cls
  step : ℕ
  params : P
  mutbl : Option M
  calibParams : Option C
  calibMutable : Option C
  opt : Option (Rep O)
  tx : Option (Tx P O G)
  acc : Option G
  scale : Option (Rep D)
  name : Enc

/-- The dictionary on disk; `calibParams` and `calibMutable` are `none` if the key is missing. -/
structure Dict (P M C O D : Type) where
  step : ℕ
  params : P
  mutbl : Option M
  calibParams : Option (Option C)
  calibMutable : Option (Option C)
  opt : Option O
  scale : Option D
  name : List (List ℕ × ℕ)

/-- `save_checkpoint`, mixin.py L40-57: accumulated gradients are dropped; `apply_fn` and `tx` are no nodes of the tree. -/
def save (s : State P M C O G D) : Dict P M C O D where
  step := s.step
  params := s.params
  mutbl := s.mutbl
  calibParams := if s.cls = .outputCalib then none else some s.calibParams
  calibMutable := if s.cls = .outputCalib then none else some s.calibMutable
  opt := s.opt.map Rep.val
  scale := s.scale.map Rep.val
  name := s.name.stored

/-- The optimizer state given to the class, state.py L77-81 (the same in the other classes): the stored one without optimizer, a
fresh one with. -/
def optOf (tx : Option (Tx P O G)) (d : Dict P M C O D) : Option (Rep O) :=
  match tx with
  | none => d.opt.map .raw
  | some t => some (.obj (t.init d.params))

/-- `PosteriorState.init_from_dict`, state.py L96-148: `d["calib_params"]` raises if the key is missing. -/
def posteriorFromDict (c : Cls) (tx : Option (Tx P O G)) (d : Dict P M C O D) : Except String (State P M C O G D) :=
  match d.calibParams, d.calibMutable with
  | some cp, some cm =>
    .ok { cls := c, step := d.step, params := d.params, mutbl := d.mutbl, calibParams := cp, calibMutable := cm, opt := optOf tx d,
          tx := tx, acc := none, scale := d.scale.map .raw, name := .dict d.name }
  | _, _ => .error "KeyError"

/-- `OutputCalibState.init_from_dict`, output_calib_model/state.py L69-109: `FrozenDict(None)` is a `TypeError`, and so are keys which
are no fields of the class. -/
def outputCalibFromDict (tx : Option (Tx P O G)) (d : Dict P M C O D) : Except String (State P M C O G D) :=
  match d.mutbl, d.calibParams with
  | some m, none =>
    .ok { cls := .outputCalib, step := d.step, params := d.params, mutbl := some m, calibParams := none, calibMutable := none,
          opt := optOf tx d, tx := tx, acc := none, scale := d.scale.map .raw, name := .dict d.name }
  | _, _ => .error "TypeError"

/-- `CalibState.init_from_dict`, calib_model/state.py L57-94. Keys which are no attributes of the class are passed over. -/
def calibFromDict (tx : Option (Tx P O G)) (d : Dict P M C O D) : Except String (State P M C O G D) :=
  posteriorFromDict .calib tx d

/-- `WithPosteriorCheckpointingMixin.restore_checkpoint`, posterior_mixin.py L13-26 and mixin.py L84-85. -/
def restorePosterior (tx : Option (Tx P O G)) (d : Dict P M C O D) : Except String (State P M C O G D) := do
  let c ← classOf (nameOf d.name)
  if c = .outputCalib then outputCalibFromDict tx d else posteriorFromDict c tx d

/-- `WithOutputCalibCheckpointingMixin.restore_checkpoint`, output_calib_mixin.py L15-40: the name is not looked at. -/
def restoreOutputCalib (tx : Option (Tx P O G)) (d : Dict P M C O D) : Except String (State P M C O G D) := outputCalibFromDict tx d

/-- `WithCalibCheckpointingMixin.restore_checkpoint`, calib_mixin.py L15-40: the name is not looked at. -/
def restoreCalib (tx : Option (Tx P O G)) (d : Dict P M C O D) : Except String (State P M C O G D) := calibFromDict tx d

/-- One optimizer step (trainer.py L110-248), without accumulation, clipping and overflow: `state.dynamic_scale.value_and_grad` and
`state.tx.update` raise if the object is not there. With `jit` the state passes through a compiled function. -/
def trainStep (jit : Bool) (g : G) (s : State P M C O G D) : Except String (State P M C O G D) :=
  match s.scale, s.tx, s.opt with
  | some (.raw _), _, _ => .error "AttributeError"
  | _, some t, some (.obj o) =>
    .ok { s with params := (t.update g (s.params, o)).1, opt := some (.obj (t.update g (s.params, o)).2), step := s.step + 1,
                 name := if jit then s.name.compiled else s.name }
  | _, _, _ => .error "AttributeError"

/-- What happens to a state over several sessions: a step, or writing it to disk and starting again from there with an optimizer. -/
inductive Event (P O G : Type) where
  | step (g : G)
  | reload (tx : Tx P O G)

/-- One event; posterior states are read back by name. -/
def event (jit : Bool) (s : State P M C O G D) : Event P O G → Except String (State P M C O G D)
  | .step g => trainStep jit g s
  | .reload tx => restorePosterior (some tx) (save s)

/-- Several events. -/
def events (jit : Bool) (s : State P M C O G D) : List (Event P O G) → Except String (State P M C O G D)
  | [] => .ok s
  | e :: es => do
    let s' ← event jit s e
    events jit s' es

end

end Verif.Ckpt
