import Mathlib.Data.Real.Sqrt
import Mathlib.Data.List.Infix

/-!
# Small utilities

Source: `/repo/fortuna/utils/optimizer.py`, `training.py`, `device.py`, `builtins.py`, `data.py`.
-/

set_option linter.unusedSectionVars false

namespace Verif.Utils

/-! ## Learning rate schedules -/

/-- One turn of the loop of `stepped_schedule`, optimizer.py L56-58; `jnp.sign` of a number is −1, 0 or 1. -/
def steppedTurn (init : ℚ) (count : ℤ) (v : ℚ) (bs : ℤ × ℚ) : ℚ :=
  let indicator : ℚ := max 0 ((bs.1 - count).sign : ℚ)
  v * indicator + (1 - indicator) * bs.2 * init

/-- `stepped_schedule`, optimizer.py L46-61, on the sorted items of the dictionary. -/
def stepped (init : ℚ) (items : Option (List (ℤ × ℚ))) : Except String (ℤ → ℚ) :=
  match items with
  | none => .ok fun _ => init
  | some l => if l.all fun b => decide (0 ≤ b.2) then .ok fun count => l.foldl (steppedTurn init count) init else .error "ValueError"

/-- `optax.linear_schedule`: constant when the number of steps is not positive (contract). -/
def linearSchedule (init final : ℚ) (steps : ℤ) (count : ℤ) : ℚ :=
  if steps ≤ 0 then init
  else
    let c := max 0 (min count steps)
    (init - final) * (1 - (c : ℚ) / steps) + final

/-- `linear_scheduler_with_warmup`, optimizer.py L92-105; `join_schedules` uses the second schedule from the boundary on. -/
def warmup (lr : ℚ) (numInputs batch epochs warm : ℕ) (count : ℤ) : ℚ :=
  let stepsPerEpoch := numInputs / batch
  let trainSteps := stepsPerEpoch * epochs
  if count < warm then linearSchedule 0 lr warm count
  else linearSchedule lr 0 ((trainSteps : ℤ) - warm) (count - warm)

/-! ## Weight decay mask -/

/-- `"".join(layer).lower()`, optimizer.py L116. -/
def joined (layer : List String) : List Char := (layer.flatMap String.toList).map Char.toLower

/-- `layer_norm_name in "".join(layer).lower()` for one of the candidates, L111-117. -/
def named (layer : List String) : Bool :=
  ["layernorm", "layer_norm", "ln"].any fun c => decide (c.toList <:+: joined layer)

/-- `layer[-2:]`. -/
def lastTwo (layer : List String) : List String := layer.drop (layer.length - 2)

/-- `decay_mask_without_layer_norm_fn`, L108-122, on the list of paths of the parameters: the mask of one path. -/
def decayMask (paths : List (List String)) (path : List String) : Bool :=
  decide (path.getLast? ≠ some "bias") && !((paths.filter named).map lastTwo).contains (lastTwo path)

/-! ## Clipping -/

/-- `clip_grandients_by_value`, training.py L8-11, on the list of leaves. -/
noncomputable def clipValue (m : ℝ) (g : List (List ℝ)) : List (List ℝ) := g.map fun l => l.map fun z => min (max z (-m)) m

/-- `tree_reduce(lambda x, y: x + jnp.sum(y**2), grad, initializer=0)` and its root, L15-17. -/
noncomputable def gradNorm (g : List (List ℝ)) : ℝ := Real.sqrt (g.foldl (fun x y => x + (y.map fun z => z ^ 2).sum) 0)

/-- `clip_grandients_by_norm`, L14-20. -/
noncomputable def clipNorm (m : ℝ) (g : List (List ℝ)) : List (List ℝ) :=
  let mult := min 1 (m / (1 / 10 ^ 7 + gradNorm g))
  g.map fun l => l.map fun z => mult * z

/-! ## Trainer selection -/

/-- Which trainer class. -/
inductive TrainerCls where
  | base
  | jitted
  | multi
  deriving DecidableEq

/-- `select_trainer_given_devices`, device.py L14-35; `platforms` are the platforms of `jax.devices()`. -/
def selectTrainer (devices : ℤ) (platforms : List String) (disableJit : Bool) : Except String TrainerCls :=
  if devices ≠ 0 ∧ devices ≠ -1 then .error "NotImplementedError"
  else if devices = -1 then
    .ok (if 0 < (platforms.filter fun p => p == "gpu").length then .multi else .jitted)
  else if devices = 0 ∧ disableJit then .ok .base
  else .ok .jitted

/-! ## Hashing -/

/-- An object: its class and the entries of `vars`, in order. -/
structure Obj (V : Type) where
  cls : ℕ
  vars : List (String × V)

/-- `k.startswith("_")`. -/
def isPrivate (k : String) : Bool := k.toList.head? == some '_'

/-- The public entries. -/
def Obj.public {V : Type} (o : Obj V) : List (String × V) := o.vars.filter fun e => !isPrivate e.1

/-- `HashableMixin.__hash__`, builtins.py L11-20: the tuple that is hashed, with hashes of the values; `sorted` on the keys is a
merge sort with a total order `le`. -/
def Obj.hashKey {V H : Type} (le : String → String → Bool) (hash : V → H) (o : Obj V) : List H :=
  (o.public.mergeSort fun a b => le a.1 b.1).map fun e => hash e.2

/-- `HashableMixin.__eq__`, L22-32; `sub a b` says that class `a` is `b` or derives from it. -/
def Obj.eq {V : Type} (veq : V → V → Bool) (sub : ℕ → ℕ → Bool) (a b : Obj V) : Bool :=
  let selfKeys := a.public.map Prod.fst
  let otherKeys := b.public.map Prod.fst
  if decide (selfKeys = otherKeys) && sub b.cls a.cls then
    (List.zipWith (fun x y => veq x.2 y.2) a.public b.public).all id
  else false

/-! ## Data loaders -/

/-- `check_data_loader_is_not_random`, data.py L12-32: two passes over the loader, `same` compares two batches. -/
def checkNotRandom {B : Type} (same : B → B → Bool) (maxIter : ℕ) (first second : List B) : Except String Unit :=
  if ((first.zip second).take (maxIter + 1)).any fun p => !same p.1 p.2 then .error "ValueError" else .ok ()

end Verif.Utils
