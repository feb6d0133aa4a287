import Mathlib.Algebra.BigOperators.Fin
import Verif.Model.OutputCalib

/-!
# Training on several devices

Source: `/repo/fortuna/training/trainer.py`, `MultiDeviceMixin` (L751-874) over `TrainerABC` (L110-226, L354-453, L643-715).

The replicated state is a function from device numbers to states. Single-device steps are those of `Training.lean`. `P` are
parameters, `O` optimizer states, `G` gradients, `M` the network's state (batch statistics, precision matrices), `Q` random keys,
`α` rows of the data. `lax.pmean` is the mean over the devices. Splitting batches is `Verif.OutputCalib.shard`, the same code.
-/

set_option linter.unusedSectionVars false

namespace Verif.MultiDevice
open Verif.Training Verif.OutputCalib

/-- What a training step depends on: the optimizer, clipping (the identity without `max_grad_norm`), the number of accumulation steps,
the gradient and the new network state of `training_loss_step` on some rows, whether the state has a dynamic loss scale (networks in
half precision), and whether a gradient is finite. -/
structure Setup (P O G M Q α : Type) where
  upd : G → P × O → P × O
  clip : G → G
  k : ℕ
  grad : P → Option M → Q → List α → G
  next : P → Option M → Q → List α → Option M
  scaled : Bool
  fin : G → Bool

/-- The state on one device. -/
structure Dev (P O G M : Type) where
  core : TState P O G
  mutbl : Option M

section
variable {P O G M Q α : Type} (K : Type) [Field K] [AddCommGroup G] [Module K G] {d : ℕ}

/-- `training_step` on one device, trainer.py L110-191. -/
def oneStep (c : Setup P O G M Q α) (s : Dev P O G M) (q : Q) (rows : List α) : Dev P O G M :=
  let g := c.grad s.core.params s.mutbl q rows
  { core := if c.scaled then scaledStep K c.upd c.clip c.k s.core g (c.fin g) else trainStep K c.upd c.clip c.k s.core g,
    mutbl := c.next s.core.params s.mutbl q rows }

/-- `lax.pmean` of gradients, trainer.py L792-795. -/
def pmean (g : Fin d → G) : G := ((d : K)⁻¹) • ∑ i, g i

/-- `training_step` on the devices, trainer.py L822-835. Without a dynamic scale the gradients are averaged: those of the batch
(L162), or, with accumulation, the accumulated ones when an update is due (L207-209). With a dynamic scale nothing is averaged: the
code leaves it to `dynamic_scale.value_and_grad` (L150-152), which averages only if given an `axis_name`, and it is given none
(L141-144). -/
def multiStep (c : Setup P O G M Q α) (s : Fin d → Dev P O G M) (q : Fin d → Q) (rows : Fin d → List α) : Fin d → Dev P O G M :=
  let g := fun i => c.grad (s i).core.params (s i).mutbl (q i) (rows i)
  fun i =>
    { core :=
        if c.scaled then scaledStep K c.upd c.clip c.k (s i).core (g i) (c.fin (g i))
        else if c.k > 1 then
          let acc := fun j => addAcc (s j).core.acc (g j)
          if ((s i).core.step + 1) % c.k = 0 then
            { (s i).core.applyGrad c.upd (c.clip (pmean K fun j => (1 / (c.k : K)) • acc j)) with acc := some 0 }
          else { (s i).core with acc := some (acc i), step := (s i).core.step + 1 }
        else (s i).core.applyGrad c.upd (c.clip (pmean K g)),
      mutbl := c.next (s i).core.params (s i).mutbl (q i) (rows i) }

/-- The training steps on a list of batches on one device; `key n` is the key at the `n`-th of them. -/
def oneRun (c : Setup P O G M Q α) (key : ℕ → Q) : ℕ → List (List α) → Dev P O G M → Dev P O G M
  | _, [], s => s
  | n, b :: bs, s => oneRun c key (n + 1) bs (oneStep K c s (key n) b)

/-- The rows of one device, `_add_device_dim_to_input_dataloader`, trainer.py L758-782. -/
def rowsOf (sh : List (List α)) : Fin d → List α := fun i => sh.getD i []

/-- The training steps on a list of batches on `d` devices; a batch whose size is no multiple of `d` raises. -/
def multiRun (c : Setup P O G M Q α) (key : ℕ → Fin d → Q) : ℕ → List (List α) → (Fin d → Dev P O G M) →
    Except String (Fin d → Dev P O G M)
  | _, [], s => .ok s
  | n, b :: bs, s => do
    let sh ← shard d b
    multiRun c key (n + 1) bs (multiStep K c s (key n) (rowsOf sh))

/-- `on_train_start`, trainer.py L801-812: `jax_utils.replicate`. -/
def replicate (s : Dev P O G M) : Fin d → Dev P O G M := fun _ => s

/-- `on_train_end`, trainer.py L814-816: what `train` returns is the state on the first device. -/
def returned (s : Fin (d + 1) → Dev P O G M) : Dev P O G M := s 0

variable [AddCommGroup M] [Module K M]

/-- `_sync_mutable`, trainer.py L784-790, as done before a validation (L854-857). -/
def syncMutable (s : Fin (d + 1) → Dev P O G M) : Fin (d + 1) → Dev P O G M := fun i =>
  { s i with mutbl := (s 0).mutbl.map fun _ => pmean K fun j => (s j).mutbl.getD 0 }

/-- `_sync_state`, trainer.py L797-799: what checkpoints and callbacks get (without accumulated gradients, mixin.py L49-55). -/
def saved (s : Fin (d + 1) → Dev P O G M) : Dev P O G M :=
  let t := syncMutable K s 0
  { t with core := { t.core with acc := none } }

end

/-! ## Keys -/

/-- Keys as free terms: `random.split(rng, n)[i]` and `random.fold_in`. -/
inductive Key where
  | root
  | split (k : Key) (n i : ℕ)
  | fold (k : Key) (s : ℕ)
  deriving DecidableEq

/-- The key of device `i` at a step: `on_train_start` L811 and `training_step_start` L818-820. -/
def deviceKey (rng : Key) (d : ℕ) (i step : ℕ) : Key := .fold (.split rng d i) step

/-! ## Losses and metrics -/

section metrics
variable {α K : Type} [Field K]

/-- A metric on a validation batch: on every device on its rows, then `lax.pmean`, `validation_step` L859-874. -/
def valMetric (d : ℕ) (metric : List α → K) (rows : List α) : Except String K :=
  (shard d rows).map fun sh => (sh.map metric).sum / (d : K)

/-- A metric on a training batch: predictions and targets are put together again, `training_step_end` L266-311. -/
def trainMetric (d : ℕ) (metric : List α → K) (rows : List α) : Except String K :=
  (shard d rows).map fun sh => metric sh.flatten

end metrics

end Verif.MultiDevice
