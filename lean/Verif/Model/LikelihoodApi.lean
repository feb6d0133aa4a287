import Verif.Model.Likelihood
import Verif.Model.Loader
import Verif.Model.OutputLayer

/-!
# The public methods of a likelihood

Source: `/repo/fortuna/likelihood/{base,classification,regression}.py`: `log_prob`, `sample`, `get_outputs`,
`get_calibrated_outputs`, `mean`, `mode`, `variance`, `std` and `entropy`.

Parameters and state of the network are fixed and it is evaluated outside training, so that it acts row by row (`net`). The output
calibrator gets an array of rows at once and may mix them. Calls have no further keyword arguments. Real arithmetic.
-/

set_option linter.unusedSectionVars false

namespace Verif.LikApi

open Verif.Likelihood Verif.Loader Verif.OutputLayer

/-- A likelihood at fixed network parameters. `manager` is `none` for `output_calib_manager=None` and `some none` for a manager
without a calibrator. -/
structure Lik (X O P CM : Type) where
  net : X → O
  manager : Option (Option (P → Bool → Option CM → List O → List O × CM))

section general
variable {X O P CM R T : Type}

/-- The second half of `get_calibrated_outputs` and of `_get_batched_calibrated_outputs`, likelihood/base.py L406-427, L438-458:
`cp` and `cm` are the entries `"output_calibrator"` of calibration parameters and calibration state, if given. -/
def calibrated (l : Lik X O P CM) (cp : Option P) (cm : Option (CalibVal CM)) (os : List O) : Except String (List O) :=
  match l.manager with
  | none => .ok os
  | some none => .ok os
  | some (some f) =>
    match calibApply (some f) cp cm false os with
    | .error e => .error e
    | .ok (.plain os) => .ok os
    | .ok (.pair _ _) => .error "AttributeError"

/-- `_get_batched_calibrated_outputs`, base.py L429-458. -/
def batchOutputs (l : Lik X O P CM) (cp : Option P) (cm : Option (CalibVal CM)) (inputs : List X) : Except String (List O) :=
  calibrated l cp cm (inputs.map l.net)

/-- `_loop_fun_through_inputs_loader` and `_loop_fun_through_data_loader`, base.py L798-842, for a function of a batch: `none` is
`distribute=False`, otherwise the batch is split among the devices and every device evaluates the function on its share.
`jnp.concatenate` of no array raises. -/
def loop (f : List X → Except String (List R)) (devices : Option ℕ) (loader : List (List X)) : Except String (List R) :=
  if loader.isEmpty then .error "ValueError"
  else (loader.mapM fun b => match devices with
    | none => f b
    | some d => do
      let shares ← shard d b
      let rs ← shares.mapM f
      .ok (unshard rs)).map List.flatten

/-- `mean`, `mode` and `variance`, base.py L502-692: `stat` is the statistic of one row of calibrated outputs. -/
def statistic (stat : O → R) (l : Lik X O P CM) (cp : Option P) (cm : Option (CalibVal CM)) (devices : Option ℕ)
    (loader : List (List X)) : Except String (List R) :=
  loop (fun b => (batchOutputs l cp cm b).map (List.map stat)) devices loader

/-- `log_prob` and `_batched_log_prob`, base.py L67-123: a batch has inputs and targets, `lp` is the log-probability of the output
layer. -/
def logProb (lp : O → T → ℝ) (l : Lik X O P CM) (cp : Option P) (cm : Option (CalibVal CM)) (devices : Option ℕ)
    (loader : List (List (X × T))) : Except String (List ℝ) :=
  loop (fun b => (batchOutputs l cp cm (b.map Prod.fst)).map fun os => List.zipWith lp os (b.map Prod.snd)) devices loader

/-- `get_outputs`, base.py L460-500. -/
def outputs (l : Lik X O P CM) (devices : Option ℕ) (loader : List (List X)) : Except String (List O) :=
  loop (fun b => .ok (b.map l.net)) devices loader

/-- `get_calibrated_outputs`, base.py L374-427: the calibrator gets the outputs of all batches together. -/
def calibratedOutputs (l : Lik X O P CM) (cp : Option P) (cm : Option (CalibVal CM)) (devices : Option ℕ)
    (loader : List (List X)) : Except String (List O) :=
  (outputs l devices loader).bind (calibrated l cp cm)

/-- `sample`, base.py L266-337: `draw s j o` is draw `s` of the output layer for row `j` with outputs `o` (prob_output_layer
`sample` draws one array for all rows, or splits the key into one per row). `sum` of a non-empty list of names raises. The second
component is `aux["outputs"]`. -/
def sample (draw : ℕ → ℕ → O → R) (l : Lik X O P CM) (n : ℕ) (cp : Option P) (cm : Option (CalibVal CM)) (aux : List String)
    (devices : Option ℕ) (loader : List (List X)) : Except String (List (List R) × Option (List O)) :=
  if aux.any (· ≠ "outputs") then .error "TypeError"
  else (calibratedOutputs l cp cm devices loader).map fun os =>
    ((List.range n).map fun s => os.mapIdx fun j o => draw s j o, if aux.length > 0 then some os else none)

end general

noncomputable section
variable {X P CM : Type}

/-- `std`, base.py L694-748, of one component: a variance that is passed is used. -/
def std (variance : ℝ) (given : Option ℝ) : ℝ := Real.sqrt (given.getD variance)

variable {c d : ℕ}

/-- `ClassificationLikelihood._batched_mean`, classification.py L102-114: `softmax`. -/
def classMean (l : Lik X (Fin c → ℝ) P CM) := statistic (P := P) (CM := CM) (fun o : Fin c → ℝ => softmax o) l

/-- `ClassificationLikelihood._batched_mode`, classification.py L116-128: `argmax`. -/
def classMode (l : Lik X (Fin c → ℝ) P CM) := statistic (P := P) (CM := CM) (fun o : Fin c → ℝ => ArrayOps.argmax (List.ofFn o)) l

/-- `ClassificationLikelihood._batched_variance`, classification.py L181-199: from the mean. -/
def classVar (l : Lik X (Fin c → ℝ) P CM) :=
  statistic (P := P) (CM := CM) (fun (o : Fin c → ℝ) (i : Fin c) => softmax o i * (1 - softmax o i)) l

/-- `ClassificationLikelihood.entropy`, classification.py L201-224: `lp` is the log-probability of the output layer. -/
def classEnt (lp : (Fin c → ℝ) → ℤ → ℝ) (l : Lik X (Fin c → ℝ) P CM) (cp : Option P) (cm : Option (CalibVal CM))
    (devices : Option ℕ) (loader : List (List X)) : Except String (List ℝ) :=
  (calibratedOutputs l cp cm devices loader).map fun os => os.map fun o => -∑ i : Fin c, Real.exp (lp o (i : ℕ)) * lp o (i : ℕ)

/-- `RegressionLikelihood._batched_mean` and `_batched_mode`, regression.py L55-85: the first half of the outputs. -/
def regMean (l : Lik X ((Fin d → ℝ) × (Fin d → ℝ)) P CM) :=
  statistic (P := P) (CM := CM) (fun o : (Fin d → ℝ) × (Fin d → ℝ) => o.1) l

/-- `RegressionLikelihood._batched_variance`, regression.py L87-98. -/
def regVar (l : Lik X ((Fin d → ℝ) × (Fin d → ℝ)) P CM) :=
  statistic (P := P) (CM := CM) (fun (o : (Fin d → ℝ) × (Fin d → ℝ)) (i : Fin d) => Real.exp (o.2 i)) l

/-- `RegressionLikelihood.entropy`, regression.py L101-130, with the standard normal numbers `z s j` of draw `s` for row `j`. -/
def regEnt (z : ℕ → ℕ → Fin d → ℝ) (l : Lik X ((Fin d → ℝ) × (Fin d → ℝ)) P CM) (n : ℕ) (cp : Option P)
    (cm : Option (CalibVal CM)) (devices : Option ℕ) (loader : List (List X)) : Except String (List ℝ) := do
  let r ← sample (fun s j o => regSample o.1 o.2 (z s j)) l n cp cm ["outputs"] devices loader
  match r.2 with
  | none => .error "KeyError"
  | some os => .ok (os.mapIdx fun j o =>
      -((r.1.map fun row => regLogProb o.1 o.2 (row.getD j (fun _ => 0))).sum / (r.1.length : ℝ)))

end

end Verif.LikApi
