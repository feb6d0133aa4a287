import Mathlib.Analysis.SpecialFunctions.Trigonometric.Basic
import Mathlib.Analysis.SpecialFunctions.Sqrt
import Mathlib.Algebra.BigOperators.Fin
import Verif.Model.NestedDict

/-!
# SNGP: random feature Gaussian process, precision matrix, reset callback, spectral normalisation

Source: `/repo/fortuna/model/utils/random_features.py`, `/repo/fortuna/model/utils/spectral_norm.py`,
`/repo/fortuna/model/model_manager/classification.py` L130-309, `/repo/fortuna/prob_model/posterior/sngp/sngp_callback.py`,
`/repo/fortuna/prob_model/posterior/sngp/sngp_posterior.py`.

Real arithmetic; matrices are functions of two indices. Not modelled: layer normalisation of the inputs, the dense layer that
gives the logits, the deep feature extractor (a function on dictionaries here), Hugging Face models, model editors.
-/

set_option linter.unusedSectionVars false

namespace Verif.SNGP

open Verif.Nested Verif.Nested.Obj

noncomputable section

/-! ## The Gaussian process layer -/

section
variable {ι κ : Type} [Fintype ι] [DecidableEq ι] [Fintype κ]

/-- `RandomFourierFeatures.__call__`, random_features.py L237-242: one row. -/
def rff (featureScale kernelScale : ℝ) (kernel : κ → ι → ℝ) (bias : ι → ℝ) (x : κ → ℝ) (i : ι) : ℝ :=
  featureScale * Real.cos ((∑ k, x k * (1 / kernelScale * kernel k i)) + bias i)

/-- `_feature_scale`, random_features.py L181-184; the default of `feature_scale` is 1 (L169). -/
def featureScaleOf (features : ℕ) (featureScale : Option ℝ) : ℝ :=
  match featureScale with
  | none => Real.sqrt (2 / features)
  | some s => s

/-- `initial_precision_matrix`, random_features.py L348-350. -/
def initPrec (ridge : ℝ) (i j : ι) : ℝ := (if i = j then 1 else 0) * ridge

/-- `batch_prec_mat`, random_features.py L373-376: the features of a batch, transposed, times themselves
(`prob_multiplier` is 1). -/
def batchPrec (b : List (ι → ℝ)) (i j : ι) : ℝ := (b.map fun φ => (Real.sqrt 1 * φ i) * (Real.sqrt 1 * φ j)).sum

/-- `update_precision_matrix`, random_features.py L379-388. -/
def updatePrec (momentum : Option ℝ) (b : List (ι → ℝ)) (P : ι → ι → ℝ) (i j : ι) : ℝ :=
  match momentum with
  | none => P i j + batchPrec b i j
  | some m => m * P i j + (1 - m) * batchPrec b i j / (b.length : ℝ)

/-- `setup`, random_features.py L277-282: the check on the momentum. -/
def checkMomentum (momentum : Option ℝ) : Except String Unit :=
  match momentum with
  | none => .ok ()
  | some m => if m < 0 ∨ m > 1 then .error "ValueError" else .ok ()

/-- `compute_predictive_covariance` with `diagonal_only`, random_features.py L429-431 and L436: one entry, given the column
`w` of `chol_t_cov_feature_product` (the solution of `chol w = φ`, L424-427). -/
def predVar (ridge : ℝ) (w : ι → ℝ) : ℝ := ridge * ∑ i, w i ^ 2

/-- `compute_predictive_covariance` without `diagonal_only`, random_features.py L433-436: the entry of two points. -/
def predCov (ridge : ℝ) (w w' : ι → ℝ) : ℝ := ridge * ∑ i, w i * w' i

/-- `LaplaceRandomFeatureCovariance.__call__`, random_features.py L320-341, on the flattened features `b` of a batch and the
stored precision matrix: `paramsMutable` and `mutable` say whether the parameters and the covariance collection are mutable;
`cov` is `compute_predictive_covariance`. Returns the precision matrix afterwards and the result. -/
def covCall {C : Type} (momentum : Option ℝ) (paramsMutable mutable : Bool) (cov : (ι → ι → ℝ) → List (ι → ℝ) → C)
    (b : List (ι → ℝ)) (P : ι → ι → ℝ) : (ι → ι → ℝ) × Option C :=
  let P' := if mutable && !paramsMutable then updatePrec momentum b P else P
  (P', if !mutable then some (cov P' b) else none)

end

/-- `_mean_field_logits`, classification.py L219-235: one row of logits and its variance. -/
def meanFieldLogits {c : Type} (factor : ℝ) (variance : Option ℝ) (logits : c → ℝ) : Except String (c → ℝ) :=
  if factor < 0 then .error "ValueError"
  else
    let v := match variance with
      | some v => v
      | none => 1
    .ok fun i => logits i / Real.sqrt (1 + v * factor)

/-! ## The mutable state -/

/-- An array in the mutable state: a square matrix with `n` rows, one such matrix for each of `D` devices, or another array. -/
inductive Arr (n : ℕ) where
  | mat (M : Fin n → Fin n → ℝ)
  | dev (D : ℕ) (M : Fin D → Fin n → Fin n → ℝ)
  | other (v : List ℝ)

/-- `ResetCovarianceCallback.training_epoch_start`, sngp_callback.py L24-35: the new value. A value of another rank leaves
`init_precision_matrix` unbound; a dictionary has no `ndim`. -/
def resetArr {n : ℕ} (ridge : ℝ) : Obj String (Arr n) → Except String (Arr n)
  | leaf (.mat _) => .ok (.mat (initPrec ridge))
  | leaf (.dev D _) => .ok (.dev D fun _ => initPrec ridge)
  | leaf (.other _) => .error "UnboundLocalError"
  | _ => .error "AttributeError"

/-- `for key in reversed(key_paths): partially_updated_mutables = {key: partially_updated_mutables}`, L37-39. -/
def wrapPath {K V : Type} (path : List K) (o : Obj K V) : Obj K V := path.foldr (fun k acc => cons k acc nil) o

/-- `ResetCovarianceCallback.training_epoch_start`, sngp_callback.py L22-42, on `state.mutable`. -/
def resetCallback {n : ℕ} (key : String) (ridge : ℝ) (m : Obj String (Arr n)) : Except String (Obj String (Arr n)) := do
  let path := findOnePath key m []
  let o ← nestedGet m path
  let a ← resetArr ridge o
  .ok (nestedUpdate m (wrapPath path (leaf a)))

/-- `{k: v for k, v in d.items() if p(k)}`, classification.py L246-259. -/
def filterKeys {K V : Type} (p : K → Bool) : Obj K V → Obj K V
  | cons k o r => if p k then cons k o (filterKeys p r) else filterKeys p r
  | d => d

/-- `d.update(u)`. -/
def shallowUpdate {K V : Type} [DecidableEq K] : Obj K V → Obj K V → Obj K V
  | d, cons k o r => shallowUpdate (setItem k o d) r
  | d, _ => d

/-- `_gp_output_model_mutable_keys`, classification.py L180-183. -/
def gpKeys : List String := ["sngp_random_features", "sngp_laplace_covariance"]

/-- `apply` in training, classification.py L245-301: the new mutable collections of `"model"`, where `ext` and `gp` are what the
feature extractor and the Gaussian process make of theirs. -/
def applyMutable {V : Type} (ext gp : Obj String V → Obj String V) (model : Obj String V) : Obj String V :=
  shallowUpdate (ext (filterKeys (fun k => !gpKeys.contains k) model)) (gp (filterKeys (fun k => gpKeys.contains k) model))

/-- Training, trainer.py L475-527 seen from the mutable state: every epoch begins with the callbacks (`resets` many reset
callbacks, `fit` of `SNGPPosterior` having added one each time it was called with this configuration, sngp_posterior.py
L46-55), then every batch changes the state. -/
def fitMutable {n : ℕ} (key : String) (ridge : ℝ) (resets : ℕ) (epochs : List (List (Obj String (Arr n) → Obj String (Arr n))))
    (m : Obj String (Arr n)) : Except String (Obj String (Arr n)) :=
  epochs.foldlM (fun m steps => do
    let m ← (List.replicate resets ()).foldlM (fun m _ => resetCallback key ridge m) m
    .ok (steps.foldl (fun m f => f m) m)) m

/-- The number of reset callbacks in the user's configuration after `fit`, sngp_posterior.py L46-55. -/
def appendReset (callbacks : Option ℕ) : ℕ :=
  match callbacks with
  | none => 1
  | some c => c + 1

/-- `_check_state`, sngp_posterior.py L63-71. -/
def checkState {V : Type} (m : Obj String V) : Except String Unit :=
  if (findOnePath "spectral_stats" m []).length = 0 then .error "ValueError" else .ok ()

/-- Training on several devices, trainer.py L785-808: every device updates its own precision matrix with its part of the
batches of the last epoch, and the result is what device 0 has (`on_train_end`), after an average over the devices if there is
validation (`on_validation_start`). -/
def devicePrec {n : ℕ} {D : ℕ} (ridge : ℝ) (validate : Bool) (parts : Fin (D + 1) → List (List (Fin n → ℝ))) (i j : Fin n) :
    ℝ :=
  let P := fun d => (parts d).foldl (fun P b => updatePrec none b P) (initPrec ridge)
  if validate then (∑ d, P d i j) / ((D : ℝ) + 1) else P 0 i j

/-! ## Spectral normalisation -/

section
variable {ι κ : Type} [Fintype ι] [Fintype κ]

/-- The sum of squares. -/
def sq (x : ι → ℝ) : ℝ := ∑ i, x i ^ 2

/-- `_l2_normalize`, spectral_norm.py L27-28. -/
def l2norm (eps : ℝ) (x : ι → ℝ) (i : ι) : ℝ := x i * (1 / Real.sqrt (max (sq x) eps))

/-- `kernel_apply`, spectral_norm.py L133: rows of `w` are inputs, columns are outputs. -/
def kApply (w : κ → ι → ℝ) (v : κ → ℝ) (i : ι) : ℝ := ∑ k, v k * w k i

/-- `kernel_transpose`, spectral_norm.py L151: the vector-Jacobian product of `kernel_apply`. -/
def kTrans (w : κ → ι → ℝ) (u : ι → ℝ) (k : κ) : ℝ := ∑ i, u i * w k i

/-- The carry of the power iterations: `u_hat`, `v_hat`, `u_`. -/
structure PowerState (ι κ : Type) where
  u : ι → ℝ
  v : κ → ℝ
  u' : ι → ℝ

/-- `scan_body`, spectral_norm.py L155-161. -/
def powerStep (eps : ℝ) (w : κ → ι → ℝ) (s : PowerState ι κ) : PowerState ι κ :=
  let v := l2norm eps (kTrans w s.u)
  let u' := kApply w v
  ⟨l2norm eps u', v, u'⟩

/-- `__call__`, spectral_norm.py L149-166: the power iterations, only when the estimate is updated and not at
initialisation. -/
def powerRun (eps : ℝ) (w : κ → ι → ℝ) (update initializing : Bool) (iterations : ℕ) (u : ι → ℝ) (v : κ → ℝ) :
    PowerState ι κ :=
  if update && !initializing then (powerStep eps w)^[iterations] ⟨u, v, kApply w v⟩ else ⟨u, v, kApply w v⟩

/-- `sigma = jnp.vdot(u_hat, u_)`, spectral_norm.py L168. -/
def sigmaOf (s : PowerState ι κ) : ℝ := ∑ i, s.u i * s.u' i

/-- The kernel used, spectral_norm.py L170-171. -/
def wHat (bound sigma : ℝ) (w : κ → ι → ℝ) (k : κ) (i : ι) : ℝ := w k i / max (sigma / bound) 1

/-- `WithSpectralNorm.spectral_norm` and `WithSpectralConv2DNorm.spectral_norm`, spectral_norm.py L208-214, L232-238: whether the
layer updates its estimate is the argument `train`, `False` if it is not given. -/
def updatesEstimate (train : Option Bool) : Bool := train.getD false

/-- The hidden layers of an MLP and the convolutions of a (wide) ResNet, mlp.py L133, L171, resnet.py L187, wideresnet.py L197:
`self.spectral_norm(layer, train=train)`. -/
def networkUpdates (train : Bool) : Bool := updatesEstimate (some train)

/-- The `pre_classifier` of the SNGP text models, modeling_flax_bert.py L44, modeling_flax_distilbert.py L36,
modeling_flax_roberta.py L49: `self.spectral_norm(nn.Dense)` is set up once, without `train`, and called without
`update_singular_value_estimate` (bert L82, distilbert L69, roberta L84). -/
def textUpdates (_train : Bool) : Bool := updatesEstimate none

/-- The `spectral_stats` of one layer after a number of calls, spectral_norm.py L146-166: `calls` are the kernel at the time of each
call (the optimizer changes it in between) and whether the call is made in training. Contract: `spectral_stats` is a mutable
collection in training and the stored values come back with the next call. -/
def storedAfter (eps : ℝ) (updates : Bool → Bool) (iterations : ℕ) (calls : List ((κ → ι → ℝ) × Bool)) (u : ι → ℝ) (v : κ → ℝ) :
    (ι → ℝ) × (κ → ℝ) :=
  calls.foldl (fun st c =>
    let s := powerRun eps c.1 (updates c.2) false iterations st.1 st.2
    (s.u, s.v)) (u, v)

/-- The kernel a layer uses for predictions after these calls, spectral_norm.py L168-171. -/
def kernelAfter (eps bound : ℝ) (updates : Bool → Bool) (iterations : ℕ) (calls : List ((κ → ι → ℝ) × Bool)) (u : ι → ℝ) (v : κ → ℝ)
    (w : κ → ι → ℝ) : κ → ι → ℝ :=
  let st := storedAfter eps updates iterations calls u v
  wHat bound (sigmaOf (powerRun eps w (updates false) false iterations st.1 st.2)) w

end

end

end Verif.SNGP
