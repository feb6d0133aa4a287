import Mathlib.Analysis.SpecialFunctions.Log.Basic
import Mathlib.Analysis.SpecialFunctions.Sqrt
import Mathlib.Analysis.SpecialFunctions.Pow.Real
import Mathlib.Algebra.BigOperators.Fin
import Mathlib.Data.List.Sort
import Mathlib.Order.Lex
import Mathlib.Data.List.Lex
import Mathlib.Data.String.Basic
import Verif.Model.NestedDict

/-!
# Gaussian posterior approximations: Laplace, ADVI and SWAG

Source: `/repo/fortuna/prob_model/posterior/laplace/{laplace_posterior,laplace_state}.py`,
`/repo/fortuna/prob_model/posterior/normalizing_flow/normalizing_flow_trainer.py`,
`/repo/fortuna/prob_model/posterior/normalizing_flow/advi/{advi_architecture,advi_trainer,advi_posterior}.py`,
`/repo/fortuna/distribution/gaussian.py`, `/repo/fortuna/prob_model/posterior/swag/swag_posterior.py`.

Real arithmetic. A parameter array is the list of its entries (row-major); a parameter tree is a nested dictionary
(`Verif.Nested.Obj`) with such lists as leaves. Random numbers are arguments. Not modelled: devices, `FrozenDict` wrappers,
mutable and calibration state, which are passed on unchanged.
-/

set_option linter.unusedSectionVars false

namespace Verif.GaussPost

open Verif.Nested Verif.Nested.Obj

/-! ## Raveling -/

/-- `unravel` of `ravel_pytree` on a list or tuple of arrays with these sizes (jax contract): consecutive pieces. -/
def unravelSizes {α : Type} : List ℕ → List α → List (List α)
  | [], _ => []
  | n :: ns, v => v.take n :: unravelSizes ns (v.drop n)

section
variable {K : Type} [LinearOrder K] {α : Type}

/-- `ravel_pytree` of a dictionary (jax contract): the leaves in the order of sorted keys at every level, that is in
lexicographic order of their paths. -/
def ravelTree (d : Obj K (List α)) : List α :=
  (((Nested.flatten d).insertionSort fun a b => a.1 ≤ b.1).map (·.2)).flatten

/-- Where the array at path `p` starts in the vector `ravel_pytree(d)[0]`: after the arrays with smaller paths. -/
def offset (d : Obj K (List α)) (p : List K) : ℕ :=
  (((Nested.flatten d).filter fun pv => pv.1 < p).map fun pv => pv.2.length).sum

/-- `ravel_pytree(d)[1]` (jax contract): the dictionary with the arrays of `d` replaced by the pieces of the vector, in sorted
order of paths. A vector of another length raises. -/
def unravelTree (d : Obj K (List α)) (v : List α) : Except String (Obj K (List α)) :=
  if v.length ≠ (ravelTree d).length then .error "TypeError"
  else .ok (mapLeaves (fun p x => (v.drop (offset d p)).take x.length) [] d)

/-- The entries of an array. A sub-dictionary is not an array; here it counts as empty. -/
def leafVal : Obj K (List α) → List α
  | leaf v => v
  | _ => []

/-- `tuple([nested_get(params, path) for path in which_params])`: laplace_posterior.py L137, advi_posterior.py L430,
swag_posterior.py L221. -/
def getPaths (d : Obj K (List α)) (ps : List (List K)) : Except String (List (List α)) :=
  (ps.mapM (nestedGet d)).map fun os => os.map leafVal

/-- `ravel_pytree` of that tuple: in the order of the paths given. -/
def ravelPaths (d : Obj K (List α)) (ps : List (List K)) : Except String (List α) :=
  (getPaths d ps).map List.flatten

/-- `unravel` on the selected parameters, then `nested_set` on all parameters: advi_posterior.py L433-440,
laplace_posterior.py L142-154, swag_posterior.py L246-262. -/
def unravelInto (d : Obj K (List α)) (ps : List (List K)) (v : List α) : Except String (Obj K (List α)) := do
  let ls ← getPaths d ps
  nestedSet d ps ((unravelSizes (ls.map List.length) v).map leaf) false

/-- `on_train_start` with frozen parameters, advi_trainer.py L101-152: the vector (`mean` or `log_std`) is turned into
parameters, the trainable ones are put in a fresh dictionary, and this is raveled. -/
def adviTrainStart (params : Obj K (List α)) (ps : List (List K)) (v : List α) : Except String (List α) := do
  let d ← unravelInto params ps v
  let os ← ps.mapM (nestedGet d)
  (nestedSet nil ps os true).map ravelTree

/-- `_get_unravel`, advi_posterior.py L438-447: the vector of stored log-standard-deviations of the selected parameters. -/
def adviRavLogStds (logStds : Obj K (List α)) (ps : List (List K)) : Except String (List α) := do
  let os ← ps.mapM (nestedGet logStds)
  (nestedSet nil ps os true).map ravelTree

/-- The vectors SWAG averages are `ravel_pytree(state.params)` (swag_trainer.py L79-83), with frozen parameters the fresh
dictionary of the trainable ones (trainer.py L610-640); a sample puts a vector back through the selection read from the state
(swag_posterior.py L214-222, L246-262). -/
def swagBack (params : Obj K (List α)) (psTrain psRead : List (List K)) (trained : Obj K (List α)) :
    Except String (Obj K (List α)) := do
  let os ← psTrain.mapM (nestedGet trained)
  let t ← nestedSet nil psTrain os true
  unravelInto params psRead (ravelTree t)

end

noncomputable section

/-! ## Laplace: the Hessian -/

/-- One training point in `compute_hess_batch`, laplace_posterior.py L185-207: eigenvalues and eigenvectors (columns of `z`)
of the Hessian of the log-probability in the outputs, and the Jacobian of the outputs in the parameters. -/
structure GGNPoint (ι κ : Type) where
  lam : ι → ℝ
  z : ι → ι → ℝ
  jac : ι → κ → ℝ

variable {ι κ : Type} [Fintype ι] [Fintype κ]

/-- `vjp_fn(x)(z.T[k])`, laplace_posterior.py L198-201: component `i` of eigenvector `k` times the Jacobian. -/
def ztj (pt : GGNPoint ι κ) (k : ι) (i : κ) : ℝ := ∑ a, pt.z a k * pt.jac a i

/-- `-jnp.sum(lam[:, :, None] * ztj**2, (0, 1))`, laplace_posterior.py L203: one batch. -/
def hessBatch (b : List (GGNPoint ι κ)) (i : κ) : ℝ := -(b.map fun pt => ∑ k, pt.lam k * ztj pt k i ^ 2).sum

/-- The loop over batches, laplace_posterior.py L215-219 (without devices). -/
def hessLoop (bs : List (List (GGNPoint ι κ))) (i : κ) : ℝ := bs.foldl (fun h b => h + hessBatch b i) 0

/-- `_compute_std`, laplace_posterior.py L223-226: one entry. Where the argument of the root is not positive the code gives
NaN or infinity, and this the value 0. -/
def laplaceStd (priorLogVar h : ℝ) : ℝ := 1 / Real.sqrt (Real.exp (-priorLogVar) + h)

/-- An operation of arrays of one axis (numpy broadcasting). -/
def bcast (f : ℝ → ℝ → ℝ) (a b : List ℝ) : Except String (List ℝ) :=
  if a.length = b.length then .ok (List.zipWith f a b)
  else if a.length = 1 then .ok (b.map (f (a.headD 0)))
  else if b.length = 1 then .ok (a.map (f · (b.headD 0)))
  else .error "TypeError"

/-! ## Laplace: the state -/

section
variable {K : Type} [DecidableEq K]

/-- `convert_from_map_state` with a selection, laplace_state.py L70-76. -/
def laplacePair (params : Obj String (List ℝ)) (ps : List (List String)) (hess : List (List ℝ)) :
    Except String (Obj String (List ℝ)) := nestedPair params ps (hess.map leaf) "mean" "hess_lik_diag"

/-- `{k: {"params": {l0: v["params"], l1: other[k]["params"]}} for k, v in params.items()}`: laplace_state.py L78-85 and
advi_trainer.py L89-92. -/
def pairAll (l0 l1 : String) : Obj String (List ℝ) → Obj String (List ℝ) → Except String (Obj String (List ℝ))
  | cons k v r, other => do
    let a ← item v "params"
    let w ← item other k
    let b ← item w "params"
    let r' ← pairAll l0 l1 r other
    pure (cons k (cons "params" (pairOf l0 l1 a b) nil) r')
  | d, _ => .ok d

/-- `{k: {"params": v["params"][label]} for k, v in state.params.items()}`: laplace_posterior.py L361-364, L402-409 and
advi_posterior.py L363-371. -/
def projAll (label : String) : Obj String (List ℝ) → Except String (Obj String (List ℝ))
  | cons k v r => do
    let p ← item v "params"
    let m ← item p label
    let r' ← projAll label r
    pure (cons k (cons "params" m nil) r')
  | d => .ok d

/-- `_init_map_state` on a Laplace state, laplace_posterior.py L389-409: the parameters of the MAP state. -/
def laplaceToMap (d : Obj String (List ℝ)) : Option (List (List String)) → Except String (Obj String (List ℝ))
  | some ps => (nestedUnpair d ps "mean" "hess_lik_diag").map Prod.fst
  | none => projAll "mean" d

/-- `tree_map(lambda m, s, e: m + s * e, ...)` on arrays. -/
def shiftLeaf (m s e : List ℝ) : List ℝ := List.zipWith (fun m se => m + se.1 * se.2) m (s.zip e)

/-- Where the first is a dictionary, so is the second, with the same keys. -/
def sameKeys (a b : Obj K (List ℝ)) : Bool :=
  !a.isDict || (b.isDict && (topKeys a).all (fun k => decide (k ∈ topKeys b)) && (topKeys b).all fun k => decide (k ∈ topKeys a))

/-- The comparison below the top. -/
def fitsItems : Obj K (List ℝ) → Obj K (List ℝ) → Bool
  | leaf _, _ => true
  | nil, _ => true
  | cons k a r, b =>
    (match lookup k b with
      | some y => sameKeys a y && fitsItems a y
      | none => false) && fitsItems r b

/-- `flatten_up_to` (jax contract): the second tree has at least the structure of the first, whatever the order of the keys; leaves of the
first fit anything. -/
def fits (a b : Obj K (List ℝ)) : Bool := sameKeys a b && fitsItems a b

/-- The loop of `tree_map` for `m + s * e`, once the structures fit: arithmetic with a dictionary raises. The order of the keys of the result
(jax sorts them) is not modelled. -/
def tree3Loop (f : List ℝ → List ℝ → List ℝ → List ℝ) :
    Obj K (List ℝ) → Obj K (List ℝ) → Obj K (List ℝ) → Except String (Obj K (List ℝ))
  | leaf a, leaf b, leaf c => .ok (leaf (f a b c))
  | leaf _, _, _ => .error "TypeError"
  | nil, _, _ => .ok nil
  | cons k a r, b, c =>
    match lookup k b, lookup k c with
    | some x, some y => do
      let o ← tree3Loop f a x y
      let rest ← tree3Loop f r b c
      pure (cons k o rest)
    | _, _ => .error "ValueError"

/-- `tree_map` of a function of three arrays over three trees (jax contract): the structures are compared before the function is called. -/
def tree3 (f : List ℝ → List ℝ → List ℝ → List ℝ) (a b c : Obj K (List ℝ)) : Except String (Obj K (List ℝ)) :=
  if fits a b && fits a c then tree3Loop f a b c else .error "ValueError"

/-- `_compute_std`, laplace_posterior.py L223-226, on the whole tree. `plv` are the entries of the prior log-variance: one for an isotropic
prior, any number for a diagonal one; the sum of precisions broadcasts, and `unravel` refuses a vector of another length. -/
def computeStd (plv : List ℝ) (hess : Obj String (List ℝ)) : Except String (Obj String (List ℝ)) := do
  let s ← bcast laplaceStd plv (ravelTree hess)
  unravelTree hess s

/-- `sample`, laplace_posterior.py L316-384: the sampled parameters. `gen` is the standard normal noise drawn for every leaf of
the standard deviations (`generate_random_normal_like_tree`, random.py L16-22). -/
def laplaceSample (d : Obj String (List ℝ)) (which : Option (List (List String))) (plv : List ℝ)
    (gen : List String → List ℝ → List ℝ) : Except String (Obj String (List ℝ)) :=
  match which with
  | some ps => do
    let mh ← nestedUnpair d ps "mean" "hess_lik_diag"
    let std ← computeStd plv mh.2
    let noise := mapLeaves gen [] std
    let objs ← ps.mapM fun p => do
      let m ← nestedGet mh.1 p
      let s ← nestedGet std p
      let e ← nestedGet noise p
      tree3 shiftLeaf m s e
    nestedSet mh.1 ps objs false
  | none => do
    let mean ← projAll "mean" d
    let hess ← projAll "hess_lik_diag" d
    let std ← computeStd plv hess
    tree3 shiftLeaf mean std (mapLeaves gen [] std)

end

/-! ## Laplace: tuning the prior -/

/-- One step of the loop, laplace_posterior.py L500-513: `best` is a candidate with its negative log-probability. -/
def tuneStep {C : Type} (nll : C → ℝ) (best : Option (C × ℝ)) (c : C) : Option (C × ℝ) :=
  match best with
  | none => some (c, nll c)
  | some b => if nll c < b.2 then some (c, nll c) else some b

/-- `_prior_log_variance_tuning_cv`, laplace_posterior.py L479-516: the best candidate among the grid and the log-variance of
the prior. `rng` is only bound when `distribute` is set. `size` is the number of entries of a candidate: one in the grid, any number
for a diagonal prior. Over several devices `shard` cannot reshape the candidates of the grid (L495), of which there is at least one if the grid is not
empty; and the best candidate is reshaped to a scalar (L515). The name of the exception of a failing reshape depends on the version of jax. -/
def tunePrior {C : Type} (distribute : Bool) (devices nBatches : ℕ) (size : C → ℕ) (nll : C → ℝ) (grid : List C) (prior : C) : Except String C :=
  if distribute then
    if (grid ++ [prior]).all fun c => decide (devices ∣ size c) then
      if nBatches = 0 then .error "ValueError"
      else
        match (grid ++ [prior]).foldl (tuneStep nll) none with
        | some b => if size b.1 = 1 then .ok b.1 else .error "reshape"
        | none => .error "TypeError"
    else .error "reshape"
  else if nBatches = 0 then .error "ValueError"
  else .error "NameError"

/-- `_batched_log_prob`, laplace_posterior.py L423-451: for every point of the batch the logarithm of the mean likelihood over the samples. The samples are
drawn with the keys split from `rng`; they do not depend on the batch. `logsumexp` is used by its contract. -/
def tuneLogProb {S P : Type} (ll : S → P → ℝ) (samples : List S) (batch : List P) : List ℝ :=
  batch.map fun p => Real.log (samples.map fun s => Real.exp (ll s p)).sum - Real.log samples.length

/-- The loss of a candidate, laplace_posterior.py L501-511: all batches are treated with the same key, a constant one (L493). -/
def tuneNll {S P C : Type} (ll : S → P → ℝ) (samples : C → List S) (batches : List (List P)) (c : C) : ℝ :=
  -(batches.flatMap (tuneLogProb ll (samples c))).sum

/-- `prior_log_variance_tuning`, laplace_posterior.py L453-477. -/
def priorTuning {S P C : Type} (mode : String) (distribute : Bool) (devices : ℕ) (size : C → ℕ) (ll : S → P → ℝ) (samples : C → List S)
    (batches : List (List P)) (grid : List C) (prior : C) : Except String C :=
  if mode = "cv" then tunePrior distribute devices batches.length size (tuneNll ll samples batches) grid prior
  else if mode = "marginal_lik" then .error "NotImplementedError"
  else .error "ValueError"

/-! ## ADVI -/

/-- `ADVIArchitecture.forward`, advi_architecture.py L55-58: one row. -/
def adviForward (mean logStd u : ι → ℝ) : (ι → ℝ) × ℝ := (fun i => mean i + Real.exp (logStd i) * u i, ∑ i, logStd i)

/-- `ADVIArchitecture.backward`, advi_architecture.py L81-84: one row. -/
def adviBackward (mean logStd v : ι → ℝ) : (ι → ℝ) × ℝ := (fun i => Real.exp (-logStd i) * (v i - mean i), -∑ i, logStd i)

/-- `norm.logpdf` (scipy contract). -/
def normLogpdf (x loc scale : ℝ) : ℝ := -((x - loc) / scale) ^ 2 / 2 - Real.log (2 * Real.pi) / 2 - Real.log scale

/-- `DiagGaussian.sample`, gaussian.py L44-45, from standard normal noise. -/
def diagSample (mean std z : ι → ℝ) (i : ι) : ℝ := mean i + std i * z i

/-- `DiagGaussian.log_joint_prob`, gaussian.py L57. -/
def diagLogProb (mean std x : ι → ℝ) : ℝ := ∑ i, normLogpdf (x i) (mean i) (std i)

/-- The base distribution's standard deviation, advi_posterior.py L203-206. -/
def baseStd (logStdBase : ℝ) (_ : ι) : ℝ := Real.exp logStdBase * 1

/-- `jnp.mean`. -/
def meanOver {n : ℕ} (f : Fin n → ℝ) : ℝ := (∑ s, f s) / n

/-- `training_loss_step`, normalizing_flow_trainer.py L112-127: the loss, given the base samples. -/
def adviLoss {n : ℕ} (negLogp : (ι → ℝ) → ℝ) (mean logStd : ι → ℝ) (u : Fin n → ι → ℝ) : ℝ :=
  meanOver (fun s => negLogp (adviForward mean logStd (u s)).1) - meanOver fun s => (adviForward mean logStd (u s)).2

section
variable {K : Type} [LinearOrder K]

/-- `_unravel_params` with a selection, advi_trainer.py L77-85: the parameters stored in the state. `lm` and `ls` are
the labels `"mean"` and `"log_std"`. -/
def adviPair (lm ls : K) (params : Obj K (List ℝ)) (ps : List (List K)) (mean logStd : List ℝ) :
    Except String (Obj K (List ℝ)) := do
  let d ← unravelInto params ps mean
  let vs ← getPaths params ps
  nestedPair d ps ((unravelSizes (vs.map List.length) logStd).map leaf) lm ls

/-- `m + exp(s) * u` entrywise. -/
def forwardList (m s u : List ℝ) : List ℝ := List.zipWith (fun m su => m + Real.exp su.1 * su.2) m (s.zip u)

/-- `sample` with a selection, advi_posterior.py L312-331: `psFit` is the selection in the closure `_unravel`, `ps` the one read
from the state, `params` the parameters the closure was made from. -/
def adviSample (lm ls : K) (params : Obj K (List ℝ)) (psFit : List (List K)) (d : Obj K (List ℝ))
    (ps : List (List K)) (u : List ℝ) : Except String (Obj K (List ℝ)) := do
  let ml ← nestedUnpair d ps lm ls
  let m ← ravelPaths ml.1 ps
  let s ← ravelPaths ml.2 ps
  unravelInto params psFit (forwardList m s u)
end

/-! ## SWAG -/

/-- `_get_sample`, swag_posterior.py L224-229, L291-292: one entry. `dev` is the matrix of deviations. -/
def swagSample {r : ℕ} (mean std : ι → ℝ) (dev : ι → Fin r → ℝ) (z1 : ι → ℝ) (z2 : Fin r → ℝ) (i : ι) : ℝ :=
  mean i + 1 / Real.sqrt 2 * std i * z1 i + 1 / Real.sqrt 2 / Real.sqrt r * ∑ j, dev i j * z2 j

end

end Verif.GaussPost
