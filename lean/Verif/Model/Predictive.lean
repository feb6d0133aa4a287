import Mathlib.Analysis.SpecialFunctions.Log.Basic
import Mathlib.Analysis.SpecialFunctions.Exp
import Mathlib.Algebra.BigOperators.Fin
import Verif.Model.ArrayOps
import Verif.Model.Quantile
import Verif.Model.Loader

/-!
# Predictive statistics

Source: `/repo/fortuna/prob_model/predictive/{base,classification,regression}.py`.

Every array is looked at one input (and one output component) at a time: `m k` is the likelihood mean
for the posterior sample drawn with key `k`, `v k` its variance. Exact arithmetic.
-/

set_option linter.unusedSectionVars false

namespace Verif.Predictive

section field
variable {K Key : Type} [Field K] [LinearOrder K] [IsStrictOrderedRing K]

/-- `curr_sum = fun(0, 0.0)` followed by `lax.fori_loop(1, n, fun, curr_sum)` with
`fun(i, s) = s + f i`, base.py L645-646. -/
def loopSum (n : ℕ) (f : ℕ → K) : K :=
  (List.range' 1 (n - 1)).foldl (fun s i => s + f i) (0 + f 0)

variable (split : Key → ℕ → ℕ → Key)

/-- `_batched_mean`, base.py L624-647; `split k n i` is `random.split(k, n)[i]`. -/
def predMean (m : Key → K) (n : ℕ) (rng : Key) : K :=
  loopSum n (fun i => m (split rng n i)) / (n : K)

/-- `_batched_aleatoric_variance`, base.py L735-758. -/
def aleatoric (v : Key → K) (n : ℕ) (rng : Key) : K :=
  loopSum n (fun i => v (split rng n i)) / (n : K)

/-- `_batched_epistemic_variance`, base.py L806-836. -/
def epistemic (m : Key → K) (n : ℕ) (rng : Key) : K :=
  let s := loopSum n (fun i => m (split rng n i))
  let s2 := loopSum n (fun i => m (split rng n i) ^ 2)
  max 0 (s2 / (n : K) - (s / (n : K)) ^ 2)

/-- `variance` without precomputed parts, base.py L880-898: `rng, key = random.split(rng)` before each
part. -/
def variance (m v : Key → K) (n : ℕ) (rng : Key) : K :=
  let key1 := split rng 2 1
  let rng1 := split rng 2 0
  let key2 := split rng1 2 1
  aleatoric split v n key1 + epistemic split m n key2

/-- `variance` with both parts passed in, base.py L898. -/
def varianceOf (ale epi : K) : K := ale + epi

/-- `variance`, base.py L880-898: a part that is passed is used, for each of the others a key is split off. -/
def varianceWith (m v : Key → K) (n : ℕ) (rng : Key) (ale epi : Option K) : K :=
  let (rng, a) := match ale with
    | some a => (rng, a)
    | none => (split rng 2 0, aleatoric split v n (split rng 2 1))
  let e := match epi with
    | some e => e
    | none => epistemic split m n (split rng 2 1)
  varianceOf a e

/-! ## Credible sets, classification.py L434-483 -/

/-- `jnp.argsort` (stable, ascending). -/
def argsort (p : List K) : List ℕ :=
  (List.range p.length).insertionSort fun a b => p.getD a 0 ≤ p.getD b 0

/-- `jnp.cumsum`. -/
def cumsum (l : List K) : List K := (List.range l.length).map fun i => (l.take (i + 1)).sum

/-- `credible_set` for one row of mean probabilities. `jnp.argmax` of a boolean row is the first `True`,
or 0 when there is none. -/
def credibleSet (p : List K) (error : K) : List ℕ :=
  let labels := (argsort p).reverse
  let sorted := (p.insertionSort (· ≤ ·)).reverse
  let region := (cumsum sorted).map fun c => decide (c > 1 - error)
  let index := if region.findIdx (· = true) < region.length then region.findIdx (· = true) else 0
  labels.take (index + 1)

/-! ## Credible intervals and quantiles, regression.py L269-369; prob_output_layer/regression.py L53-144 -/

variable [FloorRing K]

/-- `quantile` of the target samples of one input, regression.py L361-369. -/
def quantileOf (samples : List K) (q : K) : Option K := Verif.Quantile.quantile samples q

/-- `credible_interval`, regression.py L302-329: the result for one input, as a list of one or two
numbers. -/
def credibleInterval (samples : List K) (error : K) (type : String) : Except String (List K) :=
  if ¬ ["two-tailed", "right-tailed", "left-tailed"].contains type then .error "ValueError"
  else
    let qs := if type = "two-tailed" then [1 / 2 * error, 1 - 1 / 2 * error]
      else if type = "left-tailed" then [error] else [1 - error]
    match qs.mapM (quantileOf samples) with
    | some l => .ok l
    | none => .error "nan"

end field

/-! ## Log-probabilities and entropies -/

noncomputable section real

/-- `logsumexp`. -/
def logsumexp {n : ℕ} (l : Fin n → ℝ) : ℝ := Real.log (∑ i, Real.exp (l i))

/-- `_batched_log_prob`, base.py L179-203: `l s` is the log-likelihood of the row under sample `s`. -/
def logProb {n : ℕ} (l : Fin n → ℝ) : ℝ := logsumexp l - Real.log n

/-- `prob_output_layer.log_prob(outputs, i)` for classification, prob_output_layer/classification.py
L25-28, with a target in range. -/
def classLogProb {c : ℕ} (o : Fin c → ℝ) (y : Fin c) : ℝ :=
  (∑ j, (if j = y then 1 else 0) * o j) - logsumexp o

/-- `aleatoric_entropy`, classification.py L292-310: `o s` are the calibrated outputs of sample `s`. -/
def aleatoricEntropy {n c : ℕ} (o : Fin n → Fin c → ℝ) : ℝ :=
  -∑ i, (∑ s, Real.exp (classLogProb (o s) i) * classLogProb (o s) i) / n

/-- `entropy`, classification.py L411-432. -/
def entropy {n c : ℕ} (o : Fin n → Fin c → ℝ) : ℝ :=
  -∑ i, (let lp := logsumexp (fun s => classLogProb (o s) i) - Real.log n
    Real.exp lp * lp)

/-- `epistemic_entropy`, classification.py L351-374. -/
def epistemicEntropy {n c : ℕ} (o : Fin n → Fin c → ℝ) : ℝ :=
  -∑ i, (let lp := logsumexp (fun s => classLogProb (o s) i) - Real.log n
    Real.exp lp * lp - (∑ s, Real.exp (classLogProb (o s) i) * classLogProb (o s) i) / n)

end real

/-! ## Conformal sets, classification.py L485-626 -/

section conformal
variable {K : Type} [Field K] [LinearOrder K] [IsStrictOrderedRing K]

/-- Likelihoods, one column of `exp(ensemble_train_test_log_probs)`: the likelihood of a data point
under each of the posterior samples. -/
abbrev Liks (K : Type) := List K

/-- `prob_train`, L561-568, for one candidate label with likelihoods `w` and one training point with
likelihoods `l`: the importance-weighted mean. -/
def probTrain (w l : Liks K) : K := (List.zipWith (fun a b => a / w.sum * b) w l).sum

/-- `prob_test`, L569-572. -/
def probTest (w : Liks K) : K := (w.map fun a => a ^ 2).sum / w.sum

/-- `region_true` for one candidate label, L574-581. -/
def inRegion (train : List (Liks K)) (w : Liks K) (error : K) : Bool :=
  let scores := train.map (probTrain w) ++ [probTest w]
  let rank := (scores.filter fun s => decide (s ≤ scores.getLastD 0)).length
  decide ((rank : K) > error * ((train.length : K) + 1))

/-- L591-596, for one test input: `order` is `np.argsort(conformal_region)`, `False` first, ties in an
unspecified order. -/
def regionToSet (region : List Bool) (order : List ℕ) : List ℕ :=
  let size := region.countP id
  (order.reverse.take size).reverse

/-- `ESS` of one candidate label, L604-617, from its importance weights. -/
def ess (w : Liks K) : K := 1 / (w.map fun a => (a / w.sum) ^ 2).sum

/-- The data passed to `ensemble_log_prob`, L527-537: training points, then all test inputs with label
0, then all with label 1, and so on. -/
def gridData {X : Type} (train : List (X × ℕ)) (test : List X) (nClasses : ℕ) : List (X × ℕ) :=
  train ++ (List.range nClasses).flatMap fun c => test.map fun x => (x, c)

/-- `jnp.dstack(jnp.vsplit(a[:, n_train:].T, n_classes))[t, s, c]`, L547-554, for the row `a[s]`. -/
def gridEntry {A : Type} (nTrain nTest : ℕ) (row : List A) (t c : ℕ) : Option A :=
  (row.drop nTrain)[c * nTest + t]?

end conformal

/-! ## Loops over batches, base.py L946-1022 and likelihood/base.py L794-842 -/

section loops
open Verif.Loader
variable {X R : Type}

/-- `_loop_fun_through_inputs_loader` (and `…_data_loader`): a function of a batch that acts row by row,
with or without distribution over devices; `none` is `distribute=False`. `jnp.concatenate` of no array raises. -/
def loopFun (f : X → R) (devices : Option ℕ) (loader : List (List X)) : Except String (List R) :=
  if loader.isEmpty then .error "ValueError"
  else match devices with
  | none => .ok (loader.flatMap fun b => b.map f)
  | some d => do
    let sharded ← shardLoader d loader
    .ok (sharded.flatMap fun b => unshard (b.map fun rows => rows.map f))

/-- A two-dimensional array as the list of its rows: concatenation along axis 1. The arrays have the
same number of rows (jax raises otherwise). -/
def concatAxis1 (as : List (List (List R))) : List (List R) :=
  match as with
  | [] => []
  | a :: rest => rest.foldl (fun acc b => List.zipWith (· ++ ·) acc b) a

/-- The transpose of a two-dimensional array with `n` columns. -/
def transpose (n : ℕ) (a : List (List R)) : List (List R) :=
  (List.range n).map fun j => a.filterMap fun row => row[j]?

/-- `_unshard_ensemble_arrays`, base.py L946-950: `a` has axes (device, sample, row) and every device
returns `n` samples. -/
def unshardEnsemble (n : ℕ) (a : List (List (List R))) : List (List R) :=
  -- `swapaxes(1, 2)`: (device, row, sample); merge the first two axes; `swapaxes(0, 1)`
  let rows := (a.map fun dev => transpose (dev.headD []).length dev).flatten
  transpose n rows

/-- `_loop_ensemble_fun_through_inputs_loader`, base.py L999-1022: `f b` has axes (sample, row), with `n`
samples; `g s x` is the value of sample `s` at input `x`. -/
def loopEnsemble (n : ℕ) (g : ℕ → X → R) (devices : Option ℕ) (loader : List (List X)) :
    Except String (List (List R)) :=
  let f : List X → List (List R) := fun b => (List.range n).map fun s => b.map (g s)
  if loader.isEmpty then .error "ValueError"
  else match devices with
  | none => .ok (concatAxis1 (loader.map f))
  | some d => do
    let sharded ← shardLoader d loader
    .ok (concatAxis1 (sharded.map fun b => unshardEnsemble n (b.map f)))

/-- `sample` without auxiliary outputs, base.py L359-374 and L389-392: the distributed branch uses `_unshard_array`.
The random number used for row `j` of a batch (or of a device's share of it) and sample `s` depends on
the key, which is the same for all batches, and on `(s, j)`. -/
def sampleTargets (n : ℕ) (g : ℕ → ℕ → X → R) (devices : Option ℕ) (loader : List (List X)) :
    Except String (List (List R)) :=
  let f : List X → List (List R) := fun b => (List.range n).map fun s => b.mapIdx fun j x => g s j x
  if loader.isEmpty then .error "ValueError"
  else match devices with
  | none => .ok (concatAxis1 (loader.map f))
  | some d => do
    let sharded ← shardLoader d loader
    .ok (concatAxis1 (sharded.map fun b => unshard (b.map f)))

/-- `sample` with `return_aux = ["outputs"]`, base.py L375-388 and L393-404: the samples of the batches are concatenated along
the first axis, that of the samples; batches of different widths are refused. The second component lists the keys of the
returned dictionary, which is filled only if the new and empty `aux` has the key already. -/
def sampleTargetsAux (n : ℕ) (g : ℕ → ℕ → X → R) (devices : Option ℕ) (loader : List (List X)) :
    Except String (List (List R) × List String) :=
  let f : List X → List (List R) := fun b => (List.range n).map fun s => b.mapIdx fun j x => g s j x
  let aux : List String := []
  let filled := if aux.contains "outputs" then aux ++ ["outputs"] else aux
  match loader with
  | [] => .error "ValueError"
  | b :: _ =>
    match devices with
    | none => if loader.any fun c => c.length ≠ b.length then .error "TypeError" else .ok ((loader.map f).flatten, filled)
    | some d => do
      let sharded ← shardLoader d loader
      if loader.any fun c => c.length ≠ b.length then .error "TypeError"
      else .ok ((sharded.map fun b => unshard (b.map f)).flatten, filled)

end loops

/-- `if not rng:` at the start of `sample`, base.py L356-357: `none` is `rng=None`; a key is an array of
`size` numbers, whose truth value is ambiguous when it has more than one. -/
def sampleRngCheck (rng : Option (List ℕ)) : Except String Bool :=
  match rng with
  | none => .ok true
  | some k => if k.length ≠ 1 then .error "ValueError" else .ok (k = [0])

end Verif.Predictive
