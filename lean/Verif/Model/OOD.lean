import Mathlib.Analysis.SpecialFunctions.Log.Basic
import Mathlib.Analysis.SpecialFunctions.Exp
import Mathlib.Algebra.BigOperators.Fin
import Mathlib.Algebra.Order.BigOperators.Group.Finset

/-!
# Out-of-distribution scores

Source: `/repo/fortuna/ood_detection/{mahalanobis,ddu}.py`. `n` training points with embeddings in `K^d` and
integer labels; `none` is NaN.
-/

set_option linter.unusedSectionVars false

namespace Verif.OOD

section field
variable {K : Type} [Field K] [LinearOrder K] [IsStrictOrderedRing K] {n d : ℕ}

/-- `jnp.sum(mask)`, mahalanobis.py L44. -/
def classCount (y : Fin n → ℤ) (k : ℤ) : K := ∑ i, if y i = k then 1 else 0

/-- The class mean, mahalanobis.py L44-46. -/
def classMean (x : Fin n → Fin d → K) (y : Fin n → ℤ) (k : ℤ) (a : Fin d) : Option K :=
  if (classCount y k : K) = 0 then none
  else some ((∑ i, x i a * (if y i = k then 1 else 0)) / classCount y k)

/-- The contribution of class `k` to entry `(a, b)` of the covariance, mahalanobis.py L45-48:
`diff = (embeddings * mask - mean) * mask`; NaN if the mean is. -/
def classScatter (x : Fin n → Fin d → K) (y : Fin n → ℤ) (k : ℤ) (a b : Fin d) : Option K :=
  match classMean x y k a, classMean x y k b with
  | some ma, some mb =>
    some (∑ i, ((x i a * (if y i = k then 1 else 0) - ma) * (if y i = k then 1 else 0)) *
      ((x i b * (if y i = k then 1 else 0) - mb) * (if y i = k then 1 else 0)))
  | _, _ => none

/-- `cov += …`: NaN if one of the two is. -/
def addNan : Option K → Option K → Option K
  | some s, some t => some (s + t)
  | _, _ => none

/-- The shared covariance, mahalanobis.py L41-52: the scan over the classes, divided by `len(labels)`. -/
def jointCov (x : Fin n → Fin d → K) (y : Fin n → ℤ) (classes : ℕ) (a b : Fin d) : Option K :=
  ((List.range classes).foldl (fun (acc : Option K) (k : ℕ) => addNan acc (classScatter x y k a b))
    (some 0)).map (· / (n : K))

/-- `maha_dist`, mahalanobis.py L87-90, with the (pseudo-)inverse given. -/
def mahaDist (P : Fin d → Fin d → K) (x m : Fin d → K) : K :=
  ∑ i, ∑ j, (x i - m i) * P i j * (x j - m j)

/-- `score`, mahalanobis.py L181: the minimum over the classes. -/
def mahaScore (P : Fin d → Fin d → K) (means : List (Fin d → K)) (x : Fin d → K) : Option K :=
  match means.map (mahaDist P x) with
  | [] => none
  | a :: t => some (t.foldl min a)

/-- `fit` and then `score` of one point, mahalanobis.py L140-162, L84 and L181, with the pseudo-inverse given. A
NaN in the covariance makes the score NaN (without dimensions there is none). -/
def mahaFitScore (pinv : (Fin d → Fin d → K) → Fin d → Fin d → K) (x : Fin n → Fin d → K) (y : Fin n → ℤ)
    (classes : ℕ) (q : Fin d → K) : Option K :=
  if ∃ a b, jointCov x y classes a b = none then none
  else mahaScore (pinv fun a b => (jointCov x y classes a b).getD 0)
    ((List.range classes).map fun (k : ℕ) a => (classMean x y k a).getD 0) q

/-- Class members. -/
def members (x : Fin n → Fin d → K) (y : Fin n → ℤ) (k : ℤ) : List (Fin d → K) :=
  ((List.finRange n).filter fun i => decide (y i = k)).map x

/-- `jnp.mean(embeddings[labels == c], 0)`, ddu.py L59-61; NaN without members. -/
def dduMean (rows : List (Fin d → K)) : Option (Fin d → K) :=
  if rows.length = 0 then none else some fun a => (rows.map fun r => r a).sum / (rows.length : K)

/-- `_centered_cov`, ddu.py L27-30, applied to the members minus their mean: `1 / (n - 1) * x.T @ x`. The number of members is a
Python integer, so that with one member the division raises; without members the product is a matrix of zeros. -/
def dduCov (rows : List (Fin d → K)) : Except String (Fin d → Fin d → K) :=
  if rows.length = 1 then .error "ZeroDivisionError"
  else .ok fun a b =>
    let m := (dduMean rows).getD 0
    (rows.map fun r => 1 / ((rows.length : K) - 1) * (r a - m a) * (r b - m b)).sum

/-- `compute_classwise_mean_and_cov`, ddu.py L33-69 (at least one class): mean and covariance of every class. -/
def dduFit (x : Fin n → Fin d → K) (y : Fin n → ℤ) (classes : ℕ) :
    Except String (List (Option (Fin d → K) × (Fin d → Fin d → K))) :=
  (List.range classes).mapM fun k : ℕ => do
    let c ← dduCov (members x y k)
    .ok (dduMean (members x y k), c)

end field

noncomputable section score

/-- `score`, ddu.py L190-191: `-logsumexp(nan_to_num(loglik), axis=1)`, from the log-density of the point
under each class (`none` for NaN, which becomes 0). -/
def dduScore (loglik : List (Option ℝ)) : ℝ :=
  -Real.log ((loglik.map fun l => Real.exp (l.getD 0)).sum)

end score

/-- The jitter chosen by `_get_logpdf_fn`, ddu.py L90-105: the first for which the densities at the class
means have no NaN, the last one if there is none. -/
def chosenJitter {J : Type} (hasNan : J → Bool) : List J → Option J
  | [] => none
  | [j] => some j
  | j :: rest => if hasNan j then chosenJitter hasNan rest else some j

/-- `JITTERS`, ddu.py L23-24. -/
noncomputable def jitters (tiny : ℝ) : List ℝ := [0, tiny] ++ (List.range 10).map fun e : ℕ => (10 : ℝ) ^ ((e : ℤ) - 10)

/-- `gmm_logprob_fn`, ddu.py L92-97, at one point: the log-density under every class. `pdf m c x` is
`multivariate_normal.logpdf(x, m, c)`, `none` for NaN; with a NaN in the mean or in the point it is NaN. -/
def logliks {d : ℕ} (pdf : (Fin d → ℝ) → (Fin d → Fin d → ℝ) → (Fin d → ℝ) → Option ℝ)
    (classes : List (Option (Fin d → ℝ) × (Fin d → Fin d → ℝ))) (jit : ℝ) (x : Option (Fin d → ℝ)) : List (Option ℝ) :=
  classes.map fun c => match x, c.1 with
    | some x, some m => pdf m (fun a b => c.2 a b + jit * if a = b then 1 else 0) x
    | _, _ => none

/-- The jitter that `fit` settles on, ddu.py L90-105 and L166-168. -/
noncomputable def fitJitter {d : ℕ} (pdf : (Fin d → ℝ) → (Fin d → Fin d → ℝ) → (Fin d → ℝ) → Option ℝ)
    (classes : List (Option (Fin d → ℝ) × (Fin d → Fin d → ℝ))) (tiny : ℝ) : ℝ :=
  (chosenJitter (fun j => classes.any fun c => (logliks pdf classes j c.1).any Option.isNone) (jitters tiny)).getD 0

/-- `fit` and then `score` of one point, ddu.py L151-191. -/
noncomputable def dduFitScore {n d : ℕ} (pdf : (Fin d → ℝ) → (Fin d → Fin d → ℝ) → (Fin d → ℝ) → Option ℝ) (tiny : ℝ)
    (x : Fin n → Fin d → ℝ) (y : Fin n → ℤ) (classes : ℕ) (q : Fin d → ℝ) : Except String ℝ := do
  let cs ← dduFit x y classes
  .ok (dduScore (logliks pdf cs (fitJitter pdf cs tiny) (some q)))

end Verif.OOD
