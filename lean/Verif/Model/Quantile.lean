import Mathlib.Algebra.Order.Floor.Ring
import Mathlib.Data.Rat.Floor
import Mathlib.Data.List.Sort

/-!
`jnp.quantile(a, q)` with its default `method="linear"` (external contract, from the jax implementation:
`pos = q * (n - 1)`, `low = floor pos`, `high = ceil pos`, `high_weight = pos - low`, `low_weight = 1 - high_weight`,
both indices clamped into `[0, n-1]`, result `a_sorted[low] * low_weight + a_sorted[high] * high_weight`).
Levels outside `[0,1]` are therefore accepted by jax and give the extreme order statistics.

Used by `/repo/fortuna/conformal/regression/{quantile,onedim_uncertainty,jackknife_minmax,jackknifeplus,cvplus,enbpi}.py`,
`/repo/fortuna/prob_model/predictive/regression.py`, `/repo/fortuna/prob_output_layer/regression.py`.
Exact field arithmetic, no NaN; an empty array is `none` (jax returns NaN).
-/
namespace Verif.Quantile

variable {K : Type*} [Field K] [LinearOrder K] [IsStrictOrderedRing K] [FloorRing K]

/-- `sorted[clamp(i, 0, n-1)]` -/
def atClamped (s : List K) (i : ℤ) : K :=
  s.getD (max 0 (min i ((s.length : ℤ) - 1))).toNat 0

/-- Linear interpolation at position `p` in a sorted array. -/
def interp (s : List K) (p : K) : K :=
  let low := ⌊p⌋
  let high := ⌈p⌉
  let highWeight := p - (low : K)
  let lowWeight := 1 - highWeight
  atClamped s low * lowWeight + atClamped s high * highWeight

/-- `jnp.sort`. -/
def sort (l : List K) : List K := l.insertionSort (· ≤ ·)

/-- `jnp.quantile(l, q)`. -/
def quantile (l : List K) (q : K) : Option K :=
  if l = [] then none else some (interp (sort l) (q * ((l.length : K) - 1)))

end Verif.Quantile
