import Mathlib.Algebra.Order.Field.Basic
import Mathlib.Data.List.Basic

/-!
Array primitives of `jax.numpy` used throughout `/repo/fortuna` (external contracts, exact arithmetic, no NaN):
`argmax`/`argmin` return the first extremal index, `mean` divides by the number of elements, `clip`, `linspace`.
-/
namespace Verif.ArrayOps

section order
variable {α : Type*} [LinearOrder α]

/-- `argmaxFrom best bi i l`: scan `l`, whose first entry has index `i`, starting from the running best. -/
def argmaxFrom (best : α) (bi i : ℕ) : List α → ℕ
  | [] => bi
  | x :: xs => if best < x then argmaxFrom x i (i + 1) xs else argmaxFrom best bi (i + 1) xs

/-- `jnp.argmax`: index of the first maximal entry (`0` on an empty list, where jax raises). -/
def argmax : List α → ℕ
  | [] => 0
  | x :: xs => argmaxFrom x 0 1 xs

/-- `jnp.argmin`: index of the first minimal entry. -/
def argmin (l : List α) : ℕ := argmax (α := αᵒᵈ) l

end order

section field
variable {K : Type*} [Field K] [LinearOrder K]

/-- `jnp.clip(x, lo, hi)`. -/
def clip (x lo hi : K) : K := min (max x lo) hi

/-- `jnp.mean` of a vector (`0` on an empty one, where jax gives NaN). -/
def mean (l : List K) : K := l.sum / (l.length : K)

/-- `jnp.linspace(a, b, n)`. -/
def linspace (a b : K) (n : ℕ) : List K :=
  (List.range n).map fun i : ℕ => a + (i : K) * ((b - a) / ((n - 1 : ℕ) : K))

end field

end Verif.ArrayOps
