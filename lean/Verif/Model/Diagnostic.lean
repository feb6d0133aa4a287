import Mathlib.Analysis.SpecialFunctions.Pow.Real
import Mathlib.Data.Nat.Log

/-!
# Diagnostics of sampled chains

Source: `/repo/fortuna/prob_model/posterior/sgmcmc/sgmcmc_diagnostic.py`.

Real arithmetic. A chain is given by the raveled samples. `jnp.fft.ifft(fft * conj(fft))` of a real vector is the circular
autocorrelation (contract). The effective sample size is computed for every coordinate on its own; here one coordinate.
-/

set_option linter.unusedSectionVars false

namespace Verif.Diagnostic

noncomputable section

/-! ## Kernel Stein discrepancy -/

section
variable {ι : Type} [Fintype ι]

/-- `base = c**2 + jnp.dot(diff, diff)`, L53-54. -/
def base (c : ℝ) (x y : ι → ℝ) : ℝ := c ^ 2 + ∑ a, (x a - y a) * (x a - y a)

/-- `_k_0`, L51-60. -/
def k0 (c beta : ℝ) (x y g h : ι → ℝ) : ℝ :=
  let b := base c x y
  let kern := (∑ a, g a * h a) * b ^ beta
  let kern := kern + -2 * beta * (∑ a, g a * (x a - y a)) * b ^ (beta - 1)
  let kern := kern + 2 * beta * (∑ a, h a * (x a - y a)) * b ^ (beta - 1)
  let kern := kern + -2 * (Fintype.card ι : ℝ) * beta * b ^ (beta - 1)
  kern + -4 * beta * (beta - 1) * b ^ (beta - 2) * ∑ a, (x a - y a) ^ 2

/-- The scan, L62-69, on the list of samples with their gradients. -/
def ksdSum (c beta : ℝ) (xs : List ((ι → ℝ) × (ι → ℝ))) : ℝ :=
  xs.foldl (fun acc x => acc + (xs.map fun y => k0 c beta x.1 y.1 x.2 y.2).sum) 0

/-- L70. -/
def ksd (c beta : ℝ) (xs : List ((ι → ℝ) × (ι → ℝ))) : ℝ := Real.sqrt (ksdSum c beta xs) / xs.length

/-- The checks, L43-46, in a function decorated by `jit`: a parameter given in the call is a tracer, and its comparison cannot
decide an `if`; a default value stays a number. `none` is a parameter that is not given. -/
def ksdCall (c beta : Option ℝ) (xs : List ((ι → ℝ) × (ι → ℝ))) : Except String ℝ :=
  match c with
  | some _ => .error "TracerBoolConversionError"
  | none => match beta with
    | some _ => .error "TracerBoolConversionError"
    | none => .ok (ksd 1 (-1 / 2) xs)

end

/-! ## Effective sample size -/

/-- `x -= x.mean(…)`, L108-109. -/
def center (n : ℕ) (x : ℕ → ℝ) (i : ℕ) : ℝ := x i - (∑ j ∈ Finset.range n, x j) / n

/-- The length after padding, L112-114: the next power of two not below twice the length. -/
def padded (n : ℕ) : ℕ := 2 ^ Nat.clog 2 (n * 2)

/-- Zero padding, L114. -/
def pad (n : ℕ) (x : ℕ → ℝ) (i : ℕ) : ℝ := if i < n then x i else 0

/-- `ifft(fft * conj(fft))`, L117-119: the circular autocorrelation of a vector of length `N`. -/
def circular (N : ℕ) (x : ℕ → ℝ) (k : ℕ) : ℝ := ∑ i ∈ Finset.range N, x ((i + k) % N) * x i

/-- `_autocorr`, L102-126: entry `k`. -/
def autoCov (n : ℕ) (x : ℕ → ℝ) (k : ℕ) : ℝ := circular (padded n) (pad n (center n x)) k / ((n : ℝ) - k)

/-- L127. -/
def autoCorr (n : ℕ) (x : ℕ → ℝ) (k : ℕ) : ℝ := autoCov n x k / autoCov n x 0

/-- L133-137: the mask. -/
def mask (n : ℕ) (x : ℕ → ℝ) (thr : Option ℝ) (k : ℕ) : ℝ :=
  match thr with
  | none => 1
  | some t => max (1 - ∑ j ∈ Finset.range (k + 1), if autoCorr n x j < t then 1 else 0) 0

/-- L129-139: the divisor. -/
def essDenom (n : ℕ) (x : ℕ → ℝ) (thr : Option ℝ) : ℝ :=
  -1 + 2 * ∑ k ∈ Finset.range n, ((n : ℝ) - k) / n * autoCorr n x k * mask n x thr k

/-- `effective_sample_size`, L73-140: one coordinate. Division by zero gives infinities in the code and 0 here. -/
def ess (n : ℕ) (x : ℕ → ℝ) (thr : Option ℝ) : ℝ := n / essDenom n x thr

end

end Verif.Diagnostic
