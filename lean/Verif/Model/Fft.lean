import Mathlib.Analysis.SpecialFunctions.Exp
import Mathlib.Analysis.SpecialFunctions.Trigonometric.Basic
import Mathlib.Data.Complex.BigOperators
import Verif.Model.Diagnostic

/-!
The autocorrelation inside `effective_sample_size` by Fourier transforms, `/repo/fortuna/prob_model/posterior/sgmcmc/sgmcmc_diagnostic.py` L99-126.
`Verif/Model/Diagnostic.lean` has the circular sums instead; here the transforms are written out, and C154 proves that they agree.

Contract: `jnp.fft.fft` and `jnp.fft.ifft` are the discrete Fourier transform and its inverse, `jnp.pad(x, (0, p))` pads every axis by `p` zeros at the end. Rounding to `complex64` is left out.
-/
set_option linter.unusedSectionVars false

namespace Verif.Fft

open Finset Complex

/-- `jnp.fft.fft` of a vector of length `N`, L117. -/
noncomputable def fft (N : ℕ) (x : ℕ → ℂ) (k : ℕ) : ℂ := ∑ j ∈ range N, x j * exp (-(2 * Real.pi * I * (j * k) / N))

/-- `jnp.fft.ifft`, L118. -/
noncomputable def ifft (N : ℕ) (y : ℕ → ℂ) (m : ℕ) : ℂ := (∑ k ∈ range N, y k * exp (2 * Real.pi * I * (k * m) / N)) / N

/-- `real(ifft(fft * conj(fft)))`, L117-119. -/
noncomputable def power (N : ℕ) (x : ℕ → ℝ) (m : ℕ) : ℝ := (ifft N (fun k => fft N (fun j => x j) k * (starRingEnd ℂ) (fft N (fun j => x j) k)) m).re

/-- `_autocorr` of one chain of length `n`, L99-126: entry `k`. -/
noncomputable def autoCovFft (n : ℕ) (x : ℕ → ℝ) (k : ℕ) : ℝ := power (Diagnostic.padded n) (Diagnostic.pad n (Diagnostic.center n x)) k / ((n : ℝ) - k)

/-- `jnp.pad(x, (0, p))[:-p]`, L114: `x` has a row for each coordinate, rows of width `w`. Both axes are padded, then the added rows are cut off. -/
def padRows (p w : ℕ) (x : List (List ℝ)) : List (List ℝ) :=
  let padded := x.map (fun row => row ++ List.replicate p 0) ++ List.replicate p (List.replicate (w + p) 0)
  padded.take (padded.length - p)

end Verif.Fft
