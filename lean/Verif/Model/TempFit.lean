import Verif.Model.Calibration

/-!
# Fitting temperatures by grid search

Source: `/repo/fortuna/calibration/{classification,binary_classification}/temp_scaling/*.py`, the `fit` methods that call
`scipy.optimize.brute`.

Exact arithmetic. `polish` stands for `scipy.optimize.fmin`, which `brute` runs from the best grid point (its argument `finish` is
left at the default); what is assumed about it is `Verif.Props.TempFit.Strict`.
-/

set_option linter.unusedSectionVars false

namespace Verif.TempFit

open Verif.ArrayOps Verif.Calibration

section
variable {K L : Type} [Field K] [LinearOrder K] [LinearOrder L]

/-- `scipy.optimize.brute(f, ranges=[(lo, hi)], Ns=ns)[0]`: the first best of `ns` equally spaced points, both ends included, handed
to `fmin`. -/
def brute (polish : (K → L) → K → K) (f : K → L) (lo hi : K) (ns : ℕ) : K :=
  polish f ((linspace lo hi ns).getD (argmin ((linspace lo hi ns).map f)) lo)

/-- `F1BinaryClassificationTemperatureScaling.fit`, f1_temp_scaling.py L23-42. `none` without probabilities (`np.min` raises) and
without positive targets (the losses are NaN). -/
def f1Fit (polish : (K → K) → K → K) (probs : List K) (targets : List ℕ) (threshold : K) : Option K :=
  match probs.min? with
  | none => none
  | some lo =>
    if targets.sum = 0 then none
    else some (brute polish (fun tau => (f1Loss probs targets threshold tau).getD 0) lo (1 / threshold) 1000)

/-- `F1BinaryClassificationTemperatureScaling.predict`, f1_temp_scaling.py L44-46, also with the temperature 0, where numpy divides a
positive probability to infinity (clipped to 1) and the probability 0 to NaN, which reaches no threshold. -/
def f1Predict (T threshold : K) (probs : List K) : List ℕ :=
  if T = 0 then probs.map fun p => if 0 < p ∧ threshold ≤ 1 then 1 else 0
  else binPredict T threshold probs

end

noncomputable section

/-- `temp_scaling_fn`, crossentropy_binary_temp_scaling.py L22-26. -/
def ceLoss (probs : List ℝ) (targets : List ℕ) (tau : ℝ) : ℝ :=
  -mean (List.zipWith (fun p (t : ℕ) =>
    (t : ℝ) * Real.log (clip (p / tau) (1e-9) (1 - 1e-9)) + (1 - t) * Real.log (1 - clip (p / tau) (1e-9) (1 - 1e-9))) probs targets)

/-- `CrossEntropyBinaryClassificationTemperatureScaling.fit`, crossentropy_binary_temp_scaling.py L18-30. -/
def ceFit (polish : (ℝ → ℝ) → ℝ → ℝ) (probs : List ℝ) (targets : List ℕ) : Option ℝ :=
  probs.min?.map fun lo => brute polish (ceLoss probs targets) lo 10 1000

/-- `ClassificationTemperatureScaling.fit`, classification/temp_scaling/base.py L18-38. -/
def classFit {c n : ℕ} (polish : (ℝ → ℝ) → ℝ → ℝ) (p : Fin n → Fin c → ℝ) (y : Fin n → Fin c) : ℝ :=
  brute polish (tempLoss p y) (1e-6) 10 1000

end

end Verif.TempFit
