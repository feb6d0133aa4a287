import Verif.Model.Multivalid

/-!
Model of `/repo/fortuna/conformal/classification/maxcovfixprec_binary_classfication.py`.  Exact arithmetic; the precision
of an empty selection is NaN in the code and every comparison with it is false.
-/
namespace Verif.MaxCoverage

open Verif.ArrayOps Verif.Multivalid

variable {K : Type*} [Field K] [LinearOrder K] [IsStrictOrderedRing K]

/-- Value of the objective for a selection `b`: L55-59 and L63-67. -/
def objective (b : List Bool) (targets : List K) (level : K) : K :=
  let pb : K := probB b
  if pb ≠ 0 ∧ level ≤ maskedMean b targets / pb then pb else 0

/-- Selection of the positive objective, L54-55. -/
def posB (tp tau : K) (probs : List K) : List Bool :=
  probs.map fun p => decide (tp ≤ min ((1 + (tau - 1) * (if 1 / 2 < p then 1 else 0)) * p) 1)

/-- Selection of the negative objective, L62-63. -/
def negB (tn tau : K) (probs : List K) : List Bool :=
  probs.map fun p => decide ((1 + (tau - 1) * (if p < 1 / 2 then 1 else 0)) * p ≤ 1 - tn)

/-- `taus_pos`, L69. -/
def tausPos (tp : K) (nTaus : ℕ) : List K := linspace 1 (2 * tp) nTaus

/-- `taus_neg`, L70-72. -/
def tausNeg (tn : K) (nTaus : ℕ) : List K := (linspace (2 * (1 - tn)) 1 nTaus).reverse

/-- The stored patches. -/
structure Patches (K : Type*) where
  tauPos : K
  tauNeg : K
  deriving DecidableEq

/-- `calibrate`, L42-85, without the optional final call of `apply_patches`. `jnp.max` of an empty array raises. -/
def calibrate (targets probs : List K) (tp tn : K) (nTaus : ℕ) (margin : K) : Except String (Patches K) :=
  if tn ≤ 1 / 2 ∨ tp ≤ 1 / 2 then .error "ValueError"
  else if nTaus = 0 then .error "ValueError"
  else
    let valuesPos := (tausPos tp nTaus).map fun tau => objective (posB tp tau probs) targets (tp + margin)
    let valuesNeg := (tausNeg tn nTaus).map fun tau =>
      objective (negB tn tau probs) (targets.map fun y => 1 - y) (tn + margin)
    .ok ⟨(tausPos tp nTaus).getD (argmax valuesPos) 0, (tausNeg tn nTaus).getD (argmax valuesNeg) 0⟩

/-- `apply_patches`, L90-100. -/
def applyPatches (patches : Option (Patches K)) (probs : List K) : List K :=
  match patches with
  | none => probs
  | some t =>
    let probs := probs.map fun p => if 1 / 2 < p then min (t.tauPos * p) 1 else p
    probs.map fun p => if p < 1 / 2 then t.tauNeg * p else p

/-- `true_positive_coverage`, L114-116. -/
def truePositiveCoverage (probs : List K) (threshold : K) : K := probB (probs.map fun p => decide (threshold ≤ p))

/-- `true_negative_coverage`, L118-120 (note: `threshold`, not `1 - threshold`). -/
def trueNegativeCoverage (probs : List K) (threshold : K) : K := probB (probs.map fun p => decide (p ≤ threshold))

/-- `true_positive_precision`, L102-106 (NaN is `none`). -/
def truePositivePrecision (probs targets : List K) (threshold : K) : Option K :=
  let b := probs.map fun p => decide (threshold ≤ p)
  if probB (K := K) b = 0 then none else some (maskedMean b targets / probB b)

/-- `true_negative_precision`, L108-112. -/
def trueNegativePrecision (probs targets : List K) (threshold : K) : Option K :=
  let b := probs.map fun p => decide (p ≤ 1 - threshold)
  if probB (K := K) b = 0 then none else some (maskedMean b (targets.map fun y => 1 - y) / probB b)

end Verif.MaxCoverage
