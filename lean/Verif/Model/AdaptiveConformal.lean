import Mathlib.Data.Rat.Floor

/-!
Model of `/repo/fortuna/conformal/classification/adaptive_conformal_classifier.py` (and the identical logic in
`/repo/fortuna/conformal/regression/adaptive_conformal_regressor.py`).
-/
namespace Verif.AdaptiveConformal

/-- The `ValueError`s raised by `update_error`. -/
inductive Err
  | gammaNotPositive | wereInMissing | weightsMissing | badWeights | wereInNotBinary | lengthMismatch
  deriving DecidableEq, Repr

/-- `jnp.any(weights[:-1] > weights[1:])` (`adaptive_conformal_classifier.py:92`). -/
def anyDescent : List ℚ → Bool
  | a :: b :: l => decide (a > b) || anyDescent (b :: l)
  | _ => false

/-- `jnp.allclose(jnp.sum(weights), 1.0)` with numpy's default tolerances: `|a - 1| ≤ 1e-8 + 1e-5 * 1`. -/
def allcloseOne (s : ℚ) : Bool := decide (|s - 1| ≤ 1 / 100000000 + 1 / 100000)

/-- `adaptive_conformal_classifier.py:91-96`: the `weights` are rejected. -/
def badWeights (w : List ℚ) : Bool :=
  anyDescent w || w.any (fun x => decide (x < 0)) || w.any (fun x => decide (x > 1)) || !allcloseOne w.sum

/-- `jnp.dot(weights, 1 - is_in)` (`:116`); lengths agree by the preceding checks. -/
def dot (w : List ℚ) (v : List ℚ) : ℚ := (List.zipWith (· * ·) w v).sum

/-- `if error > 1: error = 1` then `if error < 0: error = 0` (`:119-122`). -/
def clip01 (x : ℚ) : ℚ :=
  let x := if x > 1 then 1 else x
  if x < 0 then 0 else x

/-- `update_error`, `adaptive_conformal_classifier.py:72-126` / `adaptive_conformal_regressor.py:69-123`.
`isIn` is whether the current target lies in its set/interval. The checks appear in the order of the code.
Dropped: the `ndim` checks (the model's types are one-dimensional; in the regressor the target has shape `(1,)` as in
the repository's tests and example, a zero-dimensional one makes `jnp.concatenate` of `:112` raise) and `return_were_in` (see `updateErrorWere`).
Exact rationals instead of floats. -/
def updateError (isIn : Bool) (error gamma targetError : ℚ) (weights wereIn : Option (List ℚ)) : Except Err ℚ :=
  if gamma ≤ 0 then .error .gammaNotPositive
  else match weights, wereIn with
    | some _, none => .error .wereInMissing
    | none, some _ => .error .weightsMissing
    | none, none =>
      -- `error += gamma * (target_error - 1 + is_in.squeeze())`
      .ok (clip01 (error + gamma * (targetError - 1 + (if isIn then 1 else 0))))
    | some w, some were =>
      if badWeights w then .error .badWeights
      else if were.any (fun x => decide (x ≠ 0 ∧ x ≠ 1)) then .error .wereInNotBinary
      else if were.length + 1 ≠ w.length then .error .lengthMismatch
      else
        let inAll := were ++ [if isIn then 1 else 0]
        .ok (clip01 (error + gamma * (targetError - dot w (inAll.map (1 - ·)))))

/-- The updated `were_in` returned with `return_were_in=True` (`:114-115`, `:124-125`). -/
def updatedWereIn (isIn : Bool) (wereIn : Option (List ℚ)) : List ℚ :=
  wereIn.getD [] ++ [if isIn then 1 else 0]

/-- A user's online loop without weights: feed the outcome of each time step to `update_error`. -/
def run (gamma targetError : ℚ) : ℚ → List Bool → Except Err ℚ
  | e, [] => .ok e
  | e, b :: bs => match updateError b e gamma targetError none none with
    | .ok e' => run gamma targetError e' bs
    | .error x => .error x

/-- A user's online loop with weights: the `were_in` returned by one call (`return_were_in=True`) is passed to the next,
together with that step's weights. -/
def runWeighted (gamma targetError : ℚ) : ℚ → List ℚ → List (Bool × List ℚ) → Except Err (ℚ × List ℚ)
  | e, hist, [] => .ok (e, hist)
  | e, hist, (b, w) :: l => match updateError b e gamma targetError (some w) (some hist) with
    | .ok e' => runWeighted gamma targetError e' (updatedWereIn b (some hist)) l
    | .error x => .error x

end Verif.AdaptiveConformal
