import Verif.Model.FitStart

/-!
# Sampling from stored posterior states

Source: the `sample` methods of `/repo/fortuna/prob_model/posterior/map/map_posterior.py`,
`/repo/fortuna/prob_model/posterior/deep_ensemble/deep_ensemble_posterior.py` and
`/repo/fortuna/prob_model/posterior/sgmcmc/sgmcmc_posterior.py`; `pull` of
`/repo/fortuna/prob_model/posterior/posterior_multi_state_repository.py`.

The random choice of a slot is an argument (`random.choice(rng, n)` gives a number below `n`, each with the same
probability: jax contract). `pure_callback` is a call.
-/

set_option linter.unusedSectionVars false

namespace Verif.PosteriorSample
open Verif.StateRepo Verif.FitStart

/-- `JointState`. -/
structure Joint (V : Type) where
  params : V
  mutbl : V
  calibParams : V
  calibMutable : V

/-- The names of the four attributes in a stored state. -/
structure Names (A : Type) where
  params : A
  mutbl : A
  calibParams : A
  calibMutable : A

section
variable {A V : Type} [DecidableEq A]

/-- `JointState(params=state.params, mutable=state.mutable, …)`: map_posterior.py L123-128, deep_ensemble_posterior.py
L202-207, sgmcmc_posterior.py L54-59. -/
def jointOf (n : Names A) (s : TS A V) : Joint V :=
  ⟨s.attr n.params, s.attr n.mutbl, s.attr n.calibParams, s.attr n.calibMutable⟩

/-- `MAPPosterior.sample`, map_posterior.py L121-128: the key is not used. -/
def mapSample (n : Names A) (r : Repo (TS A V)) : Except Err (Joint V) := (getState r false).map (jointOf n)

/-- `DeepEnsemblePosterior.sample`, deep_ensemble_posterior.py L194-207, and `SGMCMCPosterior.sample`, sgmcmc_posterior.py
L28-59 (on a repository that keeps all parameters): the state of slot 0 is read for its structure, then that of the slot
drawn. -/
def slotSample (n : Names A) (m : List (Repo (TS A V))) (draw : ℕ) : Except Err (Joint V) := do
  let _ ← multiGet m 0
  let s ← multiGet m draw
  .ok (jointOf n s)

end

end Verif.PosteriorSample
