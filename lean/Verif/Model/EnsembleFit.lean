import Verif.Model.FitRun
import Verif.Model.Predictive

/-!
# Fitting a deep ensemble and what its predictive statistics are computed from

Source: `/repo/fortuna/prob_model/posterior/deep_ensemble/deep_ensemble_posterior.py` L112-161 (one member), L181-192 (the loop),
L196-207 (a sample).

Left out: the status, the repository (a list of states here; `Verif.PosteriorSample` has the repositories), the state of the network and of
the calibrator.
-/

set_option linter.unusedSectionVars false

namespace Verif.EnsembleFit

open Verif.FitRun Verif.FitStart Verif.Training

variable {ι P O B Key : Type} [Fintype ι]

/-- The loop over the members, L181-192, with `_fit` L112-161: member `i` starts from a state of its own (`start i`, initialised at
random or restored), with a trainer, a generator (`p i`: the gradients of a random loss may differ) and a directory of its own, and goes
through the loader itself (`data i e` are the batches of its epoch `e`). `none`: a checkpoint was refused. -/
noncomputable def fitMembers (a : Args) (p : ℕ → Problem ι P O B) (data : ℕ → ℕ → List B) (start : ℕ → TState P O (ι → ℝ))
    (dirs : ℕ → Dir (TState P O (ι → ℝ))) (size : ℕ) : Option (List (TState P O (ι → ℝ))) :=
  (List.range size).mapM fun i => (runFit a (p i) (data i) (start i) (dirs i)).map (·.state)

/-- `sample`, L196-207, followed by a statistic `f` of the network with these parameters: `draw key` is
`random.choice(key, ensemble_size)`. -/
def sampleStat (f : P → ℝ) (members : List (TState P O (ι → ℝ))) (draw : Key → ℕ) (key : Key) : ℝ :=
  match members[draw key]? with
  | some s => f s.params
  | none => 0

end Verif.EnsembleFit
