import Mathlib.Analysis.SpecialFunctions.Trigonometric.Basic
import Mathlib.Analysis.SpecialFunctions.Pow.Real

/-!
# Stochastic gradient MCMC

Sources: `/repo/fortuna/prob_model/posterior/sgmcmc/` (`sgmcmc_sampling_callback.py`,
`sghmc/sghmc_callback.py`, `cyclical_sgld/cyclical_sgld_callback.py`,
`cyclical_sgld/cyclical_sgld_integrator.py`, `sghmc/sghmc_integrator.py`,
`sgmcmc_step_schedule.py`, `sgmcmc_preconditioner.py`), and
`/repo/fortuna/prob_model/posterior/swag/swag_trainer.py`, `/repo/fortuna/utils/random.py`.

Floating-point numbers are real numbers (or elements of an ordered field where no transcendental
function occurs). Parameter trees are functions from an index type `ι` of scalar parameters.
-/

set_option linter.unusedSectionVars false

namespace Verif.SGMCMC

/-! ## Sampling callbacks -/

/-- State of `SGMCMCSamplingCallback`: `_current_step`, `_samples_count`, and the calls
`state_repository.put(state, i)` made so far as pairs (slot, state). -/
structure Sampler (S : Type) where
  step : ℕ
  count : ℕ
  puts : List (ℕ × S)

/-- `SGMCMCSamplingCallback.__init__`, sgmcmc_sampling_callback.py L26-31. -/
def Sampler.init {S : Type} : Sampler S := ⟨0, 0, []⟩

/-- `training_step_end`, sgmcmc_sampling_callback.py L36-47. `_sync_state` is the identity on a
single device. -/
def Sampler.stepEnd {S : Type} (doSample : ℕ → ℕ → Bool) (c : Sampler S) (s : S) : Sampler S :=
  let step := c.step + 1
  if doSample step c.count then ⟨step, c.count + 1, c.puts ++ [(c.count, s)]⟩
  else ⟨step, c.count, c.puts⟩

/-- `_do_sample` of SGHMC, sghmc_callback.py L49-53. `n_thinning` is positive (zero raises
`ZeroDivisionError` in the constructor as soon as a step after burn-in is tried). -/
def sghmcDoSample (nSamples burnin thinning : ℕ) (step count : ℕ) : Bool :=
  decide (count < nSamples) && decide (step > burnin) && decide ((step - burnin) % thinning = 0)

/-- `_do_sample` of cyclical SGLD, cyclical_sgld_callback.py L55-59; `ratio` is
`exploration_ratio`. -/
def cyclicalDoSample (nSamples cycle thinning : ℕ) (ratio : ℚ) (step count : ℕ) : Bool :=
  decide (count < nSamples) && decide (((step % cycle : ℕ) : ℚ) / (cycle : ℚ) ≥ ratio) &&
    decide (step % cycle % thinning = 0)

/-- The check at the end of both constructors, sghmc_callback.py L55-64 and
cyclical_sgld_callback.py L61-70: count the steps of the whole run at which a sample would be taken;
`false` is `ValueError`. -/
def accepts (doSample : ℕ → ℕ → Bool) (nSamples total : ℕ) : Bool :=
  !decide (((List.range' 1 total).filter fun t => doSample t 0).length < nSamples)

/-! ## Step schedules (sgmcmc_step_schedule.py)

`none` is a step size that is not a number (division of zero by zero). -/

noncomputable section schedules

/-- `cosine_schedule`, L34-55; `none`: the constructor raises. -/
def cosineSchedule (init : ℝ) (total : ℤ) : Option (ℕ → ℝ) :=
  if ¬ init ≥ 0 then none
  else if ¬ total > 0 then none
  else some fun step => 0.5 * init * (1 + Real.cos ((step : ℝ) / (total : ℝ) * Real.pi))

/-- `constant_schedule`, L11-31. -/
def constantSchedule (init : ℝ) : Option (ℕ → ℝ) :=
  if ¬ init ≥ 0 then none else some fun _ => init

/-- `polynomial_schedule`, L58-83. -/
def polynomialSchedule (a b gamma : ℝ) : Option (ℕ → ℝ) :=
  if ¬ (0.5 < gamma ∧ gamma ≤ 1) then none
  else some fun step => a * (b + (step : ℝ)) ^ (-gamma)

/-- `constant_schedule_with_cosine_burnin`, L86-116. `step / 0` is not a number at step 0 and
infinite afterwards (then the minimum with one is one). -/
def burninSchedule (init final : ℝ) (burnin : ℤ) : Option (ℕ → Option ℝ) :=
  if ¬ init ≥ 0 then none
  else if ¬ final ≥ 0 then none
  else if ¬ burnin ≥ 0 then none
  else some fun step =>
    let t : Option ℝ :=
      if burnin = 0 then (if step = 0 then none else some 1)
      else some (min ((step : ℝ) / (burnin : ℝ)) 1)
    t.map fun t =>
      let coef := (1 + Real.cos (t * Real.pi)) * 0.5
      coef * init + (1 - coef) * final

/-- `cyclical_cosine_schedule_with_const_burnin`, L119-149; the remainder modulo zero is not a
number. -/
def cyclicalSchedule (init : ℝ) (burnin cycle : ℕ) : Option (ℕ → Option ℝ) :=
  if ¬ init ≥ 0 then none
  else some fun step =>
    let t : ℕ := step - burnin - 1
    if cycle = 0 then none
    else some (0.5 * init * (1 + Real.cos (((t % cycle : ℕ) : ℝ) / (cycle : ℝ) * Real.pi)))

end schedules

/-! ## Preconditioners (sgmcmc_preconditioner.py) -/

/-- A preconditioner with state type `P` acting on parameter trees `ι → ℝ`, L15-37. -/
structure Precond (ι P : Type) where
  init : P
  update : (ι → ℝ) → P → P
  mulSqrt : (ι → ℝ) → P → ι → ℝ
  mulInv : (ι → ℝ) → P → ι → ℝ
  mulSqrtInv : (ι → ℝ) → P → ι → ℝ

noncomputable section

/-- `rmsprop_preconditioner`, L44-101; the state is the tree of moment estimates. -/
def rmsprop (ι : Type) (decay eps : ℝ) : Precond ι (ι → ℝ) where
  init := fun _ => 0
  update := fun g e i => e i * decay + g i ^ 2 * (1 - decay)
  mulInv := fun v e i => v i / (eps + Real.sqrt (e i))
  mulSqrt := fun v e i => v i * Real.sqrt (eps + Real.sqrt (e i))
  mulSqrtInv := fun v e i => v i / Real.sqrt (eps + Real.sqrt (e i))

/-- `identity_preconditioner`, L108-138. -/
def identityPrecond (ι : Type) : Precond ι Unit where
  init := ()
  update := fun _ _ => ()
  mulInv := fun v _ => v
  mulSqrt := fun v _ => v
  mulSqrtInv := fun v _ => v

/-! ## Integrators -/

/-- Keys of the pseudo-random generator in the free-key model: a seed followed by the branches taken
at every `split` (trusted: different paths give independent keys). -/
inductive Key where
  | seed (n : ℕ)
  | left (k : Key)
  | right (k : Key)
  deriving DecidableEq

/-- `OptaxSGHMCState`, sghmc_integrator.py L21-27. -/
structure HMCState (ι P : Type) where
  count : ℕ
  key : Key
  momentum : ι → ℝ
  pre : P

/-- `update_fn` of `sghmc_integrator`, sghmc_integrator.py L59-92: the update to add to the
parameters and the new state. `normal k` is `generate_random_normal_like_tree(k, ·)`. -/
def sghmcUpdate {ι P : Type} (pc : Precond ι P) (decay : ℝ) (resample : Option ℕ)
    (schedule : ℕ → ℝ) (normal : Key → ι → ℝ) (g : ι → ℝ) (s : HMCState ι P) :
    (ι → ℝ) × HMCState ι P :=
  let h := schedule s.count
  let pre := pc.update g s.pre
  let noise := pc.mulSqrt (normal (.left s.key)) pre
  let m0 : ι → ℝ := match resample with
    | none => s.momentum
    | some r => if s.count % r = 0 then fun _ => 0 else s.momentum
  let m : ι → ℝ := fun i =>
    decay * m0 i + g i * Real.sqrt h + noise i * Real.sqrt (2 * (1 - decay))
  (fun i => pc.mulInv m pre i * Real.sqrt h, ⟨s.count + 1, .right s.key, m, pre⟩)

/-- `init_fn`, sghmc_integrator.py L51-57. -/
def sghmcInit {ι P : Type} (pc : Precond ι P) (key : Key) : HMCState ι P :=
  ⟨0, key, fun _ => 0, pc.init⟩

/-- Sampling with this integrator, trainer.py L170 (`apply_gradients` adds the updates to the parameters): the parameters and the
state after `t` steps, `grad` being the gradient of the log-joint probability. -/
def sghmcRun {ι P : Type} (pc : Precond ι P) (decay : ℝ) (resample : Option ℕ) (schedule : ℕ → ℝ) (normal : Key → ι → ℝ)
    (grad : (ι → ℝ) → ι → ℝ) (key : Key) (x₀ : ι → ℝ) : ℕ → (ι → ℝ) × HMCState ι P
  | 0 => (x₀, sghmcInit pc key)
  | t + 1 =>
    let r := sghmcRun pc decay resample schedule normal grad key x₀ t
    let u := sghmcUpdate pc decay resample schedule normal (grad r.1) r.2
    (fun i => r.1 i + u.1 i, u.2)

/-- The same with mini-batches, trainer.py L137-170: `grad t` is the gradient of the log-joint probability estimated on the batch of step `t`. -/
def sghmcRunOn {ι P : Type} (pc : Precond ι P) (decay : ℝ) (resample : Option ℕ) (schedule : ℕ → ℝ) (normal : Key → ι → ℝ)
    (grad : ℕ → (ι → ℝ) → ι → ℝ) (key : Key) (x₀ : ι → ℝ) : ℕ → (ι → ℝ) × HMCState ι P
  | 0 => (x₀, sghmcInit pc key)
  | t + 1 =>
    let r := sghmcRunOn pc decay resample schedule normal grad key x₀ t
    let u := sghmcUpdate pc decay resample schedule normal (grad t r.1) r.2
    (fun i => r.1 i + u.1 i, u.2)

/-- Whether the cyclical integrator takes the Langevin branch at optimizer count `count`,
cyclical_sgld_integrator.py L94-99. -/
def isSgld (cycle : ℕ) (ratio : ℚ) (count : ℕ) : Bool :=
  decide (((count % cycle : ℕ) : ℚ) / (cycle : ℚ) ≥ ratio)

/-- `update_fn` of `cyclical_sgld_integrator`, cyclical_sgld_integrator.py L64-102. `optax.sgd` with
learning rate one negates its argument and its state is empty. -/
def cyclicalUpdate {ι P : Type} (pc : Precond ι P) (cycle : ℕ) (ratio : ℚ) (schedule : ℕ → ℝ)
    (normal : Key → ι → ℝ) (g : ι → ℝ) (s : HMCState ι P) : (ι → ℝ) × HMCState ι P :=
  if isSgld cycle ratio s.count then sghmcUpdate pc 0 none schedule normal g s
  else
    let h := schedule s.count
    let pre := pc.update g s.pre
    let u : ι → ℝ := fun i => -(-1.0 * h * g i)
    (pc.mulInv u pre, { s with count := s.count + 1, pre := pre })

/-- Sampling with this integrator, trainer.py L170 and cyclical_sgld_integrator.py L58-62: the parameters and the state after `t` steps. -/
def cyclicalRun {ι P : Type} (pc : Precond ι P) (cycle : ℕ) (ratio : ℚ) (schedule : ℕ → ℝ) (normal : Key → ι → ℝ)
    (grad : (ι → ℝ) → ι → ℝ) (key : Key) (x₀ : ι → ℝ) : ℕ → (ι → ℝ) × HMCState ι P
  | 0 => (x₀, sghmcInit pc key)
  | t + 1 =>
    let r := cyclicalRun pc cycle ratio schedule normal grad key x₀ t
    let u := cyclicalUpdate pc cycle ratio schedule normal (grad r.1) r.2
    (fun i => r.1 i + u.1 i, u.2)

/-! ## SWAG statistics (swag_trainer.py) -/

/-- The running statistics kept by `SWAGTrainer`: mean, mean of squares, deviation columns. -/
structure Swag (ι : Type) where
  mean : ι → ℝ
  sq : ι → ℝ
  dev : List (ι → ℝ)

/-- `training_step_end`, swag_trainer.py L84-102: one collected weight vector `x` in epoch `epoch`.
`dev[:, -rank + 1:]` keeps the last `rank - 1` columns, or all of them when `rank = 1`
(`rank ≥ 1`). -/
def swagStep {ι : Type} (rank : ℕ) (st : Option (Swag ι)) (ex : ℕ × (ι → ℝ)) : Option (Swag ι) :=
  let e : ℝ := ex.1
  let x := ex.2
  match st with
  | none => some ⟨x, fun i => x i ^ 2, [fun _ => 0]⟩
  | some s =>
    let mean : ι → ℝ := fun i => (s.mean i * e + x i) / (e + 1)
    let sq : ι → ℝ := fun i => (s.sq i * e + x i ^ 2) / (e + 1)
    let kept := if rank = 1 then s.dev else s.dev.drop (s.dev.length - (rank - 1))
    some ⟨mean, sq, kept ++ [fun i => x i - mean i]⟩

/-- `_update_state_with_stats`, swag_trainer.py L41-43: the standard deviation written to the
state. -/
def swagStd {ι : Type} (s : Swag ι) (i : ι) : ℝ := Real.sqrt (max (s.sq i - s.mean i ^ 2) 0)

end

/-! ## Random keys (utils/random.py) -/

/-- `RandomNumberGenerator.get`, random.py L38-49: the internal key becomes the first half of its
split, and that same key is returned. -/
def rngGet (k : Key) : Key × Key := (.left k, .left k)

/-- The keys returned by `n` successive calls of `get`. -/
def rngGets : ℕ → Key → List Key
  | 0, _ => []
  | n + 1, k => (rngGet k).1 :: rngGets n (rngGet k).2

end Verif.SGMCMC
