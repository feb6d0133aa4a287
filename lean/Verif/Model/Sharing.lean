import Verif.Model.SGMCMC

/-!
# Objects shared through default arguments

Source: `/repo/fortuna/prob_model/fit_config/{base,optimizer}.py`, `/repo/fortuna/prob_model/{base,classification,regression}.py`,
`/repo/fortuna/prob_model/posterior/sgmcmc/{sghmc/sghmc_posterior,cyclical_sgld/cyclical_sgld_posterior}.py`,
`/repo/fortuna/prob_model/posterior/sngp/sngp_posterior.py`, `/repo/fortuna/utils/random.py`.

A default argument of a Python function is evaluated once, when the function is defined, and the same object is passed at every
call that omits the argument. Here objects are positions in lists, and configurations and models refer to objects by position.
Modelled: which optimisation method and which callbacks a fit hands to its trainer, and from which random generator a model draws.
A preliminary run of MAP is a fit of MAP with `map_fit_config` before the fit itself (run_preliminary_map.py L25-38). Not modelled:
the other parts of a configuration, which no fit assigns to.
-/

set_option linter.unusedSectionVars false

namespace Verif.Sharing

open Verif.SGMCMC

/-! ## Configurations -/

/-- An optimisation method: the default `optax.adam(1e-3)` (optimizer.py L19), one given by the user, or the integrator made by
the `n`-th fit. -/
inductive Opt where
  | adam
  | user (n : ℕ)
  | integrator (n : ℕ)
  deriving DecidableEq, Repr

/-- A callback: the user's, the one adding samples to the repository made by the `n`-th fit, or the one that resets the
precision matrix (sngp_callback.py L13-42). -/
inductive Cb where
  | user (n : ℕ)
  | sampling (n : ℕ)
  | reset
  deriving DecidableEq, Repr

/-- `FitConfig`, fit_config/base.py L43-48: the optimizer is a reference to an object. -/
structure Conf where
  opt : ℕ
  cbs : Option (List Cb)
  deriving DecidableEq, Repr

/-- The objects. Optimizer 0 is the default `FitOptimizer()` of `FitConfig.__init__` (fit_config/base.py L17), configurations 0 and
1 the default `FitConfig()` of `train` (classification.py L249, regression.py L156). `fits` counts the fits made. -/
structure World where
  opts : List Opt
  confs : List Conf
  fits : ℕ
  deriving DecidableEq, Repr

/-- After the import. -/
def World.init : World := ⟨[.adam], [⟨0, none⟩, ⟨0, none⟩], 0⟩

/-- The posteriors, by how they use the configuration. `plain`: MAP, deep ensemble, ADVI and SWAG. -/
inductive Meth where
  | plain | sampler | sngp
  deriving DecidableEq, Repr

/-- What a user does. -/
inductive Op where
  | newOpt (m : Opt)
  | newConf (opt : Option ℕ) (cbs : Option (List Cb))
  | fit (m : Meth) (c : ℕ)
  deriving DecidableEq, Repr

/-- What the trainer of a fit is given. -/
structure Used where
  opt : Opt
  cbs : List Cb
  deriving DecidableEq, Repr

/-- `fit`: MAP reads method and callbacks (map_posterior.py L95-108, L136; advi_posterior.py L167, L186; swag_posterior.py L121,
L167; deep_ensemble_posterior.py L158, L234); the samplers assign the integrator to `fit_config.optimizer.method` and use it, with
their own callback only (sghmc_posterior.py L97-103, L183; cyclical_sgld_posterior.py L101-107, L188); SNGP assigns to
`fit_config.callbacks` (sngp_posterior.py L46-58). A reference to no object does nothing. -/
def fitStep (w : World) (m : Meth) (c : ℕ) : World × Option Used :=
  match w.confs[c]? with
  | none => (w, none)
  | some cf =>
    let w' := { w with fits := w.fits + 1 }
    match m with
    | .plain => (w', some ⟨w.opts.getD cf.opt .adam, cf.cbs.getD []⟩)
    | .sampler => ({ w' with opts := w.opts.set cf.opt (.integrator w.fits) }, some ⟨.integrator w.fits, [.sampling w.fits]⟩)
    | .sngp =>
      let cbs := match cf.cbs with
        | none => [Cb.reset]
        | some l => l ++ [Cb.reset]
      ({ w' with confs := w.confs.set c { cf with cbs := some cbs } }, some ⟨w.opts.getD cf.opt .adam, cbs⟩)

/-- One operation: `FitOptimizer(method)`, optimizer.py L37; `FitConfig(optimizer, callbacks)`, base.py L43-48; `fit`. -/
def step (w : World) : Op → World × Option Used
  | .newOpt m => ({ w with opts := w.opts ++ [m] }, none)
  | .newConf o cbs => ({ w with confs := w.confs ++ [⟨o.getD 0, cbs⟩] }, none)
  | .fit m c => fitStep w m c

/-- The world after some operations. -/
def run (w : World) (ops : List Op) : World := ops.foldl (fun w op => (step w op).1) w

/-- What a fit made after some operations is given. -/
def usedAfter (w : World) (ops : List Op) (m : Meth) (c : ℕ) : Option Used := (fitStep (run w ops) m c).2

/-! ## Random generators -/

/-- Models refer to their prior; every prior refers to the generator last assigned to it. Model `m` owns generator `m`
(prob_model/base.py L37). Prior 0 is the default `IsotropicGaussianPrior()` (classification.py L52; likewise regression.py L38, not
modelled separately). -/
structure Rngs where
  keys : List Key
  models : List ℕ
  priors : List (Option ℕ)
  deriving DecidableEq

/-- After the import. -/
def Rngs.init : Rngs := ⟨[], [], [none]⟩

/-- What a user does. -/
inductive ROp where
  | newPrior
  | newModel (seed : ℕ) (prior : Option ℕ)
  | draw (m : ℕ)
  | priorSample (m : ℕ)
  deriving DecidableEq

/-- A draw from generator `g`: `RandomNumberGenerator.get`, random.py L48-49. -/
def drawFrom (r : Rngs) (g : ℕ) : Rngs × Option Key :=
  match r.keys[g]? with
  | none => (r, none)
  | some k => ({ r with keys := r.keys.set g (rngGet k).1 }, some (rngGet k).2)

/-- One operation. `newModel`: `ProbModel.__init__` with `__set_rng`, prob_model/base.py L36-48; `draw`: a draw by any of the
components made for the model (posterior, joint, likelihood, predictive, …); `priorSample`: `sample` of its prior without a key,
prior/gaussian.py L37-38. -/
def rstep (r : Rngs) : ROp → Rngs × Option Key
  | .newPrior => ({ r with priors := r.priors ++ [none] }, none)
  | .newModel seed p =>
    ({ keys := r.keys ++ [.seed seed], models := r.models ++ [p.getD 0],
       priors := r.priors.set (p.getD 0) (some r.keys.length) }, none)
  | .draw m => drawFrom r m
  | .priorSample m =>
    match r.models[m]? with
    | none => (r, none)
    | some p =>
      match r.priors.getD p none with
      | none => (r, none)
      | some g => drawFrom r g

/-- After some operations. -/
def rrun (r : Rngs) (ops : List ROp) : Rngs := ops.foldl (fun r op => (rstep r op).1) r

end Verif.Sharing
