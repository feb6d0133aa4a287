import Verif.Model.StateRepo
import Verif.Model.SubsetRepo

/-!
# Where posterior fitting starts from, and saving and loading of posterior states

Sources: `/repo/fortuna/prob_model/posterior/base.py` L68-255 and the `fit`, `load_state`, `save_state`, `_init_map_state`
methods of the posteriors in `/repo/fortuna/prob_model/posterior/`.

Only what decides the starting point is modelled; training itself is not. Logging is left out.
-/

set_option linter.unusedSectionVars false

namespace Verif.FitStart
open Verif.StateRepo Verif.Nested

/-- The posterior approximations. -/
inductive Method where
  | map | advi | swag | laplace | deepEnsemble | sghmc | cyclicalSGLD
  deriving DecidableEq, Repr

/-- The class of a stored state (`encoded_name`). -/
inductive Kind where
  | mapState | adviState | swagState | laplaceState | sghmcState | sgldState
  deriving DecidableEq, Repr

/-- The part of `fit_config` and `map_fit_config` that decides where to start: which options are given. `saveDir` is the
truthiness of `save_checkpoint_dir`. -/
structure Conf where
  restorePath : Bool
  startCurrent : Bool
  freeze : Bool
  mapConf : Bool
  dump : Bool
  saveDir : Bool
  deriving DecidableEq, Repr

/-- Where the parameters a fit starts from are taken. `mixed`: the trainable ones from a random initialisation, the frozen
ones from the preliminary MAP run. -/
inductive Start where
  | restored | current | prelimMap | random | mixed
  deriving DecidableEq, Repr

/-- `_is_state_available_somewhere`, base.py L219-224. -/
def available (c : Conf) : Bool := c.restorePath || c.startCurrent

/-- `_should_run_preliminary_map`, base.py L249-255. -/
def shouldRunMap (c : Conf) : Bool := !available c && c.mapConf

/-- `_restore_state_from_somewhere`, base.py L73-79: which source is read. (`start_from_current_state is not None` always
holds; the function is only called when a state is available.) -/
def restoreSource (c : Conf) : Start := if c.restorePath then .restored else .current

/-- The state classes each method accepts (`allowed_states`): map_posterior.py L84, advi_posterior.py L103,
swag_posterior.py L99, laplace_posterior.py L242, deep_ensemble_posterior.py L122; the samplers pass none
(sghmc_posterior.py L132), so that every class is accepted. -/
def allowed : Method → Kind → Bool
  | .map, k => k = .mapState
  | .advi, k => k = .mapState || k = .adviState
  | .swag, k => k = .mapState || k = .swagState
  | .laplace, k => k = .mapState || k = .laplaceState
  | .deepEnsemble, k => k = .mapState
  | .sghmc, _ => true
  | .cyclicalSGLD, _ => true

/-- The beginning of `fit` up to the choice of the starting parameters: map_posterior.py L58-89, advi_posterior.py L97-120,
swag_posterior.py L73-117 (without its checks on rank and epochs), laplace_posterior.py L236-262,
deep_ensemble_posterior.py L82-125, sghmc_posterior.py L70-134, cyclical_sgld_posterior.py L74-138. `kind` is the class of
the state found at the source, if it is read. -/
def fitStart (m : Method) (c : Conf) (kind : Start → Kind) : Except String Start :=
  if c.dump && !c.saveDir then .error "ValueError"
  else if available c then
    if allowed m (kind (restoreSource c)) then .ok (restoreSource c) else .error "ValueError"
  else
    match m with
    | .map => .ok .random
    | .advi => if shouldRunMap c then .ok .prelimMap else .ok .random
    | .swag | .laplace => if shouldRunMap c then .ok .prelimMap else .error "ValueError"
    | .deepEnsemble | .sghmc | .cyclicalSGLD =>
      if c.mapConf && !c.freeze then .ok .random
      else if shouldRunMap c then .ok .mixed else .ok .random

/-- `fit` of SWAG, swag_posterior.py L73-117: the checks on `rank` and `n_epochs` come before anything is run. -/
def swagStart (rank epochs : ℕ) (c : Conf) (kind : Start → Kind) : Except String Start :=
  if c.dump && !c.saveDir then .error "ValueError"
  else if rank < 2 then .error "ValueError"
  else if epochs ≤ rank then .error "ValueError"
  else fitStart .swag c kind

section
variable {A K W : Type} [DecidableEq A] [DecidableEq K]

/-- `_init_map_state` of the ensemble and the samplers when a MAP state and a freeze function are given,
deep_ensemble_posterior.py L243-263 and sghmc_posterior.py L205-225: the parameters to start from. -/
def mixParams (mapParams random : Obj K W) (f : List K → W → String) : Except String (Obj K W) := do
  let trainable ← pathsWithLabel mapParams f "trainable" ["frozen", "trainable"]
  let objs ← trainable.mapM (nestedGet random)
  nestedSet mapParams trainable objs false

/-- `Posterior.save_state`, base.py L186-208, on the repository `r` (`none` before any fit); the path given is the `other`
location of the repository. -/
def saveState (r : Option (Repo (TS A W))) (keep : ℕ) : Except Err (Repo (TS A W)) :=
  match r with
  | none => .error .noState
  | some r => do
    let s ← getState r false
    put r s true keep

/-- `Posterior.load_state`, base.py L168-184: the location is checked for a checkpoint and becomes the repository's. -/
def loadState (l : Loc (TS A W)) : Except Err (Repo (TS A W)) :=
  match restore l with
  | .error _ => .error .noCheckpoint
  | .ok _ => .ok { dirSet := true, ckpt := l, other := .absent, mem := none }

/-- `DeepEnsemblePosterior.save_state`, deep_ensemble_posterior.py L221-223, and the samplers', sgmcmc_posterior.py L78-80:
every state is put back where it is; the directory passed is not used. Returns the slots; the directory's content is
unchanged. -/
def ensembleSave (m : List (Repo (TS A W))) (keep : ℕ) : Except Err (List (Repo (TS A W))) :=
  (List.range m.length).foldlM (fun m i => do
    let s ← multiGet m i
    multiPut m s i keep) m

/-- `DeepEnsemblePosterior.load_state`, L209-219, from a directory whose sub-directory `"i"` holds `dirs i`: only the first is
checked. -/
def ensembleLoad (dirs : ℕ → Loc (TS A W)) (size : ℕ) : Except Err (List (Repo (TS A W))) :=
  match restore (dirs 0) with
  | .error _ => .error .noCheckpoint
  | .ok _ => .ok ((List.range size).map fun i => { dirSet := true, ckpt := dirs i, other := .absent, mem := none })

/-- A further `fit` of an ensemble redirects its slots before reading the current states, L163-170: to the sub-directories of
`save_checkpoint_dir` if given and `dump_state`, otherwise to memory. -/
def redirect (m : List (Repo (TS A W))) (dirs : Option (ℕ → Loc (TS A W))) : List (Repo (TS A W)) :=
  m.mapIdx fun i r => match dirs with
    | some d => { r with dirSet := true, ckpt := d i }
    | none => { r with dirSet := false }

/-- Reading the current state of member `i` in a further fit, L163-170, L117-123 and L279-280. -/
def ensembleCurrent (m : List (Repo (TS A W))) (dirs : Option (ℕ → Loc (TS A W))) (i : ℕ) : Except Err (TS A W) :=
  multiGet (redirect m dirs) i

end

end Verif.FitStart
