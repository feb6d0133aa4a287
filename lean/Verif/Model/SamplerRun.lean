import Verif.Model.SubsetRepo
import Verif.Model.SGMCMC
import Verif.Model.PosteriorSample

/-!
# A fit of a sampler, from the starting state to samples, saved and loaded

Sources: `/repo/fortuna/prob_model/posterior/sgmcmc/sghmc/sghmc_posterior.py` L62-187,
`sgmcmc/cyclical_sgld/cyclical_sgld_posterior.py` (the same flow), `sgmcmc/sgmcmc_posterior.py` L28-109 and
`/repo/fortuna/training/trainer.py` L604-715.

Simplifications: the value of the attribute `_encoded_which_params` is not part of a state here; the decoded paths are given
to `load` (what decoding gives back is `Verif.Nested.decode`, C30). One device. The checkpoints that the trainer writes to `dir/c` during
training are not modelled: `last0` is whatever is there when training ends.
-/

set_option linter.unusedSectionVars false

namespace Verif.SamplerRun
open Verif.StateRepo Verif.Nested Verif.SubsetRepo Verif.SGMCMC Verif.PosteriorSample

/-- What a fit depends on. `steps` are the training steps that are executed (fewer than `total` after early stopping); each
gives new values to the leaves of `state.params` from all current parameters, with its batch, its random draws and its
momenta already chosen. `others t` are the other attributes of the state after `t` steps. -/
structure Run (A K W : Type) where
  P : A
  freeze : Option (List K → W → String)
  steps : List (Obj K W → List K → W → W)
  total : ℕ
  others : ℕ → A → Obj K W
  doSample : ℕ → ℕ → Bool
  nSamples : ℕ
  keep : ℕ

section
variable {A K W : Type} [DecidableEq A] [DecidableEq K]

/-- `get_trainable_paths`, freeze.py L84-106, called when a freeze function is given, sghmc_posterior.py L137-143. -/
def whichParams (r : Run A K W) (start : Obj K W) : Except String (Option (List (List K))) :=
  match r.freeze with
  | none => .ok none
  | some f => (pathsWithLabel start f "trainable" ["frozen", "trainable"]).map some

/-- `on_train_start`, trainer.py L604-641: what is kept apart and what `state.params` holds during training. -/
def startParams (r : Run A K W) (start : Obj K W) : Except String (Obj K W × Obj K W) :=
  match r.freeze with
  | none => .ok (.nil, start)
  | some f => splitParams start f

/-- `_get_all_params`, trainer.py L701-715. -/
def allParams (r : Run A K W) (F T : Obj K W) : Obj K W :=
  match r.freeze with
  | none => T
  | some _ => nestedUpdate F T

/-- `state.params` after the first `t` steps. -/
def chain (r : Run A K W) (F T : Obj K W) (t : ℕ) : Obj K W :=
  (r.steps.take t).foldl (fun T g => mapLeaves (g (allParams r F T)) [] T) T

/-- The state after `t` steps that the callback is given, trainer.py L519-541. Its class is that of `convert_from_map_state`,
sghmc_state.py L34-66, which starts at step 0. -/
def stateAt (r : Run A K W) (F T : Obj K W) (t : ℕ) : TS A (Obj K W) :=
  ⟨t, none, fun a => if a = r.P then chain r F T t else r.others t a⟩

/-- The state that `on_train_end` saves and returns, trainer.py L643-655 and L685-699. -/
def finalState (r : Run A K W) (F T : Obj K W) : TS A (Obj K W) :=
  ⟨r.steps.length, none, fun a =>
    if a = r.P then allParams r F (chain r F T r.steps.length) else r.others r.steps.length a⟩

/-- The slots of the new repository, posterior_multi_state_repository.py L20-29: in memory, or the sub-directories `dir/i` with
what they hold. -/
def freshSlots (n : ℕ) (dirs : Option (ℕ → Loc (TS A (Obj K W)))) : List (Repo (TS A (Obj K W))) :=
  (List.range n).map fun i => match dirs with
    | none => { dirSet := false, ckpt := .absent, other := .absent, mem := none }
    | some d => { dirSet := true, ckpt := d i, other := .absent, mem := none }

/-- `all_params if which_params else None`, sghmc_posterior.py L153-158 and sgmcmc_posterior.py L71-76. -/
def newRepo (slots : List (Repo (TS A (Obj K W)))) (which : Option (List (List K))) (all : Obj K W) : SubRepo A K W :=
  ⟨slots, match which with
    | some (_ :: _) => some all
    | _ => none, which⟩

/-- What a fit leaves: the repository and the content of `dir/c`. -/
structure Fitted (A K W : Type) where
  repo : SubRepo A K W
  last : Loc (TS A (Obj K W))

/-- `SGHMCPosterior.fit` from the starting parameters on, sghmc_posterior.py L137-187: the repository, the callback (whose
constructor checks the length of the run), training with a put at every sampled step, the final checkpoint. -/
def fit (r : Run A K W) (start : Obj K W) (dirs : Option (ℕ → Loc (TS A (Obj K W)))) (last0 : Loc (TS A (Obj K W))) :
    Except SErr (Fitted A K W) := do
  let which ← liftPy (whichParams r start)
  if !accepts r.doSample r.nSamples r.total then .error (.py "ValueError")
  else
    let (F, T) ← liftPy (startParams r start)
    let c := ((List.range' 1 r.steps.length).map (stateAt r F T)).foldl (Sampler.stepEnd r.doSample) Sampler.init
    let m ← c.puts.foldlM (fun m x => subPut r.P m x.2 x.1 r.keep) (newRepo (freshSlots r.nSamples dirs) which start)
    match dirs with
    | none => .ok ⟨m, last0⟩
    | some _ => do
      let l ← liftRepo (save last0 (finalState r F T) r.keep)
      .ok ⟨m, l⟩

/-- `load_state(dir)`, sgmcmc_posterior.py L63-76, where `which` are the decoded paths and `n` is the loading approximator's
`n_samples`. -/
def load (P : A) (which : Option (List (List K))) (n : ℕ) (dirs : ℕ → Loc (TS A (Obj K W))) (last : Loc (TS A (Obj K W))) :
    Except SErr (SubRepo A K W) :=
  match restore last with
  | .error _ => .error (.py "ValueError")
  | .ok s => .ok (newRepo (freshSlots n (some dirs)) which (s.attr P))

/-- The sub-directories that a repository works on. -/
def slotDirs (m : SubRepo A K W) (i : ℕ) : Loc (TS A (Obj K W)) :=
  match m.slots[i]? with
  | some r => r.ckpt
  | none => .absent

/-- `sample`, sgmcmc_posterior.py L28-59, when `random.choice(rng, n_samples)` is `draw`. -/
def sample (n : Names A) (m : SubRepo A K W) (draw : ℕ) : Except SErr (Joint (Obj K W)) := do
  let _ ← subGet n.params m 0
  let s ← subGet n.params m draw
  .ok (jointOf n s)

/-- `save_state(checkpoint_dir, keep_top_n_checkpoints)`, sgmcmc_posterior.py L78-80: the directory is not used. -/
def saveState (P : A) (n : ℕ) (m : SubRepo A K W) (keep : ℕ) : Except SErr (SubRepo A K W) :=
  (List.range n).foldlM (fun m i => do
    let s ← subGet P m i
    subPut P m s i keep) m

/-- `_restore_state_from_somewhere`, sgmcmc_posterior.py L82-100: the parameters a further fit starts from. `restored` is what
is in `restore_checkpoint_path/c` when that path is given. -/
def restartParams (P : A) (restored : Option (Loc (TS A (Obj K W)))) (m : SubRepo A K W) : Except SErr (Obj K W) :=
  match restored with
  | some l => (liftRepo (restore l)).map fun s => s.attr P
  | none => (subGet P m (m.slots.length - 1)).map fun s => s.attr P

end

end Verif.SamplerRun
