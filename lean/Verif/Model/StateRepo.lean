import Verif.Model.Training

/-!
# Train state repositories

Sources: `/repo/fortuna/training/train_state_repository.py` and
`/repo/fortuna/prob_model/posterior/posterior_multi_state_repository.py`.

A train state is a record of attributes; its step and its accumulated gradient are singled out
because checkpointing reads the one and drops the other. `A` are the attribute names, `V` the
attribute values.
-/

set_option linter.unusedSectionVars false

namespace Verif.StateRepo
open Verif.Training

/-- A train state: `step`, `grad_accumulated`, and all other attributes. -/
structure TS (A V : Type) where
  step : ℕ
  acc : Option V
  attr : A → V

/-- `state.replace(**variables)` for variables other than `step` and `grad_accumulated`; the last
value given for an attribute counts. Attribute names are those of the state's class, so the
`TypeError` for an unknown name is outside the model. -/
def TS.replace {A V : Type} [DecidableEq A] (s : TS A V) (vars : List (A × V)) : TS A V :=
  { s with attr := fun a => vars.foldl (fun v p => if p.1 = a then p.2 else v) (s.attr a) }

/-- What `save_checkpoint` does before writing (mixin.py L49-55): accumulated gradients are not
stored. -/
def TS.strip {A V : Type} (s : TS A V) : TS A V := { s with acc := none }

/-- What can sit at a path: nothing, one checkpoint file, or a checkpoint directory. -/
inductive Loc (S : Type) where
  | absent
  | file (s : S)
  | dir (d : Dir S)

/-- Errors of the repository, by Python exception. -/
inductive Err where
  | noState        -- ValueError "No state available."
  | notFound       -- ValueError "… was not found."
  | noCheckpoint   -- ValueError "No checkpoint was found in …"
  | isDirectory    -- OSError from `os.remove` on a directory
  | fileExists     -- OSError from creating a directory where a file is
  | noAttribute    -- AttributeError
  | index          -- IndexError
  | noPath         -- TypeError from `os.remove(None)`
  deriving DecidableEq, Repr

/-- The repository with the part of the file system it works on. `dirSet` tells whether it was
built with a `checkpoint_dir`, whose content is `ckpt`; `other` is what sits at the explicit
`checkpoint_path` when one is passed; `mem` is the private attribute `__state`. -/
structure Repo (S : Type) where
  dirSet : Bool
  ckpt : Loc S
  other : Loc S
  mem : Option S

section repo
variable {A V : Type} [DecidableEq A]

/-- `restore_checkpoint`, mixin.py L59-85 (contract: what was written is read back). The optimizer
argument's effect on a restored state is left out. -/
def restore {S : Type} : Loc S → Except Err S
  | .absent => .error .notFound
  | .file s => .ok s
  | .dir d => match restoreCkpt d with
    | none => .error .noCheckpoint
    | some s => .ok s

/-- `save_checkpoint` with `force_save=True`, mixin.py L32-57: creates the directory if there is
none. -/
def save (l : Loc (TS A V)) (s : TS A V) (keep : ℕ) : Except Err (Loc (TS A V)) :=
  match l with
  | .file _ => .error .fileExists
  | .absent => .ok (.dir ((saveCkpt [] s.strip.step s.strip keep true).getD []))
  | .dir d => .ok (.dir ((saveCkpt d s.strip.step s.strip keep true).getD []))

/-- `os.remove` of the explicit path, or of the latest checkpoint file of the directory,
train_state_repository.py L77-81. -/
def removeExplicit {S : Type} : Loc S → Except Err (Loc S)
  | .absent => .error .notFound
  | .file _ => .ok .absent
  | .dir _ => .error .isDirectory

/-- `TrainStateRepository.get` without an optimizer, train_state_repository.py L24-44. `path` tells
whether `checkpoint_path` was passed. -/
def getState (r : Repo (TS A V)) (path : Bool) : Except Err (TS A V) :=
  if path then restore r.other
  else if r.dirSet then restore r.ckpt
  else match r.mem with
    | none => .error .noState
    | some s => .ok s

/-- `get` with an optimizer in the in-memory case, L40-43: the stored state itself is given the
new optimizer and a fresh optimizer state before a copy is returned. `reset` is
`s.replace(tx=optimizer, opt_state=optimizer.init(s.params))`. -/
def getOpt (r : Repo (TS A V)) (reset : TS A V → TS A V) :
    Except Err (Repo (TS A V) × TS A V) :=
  match r.mem with
  | none => .error .noState
  | some s => .ok ({ r with mem := some (reset s) }, reset s)

/-- `TrainStateRepository.put`, L46-62. -/
def put (r : Repo (TS A V)) (s : TS A V) (path : Bool) (keep : ℕ) : Except Err (Repo (TS A V)) :=
  if path then (save r.other s keep).map fun l => { r with other := l }
  else if r.dirSet then (save r.ckpt s keep).map fun l => { r with ckpt := l }
  else .ok { r with mem := some s }

/-- `TrainStateRepository.pull`, L64-82: read, then remove from disk. If `checkpoint_dir` is a file there is no latest checkpoint in it. -/
def pull (r : Repo (TS A V)) (path : Bool) : Except Err (Repo (TS A V) × TS A V) := do
  let s ← getState r path
  if path then do
    let l ← removeExplicit r.other
    .ok ({ r with other := l }, s)
  else if r.dirSet then
    match r.ckpt with
    | .dir d => .ok ({ r with ckpt := .dir d.dropLast }, s)
    | _ => .error .noPath
  else .ok (r, s)

/-- `TrainStateRepository.update`, L84-100. -/
def update (r : Repo (TS A V)) (vars : List (A × V)) (path : Bool) (keep : ℕ) :
    Except Err (Repo (TS A V)) := do
  let (r', s) ← pull r path
  put r' (s.replace vars) path keep

/-- `TrainStateRepository.extract`, L102-110. -/
def extract (r : Repo (TS A V)) (keys : List A) (path : Bool) : Except Err (List (A × V)) := do
  let s ← getState r path
  .ok (keys.map fun k => (k, s.attr k))

end repo

/-! ## Several states: `PosteriorMultiStateRepository` -/

/-- `PosteriorMultiStateRepository.__init__`, posterior_multi_state_repository.py L20-29: one
repository per slot, on disk in sub-directories named by the slot number. Explicit
`checkpoint_path` arguments, which bypass the slots, are outside the model. -/
def multiInit {A V : Type} (size : ℕ) (onDisk : Bool) : List (Repo (TS A V)) :=
  (List.range size).map fun _ => { dirSet := onDisk, ckpt := .absent, other := .absent, mem := none }

section multi
variable {A V : Type} [DecidableEq A]

/-- `get(i)`, L31-48; `IndexError` for a slot that does not exist. (Python's negative indices are
outside the model.) -/
def multiGet (m : List (Repo (TS A V))) (i : ℕ) : Except Err (TS A V) :=
  match m[i]? with
  | none => .error .index
  | some r => getState r false

/-- `get()` without an index, L49-52. -/
def multiGetAll (m : List (Repo (TS A V))) : Except Err (List (TS A V)) :=
  (List.range m.length).mapM (multiGet m)

/-- `put(state, i)`, L54-68. -/
def multiPut (m : List (Repo (TS A V))) (s : TS A V) (i keep : ℕ) :
    Except Err (List (Repo (TS A V))) :=
  match m[i]? with
  | none => .error .index
  | some r => (put r s false keep).map fun r' => m.set i r'

/-- `put(state)` without an index, L69-71: the loop body `state.append(_put(i))` looks up the attribute `append` of the
state before it evaluates the argument, so the first turn raises and nothing is stored. Returns the repository as it is left,
with the error. -/
def multiPutAll (m : List (Repo (TS A V))) (_s : TS A V) (_keep : ℕ) :
    List (Repo (TS A V)) × Option Err :=
  match m with
  | [] => ([], none)
  | _ :: _ => (m, some .noAttribute)

/-- `pull(i)`, L73-90. -/
def multiPull (m : List (Repo (TS A V))) (i : ℕ) : Except Err (List (Repo (TS A V)) × TS A V) :=
  match m[i]? with
  | none => .error .index
  | some r => (pull r false).map fun q => (m.set i q.1, q.2)

/-- `pull()` without an index, L91-94: every slot in turn. -/
def multiPullAll (m : List (Repo (TS A V))) : Except Err (List (Repo (TS A V)) × List (TS A V)) :=
  (List.range m.length).foldlM
    (fun acc i => (multiPull acc.1 i).map fun q => (q.1, acc.2 ++ [q.2])) (m, [])

/-- `update(variables, i)`, L96-117. -/
def multiUpdate (m : List (Repo (TS A V))) (vars : List (A × V)) (i keep : ℕ) :
    Except Err (List (Repo (TS A V))) :=
  match m[i]? with
  | none => .error .index
  | some r => (update r vars false keep).map fun r' => m.set i r'

/-- `update(variables)` without an index, L118-120: every slot in turn. -/
def multiUpdateAll (m : List (Repo (TS A V))) (vars : List (A × V)) (keep : ℕ) :
    Except Err (List (Repo (TS A V))) :=
  (List.range m.length).foldlM (fun m' i => multiUpdate m' vars i keep) m

/-- `extract(keys, i)` and `extract(keys)`, L122-140. -/
def multiExtract (m : List (Repo (TS A V))) (keys : List A) (i : ℕ) :
    Except Err (List (A × V)) :=
  match m[i]? with
  | none => .error .index
  | some r => extract r keys false

def multiExtractAll (m : List (Repo (TS A V))) (keys : List A) :
    Except Err (List (List (A × V))) :=
  (List.range m.length).mapM (multiExtract m keys)

end multi

end Verif.StateRepo
