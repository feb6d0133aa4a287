import Verif.Model.StateRepo
import Verif.Model.NestedDict

/-!
# Repositories that keep a part of the parameters

Source: `/repo/fortuna/prob_model/posterior/sgmcmc/sgmcmc_posterior_state_repository.py`.

The attribute values of a state are nested dictionaries; `P` is the name of the attribute `params`. The slots are those of
`Verif.StateRepo`.
-/

set_option linter.unusedSectionVars false

namespace Verif.SubsetRepo
open Verif.StateRepo Verif.Nested

/-- An exception: one of the underlying repository, or a Python one given by its class. -/
inductive SErr where
  | repo (e : Err)
  | py (cls : String)
  deriving DecidableEq, Repr

/-- `SGMCMCPosteriorStateRepository`, L28-37: the slots of the parent class, `all_params` and `which_params`. -/
structure SubRepo (A K W : Type) where
  slots : List (Repo (TS A (Obj K W)))
  allParams : Option (Obj K W)
  which : Option (List (List K))

section
variable {A K W : Type} [DecidableEq A] [DecidableEq K]

/-- Lifts an exception of the parent class. -/
def liftRepo {α : Type} : Except Err α → Except SErr α
  | .error e => .error (.repo e)
  | .ok a => .ok a

/-- Lifts an exception of the nested dictionary functions. -/
def liftPy {α : Type} : Except String α → Except SErr α
  | .error e => .error (.py e)
  | .ok a => .ok a

/-- `_update_state(state, "remove")`, L118-119 and L139-155: only the selected parameters are kept. -/
def removeState (P : A) (which : Option (List (List K))) (s : TS A (Obj K W)) : Except String (TS A (Obj K W)) :=
  match which with
  | none => .ok s
  | some ps => do
    let objs ← ps.mapM (nestedGet (s.attr P))
    let p ← nestedSet .nil ps objs true
    .ok (s.replace [(P, p)])

/-- `_update_state(state, "add")`, L118-119 and L124-138: the selected parameters are set in (a copy of) `all_params`;
`None.unfreeze()` raises. -/
def addState (P : A) (which : Option (List (List K))) (all : Option (Obj K W)) (s : TS A (Obj K W)) :
    Except String (TS A (Obj K W)) :=
  match which with
  | none => .ok s
  | some ps =>
    match all with
    | none => .error "AttributeError"
    | some a => do
      let objs ← ps.mapM (nestedGet (s.attr P))
      let p ← nestedSet a ps objs false
      .ok (s.replace [(P, p)])

/-- `_update_state(states, …)` on a list, L121-122: the comprehension calls the undefined name `_update_state` on its first
element. -/
def updateList (which : Option (List (List K))) (ss : List (TS A (Obj K W))) : Except SErr (List (TS A (Obj K W))) :=
  if which.isSome && !ss.isEmpty then .error (.py "NameError") else .ok ss

/-- `put(state, i)`, L56-71. -/
def subPut (P : A) (m : SubRepo A K W) (s : TS A (Obj K W)) (i keep : ℕ) : Except SErr (SubRepo A K W) := do
  let s' ← liftPy (removeState P m.which s)
  let slots ← liftRepo (multiPut m.slots s' i keep)
  .ok { m with slots := slots }

/-- `get(i)`, L39-54. -/
def subGet (P : A) (m : SubRepo A K W) (i : ℕ) : Except SErr (TS A (Obj K W)) := do
  let s ← liftRepo (multiGet m.slots i)
  liftPy (addState P m.which m.allParams s)

/-- `get()`, L39-54. -/
def subGetAll (m : SubRepo A K W) : Except SErr (List (TS A (Obj K W))) := do
  let ss ← liftRepo (multiGetAll m.slots)
  updateList m.which ss

/-- `extract(keys, i)`, L98-107. -/
def subExtract (P : A) (m : SubRepo A K W) (keys : List A) (i : ℕ) : Except SErr (List (A × Obj K W)) := do
  let s ← subGet P m i
  .ok (keys.map fun k => (k, s.attr k))

/-- `extract(keys)`, L108-111. -/
def subExtractAll (P : A) (m : SubRepo A K W) (keys : List A) : Except SErr (List (List (A × Obj K W))) :=
  (List.range m.slots.length).mapM (subExtract P m keys)

/-- `update(variables, i)`: inherited, works on the stored state. -/
def subUpdate (m : SubRepo A K W) (vars : List (A × Obj K W)) (i keep : ℕ) : Except SErr (SubRepo A K W) := do
  let slots ← liftRepo (multiUpdate m.slots vars i keep)
  .ok { m with slots := slots }

end

end Verif.SubsetRepo
