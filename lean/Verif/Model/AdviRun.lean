import Mathlib.Data.String.Basic
import Verif.Model.GaussPost

/-!
# ADVI from fit to samples, load and further fits

Source: `/repo/fortuna/prob_model/posterior/normalizing_flow/advi/{advi_posterior,advi_trainer,advi_architecture}.py`.

Conventions of `Verif.Model.GaussPost`: real arithmetic, arrays as lists of their entries, parameters as nested dictionaries,
random numbers as arguments. A selection of parameters (`which_params`) is `some ps`, no freezing is `none`. The order of `ps` in
a stored state is the one read back from it (`decode_encoded_tuple_of_lists_of_strings_to_array`), which may differ from that of
the fit. Not modelled: mutable and calibration state, which are passed on unchanged, and the steps of the training, which here
turn vectors into any vectors of the same lengths.
-/

set_option linter.unusedSectionVars false

namespace Verif.GaussPost

open Verif.Nested Verif.Nested.Obj

noncomputable section

/-- `forward`, advi_architecture.py L34-58, on one row of base noise. -/
def forwardB (m s u : List ℝ) : Except String (List ℝ) := do
  let v ← bcast (fun s u => Real.exp s * u) s u
  bcast (· + ·) m v

/-- `_unravel_params`, advi_trainer.py L73-93: the parameters stored at the end of the training (`on_train_end`, L58-71) and in
every checkpoint (`save_checkpoint`, L43-56). `params` are those the flow was made from. -/
def adviStore (params : Obj String (List ℝ)) (which : Option (List (List String))) (m s : List ℝ) :
    Except String (Obj String (List ℝ)) :=
  match which with
  | some ps => adviPair "mean" "log_std" params ps m s
  | none => do
    let d ← unravelTree params m
    let e ← unravelTree params s
    pairAll "mean" "log_std" d e

/-- What a posterior keeps beside its state: the parameters and the selection in the closure `_unravel`, and the dimension of
`_base`. -/
structure AdviPost where
  closure : Obj String (List ℝ)
  which : Option (List (List String))
  dim : ℕ

/-- After `fit`, advi_posterior.py L129-134 with `_get_unravel`, L413-451. -/
def adviFitPost (params : Obj String (List ℝ)) (which : Option (List (List String))) : Except String AdviPost :=
  match which with
  | none => .ok ⟨params, none, (ravelTree params).length⟩
  | some ps => do
    let v ← ravelPaths params ps
    pure ⟨params, some ps, v.length⟩

/-- After `load_state`, advi_posterior.py L228-265: `d` are the parameters of the state, `which` the selection decoded. An empty
selection counts as false at L255. -/
def adviLoadPost (d : Obj String (List ℝ)) (which : Option (List (List String))) : Except String AdviPost :=
  match which with
  | none => do
    let c ← projAll "mean" d
    pure ⟨c, none, (ravelTree d).length / 2⟩
  | some ps => do
    let ml ← nestedUnpair d ps "mean" "log_std"
    let c ← if ps = [] then projAll "mean" d else pure ml.1
    pure ⟨c, some ps, (ravelTree ml.2).length⟩

/-- `{k: v["params"][label] for k, v in state.params.items()}`, advi_posterior.py L304-306. -/
def rawProj (label : String) : Obj String (List ℝ) → Except String (Obj String (List ℝ))
  | cons k v r => do
    let p ← item v "params"
    let m ← item p label
    let r' ← rawProj label r
    pure (cons k m r')
  | d => .ok d

/-- The closure `_unravel`, advi_posterior.py L419-435. -/
def AdviPost.unravel (post : AdviPost) (v : List ℝ) : Except String (Obj String (List ℝ)) :=
  match post.which with
  | none => unravelTree post.closure v
  | some ps => unravelInto post.closure ps v

/-- `sample`, advi_posterior.py L292-338: `d` are the parameters of the state, `which` the selection decoded from it, `noise` the
base sample for every dimension. -/
def AdviPost.sample (post : AdviPost) (d : Obj String (List ℝ)) (which : Option (List (List String))) (noise : ℕ → List ℝ) :
    Except String (Obj String (List ℝ)) := do
  let ms ← match which with
    | none => do
      let m ← rawProj "mean" d
      let s ← rawProj "log_std" d
      pure (ravelTree m, ravelTree s)
    | some ps => do
      let ml ← nestedUnpair d ps "mean" "log_std"
      let m ← ravelPaths ml.1 ps
      let s ← ravelPaths ml.2 ps
      pure (m, s)
  let v ← forwardB ms.1 ms.2 (noise post.dim)
  post.unravel v

/-- A further `fit` from an ADVI state, `_init_map_state`, advi_posterior.py L351-373, and `_get_unravel`, L413-451: the
parameters the flow is made from, and the vectors of means and log-standard-deviations that `init_params`
(advi_architecture.py L86-116) returns. `old` is the selection of the state, `new` the one of the further fit. -/
def adviRestart (d : Obj String (List ℝ)) (old new : Option (List (List String))) :
    Except String (Obj String (List ℝ) × List ℝ × List ℝ) := do
  let ml ← match old with
    | some ps => nestedUnpair d ps "mean" "log_std"
    | none => do
      let m ← projAll "mean" d
      let s ← projAll "log_std" d
      pure (m, s)
  match new with
  | none => pure (ml.1, ravelTree ml.1, ravelTree ml.2)
  | some ps => do
    let m ← ravelPaths ml.1 ps
    let s ← adviRavLogStds ml.2 ps
    pure (ml.1, m, s)

end

/-- `sample` of SWAG without freezing, swag_posterior.py L218-242: a vector goes back to parameters by the structure of
`state.params`; the vectors averaged during training are `ravel_pytree(state.params)[0]` (swag_trainer.py L79-83). -/
def swagBackAll {K α : Type} [LinearOrder K] (params trained : Obj K (List α)) : Except String (Obj K (List α)) :=
  unravelTree params (ravelTree trained)

end Verif.GaussPost
