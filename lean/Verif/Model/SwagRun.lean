import Verif.Model.AdviRun
import Verif.Model.SGMCMC
import Verif.Model.Utils

/-!
# The end of a SWAG fit, and sampling from its state

Source: `/repo/fortuna/prob_model/posterior/swag/swag_trainer.py`, `/repo/fortuna/prob_model/posterior/swag/swag_posterior.py`,
`/repo/fortuna/training/trainer.py`, `/repo/fortuna/utils/device.py`.

Arrays of statistics are one vector and a number of leading axes of length one. Network and calibration state is only looked at
where `sample` asks for inputs. All devices hold the same parameters (property C88); what `x[0]` takes is the value on device 0.
-/

set_option linter.unusedSectionVars false

namespace Verif.SwagRun

open Verif.Nested Verif.Nested.Obj Verif.GaussPost Verif.SGMCMC Verif.Utils

noncomputable section

/-- `SWAGState`, swag_state.py L22-38: parameters, frozen parameters, statistics of `d` parameters, the number of leading axes that the
statistics and the encoded names have, and the paths of the trained parameters. -/
structure SwagState where
  params : Obj String (List ℝ)
  frozen : Option (Obj String (List ℝ))
  d : ℕ
  stats : Swag (Fin d)
  lead : ℕ
  which : Option (List (List String))

/-- `_get_all_params`, trainer.py L701-715. -/
def allParams (frozen : Option (Obj String (List ℝ))) (T : Obj String (List ℝ)) : Obj String (List ℝ) :=
  match frozen with
  | some F => nestedUpdate F T
  | none => T

/-- `_update_state_with_stats`, swag_trainer.py L41-63: a leading axis is added if the trainer is the one for devices. Before the first step
the statistics are `None`, and their difference raises. -/
def withStats {d : ℕ} (t : TrainerCls) (frozen : Option (Obj String (List ℝ))) (params : Obj String (List ℝ)) (stats : Option (Swag (Fin d)))
    (which : Option (List (List String))) : Except String SwagState :=
  match stats with
  | none => .error "TypeError"
  | some s => .ok ⟨params, frozen, d, s, if t = .multi then 1 else 0, which⟩

/-- What `save_checkpoint` writes, swag_trainer.py L107-116 and trainer.py L685-699: the statistics, then all parameters, then the entry of device 0
(`_sync_state`, L785-787). -/
def checkpoint {d : ℕ} (t : TrainerCls) (frozen : Option (Obj String (List ℝ))) (T : Obj String (List ℝ)) (stats : Option (Swag (Fin d)))
    (which : Option (List (List String))) : Except String SwagState := do
  let st ← withStats t frozen T stats which
  pure { st with params := allParams frozen T, frozen := none, lead := if t = .multi then st.lead - 1 else st.lead }

/-- `on_train_end`, swag_trainer.py L118-137 and, for devices, L149-158: the latter takes the entry of device 0 before it adds the
statistics, and does not put frozen and trained parameters together. -/
def trainEnd {d : ℕ} (t : TrainerCls) (frozen : Option (Obj String (List ℝ))) (T : Obj String (List ℝ)) (stats : Option (Swag (Fin d)))
    (which : Option (List (List String))) : Except String SwagState := do
  let _ ← checkpoint t frozen T stats which
  match t with
  | .multi => withStats t frozen T stats which
  | .base | .jitted => withStats t none (allParams frozen T) stats which

/-- The end of `fit`, swag_posterior.py L127-176. -/
def fitEnd {d : ℕ} (devices : ℤ) (platforms : List String) (disableJit : Bool) (frozen : Option (Obj String (List ℝ)))
    (T : Obj String (List ℝ)) (stats : Option (Swag (Fin d))) (which : Option (List (List String))) : Except String SwagState := do
  let t ← selectTrainer devices platforms disableJit
  trainEnd t frozen T stats which

/-- The vector in `_get_sample`, swag_posterior.py L213-214, L224-229, L291-292. `z1` and `z2` are the standard normal numbers; `len(state.mean)` of
them are drawn for `z1`, which is one if there is a leading axis, and this one is broadcast. -/
def draw (st : SwagState) (z1 z2 : ℕ → ℝ) : List ℝ :=
  List.ofFn fun i : Fin st.d => swagSample st.stats.mean (swagStd st.stats) (fun i (j : Fin st.stats.dev.length) => st.stats.dev.get j i)
    (fun i => z1 (if st.lead = 0 then i else 0)) (fun j => z2 j) i

/-- `sample`, swag_posterior.py L180-289: the sampled parameters. `unravel` splits the first axis, so that with a leading axis the pieces do not have the
sizes of the arrays if there are two or more of them; names with a leading axis cannot be decoded (strings.py L36). -/
def sample (st : SwagState) (mutable inputs : Bool) (z1 z2 : ℕ → ℝ) : Except String (Obj String (List ℝ)) :=
  if mutable && !inputs then .error "ValueError"
  else
    match st.which with
    | none =>
      if st.lead = 0 ∨ (Nested.flatten st.params).length ≤ 1 then unravelTree st.params (draw st z1 z2)
      else .error "TypeError"
    | some ps =>
      if st.lead ≠ 0 ∧ ps.any (fun p => decide (p ≠ [])) then .error "TypeError"
      else unravelInto st.params ps (draw st z1 z2)

end

end Verif.SwagRun
