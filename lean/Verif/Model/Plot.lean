import Verif.Model.ArrayOps
import Mathlib.Data.List.Sort
import Mathlib.Data.List.Dedup

/-!
# Plots

Source: `/repo/fortuna/plot.py`.

The functions are modelled up to the data they hand to matplotlib. Not modelled: colours other than those of predictions, titles, legends, tick marks, saving, showing.
Arrays are lists; a one-dimensional array of inputs is a list of pairs. Exact arithmetic.
-/

set_option linter.unusedSectionVars false

namespace Verif.Plot

open Verif.ArrayOps

variable {K : Type} [Field K] [LinearOrder K] [IsStrictOrderedRing K]

/-- Arguments of `plot_2d_classification_predictions_and_uncertainty` that decide what is drawn, plot.py L36-60. `uncertainty_fn` maps the grid to one value per point. -/
structure Args (K : Type) where
  inputs : Option (List (K × K)) := none
  preds : Option (List ℤ) := none
  gridUncertainty : Option (List K) := none
  uncertaintyFn : Option (List (K × K) → List K) := none
  grid : Option (List (K × K)) := none
  xx1 : Option (List K) := none
  xx2 : Option (List K) := none
  removeTicks : Bool := false

/-- The tests at the head of the function, plot.py L109-131. -/
def checks (a : Args K) : Except String Unit :=
  if (a.xx1.isNone || a.xx2.isNone) && a.inputs.isNone then .error "ValueError"
  else if a.gridUncertainty.isNone && a.uncertaintyFn.isNone then .error "ValueError"
  else if a.grid.isNone && a.uncertaintyFn.isNone then .error "ValueError"
  else if a.grid.isSome && (a.uncertaintyFn.isNone && a.gridUncertainty.isNone) then .error "ValueError"
  else if a.gridUncertainty.isSome && a.grid.isNone then .error "ValueError"
  else .ok ()

/-- One automatic mesh, plot.py L135-146: from 1.25 ranges below the smallest to 1.25 ranges above the largest coordinate. `np.min` of no inputs raises. -/
def autoMesh (xs : List K) (size : ℕ) : Except String (List K) :=
  match xs.min?, xs.max? with
  | some lo, some hi => .ok (linspace (lo - 5 / 4 * (hi - lo)) (hi + 5 / 4 * (hi - lo)) size)
  | _, _ => .error "ValueError"

/-- The meshes, plot.py L132-146; only evaluated without `grid`. -/
def meshes (a : Args K) : Except String (List K × List K) :=
  match a.xx1, a.xx2 with
  | some x, some y => .ok (x, y)
  | some x, none => do
    let y ← autoMesh ((a.inputs.getD []).map Prod.snd) x.length
    pure (x, y)
  | none, some y => do
    let x ← autoMesh ((a.inputs.getD []).map Prod.fst) y.length
    pure (x, y)
  | none, none => do
    let x ← autoMesh ((a.inputs.getD []).map Prod.fst) 100
    let y ← autoMesh ((a.inputs.getD []).map Prod.snd) x.length
    pure (x, y)

/-- The grid of two meshes, plot.py L147. -/
def product (x y : List K) : List (K × K) := x.flatMap fun u => y.map fun v => (u, v)

/-- `reshape(size1, size2)`: row `i` is the `i`-th stretch of `size2` entries; the sizes must fit. -/
def reshape {β : Type} (size1 size2 : ℕ) (l : List β) : Except String (List (List β)) :=
  if l.length = size1 * size2 then .ok ((List.range size1).map fun i => (l.drop (i * size2)).take size2) else .error "ValueError"

/-- What is drawn: the colour map (position and uncertainty of each cell) and the scattered inputs with the number of their colour. -/
structure Drawing (K : Type) where
  cells : List (List ((K × K) × K))
  points : List ((K × K) × ℕ)
  deriving DecidableEq

/-- Colours of the inputs, plot.py L165-175: 0 for `preds_color[0]`, 1 for `preds_color[1]`, 2 for `base_inputs_color`, 3 for none. matplotlib takes one colour per point,
a single colour for all points, or no colour, and refuses other numbers of colours. -/
def colours (inputs : List (K × K)) (preds : Option (List ℤ)) : Except String (List ((K × K) × ℕ)) :=
  match preds with
  | none => .ok (inputs.map fun x => (x, 2))
  | some p =>
    if p.length = inputs.length then .ok (List.zipWith (fun x c => (x, if c = 1 then 0 else 1)) inputs p)
    else match p with
      | [] => .ok (inputs.map fun x => (x, 3))
      | [c] => .ok (inputs.map fun x => (x, if c = 1 then 0 else 1))
      | _ => .error "ValueError"

/-- `plot_2d_classification_predictions_and_uncertainty`, plot.py L109-182. `remove_ticks` calls `ax.xticks`, which axes do not have. -/
def plot2d (a : Args K) : Except String (Drawing K) := do
  checks a
  let (grid, x, y) ← (match a.grid with
    | some g => Except.ok (g, a.xx1, a.xx2)
    | none => do
      let (x, y) ← meshes a
      pure (product x y, some x, some y))
  let u := match a.gridUncertainty with
    | some u => u
    | none => ((a.uncertaintyFn.map fun f => f grid).getD [])
  let size1 := match x with
    | some x => x.length
    | none => (grid.map Prod.fst).dedup.length
  let size2 := match y with
    | some y => y.length
    | none => (grid.map Prod.snd).dedup.length
  let us ← reshape size1 size2 u
  let gs ← reshape size1 size2 grid
  let points ← (match a.inputs with
    | some i => colours i a.preds
    | none => Except.ok [])
  if a.removeTicks then .error "AttributeError"
  else pure ⟨List.zipWith (fun g u => g.zip u) gs us, points⟩

/-- One curve of `plot_reliability_diagram`, plot.py L264-274: points (confidence, confidence - accuracy) in the order of the confidences. Simplified: `np.argsort` may put
equal confidences in any order, here they keep theirs; arrays of different lengths are refused (numpy broadcasts an array of length one). -/
def curve (accs confs : List K) : Except String (List (K × K)) :=
  if accs.length ≠ confs.length then .error "ValueError"
  else .ok ((List.zipWith (fun a c => (c, c - a)) accs confs).insertionSort fun p q => p.1 ≤ q.1)

/-- `plot_reliability_diagram`, plot.py L248-274, for lists of arrays (a single array is a list of one): one curve with its label per method. No label for an empty list. -/
def reliability (accs confs : List (List K)) (labels : List String) : Except String (List (Option String × List (K × K))) :=
  if accs.length ≠ confs.length then .error "ValueError"
  else if labels ≠ [] ∧ accs.length ≠ labels.length then .error "ValueError"
  else (accs.zip confs).zipIdx.mapM fun r => do
    let c ← curve r.1.1 r.1.2
    pure (labels[r.2]?, c)

/-- `plot_1d_regression_preds_and_std`, plot.py L304-323: the band handed to `fill_between`. `mean` and `std` are the rows of the predictive statistics; `squeeze(1)` needs a single
output, `fill_between` a one-dimensional mesh. -/
def band (meshDims : ℕ) (mesh : List K) (mean std : List (List K)) (nStd : K) : Except String (List (K × K × K)) :=
  if mean.any (fun r => decide (r.length ≠ 1)) || std.any (fun r => decide (r.length ≠ 1)) then .error "ValueError"
  else if meshDims ≠ 1 then .error "ValueError"
  else .ok (List.zipWith (fun x ms => (x, ms)) mesh
    (List.zipWith (fun m s => (m.headD 0 - nStd * s.headD 0, m.headD 0 + nStd * s.headD 0)) mean std))

/-- The angles returned by `radar_factory`, plot.py L349, as parts of a full turn. -/
def radarAngles (K : Type) [Field K] (n : ℕ) : List K := (List.range n).map fun i : ℕ => (i : K) / (n : K)

/-- `RadarAxes._close_line`, plot.py L379-385: the points (angle, radius) of a line. -/
def closeLine [DecidableEq K] (l : List (K × K)) : Except String (List (K × K)) :=
  match l.head?, l.getLast? with
  | some a, some b => .ok (if a.1 ≠ b.1 then l ++ [a] else l)
  | _, _ => .error "IndexError"

end Verif.Plot
