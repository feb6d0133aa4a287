import Mathlib.Algebra.Field.Basic
import Mathlib.Algebra.BigOperators.Group.List.Basic
import Mathlib.Order.Lattice

/-!
# Built-in networks

Sources: `/repo/fortuna/model/mlp.py`, `/repo/fortuna/model/cnn.py`, `/repo/fortuna/model/lenet.py`,
`/repo/fortuna/model/resnet.py`, `/repo/fortuna/model/wideresnet.py`, `/repo/fortuna/model/constant.py`,
`/repo/fortuna/model/hyper.py`, `/repo/fortuna/model/scalar_constant.py`,
`/repo/fortuna/model/scalar_hyper.py`, `/repo/fortuna/model/linear.py`, `/repo/fortuna/utils/data.py` L35-46.

Multi-layer perceptrons are modelled as functions on one (flattened) row, with arbitrary kernels; convolutional
networks by the shapes of their intermediate arrays (contract: flax `Conv` pads `SAME` unless told otherwise,
pooling pads `VALID` unless told otherwise, with strides one by default).
-/

set_option linter.unusedSectionVars false

namespace Verif.Networks

/-! ## Multi-layer perceptrons -/

section mlp
variable {K : Type} [Field K]

/-- The variables of an `nn.Dense` layer: made for inputs of length `inDim`. -/
structure Dense (K : Type) where
  inDim : ℕ
  outDim : ℕ
  kernel : ℕ → ℕ → K
  bias : ℕ → K

/-- `nn.Dense` on one row; flax refuses an input of another length than the kernel's. -/
def Dense.run (l : Dense K) (x : List K) : Except String (List K) :=
  if x.length ≠ l.inDim then .error "ScopeParamShapeError"
  else .ok ((List.range l.outDim).map fun j =>
    ((List.range l.inDim).map fun i => x.getD i 0 * l.kernel i j).sum + l.bias j)

/-- `update` of the feature extractor, mlp.py L139-144: dense layer, activation if there is one for this
layer, dropout. `drop i` is the dropout of layer `i` (the identity outside training). -/
def update (acts : List (K → K)) (drop : ℕ → List K → List K) (i : ℕ) (l : Dense K) (x : List K) :
    Except String (List K) := do
  let x ← l.run x
  let x := match acts[i]? with
    | some a => x.map a
    | none => x
  .ok (drop i x)

/-- `MLPDeepFeatureExtractorSubNet.__call__`, mlp.py L146-149, from layer `i` on. -/
def features (acts : List (K → K)) (drop : ℕ → List K → List K) : ℕ → List (Dense K) → List K →
    Except String (List K)
  | _, [], x => .ok x
  | i, l :: ls, x => do
    let x ← update acts drop i l x
    features acts drop (i + 1) ls x

/-- The sum of two rows of a batch with numpy broadcasting. -/
def addRows (h x : List K) : Except String (List K) :=
  if h.length = x.length then .ok (List.zipWith (· + ·) h x)
  else if h.length = 1 then .ok (x.map fun v => h.getD 0 0 + v)
  else if x.length = 1 then .ok (h.map fun v => v + x.getD 0 0)
  else .error "TypeError"

/-- The loop of `DeepResidualFeatureExtractorSubNet.__call__`, mlp.py L186-189, from layer `i` on. -/
def residualLoop (acts : List (K → K)) (drop : ℕ → List K → List K) : ℕ → List (Dense K) → List K →
    Except String (List K)
  | _, [], x => .ok x
  | i, l :: ls, x => do
    let y ← update acts drop i l x
    let z ← addRows x y
    residualLoop acts drop (i + 1) ls z

/-- `DeepResidualFeatureExtractorSubNet.__call__`, mlp.py L177-190: the first layer has neither activation nor
dropout. (`self.widths[0]` of no widths raises.) -/
def residualFeatures (acts : List (K → K)) (drop : ℕ → List K → List K) (ls : List (Dense K)) (x : List K) :
    Except String (List K) :=
  match ls with
  | [] => .error "IndexError"
  | l :: ls => do
    let x ← l.run x
    residualLoop acts drop 1 ls x

/-- `MLPOutputSubNet.__call__`, mlp.py L225-228. -/
def output (act : K → K) (last : Dense K) (x : List K) : Except String (List K) := last.run (x.map act)

/-- `MLP` (`residual = false`) and `DeepResidualNet` (`residual = true`), mlp.py L43-88: `setup` gives all
activations but the last to the feature extractor and the last one to the output network. `hidden` are the
variables of the hidden layers. -/
def mlp (residual : Bool) (acts : List (K → K)) (hidden : List (Dense K)) (last : Dense K)
    (drop : ℕ → List K → List K) (x : List K) : Except String (List K) :=
  if hidden.length ≠ acts.length then .error "Exception"
  else match acts.getLast? with
    | none => .error "IndexError"
    | some a => do
      let f ← if residual then residualFeatures acts.dropLast drop hidden x
        else features acts.dropLast drop 0 hidden x
      output a last f

end mlp

/-! ## Convolutional networks: shapes -/

/-- Height, width and channels of an array (the batch axis is left alone by every layer). -/
structure Shape where
  h : ℕ
  w : ℕ
  c : ℕ
deriving DecidableEq, Repr

/-- A convolution or pooling with padding `SAME`: `⌈n / s⌉`. -/
def same (n s : ℕ) : ℕ := (n + s - 1) / s

/-- A convolution or pooling with a window of `k`, stride `s` and `p` zeros on both sides; nothing is left of
an array smaller than the window. -/
def windowed (n k s p : ℕ) : ℕ := if n + 2 * p < k then 0 else (n + 2 * p - k) / s + 1

/-- `nn.Conv(filters, _, strides)` with `SAME` padding. -/
def conv (filters s : ℕ) (x : Shape) : Shape := { h := same x.h s, w := same x.w s, c := filters }

/-- A sum of a residual and a block's output; refused unless the shapes agree (broadcasting over axes of
length one is counted as a refusal: it would silently change the network). -/
def addShape (a b : Shape) : Except String Shape := if a = b then .ok a else .error "TypeError"

/-- `ResNetBlock.__call__`, resnet.py L68-81. -/
def resBlock (filters s : ℕ) (x : Shape) : Except String Shape :=
  let y := conv filters 1 (conv filters s x)
  let r := if x ≠ y then conv filters s x else x
  addShape r y

/-- `BottleneckResNetBlock.__call__`, resnet.py L123-139. -/
def bottleneckBlock (filters s : ℕ) (x : Shape) : Except String Shape :=
  let y := conv (filters * 4) 1 (conv filters s (conv filters 1 x))
  let r := if x ≠ y then conv (filters * 4) s x else x
  addShape r y

/-- The blocks `j, j + 1, …` of stage `i`, resnet.py L205-213; `n` is the number of blocks left. -/
def stage (block : ℕ → ℕ → Shape → Except String Shape) (filters i : ℕ) : ℕ → ℕ → Shape → Except String Shape
  | 0, _, x => .ok x
  | n + 1, j, x => do
    let x ← block (filters * 2 ^ i) (if i > 0 ∧ j = 0 then 2 else 1) x
    stage block filters i n (j + 1) x

/-- The stages, resnet.py L204-213, from stage `i` on. -/
def stages (block : ℕ → ℕ → Shape → Except String Shape) (filters : ℕ) : ℕ → List ℕ → Shape →
    Except String Shape
  | _, [], x => .ok x
  | i, n :: ns, x => do
    let x ← stage block filters i n 0 x
    stages block filters (i + 1) ns x

/-- `DeepFeatureExtractorSubNet.__call__`, resnet.py L198-215: number of features. The mean over height and
width needs at least one pixel to be a number. -/
def resnetFeatures (block : ℕ → ℕ → Shape → Except String Shape) (filters : ℕ) (sizes : List ℕ) (x : Shape) :
    Except String ℕ := do
  let x : Shape := { h := windowed x.h 7 2 3, w := windowed x.w 7 2 3, c := filters }
  let x : Shape := { x with h := same x.h 2, w := same x.w 2 }
  let x ← stages block filters 0 sizes x
  if x.h * x.w = 0 then .error "NaN" else .ok x.c

/-- `WideResnetBlock.__call__`, wideresnet.py L69-85. -/
def wideBlock (filters s : ℕ) (x : Shape) : Except String Shape :=
  let y := conv filters 1 (conv filters s x)
  let r := if x.c ≠ filters ∨ s ≠ 1 then conv filters s x else x
  addShape r y

/-- `WideResnetGroup.__call__`, wideresnet.py L136-146: blocks `i, i + 1, …` with `n` left. -/
def wideGroup (filters s : ℕ) : ℕ → ℕ → Shape → Except String Shape
  | 0, _, x => .ok x
  | n + 1, i, x => do
    let x ← wideBlock filters (if i = 0 then s else 1) x
    wideGroup filters s n (i + 1) x

/-- `DeepFeatureExtractorSubNet.__call__`, wideresnet.py L201-250: number of features of the flattened
result. `(depth - 4) // 6` is a floor division; `range` of a negative number is empty. -/
def wideFeatures (depth widen : ℕ) (x : Shape) : Except String ℕ := do
  let n := (depth - 4) / 6
  let x := conv 16 1 x
  let x ← wideGroup (16 * widen) 1 n 0 x
  let x ← wideGroup (32 * widen) 2 n 0 x
  let x ← wideGroup (64 * widen) 2 n 0 x
  .ok (windowed x.h 8 1 0 * windowed x.w 8 1 0 * x.c)

/-- `LeNet5DeepFeatureExtractorSubNet.__call__`, lenet.py L73-91: number of features when flattened. -/
def lenetFlat (x : Shape) : ℕ :=
  let f := fun n => windowed (windowed (windowed (windowed n 5 1 0) 2 2 0) 5 1 0) 2 2 0
  f x.h * f x.w * 16

/-- `CNNHiddenLayers.__call__`, cnn.py L48-59: number of features. -/
def cnnFlat (x : Shape) : ℕ :=
  let f := fun n => windowed (windowed n 3 1 0) 2 2 0
  f x.h * f x.w * 32

/-! ## Which activation is used where -/

/-- The activation functions applied on the way through one `ResNetBlock`, resnet.py L71, L81. -/
def resBlockActs {F : Type} (activation : F) : List F := [activation, activation]

/-- The activation functions of the residual network's feature extractor on basic blocks, resnet.py
L202-213: the first one is `nn.relu`, whatever `activation` is. -/
def resnetActs {F : Type} (relu activation : F) (sizes : List ℕ) : List F :=
  relu :: (sizes.flatMap fun n => (List.range n).flatMap fun _ => resBlockActs activation)

/-- The activation functions of a `WideResnetBlock`, wideresnet.py L72, L77: `activation` is not used. -/
def wideBlockActs {F : Type} (relu _activation : F) : List F := [relu, relu]

/-- Those of the wide residual network's feature extractor, wideresnet.py L216-247. -/
def wideActs {F : Type} (relu activation : F) (depth : ℕ) : List F :=
  ((List.range 3).flatMap fun _ => (List.range ((depth - 4) / 6)).flatMap fun _ =>
    wideBlockActs relu activation) ++ [relu]

/-! ## Constants -/

section constants
variable {K X : Type}

/-- `ConstantModel`, constant.py L26-29: one row per input. -/
def constantModel (constant : List K) (xs : List X) : List (List K) := xs.map fun _ => constant

/-- `ScalarConstantModel`, scalar_constant.py L27-30. -/
def scalarConstant (outputDim : ℕ) (scalar : K) (xs : List X) : List (List K) :=
  xs.map fun _ => List.replicate outputDim scalar

/-- `HyperparameterModel`, hyper.py L19-28; `ndim` is the number of dimensions of `value`. -/
def hyperModel (ndim : ℕ) (value : List K) (xs : List X) : Except String (List (List K)) :=
  if ndim ≠ 1 then .error "ValueError" else .ok (xs.map fun _ => value)

/-- `ScalarHyperparameterModel`, scalar_hyper.py L23-31; `isFloat` tells whether `type(value)` is `float`. -/
def scalarHyper (isFloat : Bool) (outputDim : ℕ) (value : K) (xs : List X) : Except String (List (List K)) :=
  if !isFloat then .error "ValueError" else .ok (xs.map fun _ => List.replicate outputDim value)

end constants

/-! ## Shapes of inputs, utils/data.py L35-46 -/

/-- A batch of inputs, by its shape: an array, or a dictionary of arrays. -/
inductive Inputs where
  | array (shape : List ℕ)
  | dict (shapes : List (String × List ℕ))
deriving DecidableEq, Repr

/-- `get_input_shape`, L35-36: `shape[1:]` of every array. -/
def getInputShape : Inputs → Inputs
  | .array s => .array s.tail
  | .dict d => .dict (d.map fun p => (p.1, p.2.tail))

/-- `get_inputs_from_shape`, L39-46: the shapes of the zero arrays that are made. -/
def getInputsFromShape : Inputs → Inputs
  | .array s => .array (1 :: s)
  | .dict d => .dict (d.map fun p => (p.1, 1 :: p.2))

end Verif.Networks
