import Mathlib.Data.List.Basic

/-!
Model of `/repo/fortuna/utils/nested_dicts.py`, `/repo/fortuna/utils/freeze.py`, `/repo/fortuna/utils/strings.py` and of the
splitting/merging of frozen parameters in `/repo/fortuna/training/trainer.py` L604-655, L701-715.

A nested dictionary is a tree kept in insertion order.  Simplifications: dictionaries do not share sub-objects (so that
in-place mutation of a deep copy is a functional update), and walking through a non-dictionary value raises `TypeError`
(the actual exception depends on the type of the value).
-/
namespace Verif.Nested


variable {K : Type} {V : Type}

/-- A Python object: a leaf, or a dictionary given by its items in insertion order (`nil`, `cons key value rest`). -/
inductive Obj (K : Type) (V : Type) where
  | leaf (v : V)
  | nil
  | cons (k : K) (o : Obj K V) (rest : Obj K V)
  deriving DecidableEq, Repr

open Obj

/-- `isinstance(o, dict)`. -/
def Obj.isDict : Obj K V → Bool
  | leaf _ => false
  | nil => true
  | cons _ _ _ => true

variable [DecidableEq K]

/-- `d.get(k)`. -/
def lookup (k : K) : Obj K V → Option (Obj K V)
  | leaf _ => none
  | nil => none
  | cons k' o r => if k' = k then some o else lookup k r

/-- `d[k] = o`: replaces in place or appends (only ever used on a dictionary). -/
def setItem (k : K) (o : Obj K V) : Obj K V → Obj K V
  | leaf _ => cons k o nil
  | nil => cons k o nil
  | cons k' o' r => if k' = k then cons k' o r else cons k' o' (setItem k o r)

/-- `d[k]`. -/
def item (d : Obj K V) (k : K) : Except String (Obj K V) :=
  if d.isDict then
    match lookup k d with
    | some o => .ok o
    | none => .error "KeyError"
  else .error "TypeError"

/-- `nested_get`, nested_dicts.py L15-34. -/
def nestedGet (d : Obj K V) : List K → Except String (Obj K V)
  | [] => .error "ValueError"
  | [k] => item d k
  | k :: k' :: ks => (item d k).bind fun d' => nestedGet d' (k' :: ks)

/-- The walk along `keys` shared by `nested_set` L67-81, `nested_pair` L119-130 and `nested_unpair` L161-177: go down
through `keys[:-1]` (creating dictionaries if `create`), then replace the value at `keys[-1]` by `f` of the present value,
if any. -/
def updateAt (create : Bool) (f : Option (Obj K V) → Except String (Obj K V)) : List K → Obj K V → Except String (Obj K V)
  | [], _ => .error "IndexError"
  | [k], d => if d.isDict then (f (lookup k d)).map fun o => setItem k o d else .error "TypeError"
  | k :: k' :: ks, d =>
    if d.isDict then
      match lookup k d with
      | some d' => (updateAt create f (k' :: ks) d').map fun o => setItem k o d
      | none => if create then (updateAt create f (k' :: ks) nil).map fun o => setItem k o d else .error "KeyError"
    else .error "TypeError"

/-- `nested_set`, one path, L67-81. -/
def setPath (allow : Bool) (o : Obj K V) : List K → Obj K V → Except String (Obj K V) :=
  updateAt allow fun cur => if cur.isSome || allow then .ok o else .error "KeyError"

/-- `nested_set`, L37-82 (the type checks on the arguments are not modelled). -/
def nestedSet (d : Obj K V) (paths : List (List K)) (objs : List (Obj K V)) (allow : Bool) : Except String (Obj K V) :=
  if paths.length ≠ objs.length then .error "ValueError"
  else (paths.zip objs).foldlM (fun d po => setPath allow po.2 po.1 d) d

/-- `{labels[0]: a, labels[1]: b}`. -/
def pairOf (l0 l1 : K) (a b : Obj K V) : Obj K V := setItem l1 b (setItem l0 a nil)

/-- `nested_pair`, one path, L119-130. -/
def pairPath (l0 l1 : K) (o : Obj K V) : List K → Obj K V → Except String (Obj K V) :=
  updateAt false fun cur => match cur with
    | some x => .ok (pairOf l0 l1 x o)
    | none => .error "KeyError"

/-- `nested_pair`, L85-131. -/
def nestedPair (d : Obj K V) (paths : List (List K)) (objs : List (Obj K V)) (l0 l1 : K) : Except String (Obj K V) :=
  if paths.length ≠ objs.length then .error "ValueError"
  else (paths.zip objs).foldlM (fun d po => pairPath l0 l1 po.2 po.1 d) d

/-- `nested_unpair`, one path, L161-177: the value at the path is `{labels[0]: a, labels[1]: b}`; `b` is written at the same
path of the second dictionary (creating the intermediate ones), `a` replaces the value in the first. -/
def unpairPath (l0 l1 : K) (s : Obj K V × Obj K V) (keys : List K) : Except String (Obj K V × Obj K V) := do
  let w ← if keys = [] then .error "IndexError" else nestedGet s.1 keys
  let b ← item w l1
  let a ← item w l0
  let d02 ← updateAt true (fun _ => .ok b) keys s.2
  let d01 ← updateAt false (fun cur => match cur with
    | some _ => .ok a
    | none => .error "KeyError") keys s.1
  pure (d01, d02)

/-- `nested_unpair`, L134-179. -/
def nestedUnpair (d : Obj K V) (paths : List (List K)) (l0 l1 : K) : Except String (Obj K V × Obj K V) :=
  paths.foldlM (unpairPath l0 l1) (d, nil)

/-- `find_one_path_to_key`, L182-194. -/
def findOnePath (key : K) : Obj K V → List K → List K
  | leaf _, keys => keys
  | nil, keys => keys
  | cons k v r, keys =>
    if k = key then keys ++ [k]
    else if v.isDict then
      let tmp := findOnePath key v (keys ++ [k])
      if key ∈ tmp then tmp else findOnePath key r keys
    else findOnePath key r keys

/-- `nested_update` with one updating dictionary, L197-215; recursion over the items of the updating dictionary. -/
def nestedUpdate : Obj K V → Obj K V → Obj K V
  | d, leaf _ => d
  | d, nil => d
  | d, cons k v r =>
    match lookup k d with
    | some x => if x.isDict && v.isDict then nestedUpdate (setItem k (nestedUpdate x v) d) r else nestedUpdate (setItem k v d) r
    | none => nestedUpdate (setItem k v d) r
termination_by structural _ u => u

/-- `nested_update` with several updating dictionaries. -/
def nestedUpdateAll (d : Obj K V) (us : List (Obj K V)) : Obj K V := us.foldl nestedUpdate d

/-- `flatten_dict` (flax contract): the leaves with their paths, in order; empty dictionaries disappear. -/
def flatten : Obj K V → List (List K × V)
  | leaf v => [([], v)]
  | nil => []
  | cons k o r => (flatten o).map (fun pv => (k :: pv.1, pv.2)) ++ flatten r

/-- Iterating a dictionary: its top-level keys. -/
def topKeys : Obj K V → List K
  | leaf _ => []
  | nil => []
  | cons k _ r => k :: topKeys r

/-- `get_paths_with_label`, freeze.py L134-148, with a freeze function. -/
def pathsWithLabel (d : Obj K V) (f : List K → V → String) (label : String) (allowed : List String) :
    Except String (List (List K)) :=
  if ((flatten d).map fun pv => f pv.1 pv.2).any fun c => !allowed.contains c then .error "ValueError"
  else .ok (((flatten d).filter fun pv => f pv.1 pv.2 == label).map (·.1))

/-- `get_paths_with_label` without a freeze function, L147-148, on string keys: `list(p)` of a top-level key, that is the list
of its characters. -/
def pathsNoFreeze {V : Type} (d : Obj String V) : List (List String) :=
  (topKeys d).map fun k => k.toList.map fun c => String.ofList [c]

/-- `on_train_start`, trainer.py L610-640: the frozen and the trainable parameters as two trees. -/
def splitParams (d : Obj K V) (f : List K → V → String) : Except String (Obj K V × Obj K V) := do
  let frozen ← pathsWithLabel d f "frozen" ["frozen", "trainable"]
  let trainable ← pathsWithLabel d f "trainable" ["frozen", "trainable"]
  let fo ← frozen.mapM (nestedGet d)
  let F ← nestedSet nil frozen fo true
  let tr ← trainable.mapM (nestedGet d)
  let T ← nestedSet nil trainable tr true
  pure (F, T)

/-- `Posterior._freeze_optimizer_in_state`, prob_model/posterior/base.py L93-117, with a freeze function: the tree from which the
optimizer's state (moments, say) is initialised before training starts. -/
def optimizerTree (d : Obj K V) (f : List K → V → String) : Except String (Obj K V) := do
  let trainable ← pathsWithLabel d f "trainable" ["frozen", "trainable"]
  let tr ← trainable.mapM (nestedGet d)
  nestedSet nil trainable tr true

/-- A training step changes the values of the leaves of `state.params` and keeps the tree structure (optax contract:
`apply_updates` is a `tree_map`). -/
def mapLeaves (g : List K → V → V) : List K → Obj K V → Obj K V
  | p, leaf v => leaf (g p v)
  | _, nil => nil
  | p, cons k o r => cons k (mapLeaves g (p ++ [k]) o) (mapLeaves g p r)

/-- Any number of training steps; each may depend on all current parameters (`_get_all_params`, trainer.py L701-715). -/
def trainSteps (steps : List (Obj K V → List K → V → V)) (F T : Obj K V) : Obj K V :=
  steps.foldl (fun T g => mapLeaves (g (nestedUpdate F T)) [] T) T

/-- `on_train_start`, the steps, and `on_train_end` (trainer.py L610-655): the parameters after training. -/
def trainFrozen (d : Obj K V) (f : List K → V → String) (steps : List (Obj K V → List K → V → V)) :
    Except String (Obj K V) :=
  (splitParams d f).map fun FT => nestedUpdate FT.1 (trainSteps steps FT.1 FT.2)

/-! ## `strings.py` -/

/-- The key flax gives to entry `i` of a list when turning it into a state dictionary: `str(i)`, as code points. -/
def strKey (i : ℕ) : List ℕ := (Nat.toDigits 10 i).map Char.toNat

/-- Python's order on strings: lexicographic on code points. -/
def lexLe : List ℕ → List ℕ → Bool
  | [], _ => true
  | _ :: _, [] => false
  | a :: as, b :: bs => if a < b then true else if b < a then false else lexLe as bs

/-- `jax.tree_util` rebuilds dictionaries with sorted keys. -/
def sortItems {γ : Type*} (items : List (List ℕ × γ)) : List (List ℕ × γ) :=
  items.foldr (fun x acc => acc.takeWhile (fun y => !lexLe x.1 y.1) ++ x :: acc.dropWhile (fun y => !lexLe x.1 y.1)) []

/-- A list or tuple as a state dictionary. -/
def toStateDict {γ : Type*} (l : List γ) : List (List ℕ × γ) := l.zipIdx.map fun xi => (strKey xi.2, xi.1)

/-- `encode_tuple_of_lists_of_strings_to_numpy`, strings.py L22-29, followed by flax's conversion to a state dictionary. -/
def encode (a : List (List (List Char))) : List (List ℕ × List (List ℕ × List ℕ)) :=
  toStateDict (a.map fun path => toStateDict (path.map fun s => s.map Char.toNat))

/-- `decode_encoded_tuple_of_lists_of_strings_to_array`, strings.py L32-41, on a dictionary. -/
def decode (e : List (List ℕ × List (List ℕ × List ℕ))) : List (List (List Char)) :=
  (sortItems e).map fun kv => (sortItems kv.2).map fun s => s.2.map Char.ofNat

end Verif.Nested
