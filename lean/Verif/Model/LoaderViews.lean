import Verif.Model.Loader

/-!
Model of the loaders of inputs alone and of targets alone: `InputsLoader` and `TargetsLoader` of
`/repo/fortuna/data/loader/array_loaders.py`, `BaseInputsLoader` and `BaseTargetsLoader` of `base.py`, and of repeated
passes over `IterableData` (`utils.py`).

The two classes hold the same code with `inputs` and `targets` exchanged, so that each algorithm is modelled once on
batches of rows; both places are cited.  Not modelled: inputs that are dictionaries of arrays, and generators that are
abandoned in the middle of a pass.
-/
namespace Verif.LoaderViews
open Verif.Loader

universe u v
variable {α : Type u} {β : Type v}

/-- `TargetsLoader.chop`, array_loaders.py L482-490. -/
def chopTargets (divisor : ℕ) (l : List (List β)) : Except String (List (List β)) :=
  if divisor = 0 then (if l = [] then .ok [] else .error "ZeroDivisionError")
  else .ok (l.filterMap fun b =>
    let r := b.length % divisor
    if r = 0 then some b
    else if b.length > divisor then some (b.take (b.length - r))
    else none)

/-- First loader of `InputsLoader.split`, array_loaders.py L387-398, and of `TargetsLoader.split`, L546-557. -/
def split1 (n : ℕ) : ℕ → List (List α) → List (List α)
  | _, [] => []
  | count, b :: l =>
    if count = n then []
    else if count + b.length ≤ n then b :: split1 n (count + b.length) l
    else b.take (n - count) :: split1 n n l

/-- Second loader of `InputsLoader.split`, array_loaders.py L400-411, and of `TargetsLoader.split`, L559-570. -/
def split2 (n : ℕ) : ℕ → List (List α) → List (List α)
  | _, [] => []
  | count, b :: l =>
    if count > n then b :: split2 n count l
    else if count ≤ n ∧ count + b.length > n then b.drop (n - count) :: split2 n (count + b.length) l
    else split2 n (count + b.length) l

/-- `InputsLoader.split`, array_loaders.py L371-415; `TargetsLoader.split`, L530-574. -/
def split (n : ℕ) (l : List (List α)) : List (List α) × List (List α) := (split1 n 0 l, split2 n 0 l)

/-- One pass of the `for` loop of `InputsLoader.sample`, array_loaders.py L355-364, and of `TargetsLoader.sample`,
L514-523: the yielded batches, the count and the number of masks drawn so far. -/
def samplePass (n : ℕ) (draws : ℕ → List Bool) : ℕ → ℕ → List (List α) → List (List α) × ℕ × ℕ
  | k, count, [] => ([], count, k)
  | k, count, b :: l =>
    if count = n then ([], count, k)
    else
      let xs := maskRows (draws k) b
      let b' := if count + xs.length > n then xs.take (n - count) else xs
      let r := samplePass n draws (k + 1) (count + b'.length) l
      (if b'.length > 0 then b' :: r.1 else r.1, r.2)

/-- The `while True` loop, array_loaders.py L354-367 and L513-526, cut after `fuel` passes (`none`: still running). -/
def sampleLoop (n : ℕ) (draws : ℕ → List Bool) (l : List (List α)) : ℕ → ℕ → ℕ → Option (List (List α))
  | 0, _, _ => none
  | fuel + 1, k, count =>
    let r := samplePass n draws k count l
    if r.2.1 = n then some r.1
    else (sampleLoop n draws l fuel r.2.2 r.2.1).map fun rest => r.1 ++ rest

/-- `InputsLoader.sample`, array_loaders.py L333-369; `TargetsLoader.sample`, L492-528. -/
def sample (n : ℕ) (draws : ℕ → List Bool) (l : List (List α)) (fuel : ℕ) : Option (List (List α)) :=
  sampleLoop n draws l fuel 0 0

/-- `InputsLoader.to_array_inputs`, array_loaders.py L302-305; `TargetsLoader.to_array_targets`, L461-464
(`np.concatenate` of an empty list raises). -/
def toArray (l : List (List α)) : Except String (List α) := if l = [] then .error "ValueError" else .ok l.flatten

/-- `size`, base.py L290-295 and L431-434. -/
def size (l : List (List α)) : ℕ := l.foldl (fun c b => c + b.length) 0

/-- `DataLoader.to_array_inputs`, array_loaders.py L110-113. -/
def toArrayInputs (l : List (Batch α β)) : Except String (List α) :=
  if l = [] then .error "ValueError" else .ok (l.map (·.1)).flatten

/-- `DataLoader.to_array_targets`, array_loaders.py L124-127. -/
def toArrayTargets (l : List (Batch α β)) : Except String (List β) :=
  if l = [] then .error "ValueError" else .ok (l.map (·.2)).flatten

/-- `transform_inputs_or_targets_loader`, utils.py L205-215: the status is threaded through the batches, `None` and empty
results are skipped.  `deepcopy(status)` makes every pass start from the same status. -/
def transform {γ σ : Type*} (f : List α → σ → Option (List γ) × σ) : σ → List (List α) → List (List γ)
  | _, [] => []
  | s, b :: l =>
    match f b s with
    | (some x, s') => if x ≠ [] then x :: transform f s' l else transform f s' l
    | (none, s') => transform f s' l

/-- What the class methods `from_data_loader` return. -/
inductive View (γ : Type*) where
  /-- A `BaseInputsLoader` or `BaseTargetsLoader`. -/
  | loader (batches : List γ)
  /-- A bare `IterableData`. -/
  | iterable (batches : List γ)

/-- `BaseInputsLoader.from_data_loader`, base.py L338. -/
def inputsFromDataLoader (l : List (Batch α β)) : View (List α) := .loader (toInputs l)

/-- `BaseTargetsLoader.from_data_loader`, base.py L462: returns the `IterableData` itself, not `cls(iterable=…)`. -/
def targetsFromDataLoader (l : List (Batch α β)) : View (List β) := .iterable (toTargets l)

/-- Iterating the result, base.py L277-278, L418-419, utils.py L29-30. -/
def View.iter {γ : Type*} : View γ → List γ
  | .loader l => l
  | .iterable l => l

/-- `.size` of the result: `IterableData` has no such attribute. -/
def View.size {γ : Type*} : View (List γ) → Except String ℕ
  | .loader l => .ok (LoaderViews.size l)
  | .iterable _ => .error "AttributeError"

/-- `len(…)` of the result, base.py L312-321, L436-445: `IterableData` has no `__len__`. -/
def View.len {γ : Type*} : View γ → Except String ℕ
  | .loader l => .ok (l.foldl (fun c _ => c + 1) 0)
  | .iterable _ => .error "TypeError"

/-- What `from_iterable` and `from_callable_iterable` wrap: something that can be iterated again and again (a list, a
function that makes a new generator), or an iterator that is used up by one pass. -/
inductive Source (γ : Type*) where
  | again (items : List γ)
  | once (items : List γ)

/-- One full pass over a loader, `yield from iter(self._g())`, utils.py L29-30 with L34-37 (`from_iterable`) and L41-44
(`from_callable`): the items seen, and the source afterwards. -/
def Source.pass {γ : Type*} : Source γ → List γ × Source γ
  | .again l => (l, .again l)
  | .once l => (l, .once [])

/-- What `k` successive full passes see. -/
def Source.passes {γ : Type*} : ℕ → Source γ → List (List γ)
  | 0, _ => []
  | k + 1, s => s.pass.1 :: Source.passes k s.pass.2

end Verif.LoaderViews
