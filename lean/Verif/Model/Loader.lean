import Mathlib.Data.List.Basic
import Mathlib.Data.List.Range
import Mathlib.Logic.Function.Iterate

/-!
Model of `/repo/fortuna/data/loader/`: `utils.py`, `array_loaders.py`, `base.py`.

An array with a leading data axis is the list of its rows; a loader is the list of the batches yielded by one iteration
over it (`IterableData` re-creates its generator at every `__iter__`, utils.py L29-30, so every pass yields the same
list).  The inputs and the targets of a batch are two separate lists, as in the code.
-/
namespace Verif.Loader

universe u v
variable {α : Type u} {β : Type v}

/-- A batch `(inputs, targets)`. -/
abbrev Batch (α : Type u) (β : Type v) := List α × List β

/-- `np.split(data, indices)` (numpy contract): the pieces `data[prev:i]` for consecutive indices and a last piece. -/
def npSplit (data : List α) : ℕ → List ℕ → List (List α)
  | prev, [] => [data.drop prev]
  | prev, i :: is => (data.take i).drop prev :: npSplit data i is

/-- `np.arange(start, stop, step)` for a positive step. -/
def arange (start stop step : ℕ) : List ℕ := (List.range ((stop - start + step - 1) / step)).map fun k => start + k * step

/-- `data[perm]`. -/
def gather (data : List α) (perm : List ℕ) : List α := perm.filterMap fun i => data[i]?

/-- One prefetching generator, utils.py L218-236: the pending batch, the remaining ones, and the flag. -/
structure Prefetched (γ : Type*) where
  batch : γ
  rest : List γ
  ready : Bool

/-- `PrefetchedGenerator.__init__`, L219-222: an empty generator raises `StopIteration`. -/
def Prefetched.init {γ : Type*} : List γ → Option (Prefetched γ)
  | [] => none
  | x :: xs => some ⟨x, xs, true⟩

/-- `PrefetchedGenerator.__next__`, L227-236; `none` is `StopIteration`. -/
def Prefetched.next {γ : Type*} (s : Prefetched γ) : Option (γ × Prefetched γ) :=
  if s.ready then some (s.batch, { s with ready := false })
  else match s.rest with
    | [] => none
    | x :: xs => some (x, ⟨x, xs, false⟩)

/-- Exhausting the prefetching iterator with at most `fuel` calls. -/
def Prefetched.drain {γ : Type*} : ℕ → Prefetched γ → List γ
  | 0, _ => []
  | fuel + 1, s => match s.next with
    | none => []
    | some (x, s') => x :: Prefetched.drain fuel s'

/-- `yield from PrefetchedGenerator(gen) if prefetch else gen`. -/
def maybePrefetch {γ : Type*} (prefetch : Bool) (batches : List γ) : Except String (List γ) :=
  if prefetch then
    match Prefetched.init batches with
    | none => .error "RuntimeError"
    | some s => .ok (s.drain (batches.length + 1))
  else .ok batches

/-- `IterableData.from_array_data`, utils.py L73-100.  `perm` is the permutation drawn when `shuffle` is set (`none`
otherwise). -/
def fromArray (data : List α) (batchSize : Option ℕ) (perm : Option (List ℕ)) (prefetch : Bool) :
    Except String (List (List α)) :=
  match batchSize with
  | none => .ok [data]
  | some bs =>
    if bs = 0 then .error "ZeroDivisionError"
    else
      let d := match perm with
        | some p => gather data p
        | none => data
      maybePrefetch prefetch (npSplit d 0 (arange bs data.length bs))

/-- `IterableData.from_batch_array_data`, utils.py L103-135. -/
def fromBatchArray (x : List α) (y : List β) (batchSize : Option ℕ) (perm : Option (List ℕ)) (prefetch : Bool) :
    Except String (List (Batch α β)) :=
  match batchSize with
  | none => .ok [(x, y)]
  | some bs =>
    if bs = 0 then .error "ZeroDivisionError"
    else
      let dx := match perm with
        | some p => gather x p
        | none => x
      let dy := match perm with
        | some p => gather y p
        | none => y
      maybePrefetch prefetch ((npSplit dx 0 (arange bs x.length bs)).zip (npSplit dy 0 (arange bs y.length bs)))

/-- `to_array_data`, array_loaders.py L86-99 (`np.concatenate` of an empty list raises). -/
def toArrayData (l : List (Batch α β)) : Except String (Batch α β) :=
  if l = [] then .error "ValueError" else .ok (l.flatMap (·.1), l.flatMap (·.2))

/-- `size`, base.py L49-54. -/
def size (l : List (Batch α β)) : ℕ := l.foldl (fun c b => c + b.1.length) 0

/-- `__len__`, base.py L79. -/
def numBatches (l : List (Batch α β)) : ℕ := l.foldl (fun c _ => c + 1) 0

/-- `to_inputs_loader`, array_loaders.py L73 / utils.py L138-143. -/
def toInputs (l : List (Batch α β)) : List (List α) := l.map (·.1)

/-- `to_targets_loader`, array_loaders.py L84 / utils.py L146-151. -/
def toTargets (l : List (Batch α β)) : List (List β) := l.map (·.2)

/-- `chop`, array_loaders.py L145-153; a zero divisor raises when the first batch is requested. -/
def chop (divisor : ℕ) (l : List (Batch α β)) : Except String (List (Batch α β)) :=
  if divisor = 0 then (if l = [] then .ok [] else .error "ZeroDivisionError")
  else .ok (l.filterMap fun b =>
    let r := b.2.length % divisor
    if r = 0 then some b
    else if b.2.length > divisor then some (b.1.take (b.1.length - r), b.2.take (b.2.length - r))
    else none)

/-- `InputsLoader.chop`, array_loaders.py L323-331. -/
def chopInputs (divisor : ℕ) (l : List (List α)) : Except String (List (List α)) :=
  if divisor = 0 then (if l = [] then .ok [] else .error "ZeroDivisionError")
  else .ok (l.filterMap fun b =>
    let r := b.length % divisor
    if r = 0 then some b
    else if b.length > divisor then some (b.take (b.length - r))
    else none)

/-- First loader of `split`, array_loaders.py L171-185. -/
def split1 (n : ℕ) : ℕ → List (Batch α β) → List (Batch α β)
  | _, [] => []
  | count, b :: l =>
    if count = n then []
    else if count + b.1.length ≤ n then b :: split1 n (count + b.1.length) l
    else (b.1.take (n - count), b.2.take (n - count)) :: split1 n n l

/-- Second loader of `split`, array_loaders.py L187-201. -/
def split2 (n : ℕ) : ℕ → List (Batch α β) → List (Batch α β)
  | _, [] => []
  | count, b :: l =>
    if count > n then b :: split2 n count l
    else if count ≤ n ∧ count + b.1.length > n then
      (b.1.drop (n - count), b.2.drop (n - count)) :: split2 n (count + b.1.length) l
    else split2 n (count + b.1.length) l

/-- `split`, array_loaders.py L155-205. -/
def split (n : ℕ) (l : List (Batch α β)) : List (Batch α β) × List (Batch α β) := (split1 n 0 l, split2 n 0 l)

/-- `arr[mask]`. -/
def maskRows {γ : Type*} (mask : List Bool) (rows : List γ) : List γ :=
  ((mask.zip rows).filter fun t => t.1).map fun t => t.2

/-- One pass of `for inputs, targets in self` in `sample`, array_loaders.py L229-241.  `draws` are the masks returned by
successive calls of `rng.choice(2, size)`; returns the yielded batches, the count and the unused draws. -/
def samplePass (n : ℕ) (draws : ℕ → List Bool) : ℕ → ℕ → List (Batch α β) → List (Batch α β) × ℕ × ℕ
  | k, count, [] => ([], count, k)
  | k, count, b :: l =>
    if count = n then ([], count, k)
    else
      let xs := maskRows (draws k) b.1
      let ys := maskRows (draws k) b.2
      let b' := if count + xs.length > n then (xs.take (n - count), ys.take (n - count)) else (xs, ys)
      let r := samplePass n draws (k + 1) (count + b'.1.length) l
      (if b'.1.length > 0 then b' :: r.1 else r.1, r.2)

/-- The `while True` loop of `sample`, array_loaders.py L228-244, cut after `fuel` passes (`none`: still running). -/
def sampleLoop (n : ℕ) (draws : ℕ → List Bool) (l : List (Batch α β)) : ℕ → ℕ → ℕ → Option (List (Batch α β))
  | 0, _, _ => none
  | fuel + 1, k, count =>
    let r := samplePass n draws k count l
    if r.2.1 = n then some r.1
    else (sampleLoop n draws l fuel r.2.2 r.2.1).map fun rest => r.1 ++ rest

/-- `sample`, array_loaders.py L207-246. -/
def sample (n : ℕ) (draws : ℕ → List Bool) (l : List (Batch α β)) (fuel : ℕ) : Option (List (Batch α β)) :=
  sampleLoop n draws l fuel 0 0

/-- The `i`-th tuple of `zip_longest(*inputs_loaders)`. -/
def column (loaders : List (List (List α))) (i : ℕ) : List (Option (List α)) := loaders.map fun l => l[i]?

/-- Length of the longest loader. -/
def longest (loaders : List (List (List α))) : ℕ := (loaders.map List.length).foldr max 0

/-- One batch of the interposed loader, utils.py L160-167. -/
def interposeAt (loaders : List (List (List α))) (targets : List β) (i : ℕ) : Batch α β :=
  ((column loaders i).flatMap fun o => o.getD [],
   ((column loaders i).zip targets).flatMap fun t => match t.1 with
     | some inputs => List.replicate inputs.length t.2
     | none => [])

/-- `inputs_loaders_to_batch_iterable`, utils.py L154-181. -/
def fromInputsLoaders (loaders : List (List (List α))) (targets : List β) (how : String) :
    Except String (List (Batch α β)) :=
  if how = "interpose" then .ok ((List.range (longest loaders)).map (interposeAt loaders targets))
  else if how = "concatenate" then
    .ok ((loaders.zip targets).flatMap fun t => t.1.map fun inputs => (inputs, List.replicate inputs.length t.2))
  else .error "ValueError"

/-- `transform_data_loader`, utils.py L184-202: the status is threaded through the batches; empty results are skipped,
`None` results are `none`; a shape mismatch raises. -/
def transform {γ δ σ : Type*} (f : List α → List β → σ → Option (List γ) × Option (List δ) × σ) :
    σ → List (Batch α β) → Except String (List (Batch γ δ))
  | _, [] => .ok []
  | s, b :: l =>
    match f b.1 b.2 s with
    | (some x, some y, s') =>
      if x ≠ [] ∧ y ≠ [] then
        if x.length ≠ y.length then .error "ValueError" else (transform f s' l).map ((x, y) :: ·)
      else transform f s' l
    | (_, _, s') => transform f s' l

/-- `DeviceDimensionAugmentedLoader._reshape_inputs`, base.py L539-548: row-major reshape to `(n_devices, -1, …)`. -/
def shard (nDevices : ℕ) (rows : List α) : Except String (List (List α)) :=
  if rows.length % nDevices ≠ 0 then .error "ValueError"
  else .ok ((List.range nDevices).map fun d =>
    (rows.drop (d * (rows.length / nDevices))).take (rows.length / nDevices))

/-- Iterating a `DeviceDimensionAugmentedLoader`, base.py L550-553, on one array per batch. -/
def shardLoader (nDevices : ℕ) (l : List (List α)) : Except String (List (List (List α))) := l.mapM (shard nDevices)

/-- `_unshard_array`: `arr.reshape((-1,) + arr.shape[2:])`, likelihood/base.py L795-796. -/
def unshard (a : List (List α)) : List α := a.flatten

/-- `ConcatenatedLoader.__iter__`, base.py L563-565. -/
def concatLoaders {γ : Type*} (loaders : List (List γ)) : List γ := loaders.flatMap id

end Verif.Loader
