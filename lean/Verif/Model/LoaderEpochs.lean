import Verif.Model.Loader

/-!
Model of the shuffling of array loaders over several passes: `/repo/fortuna/data/loader/utils.py` L73-135 and
`/repo/fortuna/data/loader/array_loaders.py` L30-62 (data), L260-291 (inputs), L419-450 (targets).

`IterableData.__iter__` calls the stored function anew at every pass (utils.py L29-30), and that function makes a new
numpy generator from the seed (L82-84, L112-116).

Contract: a generator made from a seed draws the same permutation of the same number of indices whenever it is made;
one made without a seed draws from the entropy of the system, which may differ from pass to pass.
-/
namespace Verif.LoaderEpochs

open Verif.Loader

universe u v
variable {α : Type u} {β : Type v}

/-- What `np.random.default_rng(seed).choice(n, n, replace=False)` returns: with the seed `s` it is `seeded s n`, without a seed
it is, at the pass `p`, `fresh p n`. -/
structure Numpy where
  seeded : ℕ → ℕ → List ℕ
  fresh : ℕ → ℕ → List ℕ

/-- The permutation drawn at the start of the pass `p`, utils.py L82-84 and L112-116. -/
def drawPerm (g : Numpy) (seed : Option ℕ) (p n : ℕ) : List ℕ :=
  match seed with
  | some s => g.seeded s n
  | none => g.fresh p n

/-- The pass `p` over `IterableData.from_batch_array_data`, utils.py L103-135. -/
def iterBatchArray (g : Numpy) (x : List α) (y : List β) (bs : Option ℕ) (shuffle prefetch : Bool) (seed : Option ℕ) (p : ℕ) :
    Except String (List (Batch α β)) :=
  fromBatchArray x y bs (if shuffle then some (drawPerm g seed p x.length) else none) prefetch

/-- The pass `p` over `IterableData.from_array_data`, utils.py L73-100. -/
def iterArray (g : Numpy) (x : List α) (bs : Option ℕ) (shuffle prefetch : Bool) (seed : Option ℕ) (p : ℕ) : Except String (List (List α)) :=
  fromArray x bs (if shuffle then some (drawPerm g seed p x.length) else none) prefetch

/-- The pass `p` over `DataLoader.from_array_data`, array_loaders.py L30-62: no seed is passed on, so the default of utils.py L109 holds. -/
def dataLoader (g : Numpy) (x : List α) (y : List β) (bs : Option ℕ) (shuffle prefetch : Bool) (p : ℕ) : Except String (List (Batch α β)) :=
  iterBatchArray g x y bs shuffle prefetch (some 0) p

/-- The pass `p` over `InputsLoader.from_array_inputs` or `TargetsLoader.from_array_targets`, array_loaders.py L260-291, L419-450: again without a seed,
utils.py L79. -/
def arrayLoader (g : Numpy) (x : List α) (bs : Option ℕ) (shuffle prefetch : Bool) (p : ℕ) : Except String (List (List α)) :=
  iterArray g x bs shuffle prefetch (some 0) p

/-- The batches that a training of several epochs visits: one pass per epoch, trainer.py L385-391, L478. -/
def visited {γ : Type*} (pass : ℕ → Except String (List γ)) : ℕ → Except String (List γ)
  | 0 => .ok []
  | e + 1 => do
    let before ← visited pass e
    let l ← pass e
    .ok (before ++ l)

end Verif.LoaderEpochs
