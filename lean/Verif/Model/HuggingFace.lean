import Mathlib.Data.List.Basic
import Mathlib.Data.Rat.Defs
import Mathlib.Algebra.Order.Field.Rat
import Verif.Model.ArrayOps

/-!
# Datasets and collators for language models

Source: `/repo/fortuna/data/dataset/huggingface_datasets.py` (`ds`), `/repo/fortuna/data/dataset/data_collator.py` (`dc`) and
`/repo/fortuna/data/loader/huggingface_loaders.py` (`hl`).

Contracts: `dataset[idxs]` is the rows at these indices in this order; `jax.random.permutation` returns a permutation that is a
function of the key; the tokenizer is an arbitrary function of the pair of sentences; `tokenizer.pad` pads every sequence on its
own; `np.random.binomial(1, p)` is an arbitrary bit, 0 if `p = 0` and 1 if `p = 1`.
-/

set_option linter.unusedSectionVars false

namespace Verif.HuggingFace

/-! ## Batches -/

/-- `[l[start : start + b] for start in range(0, len(l), b)]`, ds L159-162, L322-328, L425-431. -/
def slices {α : Type} (b : ℕ) (l : List α) : List (List α) :=
  (List.range ((l.length + b - 1) / b)).map fun i => (l.drop (i * b)).take b

/-- `_get_batches_idxs`, ds L142-162. `perm` is the drawn permutation. -/
def batchIdxs (perm : List ℕ) (size b : ℕ) (shuffle dropLast : Bool) : Except String (List (List ℕ)) :=
  let idxs := if shuffle then perm else List.range size
  if dropLast then
    if b = 0 then .error "ZeroDivisionError" else .ok (slices b (idxs.take (size / b * b)))
  else if b = 0 then .error "ValueError" else .ok (slices b idxs)

/-- `_get_data_loader`, ds L164-194: the rows of each batch. The key is the same in every epoch, so that `perm` is too. -/
def epochRows {α : Type} (rows : List α) (perm : List ℕ) (perDevice devices : ℕ) (shuffle dropLast : Bool) :
    Except String (List (List α)) := do
  let bs ← batchIdxs perm rows.length (perDevice * devices) shuffle dropLast
  .ok (bs.map fun idxs => idxs.filterMap fun i => rows[i]?)

/-- `HuggingFaceDataLoader.size`, hl L47-52, with `num_inputs=len(dataset)`, ds L132-136; `iterated` is the number of inputs
that an iteration gives. -/
def loaderSize (numInputs : Option ℕ) (iterated : ℕ) : ℕ :=
  match numInputs with
  | some (n + 1) => n + 1
  | _ => iterated

/-- `to_array_targets` and `num_unique_labels`, hl L64-74. -/
def numUniqueLabels (given : Option ℕ) (batches : List (List ℤ)) : ℕ :=
  match given with
  | some n => n
  | none => batches.flatten.dedup.length

/-! ## Chunks for masked language models -/

/-- `HuggingFaceMaskedLMDataset.get_tokenized_datasets._tokenize_fn`, ds L417-432: one key of the tokenized batch. -/
def chunkTexts {α : Type} (maxLength : ℕ) (texts : List (List α)) : Except String (List (List α)) :=
  let cat := texts.flatten
  if maxLength = 0 then .error "ZeroDivisionError"
  else .ok (slices maxLength (cat.take (cat.length / maxLength * maxLength)))

/-! ## Multiple choice -/

/-- One row: context, question header, list of choices, label. -/
structure Question (S : Type) where
  context : S
  header : S
  choices : List S
  label : ℤ

/-- `HuggingFaceMultiChoiceDataset.get_tokenized_datasets._tokenize_fn`, ds L302-330. `join` makes the second sentence, `tok` is
the tokenizer, which refuses lists of different lengths; `L` is `num_unique_labels`. The dataset library refuses columns of
different lengths. -/
def tokenizeChoices {S T : Type} (join : S → S → S) (tok : S → S → T) (L : ℕ) (qs : List (Question S)) :
    Except String (List (List T × ℤ)) :=
  let first := (qs.map fun q => List.replicate L q.context).flatten
  let second := (qs.map fun q => q.choices.map (join q.header)).flatten
  if first.length ≠ second.length then .error "ValueError"
  else if L = 0 then .error "ValueError"
  else
    let groups := slices L (List.zipWith tok first second)
    if groups.length ≠ qs.length then .error "ArrowInvalid"
    else .ok (groups.zip (qs.map Question.label))

/-- `v[i]`, dc L59. -/
def pick {T : Type} (f : List T) (i : ℕ) : Except String T :=
  match f[i]? with
  | some t => .ok t
  | none => .error "IndexError"

/-- `{k: v[i] for k, v in feature.items()} for i in range(num_choices)`, dc L58-61. -/
def pickChoices {T : Type} (num : ℕ) (f : List T) : Except String (List T) := (List.range num).mapM (pick f)

/-- `FlaxDataCollatorForMultipleChoice.__call__`, dc L53-76; `pad` is the padding of one sequence. An empty batch has no first
feature, and the tokenizer looks at the first sequence of what it pads. -/
def collateChoices {T U : Type} (pad : T → U) (features : List (List T × ℤ)) : Except String (List (List U) × List ℤ) :=
  match features with
  | [] => .error "IndexError"
  | f :: _ => do
    let num := f.1.length
    let flat ← features.mapM fun g => pickChoices num g.1
    let padded := flat.flatten.map pad
    if num = 0 then .error "IndexError"
    else .ok (slices num padded, features.map Prod.snd)

/-! ## Masking -/

/-- `np.random.binomial(1, p)` with `d` the drawn bit. -/
def binom (p : ℚ) (d : Bool) : Bool := if p = 0 then false else if p = 1 then true else d

/-- The draws at one position: masked, replaced, random, and the random word. -/
structure Draw where
  masked : Bool
  replaced : Bool
  random : Bool
  word : ℤ

/-- `mask_tokens`, dc L141-178, at one position: the new input and the label. -/
def maskToken (p : ℚ) (maskId : ℤ) (special : Bool) (tok : ℤ) (d : Draw) : ℤ × ℤ :=
  let prob := if special then 0 else p
  let masked := binom prob d.masked
  let label := if !masked then -100 else tok
  let replaced := binom (4 / 5) d.replaced && masked
  let input := if replaced then maskId else tok
  let random := binom (1 / 2) d.random && (masked && !replaced)
  let input := if random then d.word else input
  (input, label)

/-- `FlaxDataCollatorForLanguageModeling.__call__`, dc L114-139, on one padded sequence. `special = none`: the dataset has no
column `special_tokens_mask`. `padId = none`: the tokenizer has no padding token. The rate of special tokens is set to 0 before it
is checked, dc L154-155. -/
def collateLM (mlm : Bool) (p : ℚ) (maskId : ℤ) (padId : Option ℤ) (special : Option (List Bool)) (ids : List ℤ)
    (draws : List Draw) : Except String (List ℤ × List ℤ) :=
  if mlm then
    match special with
    | none => .error "AttributeError"
    | some sp =>
      if (p < 0 ∨ 1 < p) ∧ false ∈ sp then .error "ValueError"
      else
        let out := List.zipWith (fun ts d => maskToken p maskId ts.2 ts.1 d) (ids.zip sp) draws
        .ok (out.map Prod.fst, out.map Prod.snd)
  else
    match padId with
    | some pad => .ok (ids, ids.map fun t => if t = pad then -100 else t)
    | none => .ok (ids, ids)

end Verif.HuggingFace
