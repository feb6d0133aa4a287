import Verif.Model.HuggingFace

/-!
# Tokenized rows and padded batches

Source: `/repo/fortuna/data/dataset/huggingface_datasets.py` (`ds`) and `/repo/fortuna/data/dataset/data_collator.py` (`dc`).

Contracts: the tokenizer maps a text to a list of tokens and, given a length, truncates to it; `tokenizer.pad` appends padding
tokens up to the length of the longest row, or up to `max_length`, rounded up to a multiple of `pad_to_multiple_of` if given, and
leaves longer rows alone; arrays are made of rows of equal length only; `datasets.map(batched=True)` calls its function on
successive blocks of 1000 rows. Of the columns only `input_ids` is followed; the attention mask has the same shape.
-/

set_option linter.unusedSectionVars false

namespace Verif.TextBatch

open Verif.HuggingFace

/-- The values of `padding`, ds L47-57: `False`, `True` or `"longest"`, `"max_length"`, `"do_not_pad"`. -/
inductive Padding where
  | off
  | longest
  | maxLength
  | doNotPad
  deriving DecidableEq

/-- The number of padded tokens asked for: `n`, rounded up to a multiple of `multiple` (contract of `tokenizer.pad`). -/
def roundUp (multiple : Option ℕ) (n : ℕ) : ℕ :=
  match multiple with
  | none => n
  | some m => if n % m ≠ 0 then (n / m + 1) * m else n

/-- The longest row. -/
def longestRow (rows : List (List ℤ)) : ℕ := (rows.map List.length).foldr max 0

/-- One row padded to `n` tokens. -/
def padTo (padId : ℤ) (n : ℕ) (row : List ℤ) : List ℤ := row ++ List.replicate (n - row.length) padId

/-- `tokenizer.pad(rows, padding=..., max_length=..., pad_to_multiple_of=...)`. -/
def padRows (padding : Padding) (maxLength : ℕ) (multiple : Option ℕ) (padId : ℤ) (rows : List (List ℤ)) :
    Except String (List (List ℤ)) :=
  match padding with
  | .off => .ok rows
  | .doNotPad => .ok rows
  | .longest => if multiple = some 0 then .error "ZeroDivisionError" else .ok (rows.map (padTo padId (roundUp multiple (longestRow rows))))
  | .maxLength => if multiple = some 0 then .error "ZeroDivisionError" else .ok (rows.map (padTo padId (roundUp multiple maxLength)))

/-- `jnp.array(v)`, ds L189: rows of different lengths are refused. -/
def toArray (rows : List (List ℤ)) : Except String (List (List ℤ)) :=
  if ∃ r ∈ rows, ∃ s ∈ rows, r.length ≠ s.length then .error "ValueError" else .ok rows

/-- One batch of `HuggingFaceSequenceClassificationDataset`: `_tokenize_fn`, ds L227-236, then `_collate`, ds L256-263, whose
collator, ds L245-254, is not given `pad_to_multiple_of`. `tok none` tokenizes without truncation. -/
def sequenceBatch {S : Type} (padding : Padding) (maxLength : ℕ) (_multiple : Option ℕ) (tok : Option ℕ → S → List ℤ) (padId : ℤ)
    (texts : List S) : Except String (List (List ℤ)) := do
  let rows := texts.map (tok (some maxLength))
  let rows ← if padding = .maxLength then padRows .maxLength maxLength none padId rows else .ok rows
  let rows ← if padding ≠ .off ∧ padding ≠ .maxLength then padRows padding maxLength none padId rows else .ok rows
  toArray rows

/-- One batch of `HuggingFaceMultiChoiceDataset`, each question the list of its choices: `_tokenize_fn` truncates to the
longest sequence of the tokenizer, `modelMax`, not to `max_length`, ds L319-321; the collator, ds L339-347, is not given `padding`,
so that dc L64-70 pads to the longest row. -/
def choiceBatch {S : Type} (_padding : Padding) (maxLength : ℕ) (multiple modelMax : Option ℕ) (tok : Option ℕ → S → List ℤ)
    (padId : ℤ) (questions : List (List S)) : Except String (List (List (List ℤ))) := do
  match questions with
  | [] => .error "IndexError"
  | q :: _ =>
    let picked ← questions.mapM fun t => pickChoices q.length (t.map (tok modelMax))
    let rows ← padRows .longest maxLength multiple padId picked.flatten
    let rows ← toArray rows
    if q.length = 0 then .error "IndexError" else .ok (slices q.length rows)

/-- The rows of a tokenized dataset for masked language models: `datasets.map(_tokenize_fn, batched=True)`, ds L403-439. -/
def lmChunks {S : Type} (maxLength : ℕ) (columns : ℕ) (tok : S → List ℤ) (texts : List S) : Except String (List (List ℤ)) := do
  if columns ≠ 1 then .error "AssertionError"
  else
    let parts ← (slices 1000 texts).mapM fun t => chunkTexts maxLength (t.map tok)
    .ok parts.flatten

/-- One batch of `HuggingFaceMaskedLMDataset` before masking: `_collate`, ds L451-453, makes the collator on first use, which
refuses to mask without a mask token, dc L107-112, and pads to the longest row, dc L117-122. -/
def lmBatch (mlm hasMask : Bool) (multiple : Option ℕ) (padId : ℤ) (rows : List (List ℤ)) : Except String (List (List ℤ)) := do
  if mlm && !hasMask then .error "ValueError"
  else
    let rows ← padRows .longest 0 multiple padId rows
    toArray rows

end Verif.TextBatch
