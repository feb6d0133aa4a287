import Mathlib.Analysis.SpecialFunctions.Log.Basic
import Mathlib.Analysis.SpecialFunctions.Exp
import Verif.Model.ArrayOps
import Verif.Model.Quantile
import Verif.Model.Predictive

/-!
# Hallucination detection and grouping

Source: `/repo/fortuna/hallucination/base.py`, `/repo/fortuna/hallucination/grouping/clustering/base.py`,
`/repo/fortuna/hallucination/scoring/inv_perplexity.py`. Language model, dimension reduction and clustering
are external: their outputs are arbitrary.
-/

set_option linter.unusedSectionVars false

namespace Verif.Hallucination

open Verif.ArrayOps

section data
variable {T C : Type}

/-- `idx0`/`idx1`, base.py L297-298. -/
def indicesOf (targets : List ℤ) (label : ℤ) : List ℕ :=
  (List.range targets.length).filter fun i => targets[i]? = some label

/-- `_balance_data`, base.py L294-307: `draw k` is the position (taken modulo the number of candidates)
of the `k`-th draw of `rng.choice`, which refuses to draw from an empty list. The loop appends to the
lists while it reads from them. -/
def balance (texts : List T) (contexts : List C) (targets : List ℤ) (draw : ℕ → ℕ) :
    Except String (List T × List C × List ℤ) :=
  let idx0 := indicesOf targets 0
  let idx1 := indicesOf targets 1
  let from' := if idx1.length > idx0.length then idx0 else idx1
  let n := (idx1.length - idx0.length) + (idx0.length - idx1.length)
  if n > 0 ∧ from' = [] then .error "ValueError"
  else
    let idx := (List.range n).map fun k => from'.getD (draw k % from'.length) 0
    idx.foldlM (fun (acc : List T × List C × List ℤ) i =>
      match acc.1[i]?, acc.2.1[i]?, acc.2.2[i]? with
      | some t, some c, some y => .ok (acc.1 ++ [t], acc.2.1 ++ [c], acc.2.2 ++ [y])
      | _, _, _ => .error "IndexError") (texts, contexts, targets)

/-- `_batch`, base.py L265-268: slices of texts and of contexts at the same positions. -/
def batches (texts : List T) (contexts : List C) (size : ℕ) : Except String (List (List T × List C)) :=
  if size = 0 then .error "ValueError"
  else .ok ((List.range ((texts.length + size - 1) / size)).map fun k =>
    ((texts.drop (k * size)).take size, (contexts.drop (k * size)).take size))

end data

section groups
variable {K : Type} [Field K] [LinearOrder K] [IsStrictOrderedRing K]

/-- `_get_groups`, base.py L239-243, for one row. -/
def groupsOf (quantiles row : List K) : List Bool :=
  List.zipWith (fun s q => decide (q ≤ s)) row quantiles ++ [true]

/-- `predict`, base.py L237, for one row. -/
def predict (p : K) : ℕ := if 1 / 2 ≤ p then 1 else 0

/-- `hard_predict`, clustering/base.py L99-103, for one row. -/
def hardPredict (probs : List K) : List Bool :=
  (List.range probs.length).map fun j => decide (j = argmax probs)

/-- `soft_predict`, clustering/base.py L77-79, for one column: the quantile is that of the rows predicted. -/
def softColumn [FloorRing K] (col : List K) (threshold : K) : Option (List Bool) :=
  (Verif.Quantile.quantile col threshold).map fun q => col.map fun p => decide (q < p)

/-- `_get_groups` for one column on the data of `fit`, base.py L138-141. -/
def fitColumn [FloorRing K] (col : List K) (threshold : K) : Option (List Bool) :=
  (Verif.Quantile.quantile col threshold).map fun q => col.map fun p => decide (q ≤ p)

/-- `_fit_best_model`, clustering/base.py L125-133, from the BIC of each model; `none` is `inf` or NaN, for
which `bic < best_bic` never holds against `inf`. Without a winner `best_model` is unbound. -/
def bestModel (bics : List (Option K)) : Except String ℕ :=
  let step : Option (K × ℕ) → Option K × ℕ → Option (K × ℕ) := fun best (b, i) =>
    match b with
    | none => best
    | some v => match best with
      | none => some (v, i)
      | some (bv, bi) => if v < bv then some (v, i) else some (bv, bi)
  match bics.zipIdx.foldl step none with
  | none => .error "UnboundLocalError"
  | some (_, i) => .ok i

end groups

noncomputable section score

open Verif.Predictive (logsumexp)

/-- `perplexity` of one row, inv_perplexity.py L5-16: `logits` and `labels` have one entry per token; the
cross-entropy of each token given the previous position, of which the last `n` count. Labels are in range. -/
def perplexity {v : ℕ} (logits : List (Fin v → ℝ)) (labels : List (Fin v)) (n : ℕ) : ℝ :=
  let ce := List.zipWith (fun o y => logsumexp o - o y) logits.dropLast labels.tail
  Real.exp (mean (ce.drop (if n = 0 then 0 else ce.length - n)))

/-- `inv_perplexity`, inv_perplexity.py L19-21. -/
def invPerplexity {v : ℕ} (logits : List (Fin v → ℝ)) (labels : List (Fin v)) (n : ℕ) : ℝ :=
  1 / perplexity logits labels n

/-- The tokenizer's `padding=True`, base.py L273-278: sequences of a batch are filled up on the right to
the longest. The second component is the attention mask. -/
def padTo {v : ℕ} (pad : Fin v) (len : ℕ) (ids : List (Fin v)) : List (Fin v × Bool) :=
  ids.map (fun t => (t, true)) ++ List.replicate (len - ids.length) (pad, false)

/-- The longest sequence of a batch. -/
def maxLen {v : ℕ} (seqs : List (List (Fin v))) : ℕ := (seqs.map List.length).foldl max 0

/-- `_get_logits_scores`, base.py L270-292: contexts and texts are padded separately and concatenated; the
labels are all the token ids, `n_final_tokens` the padded length of the texts. `lm` is the language model,
which sees token ids and mask of one row. -/
def batchScores {v : ℕ} (lm : List (Fin v × Bool) → List (Fin v → ℝ)) (pad : Fin v)
    (batch : List (List (Fin v) × List (Fin v))) : List ℝ :=
  let lc := maxLen (batch.map (·.1))
  let lt := maxLen (batch.map (·.2))
  batch.map fun r =>
    let row := padTo pad lc r.1 ++ padTo pad lt r.2
    invPerplexity (lm row) (row.map (·.1)) lt

end score

end Verif.Hallucination
