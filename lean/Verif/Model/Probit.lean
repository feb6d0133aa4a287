import Mathlib.Analysis.SpecialFunctions.Trigonometric.Basic
import Mathlib.LinearAlgebra.Matrix.NonsingularInverse
import Mathlib.Algebra.BigOperators.Fin

/-!
# Probit scaling of logits

Source: `/repo/fortuna/utils/probit.py`, `/repo/fortuna/utils/grad.py`, `/repo/fortuna/model_editor/probit.py`.

Real arithmetic; one point of the batch (everything is mapped over the batch). The Jacobian of the outputs of a token in the
selected parameters is an argument: `J τ` for the token numbered `τ` (from 1, as in the code). `jnp.linalg.inv` is
`Matrix.inv`; on singular matrices the code gives infinities and this gives 0. Not modelled: which parameters are selected
(`freeze_fun`, see `Verif.Nested`), auxiliary outputs, `stop_gradient`.
-/

set_option linter.unusedSectionVars false

namespace Verif.Probit

noncomputable section

/-! ## Row norms -/

/-- `jacobian_squared_row_norm_fn` without selection, grad.py L80-88: the sum over the parameter arrays (each flattened) of the
sums of squares. -/
def rowNorms {ρ : Type} (leaves : List (ρ → List ℝ)) (i : ρ) : ℝ :=
  leaves.foldl (fun a b => a + ((b i).map fun x => x ^ 2).sum) 0

/-- `jnp.max` of a nonempty list. -/
def maxOf : List ℝ → ℝ
  | [] => 0
  | a :: l => l.foldl max a

/-- `x.at[idx].set(vals)`: in the order of the indices. -/
def setAt {n : ℕ} (x : Fin n → ℝ) (idx : List (Fin n)) (vals : List ℝ) : Fin n → ℝ :=
  (idx.zip vals).foldl (fun x iv => Function.update x iv.1 iv.2) x

/-- `jacobian_squared_row_norm_fn` with the selected outputs `idx`, grad.py L80-91: `norm i` is the squared row norm of output
`i`. -/
def rowNormsTop {n : ℕ} (norm : Fin n → ℝ) (idx : List (Fin n)) : Fin n → ℝ :=
  setAt (fun _ => maxOf (idx.map norm) * 1) idx (idx.map norm)

/-- `f /= 1 + jnp.pi / 8 * jnp.exp(log_var) * scale`, probit.py L50 and L256-257. -/
def scaled (logVar scale f : ℝ) : ℝ := f / (1 + Real.pi / 8 * Real.exp logVar * scale)

/-! ## Sequences -/

/-- The checks on `n_final_tokens` and `memory`, probit.py L106-117: the values used. -/
def checkArgs (seqLength : ℕ) (nFinal memory : Option ℤ) : Except String (ℤ × ℤ) :=
  let n := nFinal.getD seqLength
  if n ≤ 0 ∨ n > seqLength then .error "ValueError"
  else
    let m := memory.getD n
    if m ≤ 0 ∨ m > n then .error "ValueError" else .ok (n, m)

section
open Matrix
variable {β π : Type} [Fintype β] [DecidableEq β] [Fintype π]

/-- `compute_cov(new_tau, prev_tau)`, probit.py L131-162: the product of the Jacobians. The placeholder `-1` of the code is not
recognised (`prev_tau` has been decreased before the test): it gives the product with some token; here with whatever `J (-1)`
is. -/
def cov (J : ℤ → Matrix β π ℝ) (new prev : ℤ) : Matrix β β ℝ := J new * (J prev)ᵀ

/-- The carry of `fun`: `Jinv` by blocks and `old_taus`, both with `memory` positions. -/
structure PState (β : Type) where
  jinv : ℕ → ℕ → Matrix β β ℝ
  old : ℕ → ℤ

/-- `M = P Jinv`, probit.py L179-180: block `p`. -/
def blockM (J : ℤ → Matrix β π ℝ) (mem : ℕ) (s : PState β) (tau : ℤ) (p : ℕ) : Matrix β β ℝ :=
  ∑ q ∈ Finset.range mem, cov J tau (s.old q) * s.jinv q p

/-- `C = S - M Pᵀ`, probit.py L177-181. -/
def blockC (J : ℤ → Matrix β π ℝ) (mem : ℕ) (s : PState β) (tau : ℤ) : Matrix β β ℝ :=
  cov J tau tau - ∑ p ∈ Finset.range mem, blockM J mem s tau p * (cov J tau (s.old p))ᵀ

/-- `fun`, probit.py L175-197: the new carry; the first position is dropped and the new token put last. -/
def stepP (J : ℤ → Matrix β π ℝ) (mem : ℕ) (s : PState β) (tau : ℤ) : PState β :=
  let M := blockM J mem s tau
  let Cinv := (blockC J mem s tau)⁻¹
  { jinv := fun p q =>
      if p + 1 < mem then
        if q + 1 < mem then s.jinv (p + 1) (q + 1) + (M (p + 1))ᵀ * Cinv * M (q + 1)
        else -((M (p + 1))ᵀ * Cinv)
      else if q + 1 < mem then (-((M (q + 1))ᵀ * Cinv))ᵀ
      else Cinv
    old := fun p => if p + 1 < mem then s.old (p + 1) else tau }

/-- The carry at the start, probit.py L200-224: placeholders and the first token. -/
def initP (J : ℤ → Matrix β π ℝ) (mem : ℕ) (init : ℤ) : PState β :=
  { jinv := fun p q => if p + 1 = mem ∧ q + 1 = mem then (cov J init init)⁻¹ else 0
    old := fun p => if p + 1 < mem then -1 else init }

/-- `lax.scan(fun, …, jnp.arange(init_tau + 1, seq_length + 1))`, probit.py L226-228: the matrices `C`, from `steps` tokens
starting at `tau`. -/
def scanC (J : ℤ → Matrix β π ℝ) (mem : ℕ) : ℕ → PState β → ℤ → List (Matrix β β ℝ)
  | 0, _, _ => []
  | k + 1, s, tau => blockC J mem s tau :: scanC J mem k (stepP J mem s tau) (tau + 1)

/-- `get_diagCs`, probit.py L199-235: the matrices whose diagonals are the scales of the last `n` tokens. -/
def allC (J : ℤ → Matrix β π ℝ) (seqLength n mem : ℕ) : List (Matrix β β ℝ) :=
  let init : ℤ := seqLength - n + 1
  if n > 1 then cov J init init :: scanC J mem (n - 1) (initP J mem init) (init + 1) else [cov J init init]

end

/-- The scales with `top_k`, probit.py L241-249: `diag` are the diagonals (one list of length `k` for each of the last `n`
tokens), `idx j` the selected outputs of token `j` of the sequence. An index out of range reads the last entry (jax contract).
Token `j` runs over the last `n` of the sequence. -/
def topScales {v : ℕ} (diag : List (List ℝ)) (idx : ℕ → List (Fin v)) (j : ℕ) : Fin v → ℝ :=
  let row := diag.getD (min j (diag.length - 1)) []
  setAt (fun _ => maxOf row) (idx j) ((idx j).map fun i => row.getD (min i.val (row.length - 1)) 0)

end

end Verif.Probit
