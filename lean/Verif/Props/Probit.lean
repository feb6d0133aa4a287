import Mathlib.LinearAlgebra.Matrix.ToLinearEquiv
import Mathlib.Analysis.SpecialFunctions.Log.Basic
import Mathlib.Tactic.Linarith
import Mathlib.Tactic.Positivity
import Mathlib.Tactic.FieldSimp
import Mathlib.Tactic.NormNum
import Mathlib.Tactic.NoncommRing
import Mathlib.Tactic.FinCases
import Verif.Model.Probit

/-!
# C80: probit scaling
-/

set_option linter.unusedSectionVars false

namespace Verif.Props
open Verif.Probit Matrix

section seq
variable {β π : Type} [Fintype β] [DecidableEq β] [Fintype π]

theorem cov_transpose (J : ℤ → Matrix β π ℝ) (s t : ℤ) : (cov J s t)ᵀ = cov J t s := by
  unfold cov; rw [transpose_mul, transpose_transpose]

/-- The carry after `k` steps: `a` placeholders, then the tokens `init … init + k` with the inverse of their covariance. -/
structure Carry (J : ℤ → Matrix β π ℝ) (init : ℤ) (a k : ℕ) (s : PState β) : Prop where
  old : ∀ i, i ≤ k → s.old (a + i) = init + i
  zero : ∀ p q, p < a + k + 1 → q < a + k + 1 → (p < a ∨ q < a) → s.jinv p q = 0
  symm : ∀ p q, p < a + k + 1 → q < a + k + 1 → (s.jinv p q)ᵀ = s.jinv q p
  inv : ∀ i j, i ≤ k → j ≤ k →
    ∑ l ∈ Finset.range (k + 1), s.jinv (a + i) (a + l) * cov J (init + l) (init + j) = if i = j then 1 else 0

theorem blockM_eq {J : ℤ → Matrix β π ℝ} {init : ℤ} {a k : ℕ} {s : PState β} (h : Carry J init a k s) (tau : ℤ) (p : ℕ)
    (hp : p < a + k + 1) :
    blockM J (a + k + 1) s tau p = ∑ l ∈ Finset.range (k + 1), cov J tau (init + l) * s.jinv (a + l) p := by
  unfold blockM
  rw [add_assoc, Finset.sum_range_add, Finset.sum_eq_zero, zero_add]
  · refine Finset.sum_congr rfl fun l hl => ?_
    rw [h.old l (by have := Finset.mem_range.1 hl; omega)]
  · intro q hq
    have := Finset.mem_range.1 hq
    rw [h.zero q p (by omega) hp (Or.inl this), mul_zero]

theorem blockM_zero {J : ℤ → Matrix β π ℝ} {init : ℤ} {a k : ℕ} {s : PState β} (h : Carry J init a k s) (tau : ℤ) (p : ℕ)
    (hp : p < a) : blockM J (a + k + 1) s tau p = 0 := by
  rw [blockM_eq h tau p (by omega)]
  refine Finset.sum_eq_zero fun l hl => ?_
  have := Finset.mem_range.1 hl
  rw [h.zero _ _ (by omega) (by omega) (Or.inr hp), mul_zero]

/-- The regression equations. -/
theorem blockM_normal {J : ℤ → Matrix β π ℝ} {init : ℤ} {a k : ℕ} {s : PState β} (h : Carry J init a k s) (tau : ℤ) (j : ℕ)
    (hj : j ≤ k) :
    ∑ l ∈ Finset.range (k + 1), blockM J (a + k + 1) s tau (a + l) * cov J (init + l) (init + j) = cov J tau (init + j) := by
  have e : ∀ l ∈ Finset.range (k + 1), blockM J (a + k + 1) s tau (a + l) * cov J (init + l) (init + j)
      = ∑ q ∈ Finset.range (k + 1), cov J tau (init + q) * (s.jinv (a + q) (a + l) * cov J (init + l) (init + j)) := by
    intro l hl
    have := Finset.mem_range.1 hl
    rw [blockM_eq h tau _ (by omega), Finset.sum_mul]
    exact Finset.sum_congr rfl fun q _ => by rw [Matrix.mul_assoc]
  rw [Finset.sum_congr rfl e, Finset.sum_comm]
  have e2 : ∀ q ∈ Finset.range (k + 1),
      ∑ l ∈ Finset.range (k + 1), cov J tau (init + q) * (s.jinv (a + q) (a + l) * cov J (init + l) (init + j))
        = if q = j then cov J tau (init + q) else 0 := by
    intro q hq
    have := Finset.mem_range.1 hq
    rw [← Finset.mul_sum, h.inv q j (by omega) hj]
    split_ifs <;> simp
  rw [Finset.sum_congr rfl e2, Finset.sum_ite_eq', if_pos (Finset.mem_range.2 (by omega))]

theorem blockC_eq {J : ℤ → Matrix β π ℝ} {init : ℤ} {a k : ℕ} {s : PState β} (h : Carry J init a k s) (tau : ℤ) :
    blockC J (a + k + 1) s tau =
      cov J tau tau - ∑ l ∈ Finset.range (k + 1), blockM J (a + k + 1) s tau (a + l) * cov J (init + l) tau := by
  unfold blockC
  congr 1
  rw [add_assoc, Finset.sum_range_add, Finset.sum_eq_zero, zero_add]
  · refine Finset.sum_congr rfl fun l hl => ?_
    rw [h.old l (by have := Finset.mem_range.1 hl; omega), cov_transpose, ← add_assoc]
  · intro q hq
    rw [← add_assoc, blockM_zero h tau q (Finset.mem_range.1 hq), zero_mul]

/-- What is left of the Jacobian of token `tau`. -/
def residual (J : ℤ → Matrix β π ℝ) (init : ℤ) (k : ℕ) (B : ℕ → Matrix β β ℝ) (tau : ℤ) : Matrix β π ℝ :=
  J tau - ∑ l ∈ Finset.range k, B l * J (init + l)

theorem residual_spec {J : ℤ → Matrix β π ℝ} {init : ℤ} {a k : ℕ} {s : PState β} (h : Carry J init a k s) (tau : ℤ) :
    let R := residual J init (k + 1) (fun l => blockM J (a + k + 1) s tau (a + l)) tau
    (∀ j, j ≤ k → R * (J (init + j))ᵀ = 0) ∧ blockC J (a + k + 1) s tau = R * Rᵀ := by
  intro R
  have h1 : ∀ j, j ≤ k → R * (J (init + j))ᵀ = 0 := by
    intro j hj
    show (J tau - ∑ l ∈ Finset.range (k + 1), blockM J (a + k + 1) s tau (a + l) * J (init + l)) * (J (init + j))ᵀ = 0
    rw [Matrix.sub_mul, Matrix.sum_mul, sub_eq_zero]
    have e : ∑ l ∈ Finset.range (k + 1), blockM J (a + k + 1) s tau (a + l) * J (init + l) * (J (init + j))ᵀ
        = ∑ l ∈ Finset.range (k + 1), blockM J (a + k + 1) s tau (a + l) * cov J (init + l) (init + j) :=
      Finset.sum_congr rfl fun l _ => by rw [Matrix.mul_assoc]; rfl
    rw [e, blockM_normal h tau j hj]; rfl
  refine ⟨h1, ?_⟩
  have e1 : R * Rᵀ = R * (J tau)ᵀ := by
    have : Rᵀ = (J tau)ᵀ - ∑ l ∈ Finset.range (k + 1), (J (init + l))ᵀ * (blockM J (a + k + 1) s tau (a + l))ᵀ := by
      show (J tau - ∑ l ∈ Finset.range (k + 1), blockM J (a + k + 1) s tau (a + l) * J (init + l))ᵀ = _
      rw [transpose_sub, transpose_sum]
      simp only [transpose_mul]
    rw [this, Matrix.mul_sub, Matrix.mul_sum, Finset.sum_eq_zero, sub_zero]
    intro l hl
    have := Finset.mem_range.1 hl
    rw [← Matrix.mul_assoc, h1 l (by omega), Matrix.zero_mul]
  rw [e1, blockC_eq h]
  show _ = (J tau - ∑ l ∈ Finset.range (k + 1), blockM J (a + k + 1) s tau (a + l) * J (init + l)) * (J tau)ᵀ
  rw [Matrix.sub_mul, Matrix.sum_mul]
  congr 1
  exact Finset.sum_congr rfl fun l _ => by rw [Matrix.mul_assoc]; rfl

/-- The next carry. -/
theorem carry_step {J : ℤ → Matrix β π ℝ} {init : ℤ} {a k : ℕ} {s : PState β} (h : Carry J init (a + 1) k s)
    (hdet : (blockC J (a + 1 + k + 1) s (init + (k + 1 : ℕ))).det ≠ 0) :
    Carry J init a (k + 1) (stepP J (a + 1 + k + 1) s (init + (k + 1 : ℕ))) := by
  set tau : ℤ := init + (k + 1 : ℕ) with htau
  set mem := a + 1 + k + 1 with hmem
  set C := blockC J mem s tau with hC
  set B : ℕ → Matrix β β ℝ := fun l => blockM J mem s tau (a + 1 + l) with hB
  obtain ⟨hres, hCR⟩ := residual_spec h tau
  have hCsymm : Cᵀ = C := by
    rw [hC, hCR, transpose_mul, transpose_transpose]
  have hunit : IsUnit C.det := isUnit_iff_ne_zero.2 hdet
  have hCisymm : (C⁻¹)ᵀ = C⁻¹ := by rw [transpose_nonsing_inv, hCsymm]
  have hCC : C⁻¹ * C = 1 := nonsing_inv_mul _ hunit
  -- the new blocks
  have j11 : ∀ i l, i ≤ k → l ≤ k → (stepP J mem s tau).jinv (a + i) (a + l)
      = s.jinv (a + 1 + i) (a + 1 + l) + (B i)ᵀ * C⁻¹ * B l := by
    intro i l hi hl
    have h1 : a + i + 1 < mem := by omega
    have h2 : a + l + 1 < mem := by omega
    show (if a + i + 1 < mem then _ else _) = _
    rw [if_pos h1, if_pos h2, show a + i + 1 = a + 1 + i by omega, show a + l + 1 = a + 1 + l by omega]
  have j12 : ∀ i, i ≤ k → (stepP J mem s tau).jinv (a + i) (a + (k + 1)) = -((B i)ᵀ * C⁻¹) := by
    intro i hi
    have h1 : a + i + 1 < mem := by omega
    have h2 : ¬ a + (k + 1) + 1 < mem := by omega
    show (if a + i + 1 < mem then _ else _) = _
    rw [if_pos h1, if_neg h2, show a + i + 1 = a + 1 + i by omega]
  have j21 : ∀ l, l ≤ k → (stepP J mem s tau).jinv (a + (k + 1)) (a + l) = -(C⁻¹ * B l) := by
    intro l hl
    have h1 : ¬ a + (k + 1) + 1 < mem := by omega
    have h2 : a + l + 1 < mem := by omega
    show (if a + (k + 1) + 1 < mem then _ else _) = _
    rw [if_neg h1, if_pos h2, show a + l + 1 = a + 1 + l by omega]
    show (-((B l)ᵀ * C⁻¹))ᵀ = _
    rw [transpose_neg, transpose_mul, transpose_transpose, hCisymm]
  have j22 : (stepP J mem s tau).jinv (a + (k + 1)) (a + (k + 1)) = C⁻¹ := by
    have h1 : ¬ a + (k + 1) + 1 < mem := by omega
    show (if a + (k + 1) + 1 < mem then _ else _) = _
    rw [if_neg h1, if_neg h1]
  have hsplit : ∀ i, i ≤ k → (B i)ᵀ = ∑ l ∈ Finset.range (k + 1), s.jinv (a + 1 + i) (a + 1 + l) * cov J (init + l) tau := by
    intro i hi
    show (blockM J mem s tau (a + 1 + i))ᵀ = _
    rw [blockM_eq h tau _ (by omega), transpose_sum]
    refine Finset.sum_congr rfl fun l hl => ?_
    have := Finset.mem_range.1 hl
    rw [transpose_mul, cov_transpose, h.symm _ _ (by omega) (by omega)]
  have hnorm : ∀ j, j ≤ k → ∑ l ∈ Finset.range (k + 1), B l * cov J (init + l) (init + j) = cov J tau (init + j) :=
    fun j hj => blockM_normal h tau j hj
  have hCeq : ∑ l ∈ Finset.range (k + 1), B l * cov J (init + l) tau = cov J tau tau - C := by
    rw [hC, blockC_eq h]; abel
  constructor
  · intro i hi
    show (if a + i + 1 < mem then s.old (a + i + 1) else tau) = _
    by_cases hik : i ≤ k
    · rw [if_pos (by omega), show a + i + 1 = a + 1 + i by omega, h.old i hik]
    · obtain rfl : i = k + 1 := by omega
      rw [if_neg (by omega)]
  · intro p q hp hq hpq
    show (if p + 1 < mem then _ else _) = _
    have hM : ∀ r, r < a → blockM J mem s tau (r + 1) = 0 := fun r hr => blockM_zero h tau (r + 1) (by omega)
    by_cases h1 : p + 1 < mem
    · by_cases h2 : q + 1 < mem
      · rw [if_pos h1, if_pos h2, h.zero (p + 1) (q + 1) (by omega) (by omega) (by omega)]
        rcases hpq with h3 | h3
        · rw [hM p h3]; simp
        · rw [hM q h3]; simp
      · rw [if_pos h1, if_neg h2]
        rcases hpq with h3 | h3
        · rw [hM p h3]; simp
        · omega
    · by_cases h2 : q + 1 < mem
      · rw [if_neg h1, if_pos h2]
        rcases hpq with h3 | h3
        · omega
        · rw [hM q h3]; simp
      · rcases hpq with h3 | h3 <;> omega
  · intro p q hp hq
    show (if p + 1 < mem then _ else _)ᵀ = (if q + 1 < mem then _ else _)
    by_cases h1 : p + 1 < mem <;> by_cases h2 : q + 1 < mem
    · rw [if_pos h1, if_pos h2, if_pos h2, if_pos h1, transpose_add, h.symm _ _ (by omega) (by omega), transpose_mul,
        transpose_mul, transpose_transpose]
      show _ + _ * ((C⁻¹)ᵀ * _) = _ + _ * C⁻¹ * _
      rw [hCisymm, Matrix.mul_assoc]
    · rw [if_pos h1, if_neg h2, if_neg h2, if_pos h1]
    · rw [if_neg h1, if_pos h2, if_pos h2, if_neg h1, transpose_transpose]
    · rw [if_neg h1, if_neg h2, if_neg h2, if_neg h1]; exact hCisymm
  · intro i j hi hj
    rw [Finset.sum_range_succ]
    by_cases hik : i ≤ k
    · rw [j12 i hik]
      have e : ∑ l ∈ Finset.range (k + 1), (stepP J mem s tau).jinv (a + i) (a + l) * cov J (init + l) (init + j)
          = ∑ l ∈ Finset.range (k + 1), s.jinv (a + 1 + i) (a + 1 + l) * cov J (init + l) (init + j)
            + (B i)ᵀ * C⁻¹ * ∑ l ∈ Finset.range (k + 1), B l * cov J (init + l) (init + j) := by
        rw [Finset.mul_sum, ← Finset.sum_add_distrib]
        refine Finset.sum_congr rfl fun l hl => ?_
        have := Finset.mem_range.1 hl
        rw [j11 i l hik (by omega), Matrix.add_mul, Matrix.mul_assoc ((B i)ᵀ * C⁻¹)]
      rw [e]
      by_cases hjk : j ≤ k
      · rw [h.inv i j hik hjk, hnorm j hjk, ← htau, Matrix.neg_mul]
        abel
      · obtain rfl : j = k + 1 := by omega
        rw [← htau, ← hsplit i hik, hCeq, Matrix.mul_sub, Matrix.mul_assoc _ C⁻¹ C, hCC, Matrix.mul_one, Matrix.neg_mul,
          if_neg (by omega)]
        abel
    · obtain rfl : i = k + 1 := by omega
      rw [j22]
      have e : ∑ l ∈ Finset.range (k + 1), (stepP J mem s tau).jinv (a + (k + 1)) (a + l) * cov J (init + l) (init + j)
          = -(C⁻¹ * ∑ l ∈ Finset.range (k + 1), B l * cov J (init + l) (init + j)) := by
        rw [Finset.mul_sum, ← Finset.sum_neg_distrib]
        refine Finset.sum_congr rfl fun l hl => ?_
        have := Finset.mem_range.1 hl
        rw [j21 l (by omega), Matrix.neg_mul, Matrix.mul_assoc]
      rw [e]
      by_cases hjk : j ≤ k
      · rw [hnorm j hjk, ← htau, if_neg (by omega)]
        abel
      · obtain rfl : j = k + 1 := by omega
        rw [← htau, hCeq, Matrix.mul_sub, hCC, if_pos rfl]
        abel

/-- No nontrivial combination of the rows of the Jacobians of the tokens `init … init + n - 1` vanishes. -/
def Indep (J : ℤ → Matrix β π ℝ) (init : ℤ) (n : ℕ) : Prop :=
  ∀ c : ℕ → β → ℝ, (∀ p, ∑ s ∈ Finset.range n, ∑ j, c s j * J (init + s) j p = 0) → ∀ s, s < n → ∀ j, c s j = 0

/-- The squared distance of a row of the Jacobian of token number `t` to a combination `c` of the rows of the tokens before. -/
def dist2 (J : ℤ → Matrix β π ℝ) (init : ℤ) (t : ℕ) (i : β) (c : ℕ → β → ℝ) : ℝ :=
  ∑ p, (J (init + t) i p - ∑ s ∈ Finset.range t, ∑ j, c s j * J (init + s) j p) ^ 2

/-- `C` is the matrix of products of residuals. -/
def ResidualCov (J : ℤ → Matrix β π ℝ) (init : ℤ) (t : ℕ) (C : Matrix β β ℝ) : Prop :=
  ∃ B : ℕ → Matrix β β ℝ, (∀ j, j < t → residual J init t B (init + t) * (J (init + j))ᵀ = 0) ∧
    C = residual J init t B (init + t) * (residual J init t B (init + t))ᵀ

theorem Indep.mono {J : ℤ → Matrix β π ℝ} {init : ℤ} {n m : ℕ} (h : Indep J init n) (hm : m ≤ n) : Indep J init m := by
  intro c hc s hs j
  have := h (fun s j => if s < m then c s j else 0) ?_ s (by omega) j
  · simpa [hs] using this
  · intro p
    refine (Finset.sum_subset (s₁ := Finset.range m) (s₂ := Finset.range n) ?_ ?_).symm.trans (Eq.trans ?_ (hc p))
    rotate_left 2
    · refine Finset.sum_congr rfl fun s hs => ?_
      rw [Finset.mem_range] at hs
      simp [hs]
    · intro x hx; rw [Finset.mem_range] at *; omega
    · intro x _ hx
      rw [Finset.mem_range] at hx
      simp [hx]

theorem residual_apply (J : ℤ → Matrix β π ℝ) (init : ℤ) (t : ℕ) (B : ℕ → Matrix β β ℝ) (tau : ℤ) (i : β) (p : π) :
    residual J init t B tau i p = J tau i p - ∑ s ∈ Finset.range t, ∑ j, B s i j * J (init + s) j p := by
  simp only [residual, Matrix.sub_apply, Matrix.sum_apply, Matrix.mul_apply]

theorem ResidualCov.det {J : ℤ → Matrix β π ℝ} {init : ℤ} {t : ℕ} {C : Matrix β β ℝ} (h : ResidualCov J init t C)
    (hi : Indep J init (t + 1)) : C.det ≠ 0 := by
  obtain ⟨B, -, rfl⟩ := h
  set R := residual J init t B (init + t) with hR
  intro h0
  obtain ⟨x, hx, hx0⟩ := Matrix.exists_vecMul_eq_zero_iff.2 h0
  have h1 : (x ᵥ* R) ⬝ᵥ (x ᵥ* R) = 0 := by
    have : (x ᵥ* (R * Rᵀ)) ⬝ᵥ x = 0 := by rw [hx0, zero_dotProduct]
    rw [← Matrix.vecMul_vecMul, ← Matrix.dotProduct_mulVec, Matrix.mulVec_transpose] at this
    exact this
  have h2 : x ᵥ* R = 0 := by
    have h1' : ∑ p, (x ᵥ* R) p ^ 2 = 0 := by simpa only [dotProduct, pow_two] using h1
    have hz := (Finset.sum_eq_zero_iff_of_nonneg fun p _ => sq_nonneg _).1 h1'
    funext p
    exact pow_eq_zero_iff two_ne_zero |>.1 (hz p (Finset.mem_univ _))
  apply hx
  funext j
  have := hi (fun s j => if s < t then - ∑ i, x i * B s i j else x j) ?_ t (by omega) j
  · simpa using this
  · intro p
    have h3 : ∑ i, x i * R i p = 0 := by
      have := congrFun h2 p
      simpa [Matrix.vecMul, dotProduct] using this
    rw [Finset.sum_range_succ]
    simp only [lt_irrefl, if_false]
    have h4 : ∀ s ∈ Finset.range t, ∑ j, (if s < t then - ∑ i, x i * B s i j else x j) * J (init + s) j p
        = - ∑ i, x i * ∑ j, B s i j * J (init + s) j p := by
      intro s hs
      rw [Finset.mem_range] at hs
      simp only [hs, if_true, Finset.mul_sum, neg_mul, Finset.sum_mul, Finset.sum_neg_distrib]
      rw [Finset.sum_comm]
      simp only [mul_assoc]
    rw [Finset.sum_congr rfl h4, Finset.sum_neg_distrib, Finset.sum_comm]
    rw [hR] at h3
    simp only [residual_apply, mul_sub, Finset.sum_sub_distrib, Finset.mul_sum] at h3
    simp only [Finset.mul_sum]
    linarith

/-- The first carry. -/
theorem carry_init (J : ℤ → Matrix β π ℝ) (a : ℕ) (init : ℤ) (hdet : (cov J init init).det ≠ 0) :
    Carry J init a 0 (initP J (a + 0 + 1) init) := by
  have hs : ((cov J init init)⁻¹)ᵀ = (cov J init init)⁻¹ := by rw [transpose_nonsing_inv, cov_transpose]
  constructor
  · intro i hi
    obtain rfl : i = 0 := by omega
    show (if a + 0 + 1 < a + 0 + 1 then (-1 : ℤ) else init) = _
    rw [if_neg (by omega)]; simp
  · intro p q hp hq h
    show (if p + 1 = a + 0 + 1 ∧ q + 1 = a + 0 + 1 then _ else _) = _
    rw [if_neg (by omega)]
  · intro p q hp hq
    show (if p + 1 = a + 0 + 1 ∧ q + 1 = a + 0 + 1 then _ else _)ᵀ = (if q + 1 = a + 0 + 1 ∧ p + 1 = a + 0 + 1 then _ else _)
    by_cases h : p + 1 = a + 0 + 1 ∧ q + 1 = a + 0 + 1
    · rw [if_pos h, if_pos h.symm, hs]
    · rw [if_neg h, if_neg (fun h' => h h'.symm)]; simp
  · intro i j hi hj
    obtain rfl : i = 0 := by omega
    obtain rfl : j = 0 := by omega
    rw [Finset.sum_range_one, if_pos rfl]
    show (if a + 0 + 1 = a + 0 + 1 ∧ a + 0 + 1 = a + 0 + 1 then _ else _) * _ = _
    rw [if_pos ⟨rfl, rfl⟩]
    simpa using nonsing_inv_mul _ (isUnit_iff_ne_zero.2 hdet)

theorem scan_spec {J : ℤ → Matrix β π ℝ} {init : ℤ} (steps : ℕ) :
    ∀ {a k : ℕ} {s : PState β}, Carry J init a k s → Indep J init (k + 1 + steps) → ∀ t, t < steps → t ≤ a →
      ∃ C, (scanC J (a + k + 1) steps s (init + (k + 1 : ℕ)))[t]? = some C ∧ ResidualCov J init (k + 1 + t) C := by
  induction steps with
  | zero => intro a k s _ _ t ht; omega
  | succ n ih =>
    intro a k s h hi t ht hta
    have hspec : ResidualCov J init (k + 1) (blockC J (a + k + 1) s (init + (k + 1 : ℕ))) := by
      obtain ⟨h1, h2⟩ := residual_spec h (init + (k + 1 : ℕ))
      exact ⟨_, fun j hj => h1 j (by omega), h2⟩
    cases t with
    | zero => exact ⟨_, rfl, hspec⟩
    | succ t =>
      obtain ⟨a, rfl⟩ : ∃ b, a = b + 1 := ⟨a - 1, by omega⟩
      have hc := carry_step h (hspec.det (hi.mono (by omega)))
      have e : a + 1 + k + 1 = a + (k + 1) + 1 := by omega
      obtain ⟨C, hC, hR⟩ := ih hc (hi.mono (by omega)) t (by omega) (by omega)
      refine ⟨C, ?_, by rwa [show k + 1 + (t + 1) = k + 1 + 1 + t by omega]⟩
      show (scanC J (a + 1 + k + 1) n _ _)[t]? = _
      rw [← hC, e]
      have e2 : init + ((k + 1 : ℕ) : ℤ) + 1 = init + ((k + 1 + 1 : ℕ) : ℤ) := by push_cast; ring
      rw [e2]

theorem ResidualCov.least {J : ℤ → Matrix β π ℝ} {init : ℤ} {t : ℕ} {C : Matrix β β ℝ} (h : ResidualCov J init t C) (i : β) :
    IsLeast (Set.range (dist2 J init t i)) (C i i) := by
  obtain ⟨B, h0, rfl⟩ := h
  set R := residual J init t B (init + t) with hR
  have hC : (R * Rᵀ) i i = ∑ p, R i p ^ 2 := by
    simp only [Matrix.mul_apply, Matrix.transpose_apply, pow_two]
  have horth : ∀ s, s < t → ∀ j, ∑ p, R i p * J (init + s) j p = 0 := by
    intro s hs j
    have := congrFun (congrFun (h0 s hs) i) j
    simpa only [Matrix.mul_apply, Matrix.transpose_apply, Matrix.zero_apply] using this
  constructor
  · refine ⟨fun s j => B s i j, ?_⟩
    rw [hC]
    unfold dist2
    exact Finset.sum_congr rfl fun p _ => by rw [hR, residual_apply]
  · rintro _ ⟨c, rfl⟩
    rw [hC]
    -- the difference between the row and the combination
    set D : π → ℝ := fun p => ∑ s ∈ Finset.range t, ∑ j, (B s i j - c s j) * J (init + s) j p with hD
    have e : ∀ p, J (init + t) i p - ∑ s ∈ Finset.range t, ∑ j, c s j * J (init + s) j p = R i p + D p := by
      intro p
      rw [hR, residual_apply, hD]
      simp only [sub_mul, Finset.sum_sub_distrib]
      ring
    have hcross : ∑ p, R i p * D p = 0 := by
      simp only [hD, Finset.mul_sum]
      rw [Finset.sum_comm]
      refine Finset.sum_eq_zero fun s hs => ?_
      rw [Finset.sum_comm]
      refine Finset.sum_eq_zero fun j _ => ?_
      have := horth s (Finset.mem_range.1 hs) j
      calc ∑ p, R i p * ((B s i j - c s j) * J (init + s) j p)
          = (B s i j - c s j) * ∑ p, R i p * J (init + s) j p := by
            rw [Finset.mul_sum]; exact Finset.sum_congr rfl fun p _ => by ring
        _ = 0 := by rw [this, mul_zero]
    have h2 : dist2 J init t i c = ∑ p, R i p ^ 2 + ∑ p, D p ^ 2 + 2 * ∑ p, R i p * D p := by
      unfold dist2
      rw [Finset.mul_sum, ← Finset.sum_add_distrib, ← Finset.sum_add_distrib]
      exact Finset.sum_congr rfl fun p _ => by rw [e p]; ring
    rw [h2, hcross]
    have : 0 ≤ ∑ p, D p ^ 2 := Finset.sum_nonneg fun p _ => sq_nonneg _
    linarith

/-- **C80.** The scale of an output of a token is the squared distance of its Jacobian row to the combinations of the Jacobian
rows of the earlier scaled tokens: for every token when the memory covers all, otherwise up to the token where the memory is
first full. -/
theorem C80_scales (J : ℤ → Matrix β π ℝ) (L n mem : ℕ) (hm : 0 < mem) (hi : Indep J (L - n + 1) n) (t : ℕ)
    (ht : t < n) (htm : t ≤ mem) :
    ∃ C, (allC J L n mem)[t]? = some C ∧ ∀ i, IsLeast (Set.range (dist2 J (L - n + 1) t i)) (C i i) := by
  set init : ℤ := L - n + 1 with hinit
  have h0 : ResidualCov J init 0 (cov J init init) := by
    refine ⟨fun _ => 0, fun j hj => by omega, ?_⟩
    simp [residual, cov]
  cases t with
  | zero =>
    refine ⟨cov J init init, ?_, h0.least⟩
    unfold allC
    by_cases h : n > 1
    · simp only [← hinit]; rw [if_pos h]; rfl
    · simp only [← hinit]; rw [if_neg h]; rfl
  | succ t =>
    obtain ⟨a, rfl⟩ : ∃ b, mem = b + 0 + 1 := ⟨mem - 1, by omega⟩
    have hc := carry_init J a init (h0.det (hi.mono (by omega)))
    obtain ⟨C, hC, hR⟩ := scan_spec (n - 1) hc (hi.mono (by omega)) t (by omega) (by omega)
    refine ⟨C, ?_, ?_⟩
    · unfold allC
      simp only [← hinit]
      rw [if_pos (by omega)]
      show (scanC J _ _ _ _)[t]? = _
      rw [← hC]
      norm_num
    · rw [show t + 1 = 0 + 1 + t by omega]; exact hR.least

/-- A scale is positive and at most the squared norm of the row. -/
theorem C80_scales_pos (J : ℤ → Matrix β π ℝ) (L n mem : ℕ) (hm : 0 < mem) (hi : Indep J (L - n + 1) n) (t : ℕ)
    (ht : t < n) (htm : t ≤ mem) (C : Matrix β β ℝ) (hC : (allC J L n mem)[t]? = some C) (i : β) :
    0 < C i i ∧ C i i ≤ ∑ p, J (L - n + 1 + t) i p ^ 2 := by
  obtain ⟨C', hC', hl⟩ := C80_scales J L n mem hm hi t ht htm
  obtain rfl : C' = C := by rw [hC'] at hC; exact Option.some.inj hC
  obtain ⟨⟨c, hc⟩, hle⟩ := hl i
  constructor
  · have hnn : 0 ≤ C' i i := by rw [← hc]; exact Finset.sum_nonneg fun p _ => sq_nonneg _
    refine lt_of_le_of_ne hnn fun h0 => ?_
    rw [← h0] at hc
    have hz := (Finset.sum_eq_zero_iff_of_nonneg fun p _ => sq_nonneg _).1 hc
    have := hi.mono (m := t + 1) (by omega) (fun s j => if s < t then - c s j else if j = i then 1 else 0) ?_ t (by omega) i
    · simp at this
    · intro p
      have hp : J (L - n + 1 + t) i p - ∑ s ∈ Finset.range t, ∑ j, c s j * J (L - n + 1 + s) j p = 0 :=
        pow_eq_zero_iff (two_ne_zero) |>.1 (hz p (Finset.mem_univ _))
      rw [Finset.sum_range_succ]
      have e : ∀ s ∈ Finset.range t, ∑ j, (if s < t then - c s j else if j = i then 1 else 0) * J (L - n + 1 + s) j p
          = - ∑ j, c s j * J (L - n + 1 + s) j p := by
        intro s hs
        rw [Finset.mem_range] at hs
        simp only [hs, if_true, neg_mul, Finset.sum_neg_distrib]
      rw [Finset.sum_congr rfl e, Finset.sum_neg_distrib]
      simp only [lt_irrefl, if_false, ite_mul, one_mul, zero_mul, Finset.sum_ite_eq', Finset.mem_univ, if_true]
      linarith
  · refine hle ⟨fun _ _ => 0, ?_⟩
    unfold dist2
    simp

end seq

/-- **C80.** Scaling by a nonnegative scale keeps the sign and does not enlarge; larger scales shrink more. -/
theorem C80_shrinks (lv s f : ℝ) (hs : 0 ≤ s) :
    (0 < scaled lv s f ↔ 0 < f) ∧ (scaled lv s f < 0 ↔ f < 0) ∧ |scaled lv s f| ≤ |f| ∧
      (0 < s → f ≠ 0 → |scaled lv s f| < |f|) ∧ (∀ s', s ≤ s' → |scaled lv s' f| ≤ |scaled lv s f|) := by
  have hk : 0 < Real.pi / 8 * Real.exp lv := by positivity
  have hd : 0 < 1 + Real.pi / 8 * Real.exp lv * s := by positivity
  have hd1 : 1 ≤ 1 + Real.pi / 8 * Real.exp lv * s := by
    have : 0 ≤ Real.pi / 8 * Real.exp lv * s := by positivity
    linarith
  unfold scaled
  refine ⟨?_, ?_, ?_, ?_, ?_⟩
  · exact ⟨fun h => by simpa using (div_pos_iff_of_pos_right hd).1 h, fun h => div_pos h hd⟩
  · exact ⟨fun h => by by_contra h'; exact absurd (div_nonneg (not_lt.1 h') hd.le) (not_le.2 h), fun h => div_neg_of_neg_of_pos h hd⟩
  · rw [abs_div, abs_of_pos hd]; exact div_le_self (abs_nonneg _) hd1
  · intro hs' hf
    rw [abs_div, abs_of_pos hd]
    refine div_lt_self (abs_pos.2 hf) ?_
    have : 0 < Real.pi / 8 * Real.exp lv * s := by positivity
    linarith
  · intro s' hss
    have hd' : 0 < 1 + Real.pi / 8 * Real.exp lv * s' := by
      have : Real.pi / 8 * Real.exp lv * s ≤ Real.pi / 8 * Real.exp lv * s' := by gcongr
      linarith
    rw [abs_div, abs_div, abs_of_pos hd, abs_of_pos hd']
    gcongr

/-- The value of the scaled logit. -/
theorem C80_scaled (lv s f : ℝ) (hs : 0 ≤ s) : scaled lv s f * (1 + Real.pi * Real.exp lv * s / 8) = f := by
  have hd : 0 < 1 + Real.pi / 8 * Real.exp lv * s := by positivity
  unfold scaled
  rw [show 1 + Real.pi * Real.exp lv * s / 8 = 1 + Real.pi / 8 * Real.exp lv * s by ring]
  field_simp

/-- **C80.** The squared row norm is the sum of the squares of all derivatives. -/
theorem C80_rownorm {ρ : Type} (leaves : List (ρ → List ℝ)) (i : ρ) :
    rowNorms leaves i = ((leaves.flatMap fun b => b i).map fun x => x ^ 2).sum := by
  unfold rowNorms
  have : ∀ a : ℝ, leaves.foldl (fun a b => a + ((b i).map fun x => x ^ 2).sum) a
      = a + ((leaves.flatMap fun b => b i).map fun x => x ^ 2).sum := by
    induction leaves with
    | nil => intro a; simp
    | cons b l ih => intro a; simp [ih, add_assoc]
  simpa using this 0

theorem setAt_spec {n : ℕ} (g : Fin n → ℝ) (idx : List (Fin n)) :
    ∀ (x : Fin n → ℝ) (i : Fin n), setAt x idx (idx.map g) i = if i ∈ idx then g i else x i := by
  induction idx with
  | nil => intro x i; simp [setAt]
  | cons a l ih =>
    intro x i
    have : setAt x (a :: l) ((a :: l).map g) = setAt (Function.update x a (g a)) l (l.map g) := rfl
    rw [this, ih]
    by_cases h1 : i ∈ l
    · simp [h1]
    · by_cases h2 : i = a
      · subst h2; simp [h1]
      · simp [h1, h2]

theorem maxOf_spec : ∀ {l : List ℝ}, l ≠ [] → maxOf l ∈ l ∧ ∀ x ∈ l, x ≤ maxOf l := by
  intro l hl
  obtain ⟨a, l, rfl⟩ := List.exists_cons_of_ne_nil hl
  show l.foldl max a ∈ a :: l ∧ ∀ x ∈ a :: l, x ≤ l.foldl max a
  clear hl
  induction l generalizing a with
  | nil => simp
  | cons b l ih =>
    obtain ⟨h1, h2⟩ := ih (max a b)
    have hle := h2 (max a b) (by simp)
    rw [List.foldl_cons]
    refine ⟨?_, ?_⟩
    · rcases List.mem_cons.1 h1 with h | h
      · rw [h]; rcases max_choice a b with h' | h' <;> simp [h']
      · simp [h]
    · intro x hx
      rcases List.mem_cons.1 hx with rfl | hx
      · exact (le_max_left _ _).trans hle
      · rcases List.mem_cons.1 hx with rfl | hx
        · exact (le_max_right _ _).trans hle
        · exact h2 x (by simp [hx])

/-- **C80.** With `top_k`, the selected outputs keep their own norms and all others get the largest selected norm. -/
theorem C80_top {n : ℕ} (norm : Fin n → ℝ) (idx : List (Fin n)) (hne : idx ≠ []) :
    (∀ i ∈ idx, rowNormsTop norm idx i = norm i) ∧
    (∀ i, i ∉ idx → (∃ j ∈ idx, rowNormsTop norm idx i = norm j) ∧ ∀ j ∈ idx, norm j ≤ rowNormsTop norm idx i) := by
  unfold rowNormsTop
  refine ⟨fun i hi => by rw [setAt_spec, if_pos hi], fun i hi => ?_⟩
  rw [setAt_spec, if_neg hi, mul_one]
  obtain ⟨h1, h2⟩ := maxOf_spec (l := idx.map norm) (by simpa using hne)
  constructor
  · obtain ⟨j, hj, e⟩ := List.mem_map.1 h1
    exact ⟨j, hj, e.symm⟩
  · exact fun j hj => h2 _ (List.mem_map_of_mem hj)

/-- **C80.** The numbers of tokens used. -/
theorem C80_args (L : ℕ) (nF mem : Option ℤ) (n m : ℤ) (h : checkArgs L nF mem = .ok (n, m)) :
    1 ≤ m ∧ m ≤ n ∧ n ≤ L ∧ n = nF.getD L ∧ m = mem.getD n := by
  unfold checkArgs at h
  simp only at h
  by_cases h1 : nF.getD ↑L ≤ 0 ∨ nF.getD ↑L > ↑L
  · rw [if_pos h1] at h; simp at h
  · rw [if_neg h1] at h
    by_cases h2 : mem.getD (nF.getD ↑L) ≤ 0 ∨ mem.getD (nF.getD ↑L) > nF.getD ↑L
    · rw [if_pos h2] at h; simp at h
    · rw [if_neg h2] at h
      simp only [Except.ok.injEq, Prod.mk.injEq] at h
      obtain ⟨rfl, rfl⟩ := h
      push Not at h1 h2
      exact ⟨by omega, h2.2, h1.2, rfl, rfl⟩

/-- Values in range are accepted; the defaults are the whole sequence. -/
theorem C80_args_ok (L : ℕ) :
    (0 < L → checkArgs L none none = .ok (L, L)) ∧
    (∀ n m : ℤ, 1 ≤ m → m ≤ n → n ≤ L → checkArgs L (some n) (some m) = .ok (n, m)) ∧
    (∀ n : ℤ, ∀ m, n ≤ 0 ∨ L < n → checkArgs L (some n) m = .error "ValueError") ∧
    (∀ n m : ℤ, m ≤ 0 ∨ n < m → checkArgs L (some n) (some m) = .error "ValueError") := by
  refine ⟨?_, ?_, ?_, ?_⟩
  · intro h
    simp only [checkArgs, Option.getD_none]
    rw [if_neg (by omega), if_neg (by omega)]
  · intro n m h1 h2 h3
    simp only [checkArgs, Option.getD_some]
    rw [if_neg (by omega), if_neg (by omega)]
  · intro n m h
    simp only [checkArgs, Option.getD_some]
    rw [if_pos h]
  · intro n m h
    simp only [checkArgs, Option.getD_some]
    by_cases h1 : n ≤ 0 ∨ n > L
    · rw [if_pos h1]
    · rw [if_neg h1, if_pos h]

/-- Jacobians of three tokens with one output and three parameters. -/
def exJ : ℤ → Matrix (Fin 1) (Fin 3) ℝ := fun t => if t = 1 then !![1, 0, 0] else if t = 2 then !![1, 1, 0] else !![1, 1, 1]

theorem exJ_indep : Indep exJ ((3 : ℕ) - (3 : ℕ) + 1) 3 := by
  intro c hc s hs j
  have h0 := hc 0
  have h1 := hc 1
  have h2 := hc 2
  simp [Finset.sum_range_succ, exJ] at h0 h1 h2
  obtain rfl : j = 0 := Subsingleton.elim _ _
  interval_cases s
  · linarith
  · linarith
  · linarith

/-- Three tokens: the second scale is 1, though the row norm is 2. -/
example : ∃ C, (allC exJ 3 3 3)[1]? = some C ∧ C 0 0 = 1 := by
  obtain ⟨C, hC, hl⟩ := C80_scales exJ 3 3 3 (by norm_num) exJ_indep 1 (by norm_num) (by norm_num)
  refine ⟨C, hC, ?_⟩
  refine (hl 0).unique ⟨⟨fun _ _ => 1, ?_⟩, ?_⟩
  · simp [dist2, exJ, Fin.sum_univ_succ]
  · rintro _ ⟨c, rfl⟩
    simp [dist2, exJ, Fin.sum_univ_succ]
    positivity

/-- **C80.** With a memory shorter than the scaled tokens a scale can be negative, and then the scaled logit can have the
opposite sign. -/
theorem C80_memory_false :
    ∃ C : Matrix (Fin 1) (Fin 1) ℝ, (allC exJ 3 3 1)[2]? = some C ∧ C 0 0 = -1 ∧
      ∀ f : ℝ, scaled (Real.log (16 / Real.pi)) (C 0 0) f = -f := by
  have hs : ∀ f : ℝ, scaled (Real.log (16 / Real.pi)) (-1) f = -f := by
    intro f
    have hp := Real.pi_pos
    unfold scaled
    rw [Real.exp_log (by positivity)]
    have : 1 + Real.pi / 8 * (16 / Real.pi) * (-1) = -1 := by field_simp; norm_num
    rw [this]; ring
  have hinv : ∀ M : Matrix (Fin 1) (Fin 1) ℝ, M⁻¹ 0 0 = (M 0 0)⁻¹ := by
    intro M
    rw [Matrix.inv_def]; simp
  have c11 : cov exJ 1 1 0 0 = 1 := by simp [cov, exJ, Matrix.mul_apply, Fin.sum_univ_succ]
  have c22 : cov exJ 2 2 0 0 = 2 := by simp [cov, exJ, Matrix.mul_apply, Fin.sum_univ_succ]; norm_num
  have c33 : cov exJ 3 3 0 0 = 3 := by simp [cov, exJ, Matrix.mul_apply, Fin.sum_univ_succ]; norm_num
  have c21 : cov exJ 2 1 0 0 = 1 := by simp [cov, exJ, Matrix.mul_apply, Fin.sum_univ_succ]
  have c32 : cov exJ 3 2 0 0 = 2 := by simp [cov, exJ, Matrix.mul_apply, Fin.sum_univ_succ]; norm_num
  have hC : ∀ (s : PState (Fin 1)) (tau : ℤ), blockC exJ 1 s tau 0 0
      = cov exJ tau tau 0 0 - cov exJ tau (s.old 0) 0 0 * s.jinv 0 0 0 0 * cov exJ tau (s.old 0) 0 0 := by
    intro s tau
    simp [blockC, blockM, Matrix.mul_apply]
  have h2 : blockC exJ 1 (initP exJ 1 1) 2 0 0 = 1 := by
    rw [hC]
    show cov exJ 2 2 0 0 - cov exJ 2 1 0 0 * (cov exJ 1 1)⁻¹ 0 0 * cov exJ 2 1 0 0 = 1
    rw [hinv, c11, c22, c21]; norm_num
  have h3 : blockC exJ 1 (stepP exJ 1 (initP exJ 1 1) 2) 3 0 0 = -1 := by
    rw [hC]
    show cov exJ 3 3 0 0 - cov exJ 3 2 0 0 * (blockC exJ 1 (initP exJ 1 1) 2)⁻¹ 0 0 * cov exJ 3 2 0 0 = -1
    rw [hinv, h2, c33, c32]; norm_num
  refine ⟨blockC exJ 1 (stepP exJ 1 (initP exJ 1 1) 2) 3, rfl, h3, ?_⟩
  rw [h3]; exact hs

/-- **C80.** In sequences, `top_k` gives the scales to the wrong outputs: with the outputs 2 and 0 selected of one token, with
the scales 5 and 7, output 0 gets the scale of output 2 and output 2 that of output 0. -/
theorem C80_topk_false :
    ∃ (idx : List (Fin 3)) (diag : List ℝ), idx = [2, 0] ∧ diag = [5, 7] ∧
      topScales [diag] (fun _ => idx) 0 0 = 5 ∧ topScales [diag] (fun _ => idx) 0 2 = 7 := by
  refine ⟨_, _, rfl, rfl, ?_, ?_⟩
  · simp [topScales, setAt, Function.update]
  · simp [topScales, setAt, Function.update]

/-- With fewer scaled tokens than the sequence has, every token reads the scales of the last one. -/
theorem C80_topk_tokens_false :
    ∃ (diag : List (List ℝ)) (idx : ℕ → List (Fin 1)), diag = [[5], [7]] ∧
      -- the last two of three tokens
      topScales diag idx 1 0 = 7 ∧ topScales diag idx 2 0 = 7 := by
  refine ⟨_, fun _ => [0], rfl, ?_, ?_⟩ <;> simp [topScales, setAt, Function.update]

example : checkArgs 5 (some 3) (some 4) = .error "ValueError" ∧ checkArgs 5 (some 3) (some 2) = .ok (3, 2) := by decide

/-! ### Concrete cases that meet the hypotheses of the theorems above -/

example : ∃ C : Matrix (Fin 1) (Fin 1) ℝ, 0 < C 0 0 ∧ C 0 0 ≤ 2 := by
  obtain ⟨C, hC, _⟩ := C80_scales exJ 3 3 3 (by norm_num) exJ_indep 1 (by norm_num) (by norm_num)
  refine ⟨C, (C80_scales_pos exJ 3 3 3 (by norm_num) exJ_indep 1 (by norm_num) (by norm_num) C hC 0).1,
    (C80_scales_pos exJ 3 3 3 (by norm_num) exJ_indep 1 (by norm_num) (by norm_num) C hC 0).2.trans ?_⟩
  simp [exJ, Fin.sum_univ_succ]
  norm_num
example := C80_shrinks (-1) 2 (-3) (by norm_num)
example := C80_scaled (-1) 2 (-3) (by norm_num)
example := C80_top (![3, 1, 2] : Fin 3 → ℝ) [0, 2] (by simp)
example := C80_args 5 (some 3) (some 2) 3 2 (by decide)

end Verif.Props
