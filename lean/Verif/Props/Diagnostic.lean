import Mathlib.Analysis.SpecialFunctions.Gamma.Basic
import Mathlib.Analysis.SpecialFunctions.Gaussian.GaussianIntegral
import Mathlib.Analysis.SpecialFunctions.Pow.Deriv
import Mathlib.Analysis.SpecialFunctions.Exponential
import Mathlib.Algebra.BigOperators.Field
import Mathlib.Tactic.Linarith
import Mathlib.Tactic.Positivity
import Mathlib.Tactic.FieldSimp
import Mathlib.Tactic.NormNum
import Mathlib.Tactic.FinCases
import Verif.Model.Diagnostic

/-!
# C81: diagnostics of sampled chains
-/

set_option linter.unusedSectionVars false

namespace Verif.Props
open Verif.Diagnostic

/-! ## Effective sample size -/

section ess

/-- Sum of products at lag `k`. -/
noncomputable def lagged (n : ℕ) (y : ℕ → ℝ) (k : ℕ) : ℝ := ∑ i ∈ Finset.range (n - k), y i * y (i + k)

theorem padded_ge (n : ℕ) : n * 2 ≤ padded n := Nat.le_pow_clog (by norm_num) _

/-- Padding avoids wrapping round. -/
theorem circular_pad (n : ℕ) (y : ℕ → ℝ) (k : ℕ) (hk : k < n) : circular (padded n) (pad n y) k = lagged n y k := by
  have hp := padded_ge n
  unfold circular lagged
  rw [← Finset.sum_subset (s₁ := Finset.range (n - k)) (s₂ := Finset.range (padded n))]
  · refine Finset.sum_congr rfl fun i hi => ?_
    rw [Finset.mem_range] at hi
    rw [Nat.mod_eq_of_lt (by omega)]
    unfold pad
    rw [if_pos (by omega), if_pos (by omega), mul_comm]
  · intro i hi
    rw [Finset.mem_range] at *
    omega
  · intro i hi hi'
    rw [Finset.mem_range] at hi hi'
    unfold pad
    by_cases h : i < n
    · rw [Nat.mod_eq_of_lt (by omega), if_neg (by omega), zero_mul]
    · rw [if_neg h, mul_zero]

theorem lagged_zero (n : ℕ) (y : ℕ → ℝ) : lagged n y 0 = ∑ i ∈ Finset.range n, y i ^ 2 := by
  unfold lagged
  exact Finset.sum_congr rfl fun i _ => by rw [add_zero, pow_two]

theorem sum_lagged (n : ℕ) (y : ℕ → ℝ) :
    2 * ∑ k ∈ Finset.range n, lagged n y k = (∑ i ∈ Finset.range n, y i) ^ 2 + ∑ i ∈ Finset.range n, y i ^ 2 := by
  induction n with
  | zero => simp
  | succ n ih =>
    have h1 : ∀ k ∈ Finset.range (n + 1), lagged (n + 1) y k = lagged n y k + y (n - k) * y n := by
      intro k hk
      rw [Finset.mem_range] at hk
      unfold lagged
      rw [show n + 1 - k = n - k + 1 by omega, Finset.sum_range_succ, show n - k + k = n by omega]
    rw [Finset.sum_congr rfl h1, Finset.sum_add_distrib]
    have h2 : ∑ k ∈ Finset.range (n + 1), lagged n y k = ∑ k ∈ Finset.range n, lagged n y k := by
      rw [Finset.sum_range_succ]
      unfold lagged
      simp
    have h3 : ∑ k ∈ Finset.range (n + 1), y (n - k) * y n = (∑ k ∈ Finset.range (n + 1), y k) * y n := by
      rw [Finset.sum_mul]
      exact Finset.sum_range_reflect (fun k => y k * y n) (n + 1)
    rw [h2, h3, mul_add, ih, Finset.sum_range_succ, Finset.sum_range_succ]
    ring

theorem lagged_le (n : ℕ) (y : ℕ → ℝ) (k : ℕ) : lagged n y k ≤ lagged n y 0 := by
  have h1 : 2 * lagged n y k ≤ ∑ i ∈ Finset.range (n - k), y i ^ 2 + ∑ i ∈ Finset.range (n - k), y (i + k) ^ 2 := by
    unfold lagged
    rw [Finset.mul_sum, ← Finset.sum_add_distrib]
    exact Finset.sum_le_sum fun i _ => by nlinarith [sq_nonneg (y i - y (i + k))]
  have h2 : ∑ i ∈ Finset.range (n - k), y i ^ 2 ≤ ∑ i ∈ Finset.range n, y i ^ 2 :=
    Finset.sum_le_sum_of_subset_of_nonneg (Finset.range_mono (by omega)) fun i _ _ => sq_nonneg _
  have h3 : ∑ i ∈ Finset.range (n - k), y (i + k) ^ 2 ≤ ∑ i ∈ Finset.range n, y i ^ 2 := by
    rw [← Finset.sum_image (s := Finset.range (n - k)) (g := fun i => i + k) (f := fun i => y i ^ 2) (by intro a _ b _ h; simpa using h)]
    refine Finset.sum_le_sum_of_subset_of_nonneg ?_ fun i _ _ => sq_nonneg _
    intro i hi
    obtain ⟨j, hj, rfl⟩ := Finset.mem_image.1 hi
    rw [Finset.mem_range] at *
    omega
  rw [lagged_zero]
  linarith

/-- The weighted autocorrelation is the ratio of the lagged products. -/
theorem weighted_corr (n : ℕ) (x : ℕ → ℝ) (k : ℕ) (hk : k < n) :
    ((n : ℝ) - k) / n * autoCorr n x k = lagged n (center n x) k / lagged n (center n x) 0 ∧
    autoCorr n x k = n / ((n : ℝ) - k) * (lagged n (center n x) k / lagged n (center n x) 0) := by
  have hn : (0 : ℝ) < n := by exact_mod_cast (by omega : 0 < n)
  have hk' : (0 : ℝ) < n - k := by
    have : (k : ℝ) < n := by exact_mod_cast hk
    linarith
  unfold autoCorr autoCov
  rw [circular_pad n _ k hk, circular_pad n _ 0 (by omega)]
  constructor <;> · push_cast; rw [sub_zero]; field_simp

/-- The spread of a chain: zero exactly for constant chains. -/
noncomputable def spread (n : ℕ) (x : ℕ → ℝ) : ℝ := ∑ i ∈ Finset.range n, (x i - (∑ j ∈ Finset.range n, x j) / n) ^ 2

theorem spread_eq (n : ℕ) (x : ℕ → ℝ) : lagged n (center n x) 0 = spread n x := lagged_zero n _

theorem spread_nonneg (n : ℕ) (x : ℕ → ℝ) : 0 ≤ spread n x := Finset.sum_nonneg fun i _ => sq_nonneg _

theorem spread_pos (n : ℕ) (x : ℕ → ℝ) (h : ∃ i j, i < n ∧ j < n ∧ x i ≠ x j) : 0 < spread n x := by
  refine lt_of_le_of_ne (spread_nonneg n x) fun h0 => ?_
  obtain ⟨i, j, hi, hj, hij⟩ := h
  have := (Finset.sum_eq_zero_iff_of_nonneg (fun i _ => sq_nonneg _)).1 h0.symm
  have e : ∀ i, i < n → x i = (∑ j ∈ Finset.range n, x j) / n := fun i hi => by
    have := pow_eq_zero_iff (two_ne_zero) |>.1 (this i (Finset.mem_range.2 hi))
    linarith
  exact hij ((e i hi).trans (e j hj).symm)

theorem mask_values (n : ℕ) (x : ℕ → ℝ) (t : ℝ) (k : ℕ) :
    (mask n x (some t) k = 1 ∧ ∀ j, j ≤ k → t ≤ autoCorr n x j) ∨
    (mask n x (some t) k = 0 ∧ ∃ j, j ≤ k ∧ autoCorr n x j < t) := by
  unfold mask
  by_cases h : ∀ j, j ≤ k → t ≤ autoCorr n x j
  · left
    refine ⟨?_, h⟩
    show max (1 - ∑ j ∈ Finset.range (k + 1), if autoCorr n x j < t then (1 : ℝ) else 0) 0 = 1
    rw [Finset.sum_eq_zero]
    · simp
    · intro j hj
      rw [Finset.mem_range] at hj
      rw [if_neg (not_lt.2 (h j (by omega)))]
  · right
    push Not at h
    obtain ⟨j, hj, hlt⟩ := h
    refine ⟨?_, j, hj, hlt⟩
    have : (1 : ℝ) ≤ ∑ j ∈ Finset.range (k + 1), if autoCorr n x j < t then 1 else 0 := by
      calc (1 : ℝ) = if autoCorr n x j < t then 1 else 0 := by rw [if_pos hlt]
        _ ≤ _ := Finset.single_le_sum (f := fun j => if autoCorr n x j < t then (1 : ℝ) else 0)
          (fun i _ => by positivity) (Finset.mem_range.2 (by omega))
    exact max_eq_right (by linarith)

theorem corr_zero (n : ℕ) (x : ℕ → ℝ) (hn : 0 < n) (hs : 0 < spread n x) : autoCorr n x 0 = 1 := by
  have hn' : (0 : ℝ) < n := by exact_mod_cast hn
  rw [(weighted_corr n x 0 hn).2, spread_eq, div_self hs.ne']
  push_cast
  rw [sub_zero, mul_one, div_self hn'.ne']

/-- **C81.** For a threshold between 0 and 1 (the default is 0) the effective sample size of a chain that is not constant is
at most the number of samples and more than one half. -/
theorem C81_ess_bounds (n : ℕ) (x : ℕ → ℝ) (hx : ∃ i j, i < n ∧ j < n ∧ x i ≠ x j) (t : ℝ) (h0 : 0 ≤ t) (h1 : t ≤ 1) :
    (n : ℝ) / (2 * n - 1) ≤ ess n x (some t) ∧ ess n x (some t) ≤ n ∧ 1 / 2 < ess n x (some t) := by
  have hs := spread_pos n x hx
  obtain ⟨i, j, hi, hj, -⟩ := hx
  have hn : 0 < n := by omega
  have hn' : (1 : ℝ) ≤ n := by exact_mod_cast hn
  have hterm : ∀ k ∈ Finset.range n, 0 ≤ ((n : ℝ) - k) / n * autoCorr n x k * mask n x (some t) k ∧
      ((n : ℝ) - k) / n * autoCorr n x k * mask n x (some t) k ≤ 1 := by
    intro k hk
    rw [Finset.mem_range] at hk
    have hkn : (0 : ℝ) ≤ (n : ℝ) - k := by
      have : (k : ℝ) ≤ n := by exact_mod_cast hk.le
      linarith
    rcases mask_values n x t k with ⟨hm, hall⟩ | ⟨hm, -⟩
    · rw [hm, mul_one]
      constructor
      · exact mul_nonneg (div_nonneg hkn (by linarith)) (h0.trans (hall k le_rfl))
      · rw [(weighted_corr n x k hk).1, spread_eq, div_le_one hs, ← spread_eq]
        exact lagged_le n _ k
    · rw [hm, mul_zero]; exact ⟨le_rfl, by norm_num⟩
  have hfirst : ((n : ℝ) - (0 : ℕ)) / n * autoCorr n x 0 * mask n x (some t) 0 = 1 := by
    rcases mask_values n x t 0 with ⟨hm, -⟩ | ⟨-, j, hj, hlt⟩
    · rw [hm, corr_zero n x hn hs]
      push_cast
      rw [sub_zero, div_self (by linarith)]; norm_num
    · obtain rfl : j = 0 := by omega
      rw [corr_zero n x hn hs] at hlt
      linarith
  have hlo : 1 ≤ ∑ k ∈ Finset.range n, ((n : ℝ) - k) / n * autoCorr n x k * mask n x (some t) k := by
    calc (1 : ℝ) = _ := hfirst.symm
      _ ≤ _ := Finset.single_le_sum (f := fun k : ℕ => ((n : ℝ) - k) / n * autoCorr n x k * mask n x (some t) k)
          (fun k hk => (hterm k hk).1) (Finset.mem_range.2 hn)
  have hhi : ∑ k ∈ Finset.range n, ((n : ℝ) - k) / n * autoCorr n x k * mask n x (some t) k ≤ n := by
    calc _ ≤ ∑ k ∈ Finset.range n, (1 : ℝ) := Finset.sum_le_sum fun k hk => (hterm k hk).2
      _ = n := by simp
  have hd1 : 1 ≤ essDenom n x (some t) := by unfold essDenom; linarith
  have hd2 : essDenom n x (some t) ≤ 2 * n - 1 := by unfold essDenom; linarith
  have hlow : (n : ℝ) / (2 * n - 1) ≤ ess n x (some t) := by
    unfold ess
    exact div_le_div_of_nonneg_left (by linarith) (by linarith) hd2
  refine ⟨hlow, ?_, lt_of_lt_of_le ?_ hlow⟩
  · unfold ess
    exact div_le_self (by linarith) hd1
  · rw [div_lt_div_iff₀ (by norm_num) (by linarith)]
    linarith

/-- **C81.** Shifting and rescaling a chain does not change its effective sample size. -/
theorem C81_ess_affine (n : ℕ) (x : ℕ → ℝ) (a b : ℝ) (ha : a ≠ 0) (t : Option ℝ) :
    ess n (fun i => a * x i + b) t = ess n x t := by
  have hc : 0 < n → center n (fun i => a * x i + b) = fun i => a * center n x i := by
    intro hn
    have hn' : (n : ℝ) ≠ 0 := by exact_mod_cast hn.ne'
    funext i
    unfold center
    rw [Finset.sum_add_distrib, ← Finset.mul_sum]
    simp
    field_simp
    ring
  have hl : ∀ (y : ℕ → ℝ) k, lagged n (fun i => a * y i) k = a ^ 2 * lagged n y k := by
    intro y k
    unfold lagged
    rw [Finset.mul_sum]
    exact Finset.sum_congr rfl fun i _ => by ring
  have hcorr : ∀ k, k < n → autoCorr n (fun i => a * x i + b) k = autoCorr n x k := by
    intro k hk
    rw [(weighted_corr n _ k hk).2, (weighted_corr n x k hk).2, hc (by omega), hl, hl, mul_div_mul_left _ _ (pow_ne_zero 2 ha)]
  have hmask : ∀ k, k < n → mask n (fun i => a * x i + b) t k = mask n x t k := by
    intro k hk
    cases t with
    | none => rfl
    | some t =>
      unfold mask
      simp only
      congr 2
      refine Finset.sum_congr rfl fun j hj => ?_
      rw [Finset.mem_range] at hj
      rw [hcorr j (by omega)]
  unfold ess essDenom
  congr 3
  refine Finset.sum_congr rfl fun k hk => ?_
  rw [Finset.mem_range] at hk
  rw [hcorr k hk, hmask k hk]

/-- **C81, without filter, is false.** With `filter_threshold=None` the divisor is zero for every chain: the centred values
add up to zero. The effective sample size is infinite whatever the samples. -/
theorem C81_ess_unfiltered_false (n : ℕ) (x : ℕ → ℝ) (hx : ∃ i j, i < n ∧ j < n ∧ x i ≠ x j) :
    essDenom n x none = 0 := by
  have hs := spread_pos n x hx
  obtain ⟨i, j, hi, hj, -⟩ := hx
  have hn : (n : ℝ) ≠ 0 := by exact_mod_cast (by omega : n ≠ 0)
  have hsum : ∑ i ∈ Finset.range n, center n x i = 0 := by
    unfold center
    rw [Finset.sum_sub_distrib, Finset.sum_const, Finset.card_range, nsmul_eq_mul, mul_div_cancel₀ _ hn, sub_self]
  have h := sum_lagged n (center n x)
  rw [hsum, ← lagged_zero, spread_eq] at h
  unfold essDenom mask
  have e : ∀ k ∈ Finset.range n, ((n : ℝ) - k) / n * autoCorr n x k * 1 = lagged n (center n x) k / spread n x := by
    intro k hk
    rw [Finset.mem_range] at hk
    rw [mul_one, (weighted_corr n x k hk).1, spread_eq]
  rw [Finset.sum_congr rfl e, ← Finset.sum_div, ← mul_div_assoc, h]
  have hs' := hs.ne'
  field_simp
  ring

/-- **C81, with a threshold above 1, is false**: the effective sample size is minus the number of samples. -/
theorem C81_ess_threshold_false (n : ℕ) (x : ℕ → ℝ) (hx : ∃ i j, i < n ∧ j < n ∧ x i ≠ x j) (t : ℝ) (ht : 1 < t) :
    ess n x (some t) = -n := by
  have hs := spread_pos n x hx
  obtain ⟨i, j, hi, hj, -⟩ := hx
  have hz : ∀ k ∈ Finset.range n, ((n : ℝ) - k) / n * autoCorr n x k * mask n x (some t) k = 0 := by
    intro k _
    rcases mask_values n x t k with ⟨-, hall⟩ | ⟨hm, -⟩
    · have := hall 0 (by omega)
      rw [corr_zero n x (by omega) hs] at this
      linarith
    · rw [hm, mul_zero]
  unfold ess essDenom
  rw [Finset.sum_eq_zero hz, mul_zero, add_zero, div_neg, div_one]

/-- Two opposite samples count as two. -/
example : ess 2 (fun i => if i = 0 then 1 else -1) (some 0) = 2 := by
  have hx : ∃ i j, i < 2 ∧ j < 2 ∧ (if i = 0 then (1 : ℝ) else -1) ≠ if j = 0 then 1 else -1 :=
    ⟨0, 1, by norm_num, by norm_num, by norm_num⟩
  have hc := corr_zero 2 (fun i => if i = 0 then (1 : ℝ) else -1) (by norm_num) (spread_pos 2 _ hx)
  have h1 := (weighted_corr 2 (fun i => if i = 0 then (1 : ℝ) else -1) 1 (by norm_num)).2
  have h1' : autoCorr 2 (fun i => if i = 0 then (1 : ℝ) else -1) 1 = -1 := by
    rw [h1]
    norm_num [lagged, center, Finset.sum_range_succ]
  unfold ess essDenom mask
  simp only [Finset.sum_range_succ, Finset.sum_range_zero, hc, h1']
  norm_num

end ess

/-! ## Kernel Stein discrepancy -/

section ksd
variable {ι : Type} [Fintype ι] [DecidableEq ι]

open Finset in
/-- The exponential of a scalar product is a positive semidefinite kernel. -/
theorem exp_psd {τ : Type} [Fintype τ] (P : τ → ι → ℝ) (w : τ → ℝ) (r : ℝ) (hr : 0 ≤ r) :
    0 ≤ ∑ s, ∑ t, w s * w t * Real.exp (r * ∑ a, P s a * P t a) := by
  have hpow : ∀ n : ℕ, 0 ≤ ∑ s, ∑ t, w s * w t * (∑ a, P s a * P t a) ^ n := by
    intro n
    have e : ∑ s, ∑ t, w s * w t * (∑ a, P s a * P t a) ^ n =
        ∑ p : Fin n → ι, (∑ s, w s * ∏ k, P s (p k)) ^ 2 := by
      calc _ = ∑ s, ∑ t, ∑ p : Fin n → ι, (w s * ∏ k, P s (p k)) * (w t * ∏ k, P t (p k)) := by
            refine sum_congr rfl fun s _ => sum_congr rfl fun t _ => ?_
            rw [Fintype.sum_pow, mul_sum]
            refine sum_congr rfl fun p _ => ?_
            rw [prod_mul_distrib]
            ring
        _ = ∑ p : Fin n → ι, ∑ s, ∑ t, (w s * ∏ k, P s (p k)) * (w t * ∏ k, P t (p k)) := by
            rw [sum_congr rfl fun s _ => sum_comm, sum_comm]
        _ = _ := by
            refine sum_congr rfl fun p _ => ?_
            rw [pow_two, sum_mul_sum]
    rw [e]
    exact sum_nonneg fun p _ => sq_nonneg _
  have hs : HasSum (fun n : ℕ => ∑ s, ∑ t, w s * w t * ((r * ∑ a, P s a * P t a) ^ n / n.factorial))
      (∑ s, ∑ t, w s * w t * Real.exp (r * ∑ a, P s a * P t a)) := by
    refine hasSum_sum fun s _ => hasSum_sum fun t _ => ?_
    have := NormedSpace.expSeries_div_hasSum_exp (𝔸 := ℝ) (r * ∑ a, P s a * P t a)
    rw [← Real.exp_eq_exp_ℝ] at this
    exact this.mul_left _
  refine hs.nonneg fun n => ?_
  have : ∑ s, ∑ t, w s * w t * ((r * ∑ a, P s a * P t a) ^ n / n.factorial) =
      r ^ n / n.factorial * ∑ s, ∑ t, w s * w t * (∑ a, P s a * P t a) ^ n := by
    rw [mul_sum]
    refine sum_congr rfl fun s _ => ?_
    rw [mul_sum]
    refine sum_congr rfl fun t _ => ?_
    rw [mul_pow]
    ring
  rw [this]
  exact mul_nonneg (by positivity) (hpow n)

/-- The Stein kernel of the Gaussian kernel `exp (-s * base)`. -/
noncomputable def gaussStein (c s : ℝ) (x y g h : ι → ℝ) : ℝ :=
  ((∑ a, g a * h a) + 2 * s * (∑ a, g a * (x a - y a)) - 2 * s * (∑ a, h a * (x a - y a)) + 2 * s * (Fintype.card ι : ℝ)
    - 4 * s ^ 2 * ∑ a, (x a - y a) ^ 2) * Real.exp (-(base c x y * s))

/-- One coordinate of the Stein kernel as a limit of finite differences. -/
theorem stein_limit (A B u v r : ℝ) :
    Filter.Tendsto (fun h : ℝ => A * B + A * ((Real.exp (r * u * h) - 1) / h) + B * ((Real.exp (r * v * h) - 1) / h) +
      (Real.exp (r * ((u + h) * (v + h) - u * v)) - Real.exp (r * u * h) - Real.exp (r * v * h) + 1) / h ^ 2)
      (nhdsWithin 0 {0}ᶜ) (nhds ((A + r * v) * (B + r * u) + r)) := by
  have hd : ∀ q : ℝ, Filter.Tendsto (fun h : ℝ => (Real.exp (q * h) - 1) / h) (nhdsWithin 0 {0}ᶜ) (nhds q) := by
    intro q
    have h1 : HasDerivAt (fun h : ℝ => Real.exp (q * h)) q 0 := by
      have := ((hasDerivAt_id (0 : ℝ)).const_mul q).exp
      simpa using this
    have h2 := h1.tendsto_slope
    refine h2.congr fun h => ?_
    rw [slope_def_field]
    simp
  have hsq : Filter.Tendsto (fun h : ℝ => (Real.exp (r * h ^ 2) - 1) / h ^ 2) (nhdsWithin 0 {0}ᶜ) (nhds r) := by
    refine (hd r).comp (tendsto_nhdsWithin_iff.2 ⟨?_, ?_⟩)
    · have : Filter.Tendsto (fun h : ℝ => h ^ 2) (nhds 0) (nhds (0 ^ 2)) := (continuous_pow 2).tendsto 0
      rw [zero_pow two_ne_zero] at this
      exact this.mono_left nhdsWithin_le_nhds
    · filter_upwards [self_mem_nhdsWithin] with h hh
      exact pow_ne_zero 2 hh
  have he : Filter.Tendsto (fun h : ℝ => Real.exp (r * u * h) * Real.exp (r * v * h)) (nhdsWithin 0 {0}ᶜ) (nhds 1) := by
    have : Continuous fun h : ℝ => Real.exp (r * u * h) * Real.exp (r * v * h) := by fun_prop
    have := this.tendsto 0
    simp only [mul_zero, Real.exp_zero, mul_one] at this
    exact this.mono_left nhdsWithin_le_nhds
  have hall := (((tendsto_const_nhds (x := A * B)).add ((hd (r * u)).const_mul A)).add ((hd (r * v)).const_mul B)).add
    (((hd (r * u)).mul (hd (r * v))).add (he.mul hsq))
  refine (hall.congr' ?_).trans (le_of_eq ?_)
  · filter_upwards [self_mem_nhdsWithin] with h hh
    have hh' : h ≠ 0 := hh
    have e : Real.exp (r * ((u + h) * (v + h) - u * v)) = Real.exp (r * u * h) * Real.exp (r * v * h) * Real.exp (r * h ^ 2) := by
      rw [← Real.exp_add, ← Real.exp_add]
      congr 1
      ring
    rw [e]
    field_simp
    ring
  · congr 1
    ring

/-- The Stein kernel of a Gaussian kernel is positive semidefinite. -/
theorem gauss_psd {τ : Type} [Fintype τ] (c s : ℝ) (hs : 0 < s) (X G : τ → ι → ℝ) :
    0 ≤ ∑ i, ∑ j, gaussStein c s (X i) (X j) (G i) (G j) := by
  -- factors
  let w : τ → ℝ := fun i => Real.exp (-(s * ∑ a, X i a ^ 2))
  let A : τ → ι → ℝ := fun i a => G i a - 2 * s * X i a
  let K : τ → τ → ℝ := fun i j => w i * w j * Real.exp (2 * s * ∑ a, X i a * X j a)
  have key : ∀ i j, gaussStein c s (X i) (X j) (G i) (G j) = Real.exp (-(c ^ 2 * s)) *
      ∑ a, K i j * ((A i a + 2 * s * X j a) * (A j a + 2 * s * X i a) + 2 * s) := by
    intro i j
    have e1 : Real.exp (-(base c (X i) (X j) * s)) = Real.exp (-(c ^ 2 * s)) * K i j := by
      show _ = _ * (Real.exp _ * Real.exp _ * Real.exp _)
      rw [← Real.exp_add, ← Real.exp_add, ← Real.exp_add]
      congr 1
      have : ∑ a, (X i a - X j a) * (X i a - X j a) = ∑ a, X i a ^ 2 + ∑ a, X j a ^ 2 - 2 * ∑ a, X i a * X j a := by
        rw [Finset.mul_sum, ← Finset.sum_add_distrib, ← Finset.sum_sub_distrib]
        exact Finset.sum_congr rfl fun a _ => by ring
      unfold base
      rw [this]
      ring
    have e2 : (∑ a, G i a * G j a) + 2 * s * (∑ a, G i a * (X i a - X j a)) - 2 * s * (∑ a, G j a * (X i a - X j a))
        + 2 * s * (Fintype.card ι : ℝ) - 4 * s ^ 2 * ∑ a, (X i a - X j a) ^ 2 =
        ∑ a, ((A i a + 2 * s * X j a) * (A j a + 2 * s * X i a) + 2 * s) := by
      have : 2 * s * (Fintype.card ι : ℝ) = ∑ _a : ι, 2 * s := by
        rw [Finset.sum_const, nsmul_eq_mul, Finset.card_univ, mul_comm]
      rw [this, Finset.mul_sum, Finset.mul_sum, Finset.mul_sum, ← Finset.sum_add_distrib, ← Finset.sum_sub_distrib,
        ← Finset.sum_add_distrib, ← Finset.sum_sub_distrib]
      exact Finset.sum_congr rfl fun a _ => by ring
    unfold gaussStein
    rw [e1, e2, ← Finset.mul_sum]
    ring
  have h1 : ∑ i, ∑ j, gaussStein c s (X i) (X j) (G i) (G j) = Real.exp (-(c ^ 2 * s)) *
      ∑ a, ∑ i, ∑ j, K i j * ((A i a + 2 * s * X j a) * (A j a + 2 * s * X i a) + 2 * s) := by
    simp only [key]
    rw [Finset.sum_comm (f := fun a i => ∑ j, K i j * ((A i a + 2 * s * X j a) * (A j a + 2 * s * X i a) + 2 * s)), Finset.mul_sum]
    refine Finset.sum_congr rfl fun i _ => ?_
    rw [Finset.sum_comm, Finset.mul_sum]
  rw [h1]
  refine mul_nonneg (Real.exp_nonneg _) (Finset.sum_nonneg fun a _ => ?_)
  -- the limit of quadratic forms
  have hlim : Filter.Tendsto (fun h : ℝ => ∑ i, ∑ j, K i j *
      (A i a * A j a + A i a * ((Real.exp (2 * s * X i a * h) - 1) / h) + A j a * ((Real.exp (2 * s * X j a * h) - 1) / h) +
      (Real.exp (2 * s * ((X i a + h) * (X j a + h) - X i a * X j a)) - Real.exp (2 * s * X i a * h)
        - Real.exp (2 * s * X j a * h) + 1) / h ^ 2))
      (nhdsWithin 0 {0}ᶜ)
      (nhds (∑ i, ∑ j, K i j * ((A i a + 2 * s * X j a) * (A j a + 2 * s * X i a) + 2 * s))) :=
    tendsto_finset_sum _ fun i _ => tendsto_finset_sum _ fun j _ => (stein_limit _ _ _ _ _).const_mul _
  refine ge_of_tendsto hlim ?_
  filter_upwards [self_mem_nhdsWithin] with h hh
  have hh' : h ≠ 0 := hh
  -- the quadratic form on the points and the shifted points
  let P : τ ⊕ τ → ι → ℝ := Sum.elim X fun i => Function.update (X i) a (X i a + h)
  let W : τ ⊕ τ → ℝ := Sum.elim (fun i => w i * (A i a - 1 / h)) fun i => w i / h
  have hp := exp_psd P W (2 * s) (by linarith)
  have hup : ∀ (x y : ι → ℝ) t, ∑ b, Function.update x a t b * y b = ∑ b, x b * y b + (t - x a) * y a := by
    intro x y t
    rw [← Finset.add_sum_erase _ _ (Finset.mem_univ a), ← Finset.add_sum_erase _ (fun b => x b * y b) (Finset.mem_univ a)]
    rw [Function.update_self, Finset.sum_congr rfl (g := fun b => x b * y b)]
    · ring
    · intro b hb
      rw [Function.update_of_ne (Finset.ne_of_mem_erase hb)]
  have hup2 : ∀ (x y : ι → ℝ) t, ∑ b, x b * Function.update y a t b = ∑ b, x b * y b + (t - y a) * x a := by
    intro x y t
    have := hup y x t
    simp only [mul_comm] at this ⊢
    exact this
  simp only [Fintype.sum_sum_type] at hp
  simp only [P, W, Sum.elim_inl, Sum.elim_inr, hup, hup2, Function.update_self] at hp
  rw [← Finset.sum_add_distrib] at hp
  refine hp.trans (le_of_eq ?_)
  refine Finset.sum_congr rfl fun i _ => ?_
  rw [← Finset.sum_add_distrib, ← Finset.sum_add_distrib, ← Finset.sum_add_distrib]
  refine Finset.sum_congr rfl fun j _ => ?_
  have f1 : Real.exp (2 * s * (∑ b, X i b * X j b + (X j a + h - X j a) * X i a)) =
      Real.exp (2 * s * ∑ b, X i b * X j b) * Real.exp (2 * s * X i a * h) := by
    rw [← Real.exp_add]; congr 1; ring
  have f2 : Real.exp (2 * s * (∑ b, X i b * X j b + (X i a + h - X i a) * X j a)) =
      Real.exp (2 * s * ∑ b, X i b * X j b) * Real.exp (2 * s * X j a * h) := by
    rw [← Real.exp_add]; congr 1; ring
  have f3 : Real.exp (2 * s * (∑ b, X i b * X j b + (X j a + h - X j a) * X i a + (X i a + h - X i a) * (X j a + h))) =
      Real.exp (2 * s * ∑ b, X i b * X j b) * Real.exp (2 * s * ((X i a + h) * (X j a + h) - X i a * X j a)) := by
    rw [← Real.exp_add]; congr 1; ring
  rw [f1, f2, f3]
  simp only [K]
  field_simp
  ring

theorem base_pos (c : ℝ) (hc : 0 < c) (x y : ι → ℝ) : 0 < base c x y := by
  unfold base
  have : 0 ≤ ∑ a, (x a - y a) * (x a - y a) := Finset.sum_nonneg fun a _ => mul_self_nonneg _
  positivity

theorem gamma_int (a b : ℝ) (ha : 0 < a) (hb : 0 < b) :
    MeasureTheory.IntegrableOn (fun t : ℝ => t ^ (a - 1) * Real.exp (-(b * t))) (Set.Ioi 0) ∧
    ∫ t : ℝ in Set.Ioi 0, t ^ (a - 1) * Real.exp (-(b * t)) = b ^ (-a) * Real.Gamma a := by
  constructor
  · have := integrableOn_rpow_mul_exp_neg_mul_rpow (p := 1) (s := a - 1) (b := b) (by linarith) one_pos hb
    refine this.congr_fun (fun t _ => ?_) measurableSet_Ioi
    simp only [Real.rpow_one, neg_mul]
  · rw [Real.integral_rpow_mul_exp_neg_mul_Ioi ha hb, one_div, Real.inv_rpow hb.le, Real.rpow_neg hb.le]

/-- The inverse multiquadric Stein kernel is a mixture of Gaussian Stein kernels. -/
theorem k0_mixture (c beta : ℝ) (hc : 0 < c) (hb : beta < 0) (x y g h : ι → ℝ) :
    MeasureTheory.IntegrableOn (fun s : ℝ => s ^ (-beta - 1) * gaussStein c s x y g h) (Set.Ioi 0) ∧
    ∫ s : ℝ in Set.Ioi 0, s ^ (-beta - 1) * gaussStein c s x y g h = Real.Gamma (-beta) * k0 c beta x y g h := by
  have hB := base_pos c hc x y
  obtain ⟨i1, v1⟩ := gamma_int (-beta) (base c x y) (by linarith) hB
  obtain ⟨i2, v2⟩ := gamma_int (-beta + 1) (base c x y) (by linarith) hB
  obtain ⟨i3, v3⟩ := gamma_int (-beta + 1 + 1) (base c x y) (by linarith) hB
  have g1 : Real.Gamma (-beta + 1) = -beta * Real.Gamma (-beta) := Real.Gamma_add_one (by linarith)
  have g2 : Real.Gamma (-beta + 1 + 1) = (-beta + 1) * (-beta * Real.Gamma (-beta)) := by
    rw [Real.Gamma_add_one (by linarith), g1]
  set a1 := ∑ a, g a * h a with ha1
  set a2 := 2 * (∑ a, g a * (x a - y a)) - 2 * (∑ a, h a * (x a - y a)) + 2 * (Fintype.card ι : ℝ) with ha2
  set a3 := -4 * ∑ a, (x a - y a) ^ 2 with ha3
  have hfun : Set.EqOn (fun s : ℝ => s ^ (-beta - 1) * gaussStein c s x y g h)
      (fun s : ℝ => a1 * (s ^ (-beta - 1) * Real.exp (-(base c x y * s))) +
        a2 * (s ^ (-beta + 1 - 1) * Real.exp (-(base c x y * s))) +
        a3 * (s ^ (-beta + 1 + 1 - 1) * Real.exp (-(base c x y * s)))) (Set.Ioi 0) := by
    intro s hs
    have hs' : (0 : ℝ) < s := hs
    have p1 : s ^ (-beta + 1 - 1) = s ^ (-beta - 1) * s := by
      rw [show -beta + 1 - 1 = (-beta - 1) + 1 by ring, Real.rpow_add_one hs'.ne']
    have p2 : s ^ (-beta + 1 + 1 - 1) = s ^ (-beta - 1) * s * s := by
      rw [show -beta + 1 + 1 - 1 = (-beta - 1) + 1 + 1 by ring, Real.rpow_add_one hs'.ne', Real.rpow_add_one hs'.ne']
    simp only [p1, p2]
    unfold gaussStein
    rw [ha1, ha2, ha3]
    ring
  have hi : MeasureTheory.IntegrableOn (fun s : ℝ => a1 * (s ^ (-beta - 1) * Real.exp (-(base c x y * s))) +
        a2 * (s ^ (-beta + 1 - 1) * Real.exp (-(base c x y * s))) +
        a3 * (s ^ (-beta + 1 + 1 - 1) * Real.exp (-(base c x y * s)))) (Set.Ioi 0) :=
    ((i1.const_mul a1).add (i2.const_mul a2)).add (i3.const_mul a3)
  refine ⟨hi.congr_fun hfun.symm measurableSet_Ioi, ?_⟩
  rw [MeasureTheory.setIntegral_congr_fun measurableSet_Ioi hfun]
  have h12 : MeasureTheory.IntegrableOn (fun s : ℝ => a1 * (s ^ (-beta - 1) * Real.exp (-(base c x y * s))) +
        a2 * (s ^ (-beta + 1 - 1) * Real.exp (-(base c x y * s)))) (Set.Ioi 0) := (i1.const_mul a1).add (i2.const_mul a2)
  rw [MeasureTheory.integral_add h12 (i3.const_mul a3),
    MeasureTheory.integral_add (i1.const_mul a1) (i2.const_mul a2), MeasureTheory.integral_const_mul,
    MeasureTheory.integral_const_mul, MeasureTheory.integral_const_mul, v1, v2, v3, g1, g2]
  rw [show -(-beta) = beta by ring, show -(-beta + 1) = beta - 1 by ring, show -(-beta + 1 + 1) = beta - 2 by ring]
  unfold k0
  rw [ha1, ha2, ha3]
  ring

theorem ksdSum_eq (c beta : ℝ) (xs : List ((ι → ℝ) × (ι → ℝ))) :
    ksdSum c beta xs = ∑ i : Fin xs.length, ∑ j : Fin xs.length, k0 c beta (xs[i]).1 (xs[j]).1 (xs[i]).2 (xs[j]).2 := by
  have hf : ∀ (l : List ((ι → ℝ) × (ι → ℝ))) (f : (ι → ℝ) × (ι → ℝ) → ℝ) (r : ℝ),
      l.foldl (fun acc x => acc + f x) r = r + (l.map f).sum := by
    intro l f
    induction l with
    | nil => intro r; simp
    | cons a l ih => intro r; rw [List.foldl_cons, ih, List.map_cons, List.sum_cons]; ring
  unfold ksdSum
  rw [hf, zero_add, ← Fin.sum_univ_fun_getElem]
  refine Finset.sum_congr rfl fun i _ => ?_
  rw [← Fin.sum_univ_fun_getElem]
  rfl

/-- **C81.** The quantity under the square root is never negative, for every list of samples and gradients, `c > 0` and
`beta < 0`: the kernel Stein discrepancy is a number. -/
theorem C81_ksd_nonneg (c beta : ℝ) (hc : 0 < c) (hb : beta < 0) (xs : List ((ι → ℝ) × (ι → ℝ))) :
    0 ≤ ksdSum c beta xs := by
  rw [ksdSum_eq]
  have hG : 0 < Real.Gamma (-beta) := Real.Gamma_pos_of_pos (by linarith)
  have hm := fun i j : Fin xs.length => k0_mixture c beta hc hb (xs[i]).1 (xs[j]).1 (xs[i]).2 (xs[j]).2
  have e : Real.Gamma (-beta) * ∑ i : Fin xs.length, ∑ j : Fin xs.length, k0 c beta (xs[i]).1 (xs[j]).1 (xs[i]).2 (xs[j]).2 =
      ∫ s : ℝ in Set.Ioi 0, ∑ i : Fin xs.length, ∑ j : Fin xs.length,
        s ^ (-beta - 1) * gaussStein c s (xs[i]).1 (xs[j]).1 (xs[i]).2 (xs[j]).2 := by
    rw [MeasureTheory.integral_finset_sum _ fun i _ => MeasureTheory.integrable_finset_sum _ fun j _ => (hm i j).1, Finset.mul_sum]
    refine Finset.sum_congr rfl fun i _ => ?_
    rw [MeasureTheory.integral_finset_sum _ fun j _ => (hm i j).1, Finset.mul_sum]
    exact Finset.sum_congr rfl fun j _ => (hm i j).2.symm
  have : 0 ≤ Real.Gamma (-beta) * ∑ i : Fin xs.length, ∑ j : Fin xs.length, k0 c beta (xs[i]).1 (xs[j]).1 (xs[i]).2 (xs[j]).2 := by
    rw [e]
    refine MeasureTheory.setIntegral_nonneg measurableSet_Ioi fun s hs => ?_
    have hp := gauss_psd c s hs (fun i : Fin xs.length => (xs[i]).1) fun i => (xs[i]).2
    have : ∑ i : Fin xs.length, ∑ j : Fin xs.length, s ^ (-beta - 1) * gaussStein c s (xs[i]).1 (xs[j]).1 (xs[i]).2 (xs[j]).2 =
        s ^ (-beta - 1) * ∑ i : Fin xs.length, ∑ j : Fin xs.length, gaussStein c s (xs[i]).1 (xs[j]).1 (xs[i]).2 (xs[j]).2 := by
      rw [Finset.mul_sum]
      exact Finset.sum_congr rfl fun i _ => by rw [Finset.mul_sum]
    rw [this]
    exact mul_nonneg (Real.rpow_nonneg (le_of_lt hs) _) hp
  exact nonneg_of_mul_nonneg_right this hG

/-- **C81.** The discrepancy of `n` samples is the root of the mean over pairs of the Stein kernel, on any order of the samples. -/
theorem C81_ksd_mean (c beta : ℝ) (hc : 0 < c) (hb : beta < 0) (xs : List ((ι → ℝ) × (ι → ℝ))) (hx : xs ≠ []) :
    0 ≤ ksd c beta xs ∧
    ksd c beta xs ^ 2 = (∑ i : Fin xs.length, ∑ j : Fin xs.length, k0 c beta (xs[i]).1 (xs[j]).1 (xs[i]).2 (xs[j]).2) / xs.length ^ 2 := by
  have h := C81_ksd_nonneg c beta hc hb xs
  refine ⟨div_nonneg (Real.sqrt_nonneg _) (Nat.cast_nonneg _), ?_⟩
  unfold ksd
  rw [div_pow, Real.sq_sqrt h, ksdSum_eq]

theorem C81_ksd_perm (c beta : ℝ) (xs ys : List ((ι → ℝ) × (ι → ℝ))) (h : xs.Perm ys) : ksd c beta xs = ksd c beta ys := by
  have hf : ∀ (l : List ((ι → ℝ) × (ι → ℝ))) (f : (ι → ℝ) × (ι → ℝ) → ℝ) (r : ℝ),
      l.foldl (fun acc x => acc + f x) r = r + (l.map f).sum := by
    intro l f
    induction l with
    | nil => intro r; simp
    | cons a l ih => intro r; rw [List.foldl_cons, ih, List.map_cons, List.sum_cons]; ring
  unfold ksd ksdSum
  rw [hf, hf, h.length_eq, (h.map _).sum_eq]
  congr 4
  congr 1
  funext x
  rw [(h.map _).sum_eq]

/-- The inverse multiquadric kernel. -/
noncomputable def imq (c beta : ℝ) (x y : ι → ℝ) : ℝ := (c ^ 2 + ∑ a, (x a - y a) ^ 2) ^ beta

theorem base_update (c : ℝ) (x y : ι → ℝ) (a : ι) (t u : ℝ) :
    c ^ 2 + ∑ b, (Function.update x a t b - Function.update y a u b) ^ 2 = base c x y - (x a - y a) ^ 2 + (t - u) ^ 2 := by
  unfold base
  rw [← Finset.add_sum_erase _ _ (Finset.mem_univ a),
    ← Finset.add_sum_erase _ (fun b => (x b - y b) * (x b - y b)) (Finset.mem_univ a), Function.update_self, Function.update_self,
    Finset.sum_congr rfl (g := fun b => (x b - y b) * (x b - y b))]
  · ring
  · intro b hb
    rw [Function.update_of_ne (Finset.ne_of_mem_erase hb), Function.update_of_ne (Finset.ne_of_mem_erase hb)]
    ring

/-- **C81.** The kernel in the code is the Stein operator of the gradients, in both arguments, applied to the inverse
multiquadric kernel: the sum over coordinates of `∂x ∂y k + g ∂y k + h ∂x k + g h k`. -/
theorem C81_stein (c beta : ℝ) (hc : 0 < c) (x y g h : ι → ℝ) :
    k0 c beta x y g h = ∑ a,
      (deriv (fun t => deriv (fun u => imq c beta (Function.update x a t) (Function.update y a u)) (y a)) (x a) +
       g a * deriv (fun u => imq c beta x (Function.update y a u)) (y a) +
       h a * deriv (fun t => imq c beta (Function.update x a t) y) (x a) + g a * h a * imq c beta x y) := by
  have hB := base_pos c hc x y
  have hpos : ∀ a t u, 0 < base c x y - (x a - y a) ^ 2 + (t - u) ^ 2 := by
    intro a t u
    rw [← base_update]
    have : 0 ≤ ∑ b, (Function.update x a t b - Function.update y a u b) ^ 2 := Finset.sum_nonneg fun a _ => sq_nonneg _
    positivity
  have himq : imq c beta x y = base c x y ^ beta := by
    unfold imq base
    simp only [pow_two]
  have hy : ∀ a t u, HasDerivAt (fun u => imq c beta (Function.update x a t) (Function.update y a u))
      (-2 * beta * (t - u) * (base c x y - (x a - y a) ^ 2 + (t - u) ^ 2) ^ (beta - 1)) u := by
    intro a t u
    have hf : (fun u => imq c beta (Function.update x a t) (Function.update y a u)) =
        fun u => (base c x y - (x a - y a) ^ 2 + (t - u) ^ 2) ^ beta := by
      funext u
      unfold imq
      rw [base_update]
    rw [hf]
    have h1 : HasDerivAt (fun u : ℝ => base c x y - (x a - y a) ^ 2 + (t - u) ^ 2) (-2 * (t - u)) u := by
      exact ((((hasDerivAt_id u).const_sub t).pow 2).const_add (base c x y - (x a - y a) ^ 2)).congr_deriv (by norm_num)
    convert h1.rpow_const (p := beta) (Or.inl (hpos a t u).ne') using 1
    ring
  have hx : ∀ a t, HasDerivAt (fun t => imq c beta (Function.update x a t) y)
      (2 * beta * (t - y a) * (base c x y - (x a - y a) ^ 2 + (t - y a) ^ 2) ^ (beta - 1)) t := by
    intro a t
    have hf : (fun t => imq c beta (Function.update x a t) y) =
        fun t => (base c x y - (x a - y a) ^ 2 + (t - y a) ^ 2) ^ beta := by
      funext t
      unfold imq
      rw [← base_update c x y a t (y a), Function.update_eq_self]
    rw [hf]
    have h1 : HasDerivAt (fun t : ℝ => base c x y - (x a - y a) ^ 2 + (t - y a) ^ 2) (2 * (t - y a)) t := by
      exact ((((hasDerivAt_id t).sub_const (y a)).pow 2).const_add (base c x y - (x a - y a) ^ 2)).congr_deriv (by norm_num)
    convert h1.rpow_const (p := beta) (Or.inl (hpos a t (y a)).ne') using 1
    ring
  have hxy : ∀ a, deriv (fun t => deriv (fun u => imq c beta (Function.update x a t) (Function.update y a u)) (y a)) (x a) =
      -2 * beta * base c x y ^ (beta - 1) - 4 * beta * (beta - 1) * (x a - y a) ^ 2 * base c x y ^ (beta - 2) := by
    intro a
    have hf : (fun t => deriv (fun u => imq c beta (Function.update x a t) (Function.update y a u)) (y a)) =
        fun t => -2 * beta * (t - y a) * (base c x y - (x a - y a) ^ 2 + (t - y a) ^ 2) ^ (beta - 1) := by
      funext t
      exact (hy a t (y a)).deriv
    rw [hf]
    have h1 : HasDerivAt (fun t : ℝ => base c x y - (x a - y a) ^ 2 + (t - y a) ^ 2) (2 * (x a - y a)) (x a) := by
      exact ((((hasDerivAt_id (x a)).sub_const (y a)).pow 2).const_add (base c x y - (x a - y a) ^ 2)).congr_deriv (by norm_num)
    have h2 := h1.rpow_const (p := beta - 1) (Or.inl (hpos a (x a) (y a)).ne')
    have h3 := (((hasDerivAt_id (x a)).sub_const (y a)).const_mul (-2 * beta)).mul h2
    refine h3.deriv.trans ?_
    simp only [id]
    rw [show base c x y - (x a - y a) ^ 2 + (x a - y a) ^ 2 = base c x y by ring, show beta - 1 - 1 = beta - 2 by ring]
    ring
  have hyd : ∀ a, deriv (fun u => imq c beta x (Function.update y a u)) (y a) =
      -2 * beta * (x a - y a) * base c x y ^ (beta - 1) := by
    intro a
    have := (hy a (x a) (y a)).deriv
    rw [Function.update_eq_self] at this
    rw [this]
    congr 2
    ring
  have hxd : ∀ a, deriv (fun t => imq c beta (Function.update x a t) y) (x a) =
      2 * beta * (x a - y a) * base c x y ^ (beta - 1) := by
    intro a
    rw [(hx a (x a)).deriv]
    congr 2
    ring
  rw [Finset.sum_congr rfl fun a _ => by rw [hxy, hyd, hxd, himq]]
  unfold k0
  simp only [Finset.sum_add_distrib, Finset.sum_sub_distrib]
  have e1 : ∑ a, g a * (-2 * beta * (x a - y a) * base c x y ^ (beta - 1)) =
      -2 * beta * (∑ a, g a * (x a - y a)) * base c x y ^ (beta - 1) := by
    rw [Finset.mul_sum, Finset.sum_mul]
    exact Finset.sum_congr rfl fun a _ => by ring
  have e2 : ∑ a, h a * (2 * beta * (x a - y a) * base c x y ^ (beta - 1)) =
      2 * beta * (∑ a, h a * (x a - y a)) * base c x y ^ (beta - 1) := by
    rw [Finset.mul_sum, Finset.sum_mul]
    exact Finset.sum_congr rfl fun a _ => by ring
  have e3 : ∑ a, 4 * beta * (beta - 1) * (x a - y a) ^ 2 * base c x y ^ (beta - 2) =
      4 * beta * (beta - 1) * base c x y ^ (beta - 2) * ∑ a, (x a - y a) ^ 2 := by
    rw [Finset.mul_sum]
    exact Finset.sum_congr rfl fun a _ => by ring
  have e4 : ∑ a, g a * h a * base c x y ^ beta = (∑ a, g a * h a) * base c x y ^ beta := by rw [Finset.sum_mul]
  rw [e1, e2, e3, e4, Finset.sum_const, nsmul_eq_mul, Finset.card_univ]
  ring

/-- **C81.** Exchanging two samples together with their gradients does not change the kernel. -/
theorem C81_symm (c beta : ℝ) (x y g h : ι → ℝ) : k0 c beta x y g h = k0 c beta y x h g := by
  have hb : base c x y = base c y x := by
    unfold base
    congr 1
    exact Finset.sum_congr rfl fun a _ => by ring
  have e : ∀ f : ι → ℝ, ∑ a, f a * (y a - x a) = -∑ a, f a * (x a - y a) := by
    intro f
    rw [← Finset.sum_neg_distrib]
    exact Finset.sum_congr rfl fun a _ => by ring
  have e2 : ∑ a, (y a - x a) ^ 2 = ∑ a, (x a - y a) ^ 2 := Finset.sum_congr rfl fun a _ => by ring
  have e3 : ∑ a, h a * g a = ∑ a, g a * h a := Finset.sum_congr rfl fun a _ => by ring
  unfold k0
  rw [← hb, e, e, e2, e3]
  ring

/-- **C81, the parameters of the kernel, is false.** A call that gives `c` or `beta` raises; only the defaults can be used. -/
theorem C81_params_false (c beta : Option ℝ) (xs : List ((ι → ℝ) × (ι → ℝ))) :
    (∃ v, ksdCall c beta xs = .ok v) ↔ c = none ∧ beta = none := by
  cases c <;> cases beta <;> simp [ksdCall]

/-- **C81.** Without parameters the kernel is the inverse multiquadric `(1 + |x - y|²)^(-1/2)`: the value is not negative and its
square is the mean over all pairs of samples of its Stein kernel, written out. -/
theorem C81_default (xs : List ((ι → ℝ) × (ι → ℝ))) (hx : xs ≠ []) :
    ∃ v, ksdCall none none xs = .ok v ∧ 0 ≤ v ∧
      v ^ 2 = (∑ i : Fin xs.length, ∑ j : Fin xs.length,
        (let d := fun a => (xs[i]).1 a - (xs[j]).1 a
         let b := 1 + ∑ a, d a ^ 2
         (∑ a, (xs[i]).2 a * (xs[j]).2 a) * b ^ (-1 / 2 : ℝ)
          + ((∑ a, (xs[i]).2 a * d a) - ∑ a, (xs[j]).2 a * d a) * b ^ (-3 / 2 : ℝ)
          + Fintype.card ι * b ^ (-3 / 2 : ℝ) - 3 * (∑ a, d a ^ 2) * b ^ (-5 / 2 : ℝ))) / xs.length ^ 2 := by
  obtain ⟨h1, h2⟩ := C81_ksd_mean 1 (-1 / 2) one_pos (by norm_num) xs hx
  refine ⟨_, rfl, h1, ?_⟩
  rw [h2]
  congr 1
  refine Finset.sum_congr rfl fun i _ => Finset.sum_congr rfl fun j _ => ?_
  have hb : base 1 (xs[i]).1 (xs[j]).1 = 1 + ∑ a, ((xs[i]).1 a - (xs[j]).1 a) ^ 2 := by
    unfold base
    rw [one_pow]
    congr 1
    exact Finset.sum_congr rfl fun a _ => by ring
  have e1 : (-1 / 2 - 1 : ℝ) = -3 / 2 := by norm_num
  have e2 : (-1 / 2 - 2 : ℝ) = -5 / 2 := by norm_num
  simp only [k0, hb, e1, e2]
  ring

/-- A single sample in one dimension at its mode has discrepancy one. -/
example : ksd (ι := Fin 1) 1 (-1 / 2) [(fun _ => 0, fun _ => 0)] = 1 := by
  norm_num [ksd, ksdSum, k0, base]

end ksd

/-! ### Concrete cases that meet the hypotheses of the theorems above -/

example := C81_ess_bounds 3 (fun i => i) ⟨0, 1, by decide, by decide, by simp⟩ (1 / 2) (by norm_num) (by norm_num)
example := C81_ess_affine 3 (fun i => i) (-2) 5 (by norm_num) (some (1 / 2))
example := C81_ess_unfiltered_false 3 (fun i => i) ⟨0, 1, by decide, by decide, by simp⟩
example := C81_ksd_nonneg (ι := Fin 2) 1 (-1 / 2) (by norm_num) (by norm_num) [(![1, 2], ![-1, -2]), (![0, 1], ![0, -1])]
example := C81_ksd_mean (ι := Fin 2) 1 (-1 / 2) (by norm_num) (by norm_num) [(![1, 2], ![-1, -2]), (![0, 1], ![0, -1])] (by simp)
example := C81_ksd_perm (ι := Fin 2) 1 (-1 / 2) [(![1, 2], ![-1, -2]), (![0, 1], ![0, -1])] [(![0, 1], ![0, -1]), (![1, 2], ![-1, -2])]
  (List.Perm.swap _ _ _)
example := C81_stein (ι := Fin 2) 1 (-1 / 2) (by norm_num) ![1, 2] ![0, 1] ![-1, -2] ![0, -1]

end Verif.Props
