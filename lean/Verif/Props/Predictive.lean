import Mathlib.Tactic.Linarith
import Mathlib.Tactic.Ring
import Mathlib.Tactic.FieldSimp
import Mathlib.Tactic.Positivity
import Mathlib.Tactic.NormNum
import Mathlib.Algebra.Order.BigOperators.Group.Finset
import Mathlib.Algebra.Order.BigOperators.Ring.Finset
import Mathlib.Algebra.Order.Chebyshev
import Mathlib.Algebra.BigOperators.Field
import Verif.Model.Predictive
import Verif.Lemmas.Quantile
import Verif.Props.Metrics

/-!
# C45–C49, C64: predictive statistics
-/

set_option linter.unusedSectionVars false

namespace Verif.Props
open Verif.Predictive

/-! ## C45 the law of total variance -/

section variance
variable {K : Type} [Field K] [LinearOrder K] [IsStrictOrderedRing K]

theorem loopSum_eq (n : ℕ) (hn : 0 < n) (f : ℕ → K) : loopSum n f = ∑ i ∈ Finset.range n, f i := by
  obtain ⟨k, rfl⟩ : ∃ k, n = k + 1 := ⟨n - 1, by omega⟩
  unfold loopSum
  simp only [Nat.add_sub_cancel, zero_add]
  induction k with
  | zero => simp
  | succ k ih =>
    rw [List.range'_1_concat, List.foldl_append, ih (by omega), Finset.sum_range_succ _ (k + 1)]
    simp [Nat.add_comm]

/-- The mean square deviation from the mean, times `n²`. -/
theorem sq_gap (n : ℕ) (hn : 0 < n) (m : ℕ → K) :
    (∑ i ∈ Finset.range n, m i ^ 2) / n - ((∑ i ∈ Finset.range n, m i) / n) ^ 2 =
      (∑ i ∈ Finset.range n, (m i - (∑ j ∈ Finset.range n, m j) / n) ^ 2) / n := by
  have hn' : (n : K) ≠ 0 := by exact_mod_cast hn.ne'
  set S := ∑ j ∈ Finset.range n, m j with hS
  have : ∑ i ∈ Finset.range n, (m i - S / n) ^ 2 =
      ∑ i ∈ Finset.range n, m i ^ 2 - 2 * (S / n) * S + n * (S / n) ^ 2 := by
    have h1 : ∀ i, (m i - S / n) ^ 2 = m i ^ 2 - 2 * (S / n) * m i + (S / n) ^ 2 := fun i => by ring
    simp only [h1]
    rw [Finset.sum_add_distrib, Finset.sum_sub_distrib, ← Finset.mul_sum, ← hS]
    simp
  rw [this]
  field_simp
  ring

variable {Key : Type} (split : Key → ℕ → ℕ → Key)

/-- **C45, the two parts.** For every number of posterior samples: the aleatoric variance is the average
of the sample variances, the epistemic variance is the (population) variance of the sample means; the
latter is non-negative without the clamp and vanishes exactly when all samples have the same mean. -/
theorem C45_parts (m v : Key → K) (n : ℕ) (hn : 0 < n) (rng : Key) :
    let ms := fun i => m (split rng n i)
    let mbar := (∑ i ∈ Finset.range n, ms i) / (n : K)
    predMean split m n rng = mbar ∧
    aleatoric split v n rng = (∑ i ∈ Finset.range n, v (split rng n i)) / n ∧
    epistemic split m n rng = (∑ i ∈ Finset.range n, (ms i - mbar) ^ 2) / n ∧
    (epistemic split m n rng = 0 ↔ ∀ i < n, ms i = mbar) := by
  intro ms mbar
  have hn' : (0 : K) < n := by exact_mod_cast hn
  have hepi : epistemic split m n rng = (∑ i ∈ Finset.range n, (ms i - mbar) ^ 2) / n := by
    unfold epistemic
    simp only [loopSum_eq n hn]
    rw [show (∑ i ∈ Finset.range n, m (split rng n i) ^ 2) / (n : K) -
        ((∑ i ∈ Finset.range n, m (split rng n i)) / (n : K)) ^ 2 =
        (∑ i ∈ Finset.range n, (ms i - mbar) ^ 2) / n from sq_gap n hn ms]
    apply max_eq_right
    positivity
  refine ⟨by unfold predMean; rw [loopSum_eq n hn], by unfold aleatoric; rw [loopSum_eq n hn], hepi, ?_⟩
  rw [hepi, div_eq_zero_iff]
  constructor
  · rintro (h | h)
    · rw [Finset.sum_eq_zero_iff_of_nonneg (fun i _ => sq_nonneg _)] at h
      intro i hi
      exact sub_eq_zero.mp (pow_eq_zero_iff two_ne_zero |>.mp (h i (Finset.mem_range.mpr hi)))
    · exact absurd h hn'.ne'
  · intro h
    left
    apply Finset.sum_eq_zero
    intro i hi
    rw [h i (Finset.mem_range.mp hi)]; ring

/-- **C45, law of total variance.** Let sample `i` put probability `w i y` on outcome `y` (finitely many,
with numerical values `val y`), with mean `m` and variance `v`. For the same posterior samples, aleatoric
plus epistemic variance is the variance of the mixture of the sample distributions. -/
theorem C45_total {Y : Type} [Fintype Y] (val : Y → K) (w : Key → Y → K) (n : ℕ) (hn : 0 < n)
    (rng : Key) (hw : ∀ k, ∑ y, w k y = 1) :
    let m := fun k => ∑ y, w k y * val y
    let v := fun k => ∑ y, w k y * (val y - m k) ^ 2
    let mix := fun y => (∑ i ∈ Finset.range n, w (split rng n i) y) / (n : K)
    varianceOf (aleatoric split v n rng) (epistemic split m n rng) =
      ∑ y, mix y * (val y - ∑ z, mix z * val z) ^ 2 := by
  intro m v mix
  have hn' : (n : K) ≠ 0 := by exact_mod_cast hn.ne'
  obtain ⟨-, ha, he, -⟩ := C45_parts split m v n hn rng
  unfold varianceOf
  rw [ha, he]
  have hv : ∀ k, v k = (∑ y, w k y * val y ^ 2) - m k ^ 2 := by
    intro k
    show ∑ y, w k y * (val y - m k) ^ 2 = _
    have h1 : ∀ y, w k y * (val y - m k) ^ 2 =
        w k y * val y ^ 2 - 2 * m k * (w k y * val y) + m k ^ 2 * w k y := fun y => by ring
    simp only [h1]
    rw [Finset.sum_add_distrib, Finset.sum_sub_distrib, ← Finset.mul_sum, ← Finset.mul_sum, hw]
    show _ - 2 * m k * m k + m k ^ 2 * 1 = _
    ring
  have hmixsum : ∑ y, mix y = 1 := by
    show ∑ y, (∑ i ∈ Finset.range n, w (split rng n i) y) / (n : K) = 1
    rw [← Finset.sum_div, Finset.sum_comm]
    simp only [hw]
    simp [hn']
  have hmixmean : ∑ z, mix z * val z = (∑ i ∈ Finset.range n, m (split rng n i)) / n := by
    show ∑ z, (∑ i ∈ Finset.range n, w (split rng n i) z) / (n : K) * val z = _
    have h1 : ∀ z, (∑ i ∈ Finset.range n, w (split rng n i) z) / (n : K) * val z =
        (∑ i ∈ Finset.range n, w (split rng n i) z * val z) / n := by
      intro z; rw [div_mul_eq_mul_div, Finset.sum_mul]
    simp only [h1]
    rw [← Finset.sum_div, Finset.sum_comm]
  have hmix2 : ∑ z, mix z * val z ^ 2 =
      (∑ i ∈ Finset.range n, ∑ y, w (split rng n i) y * val y ^ 2) / n := by
    show ∑ z, (∑ i ∈ Finset.range n, w (split rng n i) z) / (n : K) * val z ^ 2 = _
    have h1 : ∀ z, (∑ i ∈ Finset.range n, w (split rng n i) z) / (n : K) * val z ^ 2 =
        (∑ i ∈ Finset.range n, w (split rng n i) z * val z ^ 2) / n := by
      intro z; rw [div_mul_eq_mul_div, Finset.sum_mul]
    simp only [h1]
    rw [← Finset.sum_div, Finset.sum_comm]
  set M := ∑ z, mix z * val z with hM
  have hr : ∑ y, mix y * (val y - M) ^ 2 = ∑ y, mix y * val y ^ 2 - M ^ 2 := by
    have h1 : ∀ y, mix y * (val y - M) ^ 2 =
        mix y * val y ^ 2 - 2 * M * (mix y * val y) + M ^ 2 * mix y := fun y => by ring
    simp only [h1]
    rw [Finset.sum_add_distrib, Finset.sum_sub_distrib, ← Finset.mul_sum, ← Finset.mul_sum, hmixsum,
      ← hM]
    ring
  rw [hr, hmix2, hmixmean]
  simp only [hv]
  rw [Finset.sum_sub_distrib]
  have hg := sq_gap n hn fun i => m (split rng n i)
  simp only at hg
  rw [← hg]
  ring

/-- **C45 is false for `variance` called with one key.** It derives different keys for its two parts, so
they come from different posterior samples: for Bernoulli probabilities (variance at most 1/4) the result
can be 1/2, and it differs from `aleatoric_variance + epistemic_variance` called with the same key. -/
theorem C45_variance_rng_false : ∃ (p : List ℕ → ℚ),
    (∀ k, 0 ≤ p k ∧ p k ≤ 1) ∧
    variance (fun k _ i => k ++ [i]) p (fun k => p k * (1 - p k)) 2 [] = 1 / 2 ∧
    aleatoric (fun k _ i => k ++ [i]) (fun k => p k * (1 - p k)) 2 [] +
      epistemic (fun k _ i => k ++ [i]) p 2 [] ≠ 1 / 2 := by
  refine ⟨fun k => if k = [0, 1, 0] then 0 else if k = [0, 1, 1] then 1 else 1 / 2, ?_, ?_, ?_⟩
  · intro k; dsimp only; split_ifs <;> norm_num
  · decide +kernel
  · decide +kernel

/-- **C45, parts that are passed.** A part that is passed is used as it is. If only one is missing it is computed with the first key that is split off; if the one that
is passed was computed with that key, the result is the variance of the mixture. Without parts the result is that of `variance`. -/
theorem C45_passed (m v : Key → K) (n : ℕ) (rng : Key) (a e : K) :
    varianceWith split m v n rng (some a) (some e) = a + e ∧
    varianceWith split m v n rng (some a) none = a + epistemic split m n (split rng 2 1) ∧
    varianceWith split m v n rng none (some e) = aleatoric split v n (split rng 2 1) + e ∧
    varianceWith split m v n rng none none = variance split m v n rng := ⟨rfl, rfl, rfl, rfl⟩

/-- **C45, law of total variance with one part passed.** -/
theorem C45_passed_total {Y : Type} [Fintype Y] (val : Y → K) (w : Key → Y → K) (n : ℕ) (hn : 0 < n) (rng : Key) (hw : ∀ k, ∑ y, w k y = 1) :
    let m := fun k => ∑ y, w k y * val y
    let v := fun k => ∑ y, w k y * (val y - m k) ^ 2
    let mix := fun y => (∑ i ∈ Finset.range n, w (split (split rng 2 1) n i) y) / (n : K)
    varianceWith split m v n rng (some (aleatoric split v n (split rng 2 1))) none = ∑ y, mix y * (val y - ∑ z, mix z * val z) ^ 2 ∧
    varianceWith split m v n rng none (some (epistemic split m n (split rng 2 1))) = ∑ y, mix y * (val y - ∑ z, mix z * val z) ^ 2 := by
  intro m v mix
  have h := C45_total split val w n hn (split rng 2 1) hw
  exact ⟨h, h⟩

/-- **C45, the documented formulas, are false**: they are stated the wrong way round. Two samples that disagree without noise have aleatoric variance 0, though the variance of
their means is 1/4; two noisy samples that agree have epistemic variance 0, though their variances average to 1. -/
theorem C45_documented_false :
    aleatoric (fun (_ : ℕ) _ i => i) (fun _ => (0 : ℚ)) 2 0 = 0 ∧ epistemic (fun (_ : ℕ) _ i => i) (fun k => (k : ℚ)) 2 0 = 1 / 4 ∧
    epistemic (fun (_ : ℕ) _ i => i) (fun _ => (3 : ℚ)) 2 0 = 0 ∧ aleatoric (fun (_ : ℕ) _ i => i) (fun _ => (1 : ℚ)) 2 0 = 1 := by
  decide +kernel

/-- Two samples of a Bernoulli variable with probabilities 1/4 and 3/4. -/
example : aleatoric (fun (_ : ℕ) _ i => i) (fun k => if k = 0 then (3 : ℚ) / 16 else 3 / 16) 2 0 = 3 / 16 ∧
    epistemic (fun (_ : ℕ) _ i => i) (fun k => if k = 0 then (1 : ℚ) / 4 else 3 / 4) 2 0 = 1 / 16 := by
  decide +kernel

end variance

/-! ## C49 log-probabilities -/

theorem exp_logsumexp {n : ℕ} (hn : 0 < n) (l : Fin n → ℝ) :
    Real.exp (logsumexp l) = ∑ i, Real.exp (l i) := by
  unfold logsumexp
  apply Real.exp_log
  have : Nonempty (Fin n) := ⟨⟨0, hn⟩⟩
  exact Finset.sum_pos (fun i _ => Real.exp_pos _) Finset.univ_nonempty

/-- **C49.** The ensemble log-probability is the logarithm of the mean of the sample likelihoods. -/
theorem C49_log_mean {n : ℕ} (hn : 0 < n) (l : Fin n → ℝ) :
    Real.exp (logProb l) = (∑ i, Real.exp (l i)) / n := by
  unfold logProb
  rw [Real.exp_sub, exp_logsumexp hn, Real.exp_log (by exact_mod_cast hn)]

/-- **C49, bounds.** It lies between the smallest and the largest sample log-likelihood. -/
theorem C49_bounds {n : ℕ} (hn : 0 < n) (l : Fin n → ℝ) (lo hi : ℝ) (hlo : ∀ i, lo ≤ l i)
    (hhi : ∀ i, l i ≤ hi) : lo ≤ logProb l ∧ logProb l ≤ hi := by
  have hn' : (0 : ℝ) < n := by exact_mod_cast hn
  constructor
  · rw [← Real.exp_le_exp, C49_log_mean hn, le_div_iff₀ hn']
    have := Finset.card_nsmul_le_sum Finset.univ (fun i => Real.exp (l i)) (Real.exp lo)
      (fun i _ => Real.exp_le_exp.mpr (hlo i))
    simp at this; linarith
  · rw [← Real.exp_le_exp, C49_log_mean hn, div_le_iff₀ hn']
    have := Finset.sum_le_card_nsmul Finset.univ (fun i => Real.exp (l i)) (Real.exp hi)
      (fun i _ => Real.exp_le_exp.mpr (hhi i))
    simp at this; linarith

/-- **C49, Jensen.** It is at least the mean of the sample log-likelihoods. -/
theorem C49_jensen {n : ℕ} (hn : 0 < n) (l : Fin n → ℝ) : (∑ i, l i) / n ≤ logProb l := by
  have hn' : (0 : ℝ) < n := by exact_mod_cast hn
  rw [← Real.exp_le_exp, C49_log_mean hn]
  set M := (∑ i, l i) / n with hM
  have h1 : ∀ i, Real.exp M * (l i - M + 1) ≤ Real.exp (l i) := by
    intro i
    have := Real.add_one_le_exp (l i - M)
    have h2 : Real.exp (l i) = Real.exp M * Real.exp (l i - M) := by
      rw [← Real.exp_add]; congr 1; ring
    rw [h2]
    exact mul_le_mul_of_nonneg_left this (Real.exp_pos _).le
  have h2 : ∑ i, Real.exp M * (l i - M + 1) ≤ ∑ i, Real.exp (l i) :=
    Finset.sum_le_sum fun i _ => h1 i
  rw [← Finset.mul_sum, Finset.sum_add_distrib, Finset.sum_sub_distrib] at h2
  have h3 : ∑ i, l i = n * M := by rw [hM]; field_simp
  rw [h3] at h2
  simp at h2
  rw [le_div_iff₀ hn']
  linarith

/-- Two samples with likelihoods 1 and 3. -/
example : Real.exp (logProb ![0, Real.log 3]) = 2 := by
  rw [C49_log_mean (by norm_num)]
  simp [Fin.sum_univ_two, Real.exp_log]
  norm_num

/-! ## C46 entropies -/

theorem classLogProb_eq {c : ℕ} (o : Fin c → ℝ) (y : Fin c) : classLogProb o y = o y - logsumexp o := by
  unfold classLogProb
  simp

/-- The class probabilities of one sample are positive and sum to 1. -/
theorem class_probs {c : ℕ} (hc : 0 < c) (o : Fin c → ℝ) :
    ∑ y, Real.exp (classLogProb o y) = 1 := by
  simp only [classLogProb_eq, Real.exp_sub, exp_logsumexp hc]
  rw [← Finset.sum_div, div_self]
  rw [← exp_logsumexp hc]
  exact (Real.exp_pos _).ne'

/-- **C46, decomposition.** Entropy is aleatoric plus epistemic entropy. -/
theorem C46_decomposition {n c : ℕ} (o : Fin n → Fin c → ℝ) :
    entropy o = aleatoricEntropy o + epistemicEntropy o := by
  unfold entropy aleatoricEntropy epistemicEntropy
  simp only
  rw [Finset.sum_sub_distrib]
  ring

/-- The mean class probabilities. -/
noncomputable def meanProb {n c : ℕ} (o : Fin n → Fin c → ℝ) (i : Fin c) : ℝ :=
  (∑ s, Real.exp (classLogProb (o s) i)) / n

theorem meanProb_spec {n c : ℕ} (hn : 0 < n) (hc : 0 < c) (o : Fin n → Fin c → ℝ) :
    (∀ i, 0 < meanProb o i) ∧ ∑ i, meanProb o i = 1 ∧
    ∀ i, logsumexp (fun s => classLogProb (o s) i) - Real.log n = Real.log (meanProb o i) := by
  have hn' : (0 : ℝ) < n := by exact_mod_cast hn
  have : Nonempty (Fin n) := ⟨⟨0, hn⟩⟩
  have hs : ∀ i, 0 < ∑ s, Real.exp (classLogProb (o s) i) := fun i =>
    Finset.sum_pos (fun s _ => Real.exp_pos _) Finset.univ_nonempty
  refine ⟨fun i => div_pos (hs i) hn', ?_, ?_⟩
  · unfold meanProb
    rw [← Finset.sum_div, Finset.sum_comm]
    simp only [class_probs hc]
    simp [hn'.ne']
  · intro i
    unfold logsumexp meanProb
    rw [Real.log_div (hs i).ne' hn'.ne']

/-- **C46, meaning.** The entropy is the Shannon entropy of the mean class probabilities, and the aleatoric
entropy is the mean Shannon entropy of the samples. -/
theorem C46_meaning {n c : ℕ} (hn : 0 < n) (hc : 0 < c) (o : Fin n → Fin c → ℝ) :
    entropy o = -∑ i, meanProb o i * Real.log (meanProb o i) ∧
    aleatoricEntropy o = (∑ s, -∑ i, Real.exp (classLogProb (o s) i) *
      Real.log (Real.exp (classLogProb (o s) i))) / n := by
  obtain ⟨hpos, -, hlog⟩ := meanProb_spec hn hc o
  constructor
  · unfold entropy
    simp only [hlog]
    congr 1
    apply Finset.sum_congr rfl
    intro i _
    rw [Real.exp_log (hpos i)]
  · unfold aleatoricEntropy
    simp only [Real.log_exp]
    rw [← Finset.sum_div, Finset.sum_comm, Finset.sum_neg_distrib, neg_div]

/-- Gibbs' inequality: `Σ p log q ≤ Σ p log p` for positive `p`, `q` with equal sums. -/
theorem gibbs {c : ℕ} (p q : Fin c → ℝ) (hp : ∀ i, 0 < p i) (hq : ∀ i, 0 < q i)
    (hs : ∑ i, p i = ∑ i, q i) : ∑ i, p i * Real.log (q i) ≤ ∑ i, p i * Real.log (p i) := by
  have h1 : ∀ i, p i * Real.log (q i) - p i * Real.log (p i) ≤ q i - p i := by
    intro i
    have := Real.log_le_sub_one_of_pos (div_pos (hq i) (hp i))
    rw [Real.log_div (hq i).ne' (hp i).ne'] at this
    have h2 := mul_le_mul_of_nonneg_left this (hp i).le
    have h3 : p i * (q i / p i - 1) = q i - p i := by
      have := (hp i).ne'
      field_simp
    rw [h3] at h2
    linarith
  have h2 := Finset.sum_le_sum fun i (_ : i ∈ Finset.univ) => h1 i
  rw [Finset.sum_sub_distrib, Finset.sum_sub_distrib] at h2
  linarith

/-- **C46, ranges.** The epistemic entropy is non-negative, the aleatoric entropy is non-negative, and the
entropy is between the aleatoric entropy and the logarithm of the number of classes. -/
theorem C46_range {n c : ℕ} (hn : 0 < n) (hc : 0 < c) (o : Fin n → Fin c → ℝ) :
    0 ≤ epistemicEntropy o ∧ 0 ≤ aleatoricEntropy o ∧ aleatoricEntropy o ≤ entropy o ∧
    entropy o ≤ Real.log c := by
  have hn' : (0 : ℝ) < n := by exact_mod_cast hn
  have hc' : (0 : ℝ) < c := by exact_mod_cast hc
  obtain ⟨hpos, hsum, hlog⟩ := meanProb_spec hn hc o
  obtain ⟨hent, hale⟩ := C46_meaning hn hc o
  have hge : aleatoricEntropy o ≤ entropy o := by
    rw [hent, hale, div_le_iff₀ hn']
    have h1 : ∀ s, -∑ i, Real.exp (classLogProb (o s) i) *
        Real.log (Real.exp (classLogProb (o s) i)) ≤
        -∑ i, Real.exp (classLogProb (o s) i) * Real.log (meanProb o i) := by
      intro s
      have := gibbs (fun i => Real.exp (classLogProb (o s) i)) (meanProb o) (fun i => Real.exp_pos _)
        hpos (by rw [class_probs hc, hsum])
      linarith
    refine le_trans (Finset.sum_le_sum fun s _ => h1 s) ?_
    rw [Finset.sum_neg_distrib, Finset.sum_comm]
    have h2 : ∀ i, ∑ s, Real.exp (classLogProb (o s) i) * Real.log (meanProb o i) =
        (n : ℝ) * (meanProb o i * Real.log (meanProb o i)) := by
      intro i
      rw [← Finset.sum_mul]
      unfold meanProb
      field_simp
    simp only [h2]
    rw [← Finset.mul_sum]
    linarith
  refine ⟨by have := C46_decomposition o; linarith, ?_, hge, ?_⟩
  · rw [hale]
    apply div_nonneg _ hn'.le
    apply Finset.sum_nonneg
    intro s _
    rw [neg_nonneg]
    apply Finset.sum_nonpos
    intro i _
    rw [Real.log_exp]
    have hle : Real.exp (classLogProb (o s) i) ≤ 1 := by
      rw [← class_probs hc (o s)]
      exact Finset.single_le_sum (f := fun y => Real.exp (classLogProb (o s) y))
        (fun y _ => (Real.exp_pos _).le) (Finset.mem_univ i)
    have : classLogProb (o s) i ≤ 0 := by
      rw [← Real.exp_zero] at hle; exact Real.exp_le_exp.mp hle
    exact mul_nonpos_of_nonneg_of_nonpos (Real.exp_pos _).le this
  · rw [hent]
    have := gibbs (meanProb o) (fun _ => 1 / (c : ℝ)) hpos (fun _ => by positivity)
      (by rw [hsum]; simp [hc'.ne'])
    rw [← Finset.sum_mul, hsum, one_mul, Real.log_div one_ne_zero hc'.ne', Real.log_one] at this
    linarith

/-- **C46, agreement.** If all posterior samples give the same class probabilities the epistemic entropy is
zero. -/
theorem C46_agree {n c : ℕ} (hn : 0 < n) (hc : 0 < c) (o : Fin n → Fin c → ℝ)
    (h : ∀ s t i, classLogProb (o s) i = classLogProb (o t) i) : epistemicEntropy o = 0 := by
  have hn' : (0 : ℝ) < n := by exact_mod_cast hn
  have hd := C46_decomposition o
  obtain ⟨hent, hale⟩ := C46_meaning hn hc o
  set s0 : Fin n := ⟨0, hn⟩
  have hm : ∀ i, meanProb o i = Real.exp (classLogProb (o s0) i) := by
    intro i
    unfold meanProb
    have : ∀ s, Real.exp (classLogProb (o s) i) = Real.exp (classLogProb (o s0) i) := fun s => by
      rw [h s s0 i]
    simp only [this]
    simp
    field_simp
  have h2 : aleatoricEntropy o = entropy o := by
    rw [hent, hale]
    have h3 : ∀ s, (-∑ i, Real.exp (classLogProb (o s) i) *
        Real.log (Real.exp (classLogProb (o s) i))) =
        -∑ i, meanProb o i * Real.log (meanProb o i) := by
      intro s
      congr 1
      apply Finset.sum_congr rfl
      intro i _
      rw [hm i, h s s0 i]
    simp only [h3]
    simp
    field_simp
  linarith

/-- Two samples that disagree completely in their preference have positive epistemic entropy (non-vacuity of
the inequality): the mean probabilities are uniform. -/
example : entropy (fun s : Fin 2 => fun i : Fin 2 => if s = i then (1 : ℝ) else 0) = Real.log 2 := by
  have hm : ∀ i : Fin 2, meanProb (fun s : Fin 2 => fun i : Fin 2 => if s = i then (1 : ℝ) else 0) i = 1 / 2 := by
    obtain ⟨-, hsum, -⟩ := meanProb_spec (n := 2) (c := 2) (by norm_num) (by norm_num)
      (fun s : Fin 2 => fun i : Fin 2 => if s = i then (1 : ℝ) else 0)
    rw [Fin.sum_univ_two] at hsum
    have h01 : meanProb (fun s : Fin 2 => fun i : Fin 2 => if s = i then (1 : ℝ) else 0) 0 =
        meanProb (fun s : Fin 2 => fun i : Fin 2 => if s = i then (1 : ℝ) else 0) 1 := by
      unfold meanProb
      simp only [classLogProb_eq, logsumexp, Fin.sum_univ_two]
      simp [add_comm]
    intro i
    fin_cases i <;> simp only [Fin.zero_eta, Fin.mk_one] <;> linarith
  rw [(C46_meaning (by norm_num) (by norm_num) _).1]
  simp only [hm, Fin.sum_univ_two]
  rw [one_div, Real.log_inv]
  ring

/-! ## C48 quantiles and credible intervals -/

section quantiles
variable {K : Type} [Field K] [LinearOrder K] [IsStrictOrderedRing K] [FloorRing K]
open Verif.Quantile

/-- **C48, quantiles.** Monotone in the level, within the range of the samples. -/
theorem C48_quantile (l : List K) (q q' v v' lo hi : K) (hq : q ≤ q') (h : quantileOf l q = some v)
    (h' : quantileOf l q' = some v') (hlo : ∀ x ∈ l, lo ≤ x) (hhi : ∀ x ∈ l, x ≤ hi) :
    v ≤ v' ∧ lo ≤ v ∧ v ≤ hi :=
  ⟨quantile_mono_level hq h h', (quantile_mem_range h hlo hhi)⟩

theorem interval_two (l : List K) (e : K) (hne : l ≠ []) :
    ∃ a b, credibleInterval l e "two-tailed" = .ok [a, b] ∧ quantileOf l (1 / 2 * e) = some a ∧
      quantileOf l (1 - 1 / 2 * e) = some b := by
  obtain ⟨a, ha⟩ : ∃ a, quantileOf l (1 / 2 * e) = some a := ⟨_, quantile_of_ne hne _⟩
  obtain ⟨b, hb⟩ : ∃ b, quantileOf l (1 - 1 / 2 * e) = some b := ⟨_, quantile_of_ne hne _⟩
  refine ⟨a, b, ?_, ha, hb⟩
  unfold credibleInterval
  rw [if_neg (by decide)]
  simp only [if_pos, List.mapM_cons, List.mapM_nil, ha, hb, Option.bind_eq_bind, Option.bind_some,
    Option.pure_def]

/-- **C48, two-tailed intervals.** For an error in [0,1] the interval exists, its lower end is at most its
upper end, both are within the range of the samples, and a larger error gives a nested, narrower
interval. -/
theorem C48_interval (l : List K) (hne : l ≠ []) (e e' lo hi : K) (h1 : e' ≤ 1)
    (hee : e ≤ e') (hlo : ∀ x ∈ l, lo ≤ x) (hhi : ∀ x ∈ l, x ≤ hi) :
    ∃ a b a' b', credibleInterval l e "two-tailed" = .ok [a, b] ∧
      credibleInterval l e' "two-tailed" = .ok [a', b'] ∧
      lo ≤ a ∧ a ≤ a' ∧ a' ≤ b' ∧ b' ≤ b ∧ b ≤ hi := by
  obtain ⟨a, b, hi1, ha, hb⟩ := interval_two l e hne
  obtain ⟨a', b', hi2, ha', hb'⟩ := interval_two l e' hne
  refine ⟨a, b, a', b', hi1, hi2, (quantile_mem_range ha hlo hhi).1, ?_, ?_, ?_,
    (quantile_mem_range hb hlo hhi).2⟩
  · exact quantile_mono_level (by linarith) ha ha'
  · exact quantile_mono_level (by linarith) ha' hb'
  · exact quantile_mono_level (by linarith) hb' hb

/-- **C48, one-tailed.** The left-tailed bound is the `error` quantile, the right-tailed one the `1-error`
quantile; any other type raises. -/
theorem C48_one_tailed (l : List K) (hne : l ≠ []) (e : K) :
    (∃ a, quantileOf l e = some a ∧ credibleInterval l e "left-tailed" = .ok [a]) ∧
    (∃ b, quantileOf l (1 - e) = some b ∧ credibleInterval l e "right-tailed" = .ok [b]) ∧
    ∀ t, t ≠ "two-tailed" → t ≠ "left-tailed" → t ≠ "right-tailed" →
      credibleInterval l e t = .error "ValueError" := by
  obtain ⟨a, ha⟩ : ∃ a, quantileOf l e = some a := ⟨_, quantile_of_ne hne _⟩
  obtain ⟨b, hb⟩ : ∃ b, quantileOf l (1 - e) = some b := ⟨_, quantile_of_ne hne _⟩
  refine ⟨⟨a, ha, by simp [credibleInterval, ha]⟩, ⟨b, hb, by simp [credibleInterval, hb]⟩, ?_⟩
  intro t h1 h2 h3
  simp [credibleInterval, h1, h2, h3]

example : (credibleInterval [(1:ℚ), 2, 3, 4, 5] (1/2) "two-tailed").toOption = some [2, 4] ∧
    (credibleInterval [(1:ℚ), 2, 3, 4, 5] (1/4) "left-tailed").toOption = some [2] := by
  decide +kernel

end quantiles

/-! ### Concrete cases that meet the hypotheses of the theorems above -/

example := C45_parts (K := ℚ) (fun k n i => 10 * k + n + i) (fun k : ℕ => (k : ℚ)) (fun k => k + 1) 3 (by decide) 5
example := C45_total (K := ℚ) (Y := Fin 2) (fun k n i => 10 * k + n + i) ![0, 1] (fun _ : ℕ => ![1 / 4, 3 / 4]) 3 (by decide) 5
  (fun _ => by decide +kernel)
example := C45_passed_total (K := ℚ) (Y := Fin 2) (fun k n i => 10 * k + n + i) ![0, 1] (fun _ : ℕ => ![1 / 4, 3 / 4]) 3 (by decide) 5
  (fun _ => by decide +kernel)
example := C49_bounds (n := 2) (by decide) ![-1, -3] (-3) (-1) (by intro i; fin_cases i <;> norm_num) (by intro i; fin_cases i <;> norm_num)
example := C46_range (n := 2) (c := 3) (by decide) (by decide) ![![1, 2, 3], ![0, 0, 5]]
example := C48_quantile (K := ℚ) [3, 1, 2] (1 / 4) (3 / 4) (3 / 2) (5 / 2) 1 3 (by decide +kernel) (by decide +kernel) (by decide +kernel)
  (by decide +kernel) (by decide +kernel)
example := C48_interval (K := ℚ) [3, 1, 2] (by simp) (1 / 4) (1 / 2) 1 3 (by decide +kernel) (by decide +kernel) (by decide +kernel)
  (by decide +kernel)

end Verif.Props
