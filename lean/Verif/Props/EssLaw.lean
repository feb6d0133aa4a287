import Verif.Model.Fft
import Verif.Props.Diagnostic
import Verif.Props.BatchLaw
import Verif.Props.Reshuffle
import Mathlib.RingTheory.RootsOfUnity.Complex
import Mathlib.Probability.Moments.Covariance
import Mathlib.Analysis.Asymptotics.Lemmas

/-!
# C154: what the effective sample size stands for
-/
set_option linter.unusedSectionVars false

namespace Verif.Props.EssLaw

open Verif.Fft Verif.Diagnostic Verif.Props Verif.Props.BatchLaw Verif.SGMCMC MeasureTheory ProbabilityTheory Finset Filter Topology

/-! ## The Fourier transforms -/

theorem root_sum (N : ℕ) (hN : 0 < N) (d : ℤ) :
    ∑ k ∈ range N, Complex.exp (2 * Real.pi * Complex.I * (k * d) / N) = if (N : ℤ) ∣ d then (N : ℂ) else 0 := by
  have hz := Complex.isPrimitiveRoot_exp N hN.ne'
  set ζ := Complex.exp (2 * Real.pi * Complex.I / N) with hζ
  have h1 : ∀ k : ℕ, Complex.exp (2 * Real.pi * Complex.I * (k * d) / N) = (ζ ^ d) ^ k := fun k => by
    rw [hζ, ← Complex.exp_int_mul, ← Complex.exp_nat_mul]
    congr 1
    ring
  simp only [h1]
  split
  · next h =>
    rw [(hz.zpow_eq_one_iff_dvd d).2 h]
    simp
  · next h =>
    have hne : ζ ^ d ≠ 1 := fun h0 => h ((hz.zpow_eq_one_iff_dvd d).1 h0)
    have hp : (ζ ^ d) ^ N = 1 := by
      rw [← zpow_natCast, zpow_comm, zpow_natCast, hz.pow_eq_one, one_zpow]
    have := mul_neg_geom_sum (ζ ^ d) N
    rw [hp, sub_self] at this
    exact (mul_eq_zero.1 this).resolve_left (sub_ne_zero.2 hne.symm)

/-- **C154, transforms.** The inverse transform of the squared absolute value of the transform of a real vector is its circular autocorrelation. -/
theorem C154_power (N : ℕ) (hN : 0 < N) (x : ℕ → ℝ) (m : ℕ) :
    ifft N (fun k => fft N (fun j => x j) k * (starRingEnd ℂ) (fft N (fun j => x j) k)) m = ((∑ i ∈ range N, x ((i + m) % N) * x i : ℝ) : ℂ) := by
  have hN' : (N : ℂ) ≠ 0 := by exact_mod_cast hN.ne'
  have h1 : ∀ k : ℕ, fft N (fun j => x j) k * (starRingEnd ℂ) (fft N (fun j => x j) k) * Complex.exp (2 * Real.pi * Complex.I * (k * m) / N) =
      ∑ j ∈ range N, ∑ l ∈ range N, (x j * x l : ℂ) * Complex.exp (2 * Real.pi * Complex.I * (k * ((l + m - j : ℤ) : ℂ)) / N) := fun k => by
    unfold fft
    rw [map_sum, sum_mul_sum, sum_mul]
    refine sum_congr rfl fun j _ => ?_
    rw [sum_mul]
    refine sum_congr rfl fun l _ => ?_
    rw [map_mul, Complex.conj_ofReal, ← Complex.exp_conj]
    simp only [map_neg, map_div₀, map_mul, Complex.conj_I, Complex.conj_ofReal, map_ofNat, map_natCast]
    rw [show ∀ a b c d e : ℂ, a * b * (c * d) * e = a * c * (b * d * e) by intros; ring, ← Complex.exp_add, ← Complex.exp_add]
    congr 2
    push_cast
    ring
  unfold ifft
  simp only [h1]
  rw [sum_comm]
  rw [div_eq_iff hN']
  have h2 : ∀ j ∈ range N, ∑ k ∈ range N, ∑ l ∈ range N, (x j * x l : ℂ) * Complex.exp (2 * Real.pi * Complex.I * (k * ((l + m - j : ℤ) : ℂ)) / N) =
      ∑ l ∈ range N, (x j * x l : ℂ) * (if (N : ℤ) ∣ (l + m - j : ℤ) then (N : ℂ) else 0) := fun j _ => by
    rw [sum_comm]
    refine sum_congr rfl fun l _ => ?_
    rw [← mul_sum, root_sum N hN]
  rw [sum_congr rfl h2, sum_comm, Complex.ofReal_sum, sum_mul]
  refine sum_congr rfl fun l _ => ?_
  rw [sum_eq_single ((l + m) % N)]
  · rw [if_pos]
    · push_cast; rfl
    · have := Int.natCast_mod (l + m) N
      push_cast at this ⊢
      rw [this]
      exact Int.dvd_self_sub_emod
  · intro j hj hne
    rw [if_neg, mul_zero]
    intro hd
    apply hne
    rw [mem_range] at hj
    have : (j : ℤ) ≡ (l + m : ℤ) [ZMOD N] := (Int.modEq_iff_dvd).2 hd
    have := (Int.natCast_modEq_iff (a := j) (b := l + m) (n := N)).1 (by exact_mod_cast this)
    rw [← this, Nat.mod_eq_of_lt hj]
  · intro h
    exact absurd (mem_range.2 (Nat.mod_lt _ hN)) h

/-- **C154, autocovariances.** Padded by zeros, the transforms give the sums of products at every lag, divided by the number of products; the model of C81 has the same numbers. -/
theorem C154_autocov (n : ℕ) (x : ℕ → ℝ) (k : ℕ) (hk : k < n) :
    autoCovFft n x k = (∑ i ∈ range (n - k), (x i - (∑ j ∈ range n, x j) / n) * (x (i + k) - (∑ j ∈ range n, x j) / n)) / ((n : ℝ) - k) ∧ autoCovFft n x k = autoCov n x k := by
  have hp : 0 < padded n := by have := padded_ge n; omega
  have h1 : power (padded n) (pad n (center n x)) k = circular (padded n) (pad n (center n x)) k := by
    unfold power
    rw [C154_power _ hp, Complex.ofReal_re]
    rfl
  unfold autoCovFft autoCov
  rw [h1]
  refine ⟨?_, rfl⟩
  rw [circular_pad n _ k hk]
  rfl

/-- **C154, padding.** Although both axes are padded, the rows of the coordinates come out padded by zeros and no row is added. -/
theorem C154_pad (p w : ℕ) (x : List (List ℝ)) : padRows p w x = x.map (fun row => row ++ List.replicate p 0) := by
  unfold padRows
  simp

/-! ## The documented quantity -/

/-- The effective sample size as documented, for the autocorrelations `R`. -/
noncomputable def essOf (n : ℕ) (R : ℕ → ℝ) : ℝ := n / (1 + 2 * ∑ k ∈ Ico 1 n, ((n : ℝ) - k) / n * R k)

theorem sum_head (n : ℕ) (hn : 0 < n) (f : ℕ → ℝ) : ∑ k ∈ range n, f k = f 0 + ∑ k ∈ Ico 1 n, f k := by
  rw [range_eq_Ico, sum_eq_sum_Ico_succ_bot hn]

/-- **C154, the formula.** What is returned is the documented formula with the estimated autocorrelations, each replaced by zero from the first below the threshold on. -/
theorem C154_formula (n : ℕ) (x : ℕ → ℝ) (hx : ∃ i j, i < n ∧ j < n ∧ x i ≠ x j) (t : ℝ) (ht : t ≤ 1) :
    ess n x (some t) = essOf n (fun k => if ∀ j, j ≤ k → t ≤ autoCorr n x j then autoCorr n x k else 0) := by
  have hs := spread_pos n x hx
  obtain ⟨i, j, hi, -, -⟩ := hx
  have hn : 0 < n := by omega
  have hn' : (n : ℝ) ≠ 0 := by exact_mod_cast hn.ne'
  have h0 := corr_zero n x hn hs
  have hm : ∀ k, ((n : ℝ) - k) / n * autoCorr n x k * mask n x (some t) k = ((n : ℝ) - k) / n * (if ∀ j, j ≤ k → t ≤ autoCorr n x j then autoCorr n x k else 0) := fun k => by
    rcases mask_values n x t k with ⟨h1, h2⟩ | ⟨h1, j, hj, h2⟩
    · rw [h1, if_pos h2, mul_one]
    · rw [h1, if_neg fun h => absurd (h j hj) (not_le.2 h2), mul_zero, mul_zero]
  unfold ess essDenom essOf
  simp only [hm]
  rw [sum_head n hn, if_pos fun j hj => by rw [Nat.le_zero.1 hj, h0]; exact ht, h0]
  push_cast
  rw [sub_zero, div_self hn']
  congr 1
  ring

variable {Ω : Type} [MeasurableSpace Ω]

/-- **C154, meaning.** For a chain whose covariances depend on the lag only, the variance of the average of `n` samples is that of one sample divided by the documented effective sample size. -/
theorem C154_meaning (P : Measure Ω) [IsProbabilityMeasure P] (X : ℕ → Ω → ℝ) (hL : ∀ t, MemLp (X t) 2 P) (v : ℝ) (R : ℕ → ℝ) (hR : R 0 = 1)
    (hc : ∀ t k, cov[X t, X (t + k); P] = v * R k) (n : ℕ) (hn : 0 < n) :
    ProbabilityTheory.variance (fun ω => (∑ t ∈ range n, X t ω) / n) P = v / essOf n R := by
  have hn' : (n : ℝ) ≠ 0 := by exact_mod_cast hn.ne'
  have h1 : ∀ m, ProbabilityTheory.variance (fun ω => ∑ t ∈ range m, X t ω) P = v * (m + 2 * ∑ k ∈ Ico 1 m, ((m : ℝ) - k) * R k) := fun m => by
    rw [variance_fun_sum' fun t _ => hL t]
    induction m with
    | zero => simp
    | succ m ih =>
      simp only [sum_range_succ, sum_add_distrib]
      rw [ih]
      have e1 : ∀ i ∈ range m, cov[X i, X m; P] = v * R (m - i) := fun i hi => by
        rw [mem_range] at hi
        have := hc i (m - i)
        rwa [show i + (m - i) = m by omega] at this
      have e2 : ∑ i ∈ range m, cov[X i, X m; P] = v * ∑ k ∈ Ico 1 (m + 1), R k := by
        rw [sum_congr rfl e1, mul_sum, sum_Ico_eq_sum_range, ← sum_range_reflect]
        refine sum_congr rfl fun i hi => ?_
        rw [mem_range] at hi
        congr 2
        omega
      have e3 : ∑ i ∈ range m, cov[X m, X i; P] = v * ∑ k ∈ Ico 1 (m + 1), R k := by
        rw [← e2]
        exact sum_congr rfl fun i _ => covariance_comm _ _
      have e4 : cov[X m, X m; P] = v := by
        have := hc m 0
        rwa [hR, mul_one, add_zero] at this
      have e5 : ∑ k ∈ Ico 1 (m + 1), (((m + 1 : ℕ) : ℝ) - k) * R k = ∑ k ∈ Ico 1 m, ((m : ℝ) - k) * R k + ∑ k ∈ Ico 1 (m + 1), R k := by
        have : ∑ k ∈ Ico 1 m, ((m : ℝ) - k) * R k = ∑ k ∈ Ico 1 (m + 1), ((m : ℝ) - k) * R k := by
          rcases Nat.eq_zero_or_pos m with h | h
          · subst h; simp
          · rw [sum_Ico_succ_top (by omega), sub_self, zero_mul, add_zero]
        rw [this, ← sum_add_distrib]
        refine sum_congr rfl fun k _ => ?_
        push_cast
        ring
      rw [e2, e3, e4, e5]
      push_cast
      ring
  have h2 : (fun ω => (∑ t ∈ range n, X t ω) / n) = fun ω => (n : ℝ)⁻¹ * ∑ t ∈ range n, X t ω := by
    funext ω
    rw [div_eq_inv_mul]
  rw [h2, variance_const_mul, h1]
  unfold essOf
  have h3 : ∑ k ∈ Ico 1 n, ((n : ℝ) - k) / n * R k = (∑ k ∈ Ico 1 n, ((n : ℝ) - k) * R k) / n := by
    rw [sum_div]
    exact sum_congr rfl fun k _ => by ring
  rw [h3, div_div_eq_mul_div]
  field_simp

/-! ## Chains with a constant share -/

theorem geom_closed (n : ℕ) (hn : 0 < n) (a : ℝ) (ha : a ≠ 1) :
    1 + 2 * ∑ k ∈ Ico 1 n, ((n : ℝ) - k) / n * a ^ k = (1 + a) / (1 - a) - 2 * a * (1 - a ^ n) / (n * (1 - a) ^ 2) := by
  have hn' : (n : ℝ) ≠ 0 := by exact_mod_cast hn.ne'
  have ha' : 1 - a ≠ 0 := sub_ne_zero.2 ha.symm
  have h1 : ∀ m : ℕ, ∑ k ∈ Ico 1 m, ((m : ℝ) - k) * a ^ k = a * (m * (1 - a) - (1 - a ^ m)) / (1 - a) ^ 2 := fun m => by
    induction m with
    | zero => simp
    | succ m ih =>
      have e5 : ∑ k ∈ Ico 1 (m + 1), (((m + 1 : ℕ) : ℝ) - k) * a ^ k = ∑ k ∈ Ico 1 m, ((m : ℝ) - k) * a ^ k + ∑ k ∈ Ico 1 (m + 1), a ^ k := by
        have : ∑ k ∈ Ico 1 m, ((m : ℝ) - k) * a ^ k = ∑ k ∈ Ico 1 (m + 1), ((m : ℝ) - k) * a ^ k := by
          rcases Nat.eq_zero_or_pos m with h | h
          · subst h; simp
          · rw [sum_Ico_succ_top (by omega), sub_self, zero_mul, add_zero]
        rw [this, ← sum_add_distrib]
        refine sum_congr rfl fun k _ => ?_
        push_cast
        ring
      have e6 : ∑ k ∈ Ico 1 (m + 1), a ^ k = a * (1 - a ^ m) / (1 - a) := by
        rw [sum_Ico_eq_sum_range, Nat.add_sub_cancel, eq_div_iff ha', ← mul_neg_geom_sum]
        simp only [pow_add, pow_one, ← mul_sum]
        ring
      rw [e5, ih, e6]
      push_cast
      field_simp
      ring
  have h3 : ∑ k ∈ Ico 1 n, ((n : ℝ) - k) / n * a ^ k = (∑ k ∈ Ico 1 n, ((n : ℝ) - k) * a ^ k) / n := by
    rw [sum_div]
    exact sum_congr rfl fun k _ => by ring
  rw [h3, h1]
  field_simp
  ring

/-- **C154, long chains.** If the autocorrelation at lag `k` is `a ^ k`, the share of the samples that count tends to `(1 - a) / (1 + a)`. -/
theorem C154_share (a : ℝ) (ha : |a| < 1) : Tendsto (fun n : ℕ => essOf n (fun k => a ^ k) / n) atTop (𝓝 ((1 - a) / (1 + a))) := by
  have ⟨h1, h2⟩ := abs_lt.1 ha
  have hD : Tendsto (fun n : ℕ => (1 + a) / (1 - a) - 2 * a * (1 - a ^ n) / (n * (1 - a) ^ 2)) atTop (𝓝 ((1 + a) / (1 - a))) := by
    have e1 : Tendsto (fun n : ℕ => (2 * a * (1 - a ^ n) / (1 - a) ^ 2) * (1 / (n : ℝ))) atTop (𝓝 (2 * a * (1 - 0) / (1 - a) ^ 2 * 0)) :=
      ((((tendsto_pow_atTop_nhds_zero_of_abs_lt_one ha).const_sub 1).const_mul _).div_const _).mul tendsto_one_div_atTop_nhds_zero_nat
    rw [mul_zero] at e1
    have e2 := e1.const_sub ((1 + a) / (1 - a))
    rw [sub_zero] at e2
    refine e2.congr fun n => ?_
    congr 1
    rw [mul_one_div, div_div, mul_comm ((1 - a) ^ 2)]
  have hne : (1 + a) / (1 - a) ≠ 0 := (div_pos (by linarith) (by linarith)).ne'
  have := hD.inv₀ hne
  rw [inv_div] at this
  refine this.congr' ?_
  filter_upwards [eventually_gt_atTop 0] with n hn
  have hn' : (n : ℝ) ≠ 0 := by exact_mod_cast hn.ne'
  unfold essOf
  rw [geom_closed n hn a (by linarith)]
  generalize (1 + a) / (1 - a) - 2 * a * (1 - a ^ n) / (n * (1 - a) ^ 2) = D
  rw [div_div, mul_comm D, ← div_div, div_self hn', one_div]

/-- **C154, refuted: the function estimates the documented quantity.** If consecutive samples are negatively correlated, with autocorrelation `a ^ k` for some `-1 < a < 0`, the documented
effective sample size exceeds the number of samples, which the function with a threshold between 0 and 1 never returns. -/
theorem C154_antithetic_false (a : ℝ) (h1 : -1 < a) (h0 : a < 0) (n : ℕ) (hn : 2 ≤ n) (x : ℕ → ℝ) (hx : ∃ i j, i < n ∧ j < n ∧ x i ≠ x j) (t : ℝ) (ht0 : 0 ≤ t) (ht1 : t ≤ 1) :
    (n : ℝ) < essOf n (fun k => a ^ k) ∧ ess n x (some t) < essOf n (fun k => a ^ k) := by
  have hn0 : (0 : ℝ) < n := by exact_mod_cast (by omega : 0 < n)
  have ha : 0 < 1 - a := by linarith
  have habs : |a| < 1 := abs_lt.2 ⟨h1, by linarith⟩
  have hpow : a ^ n < 1 := (le_abs_self _).trans_lt (by rw [abs_pow]; exact pow_lt_one₀ (abs_nonneg _) habs (by omega))
  have hgs : ∑ k ∈ range n, a ^ k < n := by
    have : ∑ k ∈ range n, a ^ k < ∑ k ∈ range n, (1 : ℝ) := by
      refine sum_lt_sum (fun k _ => (le_abs_self _).trans (by rw [abs_pow]; exact pow_le_one₀ (abs_nonneg _) habs.le)) ⟨1, mem_range.2 (by omega), ?_⟩
      rw [pow_one]
      linarith
    simpa using this
  have hlt : 1 - a ^ n < n * (1 - a) := by
    rw [← mul_neg_geom_sum, mul_comm]
    exact mul_lt_mul_of_pos_right hgs ha
  have hD := geom_closed n (by omega) a (by linarith)
  have hpos : 0 < (1 + a) / (1 - a) - 2 * a * (1 - a ^ n) / (n * (1 - a) ^ 2) := by
    have e1 : 0 < (1 + a) / (1 - a) := div_pos (by linarith) ha
    have e2 : 0 ≤ -(2 * a * (1 - a ^ n) / (n * (1 - a) ^ 2)) := by
      rw [← neg_div]
      apply div_nonneg _ (by positivity)
      nlinarith
    linarith
  have hone : (1 + a) / (1 - a) - 2 * a * (1 - a ^ n) / (n * (1 - a) ^ 2) < 1 := by
    have e1 : (1 + a) / (1 - a) - 2 * a * (1 - a ^ n) / (n * (1 - a) ^ 2) = 1 + 2 * a * (n * (1 - a) - (1 - a ^ n)) / (n * (1 - a) ^ 2) := by
      field_simp
      ring
    rw [e1]
    have : 2 * a * (n * (1 - a) - (1 - a ^ n)) / (n * (1 - a) ^ 2) < 0 := by
      apply div_neg_of_neg_of_pos _ (by positivity)
      nlinarith
    linarith
  have key : (n : ℝ) < essOf n (fun k => a ^ k) := by
    unfold essOf
    rw [hD, lt_div_iff₀ hpos]
    nlinarith
  exact ⟨key, (C81_ess_bounds n x hx t ht0 ht1).2.1.trans_lt key⟩

/-! ## SGLD on a Gaussian posterior -/

/-- The noise of the sampler: standardised and independent. -/
structure Noise (P : Measure Ω) (Z : ℕ → Ω → ℝ) : Prop where
  L2 : ∀ t, MemLp (Z t) 2 P
  var : ∀ t, ProbabilityTheory.variance (Z t) P = 1
  indep : iIndepFun Z P

theorem chain_L2 (P : Measure Ω) [IsProbabilityMeasure P] (Z : ℕ → Ω → ℝ) (H : Noise P Z) (h s x₀ c : ℝ) (t : ℕ) : MemLp (chain h s x₀ (fun _ _ => c) Z t) 2 P := by
  induction t with
  | zero => simpa [chain] using memLp_const (μ := P) (p := 2) x₀
  | succ t ih =>
    have : chain h s x₀ (fun _ _ => c) Z (t + 1) = fun ω => (1 - h / s) * chain h s x₀ (fun _ _ => c) Z t ω + h / s * c + Real.sqrt (2 * h) * Z t ω := rfl
    rw [this]
    exact ((ih.const_mul _).add (memLp_const _)).add ((H.L2 t).const_mul _)

theorem cov_step (P : Measure Ω) [IsProbabilityMeasure P] (Z : ℕ → Ω → ℝ) (H : Noise P Z) (h s x₀ c : ℝ) (W : Ω → ℝ) (hW : MemLp W 2 P) (t : ℕ) :
    cov[chain h s x₀ (fun _ _ => c) Z (t + 1), W; P] = (1 - h / s) * cov[chain h s x₀ (fun _ _ => c) Z t, W; P] + Real.sqrt (2 * h) * cov[Z t, W; P] := by
  have hX := chain_L2 P Z H h s x₀ c t
  have e : chain h s x₀ (fun _ _ => c) Z (t + 1) = fun ω => ((1 - h / s) • chain h s x₀ (fun _ _ => c) Z t + Real.sqrt (2 * h) • Z t) ω + h / s * c := by
    funext ω
    simp only [chain, Pi.add_apply, Pi.smul_apply, smul_eq_mul]
    ring
  rw [e, covariance_add_const_left (((hX.const_smul _).add ((H.L2 t).const_smul _)).integrable one_le_two), covariance_add_left (hX.const_smul _) ((H.L2 t).const_smul _) hW,
    covariance_smul_left, covariance_smul_left]

theorem cov_future (P : Measure Ω) [IsProbabilityMeasure P] (Z : ℕ → Ω → ℝ) (H : Noise P Z) (h s x₀ c : ℝ) (t j : ℕ) (hj : t ≤ j) :
    cov[chain h s x₀ (fun _ _ => c) Z t, Z j; P] = 0 := by
  induction t with
  | zero =>
    have : chain h s x₀ (fun _ _ => c) Z 0 = fun _ => x₀ := rfl
    rw [this, covariance_const_left]
  | succ t ih =>
    rw [cov_step P Z H h s x₀ c _ (H.L2 j), ih (by omega), (H.indep.indepFun (by omega : t ≠ j)).covariance_eq_zero (H.L2 t) (H.L2 j)]
    ring

/-- **C154, autocorrelations of SGLD.** With step size `h` on a normal target of variance `s` the correlation at lag `k` is `(1 - h/s)^k`, at every time. -/
theorem C154_corr (P : Measure Ω) [IsProbabilityMeasure P] (Z : ℕ → Ω → ℝ) (H : Noise P Z) (h s x₀ c : ℝ) (t k : ℕ) :
    cov[chain h s x₀ (fun _ _ => c) Z t, chain h s x₀ (fun _ _ => c) Z (t + k); P] = (1 - h / s) ^ k * ProbabilityTheory.variance (chain h s x₀ (fun _ _ => c) Z t) P := by
  have hX := fun t => chain_L2 P Z H h s x₀ c t
  induction k with
  | zero => rw [pow_zero, one_mul, add_zero, covariance_self (hX t).aestronglyMeasurable.aemeasurable]
  | succ k ih =>
    rw [covariance_comm, ← add_assoc, cov_step P Z H h s x₀ c _ (hX t), covariance_comm, ih, covariance_comm, cov_future P Z H h s x₀ c t (t + k) (by omega)]
    ring

theorem chain_total (h s x₀ c : ℝ) (hs : h / s ≠ 0) (Z : ℕ → Ω → ℝ) (n : ℕ) (ω : Ω) :
    ∑ t ∈ range n, chain h s x₀ (fun _ _ => c) Z t ω = n * c + (x₀ - c) * ((1 - (1 - h / s) ^ n) / (h / s)) +
      ∑ k ∈ range n, Real.sqrt (2 * h) * ((1 - (1 - h / s) ^ (n - 1 - k)) / (h / s)) * Z k ω := by
  induction n with
  | zero => simp
  | succ n ih =>
    rw [sum_range_succ, ih, chain_sum, sum_range_succ, show n + 1 - 1 - n = 0 by omega, pow_zero, sub_self, zero_div, mul_zero, zero_mul, add_zero]
    have e1 : ∑ k ∈ range n, Real.sqrt (2 * h) * ((1 - (1 - h / s) ^ (n + 1 - 1 - k)) / (h / s)) * Z k ω =
        ∑ k ∈ range n, Real.sqrt (2 * h) * ((1 - (1 - h / s) ^ (n - 1 - k)) / (h / s)) * Z k ω + ∑ k ∈ range n, (1 - h / s) ^ (n - 1 - k) * (Real.sqrt (2 * h) * Z k ω) := by
      rw [← sum_add_distrib]
      refine sum_congr rfl fun k hk => ?_
      rw [mem_range] at hk
      rw [show n + 1 - 1 - k = n - 1 - k + 1 by omega, pow_succ]
      generalize h / s = r at hs ⊢
      field_simp
      ring
    have e2 : ∑ k ∈ range n, (1 - h / s) ^ (n - 1 - k) * (h / s * c + Real.sqrt (2 * h) * Z k ω) =
        (1 - (1 - h / s) ^ n) * c + ∑ k ∈ range n, (1 - h / s) ^ (n - 1 - k) * (Real.sqrt (2 * h) * Z k ω) := by
      simp only [mul_add, sum_add_distrib]
      congr 1
      rw [← sum_mul, sum_range_reflect (fun k => (1 - h / s) ^ k), ← mul_neg_geom_sum]
      ring
    rw [e1, e2]
    push_cast
    rw [pow_succ]
    generalize h / s = r at hs ⊢
    field_simp
    ring

/-- **C154, averages of SGLD.** The variance of the average of the first `n` samples, from any start, times `n` tends to `2 s² / h`: the long-run variance of one sample divided by the share
of the samples that count. -/
theorem C154_average (P : Measure Ω) [IsProbabilityMeasure P] (Z : ℕ → Ω → ℝ) (H : Noise P Z) (h s x₀ c : ℝ) (hs : 0 < s) (hh : 0 < h) (hstep : h < 2 * s) :
    Tendsto (fun n : ℕ => n * ProbabilityTheory.variance (fun ω => (∑ t ∈ range n, chain h s x₀ (fun _ _ => c) Z t ω) / n) P) atTop (𝓝 (2 * s ^ 2 / h)) ∧
    2 * s ^ 2 / h = s / (1 - h / (2 * s)) / ((1 - (1 - h / s)) / (1 + (1 - h / s))) := by
  have hr : h / s ≠ 0 := (div_pos hh hs).ne'
  have ha : |1 - h / s| < 1 := by
    have h1 : h / s < 2 := by rw [div_lt_iff₀ hs]; linarith
    have h2 : 0 < h / s := div_pos hh hs
    rw [abs_lt]
    constructor <;> linarith
  set a := 1 - h / s with hadef
  have hvar : ∀ n : ℕ, ProbabilityTheory.variance (fun ω => (∑ t ∈ range n, chain h s x₀ (fun _ _ => c) Z t ω) / n) P =
      2 * s ^ 2 / h * (∑ k ∈ range n, (1 - a ^ k) ^ 2) / n ^ 2 := fun n => by
    have e1 : (fun ω => (∑ t ∈ range n, chain h s x₀ (fun _ _ => c) Z t ω) / n) = fun ω => (n : ℝ)⁻¹ * ((n * c + (x₀ - c) * ((1 - a ^ n) / (h / s))) +
        (∑ k ∈ range n, fun ω => Real.sqrt (2 * h) * ((1 - a ^ (n - 1 - k)) / (h / s)) * Z k ω) ω) := by
      funext ω
      rw [chain_total h s x₀ c hr, div_eq_inv_mul, Finset.sum_apply]
    have hm : ∀ k ∈ range n, MemLp (fun ω => Real.sqrt (2 * h) * ((1 - a ^ (n - 1 - k)) / (h / s)) * Z k ω) 2 P := fun k _ => (H.L2 k).const_mul _
    rw [e1, variance_const_mul, variance_const_add (memLp_finsetSum' _ hm).aestronglyMeasurable, IndepFun.variance_sum hm]
    · simp only [variance_const_mul, H.var, mul_one]
      rw [← sum_range_reflect (fun k => (1 - a ^ k) ^ 2), mul_sum, mul_sum, sum_div]
      refine sum_congr rfl fun k _ => ?_
      rw [mul_pow, Real.sq_sqrt (by positivity)]
      rcases Nat.eq_zero_or_pos n with h0 | h0
      · subst h0; simp
      have hn' : (n : ℝ) ≠ 0 := by exact_mod_cast h0.ne'
      field_simp
    · intro i _ j _ hij
      exact (H.indep.indepFun hij).comp (φ := fun x => Real.sqrt (2 * h) * ((1 - a ^ (n - 1 - i)) / (h / s)) * x) (ψ := fun x => Real.sqrt (2 * h) * ((1 - a ^ (n - 1 - j)) / (h / s)) * x)
        (by fun_prop) (by fun_prop)
  constructor
  · have hlim : Tendsto (fun k : ℕ => (1 - a ^ k) ^ 2) atTop (𝓝 1) := by
      have := ((tendsto_pow_atTop_nhds_zero_of_abs_lt_one ha).const_sub 1).pow 2
      simpa using this
    have hces := hlim.cesaro.const_mul (2 * s ^ 2 / h)
    rw [mul_one] at hces
    refine hces.congr' ?_
    filter_upwards [eventually_gt_atTop 0] with n hn
    have hn' : (n : ℝ) ≠ 0 := by exact_mod_cast hn.ne'
    rw [hvar]
    field_simp
  · have h2s : 2 * s - h ≠ 0 := by intro h0; linarith
    have e4 : 1 - h / (2 * s) = (2 * s - h) / (2 * s) := by field_simp
    have e5 : (1 - a) / (1 + a) = h / (2 * s - h) := by
      rw [hadef, show 1 + (1 - h / s) = (2 * s - h) / s by field_simp; ring, show 1 - (1 - h / s) = h / s by ring]
      field_simp
    rw [e4, e5]
    field_simp

/-- **C154, the sampler.** The chain above is a coordinate of SGLD on all data. -/
theorem C154_sampler {ι : Type} [Fintype ι] (resample : Option ℕ) (h : ℝ) (hh : 0 ≤ h) (v w : ι → ℝ) (rows : List (ι → ℝ)) (hrows : rows ≠ []) (normal : Ω → Key → ι → ℝ) (key : Key)
    (x₀ : ι → ℝ) (i : ι) (hv : 0 < v i) (hw : 0 < w i) (t : ℕ) (ω : Ω) :
    sgldOn resample h rows.length v w (fun _ => rows) (normal ω) key x₀ t i =
      chain h (postVar rows.length (v i) (w i)) (x₀ i) (fun _ _ => centre rows.length (v i) (w i) (rows.map (· i))) (fun t ω => normal ω (.left (Key.right^[t] key)) i) t ω :=
  chain_eq resample h hh rows.length v w (fun _ _ => rows) (fun _ _ => hrows) normal key x₀ i hv hw t ω

/-! ### Concrete cases that meet the hypotheses of the theorems above -/

theorem ex_noise : ∃ (Ω : Type) (_ : MeasurableSpace Ω) (P : Measure Ω) (_ : IsProbabilityMeasure P) (Z : ℕ → Ω → ℝ), Noise P Z := by
  obtain ⟨Ω, _, P, hP, π, Z, H⟩ := Reshuffle.ex_reshuffled 1 1
  exact ⟨Ω, _, P, hP, Z, ⟨H.L2, H.var, H.noise⟩⟩

/-- The chain 1, 2, 4. -/
theorem ex_chain : ∃ i j, i < 3 ∧ j < 3 ∧ (fun i : ℕ => (2 : ℝ) ^ i) i ≠ (fun i : ℕ => (2 : ℝ) ^ i) j := ⟨0, 1, by decide, by decide, by norm_num⟩

/-- Four samples with the autocorrelations `(1/2)^k` count as 64/33 samples, those with `(-1/2)^k` as 64/7. -/
example : essOf 4 (fun k => (1 / 2) ^ k) = 64 / 33 ∧ essOf 4 (fun k => (-1 / 2) ^ k) = 64 / 7 := by
  unfold essOf
  rw [geom_closed 4 (by decide) _ (by norm_num), geom_closed 4 (by decide) _ (by norm_num)]
  norm_num

example := C154_power 4 (by decide) (fun i => i) 3
example := C154_autocov 3 (fun i => (2 : ℝ) ^ i) 1 (by decide)
example := C154_pad 2 2 [[1, 2], [3, 4]]
example := C154_formula 3 (fun i => (2 : ℝ) ^ i) ex_chain 0 (by norm_num)
example : ∃ (Ω : Type) (_ : MeasurableSpace Ω) (P : Measure Ω) (Z : ℕ → Ω → ℝ),
    ProbabilityTheory.variance (fun ω => (∑ t ∈ range 5, Z t ω) / (5 : ℕ)) P = 1 / essOf 5 (fun k => if k = 0 then 1 else 0) := by
  obtain ⟨Ω, _, P, _, Z, H⟩ := ex_noise
  refine ⟨Ω, _, P, Z, C154_meaning P Z H.L2 1 (fun k => if k = 0 then 1 else 0) (by simp) (fun t k => ?_) 5 (by decide)⟩
  rcases Nat.eq_zero_or_pos k with h | h
  · subst h
    rw [add_zero, covariance_self (H.L2 t).aestronglyMeasurable.aemeasurable, H.var]
    simp
  · rw [(H.indep.indepFun (by omega : t ≠ t + k)).covariance_eq_zero (H.L2 t) (H.L2 _), if_neg (by omega), mul_zero]
example := C154_share (1 / 2) (by norm_num [abs_lt])
example := C154_antithetic_false (-1 / 2) (by norm_num) (by norm_num) 3 (by decide) (fun i => (2 : ℝ) ^ i) ex_chain 0 (by norm_num) (by norm_num)
example : ∃ (Ω : Type) (_ : MeasurableSpace Ω) (P : Measure Ω) (Z : ℕ → Ω → ℝ),
    cov[chain (1 / 2) 1 3 (fun _ _ => 2) Z 4, chain (1 / 2) 1 3 (fun _ _ => 2) Z (4 + 2); P] = (1 - 1 / 2 / 1) ^ 2 * ProbabilityTheory.variance (chain (1 / 2) 1 3 (fun _ _ => 2) Z 4) P ∧
    Tendsto (fun n : ℕ => n * ProbabilityTheory.variance (fun ω => (∑ t ∈ range n, chain (1 / 2) 1 3 (fun _ _ => 2) Z t ω) / n) P) atTop (𝓝 (2 * 1 ^ 2 / (1 / 2))) := by
  obtain ⟨Ω, _, P, _, Z, H⟩ := ex_noise
  exact ⟨Ω, _, P, Z, C154_corr P Z H (1 / 2) 1 3 2 4 2, (C154_average P Z H (1 / 2) 1 3 2 (by norm_num) (by norm_num) (by norm_num)).1⟩
example := C154_sampler (Ω := Unit) (ι := Fin 2) (some 10) (1 / 10) (by norm_num) ![1, 2] ![3, 4] [![1, 2], ![0, 5]] (by simp) (fun _ _ _ => 0) (.seed 0) (fun _ => 0) 1 (by simp) (by simp) 3 ()

end Verif.Props.EssLaw
