import Verif.Props.LangevinLaw
import Mathlib.Algebra.Order.Ring.GeomSum
import Mathlib.Tactic.Positivity
import Mathlib.Tactic.FieldSimp
import Mathlib.Analysis.Asymptotics.Lemmas
import Mathlib.Analysis.Asymptotics.SpecificAsymptotics

/-!
Property C144: the distribution of the samples of SGHMC when the momentum is "resampled" every `K` steps (it is set to zero) and the posterior is Gaussian.
-/
set_option linter.unusedSectionVars false

namespace Verif.Props.Langevin

open Verif.SGMCMC MeasureTheory ProbabilityTheory Finset Filter Topology

variable {ι Ω : Type} [MeasurableSpace Ω]

/-- The sampler with a constant step size, no preconditioning and the momentum resampled every `K` steps. -/
noncomputable def resampled (K : ℕ) (d h : ℝ) (μ s : ι → ℝ) (normal : Key → ι → ℝ) (key : Key) (x₀ : ι → ℝ) (t : ℕ) : ι → ℝ :=
  (sghmcRun (identityPrecond ι) d (some K) (fun _ => h) normal (gaussGrad μ s) key x₀ t).1

theorem resampled_count (K : ℕ) (d h : ℝ) (μ s : ι → ℝ) (normal : Key → ι → ℝ) (key : Key) (x₀ : ι → ℝ) (t : ℕ) :
    let R := sghmcRun (identityPrecond ι) d (some K) (fun _ => h) normal (gaussGrad μ s) key x₀ t
    R.2.count = t ∧ R.2.key = Key.right^[t] key := by
  intro R
  induction t with
  | zero => exact ⟨rfl, rfl⟩
  | succ t ih =>
    refine ⟨?_, ?_⟩
    · simp only [R, sghmcRun, sghmcUpdate]
      rw [ih.1]
    · simp only [R, sghmcRun, sghmcUpdate]
      rw [ih.2, Function.iterate_succ_apply']

/-- From one reset to the next the sampler is one without resampling started at rest. -/
theorem block_eq (K : ℕ) (d h : ℝ) (μ s : ι → ℝ) (normal : Key → ι → ℝ) (key : Key) (x₀ : ι → ℝ) (n j : ℕ) (hj : j + 1 ≤ K) :
    let R := sghmcRun (identityPrecond ι) d (some K) (fun _ => h) normal (gaussGrad μ s) key x₀
    let Q := sghmcRun (identityPrecond ι) d none (fun _ => h) normal (gaussGrad μ s) (Key.right^[n * K] key) (R (n * K)).1
    (R (n * K + (j + 1))).1 = (Q (j + 1)).1 ∧ (R (n * K + (j + 1))).2.momentum = (Q (j + 1)).2.momentum ∧
      (R (n * K + (j + 1))).2.key = (Q (j + 1)).2.key := by
  intro R Q
  have hcnt := fun t => resampled_count K d h μ s normal key x₀ t
  induction j with
  | zero =>
    have hR : R (n * K + (0 + 1)) = (fun i => (R (n * K)).1 i + (sghmcUpdate (identityPrecond ι) d (some K) (fun _ => h) normal
        (gaussGrad μ s (R (n * K)).1) (R (n * K)).2).1 i, (sghmcUpdate (identityPrecond ι) d (some K) (fun _ => h) normal
        (gaussGrad μ s (R (n * K)).1) (R (n * K)).2).2) := rfl
    have hQ : Q (0 + 1) = (fun i => (R (n * K)).1 i + (sghmcUpdate (identityPrecond ι) d none (fun _ => h) normal
        (gaussGrad μ s (R (n * K)).1) (sghmcInit (identityPrecond ι) (Key.right^[n * K] key))).1 i, (sghmcUpdate (identityPrecond ι) d none (fun _ => h) normal
        (gaussGrad μ s (R (n * K)).1) (sghmcInit (identityPrecond ι) (Key.right^[n * K] key))).2) := rfl
    have h1 : (R (n * K)).2.count % K = 0 := by rw [(hcnt (n * K)).1]; exact Nat.mul_mod_left n K
    have h2 : (R (n * K)).2.key = Key.right^[n * K] key := (hcnt (n * K)).2
    rw [hR, hQ]
    simp only [sghmcUpdate, sghmcInit, h1, h2, if_true, identityPrecond]
    exact ⟨trivial, trivial, trivial⟩
  | succ j ih =>
    obtain ⟨e1, e2, e3⟩ := ih (by omega)
    have hR : R (n * K + (j + 1 + 1)) = (fun i => (R (n * K + (j + 1))).1 i + (sghmcUpdate (identityPrecond ι) d (some K) (fun _ => h) normal
        (gaussGrad μ s (R (n * K + (j + 1))).1) (R (n * K + (j + 1))).2).1 i, (sghmcUpdate (identityPrecond ι) d (some K) (fun _ => h) normal
        (gaussGrad μ s (R (n * K + (j + 1))).1) (R (n * K + (j + 1))).2).2) := rfl
    have hQ : Q (j + 1 + 1) = (fun i => (Q (j + 1)).1 i + (sghmcUpdate (identityPrecond ι) d none (fun _ => h) normal
        (gaussGrad μ s (Q (j + 1)).1) (Q (j + 1)).2).1 i, (sghmcUpdate (identityPrecond ι) d none (fun _ => h) normal
        (gaussGrad μ s (Q (j + 1)).1) (Q (j + 1)).2).2) := rfl
    have h1 : (R (n * K + (j + 1))).2.count % K ≠ 0 := by
      rw [(hcnt (n * K + (j + 1))).1, Nat.mul_add_mod_self_right, Nat.mod_eq_of_lt (by omega)]
      omega
    rw [hR, hQ]
    simp only [sghmcUpdate, h1, if_false, identityPrecond, e1, e2, e3]
    exact ⟨trivial, trivial, trivial⟩

theorem lin_smul (r s d c : ℝ) (z : ℝ × ℝ) (k : ℕ) : (lin r s d)^[k] (c * z.1, c * z.2) = (c * ((lin r s d)^[k] z).1, c * ((lin r s d)^[k] z).2) := by
  induction k with
  | zero => rfl
  | succ k ih =>
    rw [Function.iterate_succ_apply', ih, Function.iterate_succ_apply']
    simp only [lin]
    refine Prod.ext ?_ ?_ <;> simp only <;> ring

/-- What is left of the distance to the mean after `K` steps from rest, without noise. -/
noncomputable def shrink (K : ℕ) (d h s : ℝ) : ℝ := ((lin (Real.sqrt h) s d)^[K] (1, 0)).1

/-- The share of the draw `k` in the sample after `n` blocks of `K` steps. -/
noncomputable def share (K : ℕ) (d h s : ℝ) : ℕ → ℕ → ℝ
  | 0, _ => 0
  | n + 1, k => if n * K ≤ k then Real.sqrt (2 * (1 - d)) * ((lin (Real.sqrt h) s d)^[K - 1 - (k - n * K)] (Real.sqrt h, 1)).1
    else shrink K d h s * share K d h s n k

theorem resampled_eq (K : ℕ) (hK : 0 < K) (d h : ℝ) (μ s : ι → ℝ) (normal : Key → ι → ℝ) (key : Key) (x₀ : ι → ℝ) (i : ι) (n : ℕ) :
    resampled K d h μ s normal key x₀ (n * K) i = μ i + shrink K d h (s i) ^ n * (x₀ i - μ i) +
      ∑ k ∈ range (n * K), share K d h (s i) n k * normal (.left (Key.right^[k] key)) i := by
  induction n with
  | zero => simp [resampled, sghmcRun]
  | succ n ih =>
    obtain ⟨j, rfl⟩ : ∃ j, K = j + 1 := ⟨K - 1, by omega⟩
    set K := j + 1 with hKj
    have hb := (block_eq K d h μ s normal key x₀ n j (by omega)).1
    rw [← hKj] at hb
    have hr := (run_eq d h μ s normal (Key.right^[n * K] key) (resampled K d h μ s normal key x₀ (n * K)) i K).2.1
    have e1 : resampled K d h μ s normal key x₀ ((n + 1) * K) i =
        (sghmcRun (identityPrecond ι) d none (fun _ => h) normal (gaussGrad μ s) (Key.right^[n * K] key)
          (resampled K d h μ s normal key x₀ (n * K)) K).1 i := by
      rw [show (n + 1) * K = n * K + K by ring]
      exact congrFun hb i
    have e2 : ((lin (Real.sqrt h) (s i) d)^[K] (resampled K d h μ s normal key x₀ (n * K) i - μ i, 0)).1 =
        shrink K d h (s i) * (resampled K d h μ s normal key x₀ (n * K) i - μ i) := by
      have := lin_smul (Real.sqrt h) (s i) d (resampled K d h μ s normal key x₀ (n * K) i - μ i) (1, 0) K
      rw [mul_one, mul_zero] at this
      rw [this, mul_comm]
      rfl
    rw [e2] at hr
    have e3 : ∑ k ∈ range ((n + 1) * K), share K d h (s i) (n + 1) k * normal (.left (Key.right^[k] key)) i =
        shrink K d h (s i) * ∑ k ∈ range (n * K), share K d h (s i) n k * normal (.left (Key.right^[k] key)) i +
        ∑ k ∈ range K, Real.sqrt (2 * (1 - d)) * ((lin (Real.sqrt h) (s i) d)^[K - 1 - k] (Real.sqrt h, 1)).1 *
          normal (.left (Key.right^[k] (Key.right^[n * K] key))) i := by
      rw [show (n + 1) * K = n * K + K by ring, sum_range_add, mul_sum]
      congr 1
      · refine sum_congr rfl fun k hk => ?_
        rw [mem_range] at hk
        rw [share, if_neg (by omega)]
        ring
      · refine sum_congr rfl fun k _ => ?_
        rw [share, if_pos (by omega), ← Function.iterate_add_apply, show n * K + k - n * K = k by omega, add_comm (n * K) k]
    rw [e1, e3]
    have hr' := eq_add_of_sub_eq hr
    rw [hr', ih]
    ring

/-- The variance of the sample after `n` blocks. -/
noncomputable def resampledVar (K : ℕ) (d h s : ℝ) (n : ℕ) : ℝ := sampleVar d h s K * ∑ l ∈ range n, (shrink K d h s ^ 2) ^ l

theorem share_sq (K : ℕ) (d h s : ℝ) (hd : d ≤ 1) (n : ℕ) : ∑ k ∈ range (n * K), share K d h s n k ^ 2 = resampledVar K d h s n := by
  induction n with
  | zero => simp [resampledVar]
  | succ n ih =>
    rw [show (n + 1) * K = n * K + K by ring, sum_range_add]
    have e1 : ∑ k ∈ range (n * K), share K d h s (n + 1) k ^ 2 = shrink K d h s ^ 2 * resampledVar K d h s n := by
      rw [← ih, mul_sum]
      refine sum_congr rfl fun k hk => ?_
      rw [mem_range] at hk
      rw [share, if_neg (by omega)]
      ring
    have e2 : ∑ k ∈ range K, share K d h s (n + 1) (n * K + k) ^ 2 = sampleVar d h s K := by
      unfold sampleVar
      rw [mul_sum, ← Finset.sum_range_reflect]
      refine sum_congr rfl fun k hk => ?_
      rw [mem_range] at hk
      rw [share, if_pos (by omega), mul_pow, Real.sq_sqrt (by linarith)]
      have : K - 1 - (n * K + (K - 1 - k) - n * K) = k := by omega
      rw [this]
    rw [e1, e2]
    unfold resampledVar
    rw [sum_range_succ', pow_zero, mul_add, mul_one, mul_left_comm, mul_sum]
    congr 2
    refine sum_congr rfl fun l _ => ?_
    ring

/-- **C144, the law of a sample.** After `n` times `K` steps a coordinate of the sample is normally distributed. -/
theorem C144_law (P : Measure Ω) [IsProbabilityMeasure P] (normal : Ω → Key → ι → ℝ) (i : ι)
    (hm : ∀ k, Measurable fun ω => normal ω k i) (hi : iIndepFun (fun k ω => normal ω k i) P)
    (hl : ∀ k, P.map (fun ω => normal ω k i) = gaussianReal 0 1) (K : ℕ) (hK : 0 < K) (d h : ℝ) (hd1 : d ≤ 1) (μ s : ι → ℝ) (key : Key)
    (x₀ : ι → ℝ) (n : ℕ) :
    P.map (fun ω => resampled K d h μ s (normal ω) key x₀ (n * K) i) =
      gaussianReal (μ i + shrink K d h (s i) ^ n * (x₀ i - μ i)) (Real.toNNReal (resampledVar K d h (s i) n)) := by
  have hsum := sum_gaussian P (fun k ω => normal ω (.left (Key.right^[k] key)) i) (fun k => hm _)
    (hi.precomp (keys_injective key)) (fun k => hl _) (share K d h (s i) n) (range (n * K))
  rw [share_sq K d h (s i) hd1] at hsum
  simp only [resampled_eq K hK d h μ s _ key x₀ i n]
  have hmeas : Measurable fun ω => ∑ k ∈ range (n * K), share K d h (s i) n k * normal ω (.left (Key.right^[k] key)) i := by
    apply Finset.measurable_sum
    intro k _
    exact (hm _).const_mul _
  have hcomp : (fun ω => μ i + shrink K d h (s i) ^ n * (x₀ i - μ i) + ∑ k ∈ range (n * K), share K d h (s i) n k *
      normal ω (.left (Key.right^[k] key)) i) = (fun y => μ i + shrink K d h (s i) ^ n * (x₀ i - μ i) + y) ∘
      fun ω => ∑ k ∈ range (n * K), share K d h (s i) n k * normal ω (.left (Key.right^[k] key)) i := rfl
  rw [hcomp, ← Measure.map_map (by fun_prop) hmeas, hsum, gaussianReal_map_const_add, zero_add]

/-- The variance in the long run. -/
noncomputable def resampledLimit (K : ℕ) (d h s : ℝ) : ℝ := sampleVar d h s K / (1 - shrink K d h s ^ 2)

/-- **C144, convergence in distribution.** If the distance to the mean shrinks from one reset to the next, the samples converge in distribution
to a normal distribution of the posterior's mean. -/
theorem C144_converges (P : Measure Ω) [IsProbabilityMeasure P] (normal : Ω → Key → ι → ℝ) (i : ι)
    (hm : ∀ k, Measurable fun ω => normal ω k i) (hi : iIndepFun (fun k ω => normal ω k i) P)
    (hl : ∀ k, P.map (fun ω => normal ω k i) = gaussianReal 0 1) (K : ℕ) (hK : 0 < K) (d h : ℝ) (hd1 : d ≤ 1) (μ s : ι → ℝ)
    (hp : |shrink K d h (s i)| < 1) (key : Key) (x₀ : ι → ℝ) (f : BoundedContinuousFunction ℝ ℝ) :
    Tendsto (fun n => ∫ ω, f (resampled K d h μ s (normal ω) key x₀ (n * K) i) ∂P) atTop
      (𝓝 (∫ x, f x ∂gaussianReal (μ i) (Real.toNNReal (resampledLimit K d h (s i))))) := by
  let law : ℕ → ProbabilityMeasure ℝ := fun n =>
    ⟨gaussianReal (μ i + shrink K d h (s i) ^ n * (x₀ i - μ i)) (Real.toNNReal (resampledVar K d h (s i) n)), inferInstance⟩
  let target : ProbabilityMeasure ℝ := ⟨gaussianReal (μ i) (Real.toNNReal (resampledLimit K d h (s i))), inferInstance⟩
  have h1 : Tendsto (fun n => μ i + shrink K d h (s i) ^ n * (x₀ i - μ i)) atTop (𝓝 (μ i)) := by
    have := ((tendsto_pow_atTop_nhds_zero_of_abs_lt_one hp).mul_const (x₀ i - μ i)).const_add (μ i)
    simpa using this
  have h2 : Tendsto (fun n => resampledVar K d h (s i) n) atTop (𝓝 (resampledLimit K d h (s i))) := by
    have hq : |shrink K d h (s i) ^ 2| < 1 := by
      rw [abs_pow]
      exact pow_lt_one₀ (abs_nonneg _) hp (by norm_num)
    have := (hasSum_geometric_of_abs_lt_one hq).tendsto_sum_nat.const_mul (sampleVar d h (s i) K)
    exact this
  have hlaw : Tendsto law atTop (𝓝 target) := by
    refine ProbabilityMeasure.tendsto_of_tendsto_charFun fun u => ?_
    simp only [law, target, ProbabilityMeasure.coe_mk, charFun_gaussianReal]
    refine (Complex.continuous_exp.tendsto _).comp ?_
    have e1 := (Complex.continuous_ofReal.tendsto _).comp h1
    have e2 := (Complex.continuous_ofReal.tendsto _).comp ((NNReal.continuous_coe.tendsto _).comp ((continuous_real_toNNReal.tendsto _).comp h2))
    exact ((e1.const_mul (u : ℂ)).mul_const Complex.I).sub ((e2.mul_const ((u : ℂ) ^ 2)).div_const 2)
  have hint := ProbabilityMeasure.tendsto_iff_forall_integral_tendsto.1 hlaw f
  refine hint.congr fun n => ?_
  have hmeas : AEMeasurable (fun ω => resampled K d h μ s (normal ω) key x₀ (n * K) i) P := by
    by_contra hcon
    have h3 := C144_law P normal i hm hi hl K hK d h hd1 μ s key x₀ n
    rw [Measure.map_of_not_aemeasurable hcon] at h3
    have := congrArg (fun M => M Set.univ) h3
    simp at this
  simp only [law, ProbabilityMeasure.coe_mk]
  rw [← C144_law P normal i hm hi hl K hK d h hd1 μ s key x₀ n, integral_map hmeas f.continuous.aestronglyMeasurable]

/-! ### Small steps -/

/-- How a draw spreads: position (over the square root of the step size) and momentum. -/
noncomputable def spread (d h s : ℝ) : ℕ → ℝ × ℝ
  | 0 => (1, 1)
  | k + 1 => let u := d * (spread d h s k).2 - h / s * (spread d h s k).1; ((spread d h s k).1 + u, u)

/-- How the distance to the mean changes: change of position (over the step size) and momentum (over its square root). -/
noncomputable def change (d h s : ℝ) : ℕ → ℝ × ℝ
  | 0 => (0, 0)
  | k + 1 => let u := d * (change d h s k).2 - (1 + h * (change d h s k).1) / s; ((change d h s k).1 + u, u)

theorem spread_eq (d h s : ℝ) (hh : 0 ≤ h) (k : ℕ) : (lin (Real.sqrt h) s d)^[k] (Real.sqrt h, 1) = (Real.sqrt h * (spread d h s k).1, (spread d h s k).2) := by
  have hrr : Real.sqrt h * Real.sqrt h = h := Real.mul_self_sqrt hh
  induction k with
  | zero => simp [spread]
  | succ k ih =>
    rw [Function.iterate_succ_apply', ih]
    simp only [lin, spread]
    have e : Real.sqrt h / s * (Real.sqrt h * (spread d h s k).1) = h / s * (spread d h s k).1 := by
      rw [← mul_assoc, div_mul_eq_mul_div, hrr]
    rw [e]
    refine Prod.ext ?_ rfl
    simp only
    ring

theorem change_eq (d h s : ℝ) (hh : 0 ≤ h) (k : ℕ) : (lin (Real.sqrt h) s d)^[k] (1, 0) = (1 + h * (change d h s k).1, Real.sqrt h * (change d h s k).2) := by
  have hrr : Real.sqrt h * Real.sqrt h = h := Real.mul_self_sqrt hh
  induction k with
  | zero => simp [change]
  | succ k ih =>
    rw [Function.iterate_succ_apply', ih]
    simp only [lin, change]
    refine Prod.ext ?_ ?_
    · simp only
      linear_combination (d * (change d h s k).2 - (1 + h * (change d h s k).1) / s) * hrr
    · simp only
      ring

theorem spread_cont (d s : ℝ) (k : ℕ) : Continuous (fun h => (spread d h s k).1) ∧ Continuous fun h => (spread d h s k).2 := by
  induction k with
  | zero => exact ⟨continuous_const, continuous_const⟩
  | succ k ih =>
    obtain ⟨h1, h2⟩ := ih
    have hu : Continuous fun h => d * (spread d h s k).2 - h / s * (spread d h s k).1 := by fun_prop
    exact ⟨h1.add hu, hu⟩

theorem change_cont (d s : ℝ) (k : ℕ) : Continuous (fun h => (change d h s k).1) ∧ Continuous fun h => (change d h s k).2 := by
  induction k with
  | zero => exact ⟨continuous_const, continuous_const⟩
  | succ k ih =>
    obtain ⟨h1, h2⟩ := ih
    have hu : Continuous fun h => d * (change d h s k).2 - (1 + h * (change d h s k).1) / s := by fun_prop
    exact ⟨h1.add hu, hu⟩

/-- `1 + d + … + d ^ (k - 1)`. -/
noncomputable def geo (d : ℝ) (k : ℕ) : ℝ := ∑ i ∈ range k, d ^ i

theorem geo_succ (d : ℝ) (k : ℕ) : geo d (k + 1) = d * geo d k + 1 := by
  unfold geo
  rw [sum_range_succ', pow_zero, mul_sum]
  congr 1
  exact sum_congr rfl fun i _ => by ring

theorem spread_zero (d s : ℝ) (k : ℕ) : spread d 0 s k = (geo d (k + 1), d ^ k) := by
  induction k with
  | zero => simp [spread, geo]
  | succ k ih =>
    rw [spread, ih]
    have : geo d (k + 1 + 1) = geo d (k + 1) + d ^ (k + 1) := by simp [geo, sum_range_succ]
    rw [this]
    simp only [zero_div, zero_mul, sub_zero]
    refine Prod.ext ?_ ?_ <;> simp only <;> ring

theorem change_zero (d s : ℝ) (k : ℕ) : change d 0 s k = (-(∑ j ∈ range k, geo d (j + 1)) / s, -geo d k / s) := by
  induction k with
  | zero => simp [change, geo]
  | succ k ih =>
    rw [change, ih, sum_range_succ, geo_succ]
    simp only [zero_mul, add_zero]
    refine Prod.ext ?_ ?_ <;> simp only <;> ring

theorem geo_pos (d : ℝ) (hd : 0 ≤ d) (k : ℕ) : 1 ≤ geo d (k + 1) := by
  induction k with
  | zero => simp [geo]
  | succ k ih =>
    rw [geo_succ]
    nlinarith

/-- By how much the variance of the samples differs from the posterior's for small steps. -/
noncomputable def factor (K : ℕ) (d : ℝ) : ℝ := (1 - d) * (∑ j ∈ range K, geo d (j + 1) ^ 2) / ∑ j ∈ range K, geo d (j + 1)

theorem sum_geo_pos (K : ℕ) (hK : 0 < K) (d : ℝ) (hd : 0 ≤ d) : 0 < ∑ j ∈ range K, geo d (j + 1) :=
  sum_pos (fun j _ => lt_of_lt_of_le one_pos (geo_pos d hd j)) ⟨0, mem_range.2 hK⟩

theorem shrink_eq (K : ℕ) (d h s : ℝ) (hh : 0 ≤ h) : shrink K d h s = 1 + h * (change d h s K).1 := by
  unfold shrink
  rw [change_eq d h s hh]

theorem sampleVar_eq (K : ℕ) (d h s : ℝ) (hh : 0 ≤ h) : sampleVar d h s K = h * (2 * (1 - d) * ∑ k ∈ range K, (spread d h s k).1 ^ 2) := by
  unfold sampleVar
  rw [mul_left_comm, mul_sum (range K) _ h]
  congr 1
  refine sum_congr rfl fun k _ => ?_
  rw [spread_eq d h s hh, mul_pow, Real.sq_sqrt hh]

/-- **C144, small steps converge.** For all small enough step sizes the distance to the mean shrinks from one reset to the next. -/
theorem C144_stable (K : ℕ) (hK : 0 < K) (d s : ℝ) (hd0 : 0 ≤ d) (hs : 0 < s) : ∀ᶠ h in 𝓝[>] (0 : ℝ), |shrink K d h s| < 1 := by
  have hc := (change_cont d s K).1
  have h0 : (change d 0 s K).1 < 0 := by
    rw [change_zero]
    exact div_neg_of_neg_of_pos (neg_neg_of_pos (sum_geo_pos K hK d hd0)) hs
  have e1 : ∀ᶠ h in 𝓝 (0 : ℝ), (change d h s K).1 < 0 := hc.tendsto 0 |>.eventually (gt_mem_nhds h0) |>.mono fun _ h => h
  have hc2 : Continuous fun h => 1 + h * (change d h s K).1 := by fun_prop
  have e2 : ∀ᶠ h in 𝓝 (0 : ℝ), -1 < 1 + h * (change d h s K).1 := by
    have := hc2.tendsto 0
    rw [zero_mul, add_zero] at this
    exact this.eventually (lt_mem_nhds (by norm_num))
  filter_upwards [e1.filter_mono nhdsWithin_le_nhds, e2.filter_mono nhdsWithin_le_nhds, self_mem_nhdsWithin] with h h1 h2 h3
  have h3' : 0 < h := h3
  rw [shrink_eq K d h s h3'.le, abs_lt]
  exact ⟨h2, by nlinarith⟩

/-- **C144, smaller steps.** As the step size tends to zero the variance in the long run tends to `factor K d` times that of the posterior. -/
theorem C144_small_steps (K : ℕ) (hK : 0 < K) (d s : ℝ) (hd0 : 0 ≤ d) (hs : 0 < s) :
    Tendsto (fun h => resampledLimit K d h s) (𝓝[>] 0) (𝓝 (factor K d * s)) := by
  have hS := sum_geo_pos K hK d hd0
  have hc := (change_cont d s K).1
  have hv : Continuous fun h => 2 * (1 - d) * ∑ k ∈ range K, (spread d h s k).1 ^ 2 := by
    refine Continuous.mul continuous_const (continuous_finsetSum _ fun k _ => ?_)
    exact (spread_cont d s k).1.pow 2
  have hden : Continuous fun h => -(change d h s K).1 * (2 + h * (change d h s K).1) := by fun_prop
  have hd0' : -(change d 0 s K).1 * (2 + 0 * (change d 0 s K).1) ≠ 0 := by
    rw [change_zero]
    simp only [zero_mul, add_zero]
    have : 0 < (∑ j ∈ range K, geo d (j + 1)) / s := by positivity
    rw [neg_div, neg_neg]
    positivity
  have ht : Tendsto (fun h => (2 * (1 - d) * ∑ k ∈ range K, (spread d h s k).1 ^ 2) / (-(change d h s K).1 * (2 + h * (change d h s K).1))) (𝓝[>] 0)
      (𝓝 ((2 * (1 - d) * ∑ k ∈ range K, (spread d 0 s k).1 ^ 2) / (-(change d 0 s K).1 * (2 + 0 * (change d 0 s K).1)))) :=
    ((hv.tendsto 0).div (hden.tendsto 0) hd0').mono_left nhdsWithin_le_nhds
  have e : (2 * (1 - d) * ∑ k ∈ range K, (spread d 0 s k).1 ^ 2) / (-(change d 0 s K).1 * (2 + 0 * (change d 0 s K).1)) = factor K d * s := by
    simp only [spread_zero, change_zero, zero_mul, add_zero, factor]
    field_simp
  rw [e] at ht
  refine ht.congr' ?_
  filter_upwards [self_mem_nhdsWithin] with h h3
  have h3' : (0 : ℝ) < h := h3
  unfold resampledLimit
  rw [sampleVar_eq K d h s h3'.le, shrink_eq K d h s h3'.le]
  rw [show 1 - (1 + h * (change d h s K).1) ^ 2 = h * (-(change d h s K).1 * (2 + h * (change d h s K).1)) by ring, mul_div_mul_left _ _ h3'.ne']

/-- **C144, resampling the momentum samples the posterior, is false**: with a momentum decay `d > 0` the samples are narrower than the posterior in the long
run, however small the steps; with resampling at every step their variance is only `1 - d` times as large. -/
theorem C144_posterior_false (K : ℕ) (hK : 0 < K) (d s : ℝ) (hd0 : 0 < d) (hd1 : d < 1) (hs : 0 < s) :
    factor K d < 1 ∧ 0 < factor K d ∧ factor 1 d = 1 - d ∧ ∀ᶠ h in 𝓝[>] (0 : ℝ), resampledLimit K d h s < s := by
  have hS := sum_geo_pos K hK d hd0.le
  have hgeo : ∀ k, (1 - d) * geo d k = 1 - d ^ k := by
    intro k
    induction k with
    | zero => simp [geo]
    | succ k ih => rw [geo_succ]; linear_combination d * ih
  have h1 : factor K d < 1 := by
    unfold factor
    rw [div_lt_one hS, mul_sum]
    refine sum_lt_sum_of_nonempty ⟨0, mem_range.2 hK⟩ fun j _ => ?_
    have hg := geo_pos d hd0.le j
    have hp : 0 < d ^ (j + 1) := by positivity
    have : (1 - d) * geo d (j + 1) ^ 2 = (1 - d ^ (j + 1)) * geo d (j + 1) := by rw [← hgeo]; ring
    rw [this]
    nlinarith
  have h2 : 0 < factor K d := by
    unfold factor
    have : 0 < ∑ j ∈ range K, geo d (j + 1) ^ 2 :=
      sum_pos (fun j _ => pow_pos (lt_of_lt_of_le one_pos (geo_pos d hd0.le j)) 2) ⟨0, mem_range.2 hK⟩
    have h1d : 0 < 1 - d := by linarith
    positivity
  refine ⟨h1, h2, by simp [factor, geo], ?_⟩
  exact (C144_small_steps K hK d s hd0.le hs).eventually (gt_mem_nhds (by nlinarith))

/-- **C144, resampling at every step.** The variance in the long run is that of SGLD times `1 - d`, for every step size. -/
theorem C144_every_step (d h s : ℝ) (hh : 0 ≤ h) : shrink 1 d h s = 1 - h / s ∧ resampledLimit 1 d h s = (1 - d) * resampledLimit 1 0 h s := by
  have e : shrink 1 d h s = 1 - h / s := by
    rw [shrink_eq 1 d h s hh]
    simp [change]
    ring
  have e0 : shrink 1 0 h s = 1 - h / s := by
    rw [shrink_eq 1 0 h s hh]
    simp [change]
    ring
  refine ⟨e, ?_⟩
  unfold resampledLimit
  rw [e, e0, sampleVar_eq 1 d h s hh, sampleVar_eq 1 0 h s hh]
  simp [spread]
  ring

/-- **C144, rare resampling.** The factor tends to 1 as the number of steps between resets grows. -/
theorem C144_rare (d : ℝ) (hd0 : 0 ≤ d) (hd1 : d < 1) : Tendsto (fun K => factor K d) atTop (𝓝 1) := by
  have h1d : 1 - d ≠ 0 := by linarith
  have hg : Tendsto (fun j => geo d (j + 1)) atTop (𝓝 (1 - d)⁻¹) := by
    have := (hasSum_geometric_of_lt_one hd0 hd1).tendsto_sum_nat
    exact (tendsto_add_atTop_iff_nat 1).2 this
  have e1 := hg.cesaro
  have e2 := (hg.pow 2).cesaro
  have h := ((e2.const_mul (1 - d)).div e1 (inv_ne_zero h1d))
  rw [show (1 - d) * (1 - d)⁻¹ ^ 2 / (1 - d)⁻¹ = 1 by field_simp] at h
  refine h.congr' ?_
  filter_upwards [eventually_gt_atTop 0] with K hK
  have hK' : (K : ℝ) ≠ 0 := by exact_mod_cast hK.ne'
  unfold factor
  simp only [Pi.div_apply]
  have hS := (sum_geo_pos K hK d hd0).ne'
  field_simp

/-- With decay 9/10 and resampling at every second step the variance is about 16 % of the posterior's. -/
example : factor 2 (9 / 10) = 461 / 2900 := by
  norm_num [factor, geo, sum_range_succ]

/-! ### Concrete cases that meet the hypotheses of the theorems above -/

example := C144_law (ι := Fin 2) (Measure.infinitePi fun _ : Key => gaussianReal 0 1) (fun ω k _ => ω k) 1
  (fun k => measurable_pi_apply k) (iIndepFun_infinitePi (X := fun _ x => x) fun _ => measurable_id)
  (fun k => Measure.infinitePi_map_eval _ k) 3 (by decide) (9 / 10) (1 / 10) (by norm_num) ![1, 2] ![1, 3]
example := C144_stable 3 (by decide) (9 / 10) 2 (by norm_num) (by norm_num)
example := C144_small_steps 3 (by decide) (9 / 10) 2 (by norm_num) (by norm_num)
example := C144_posterior_false 3 (by decide) (9 / 10) 2 (by norm_num) (by norm_num) (by norm_num)
example := C144_every_step (9 / 10) (1 / 10) 2 (by norm_num)
example := C144_converges (ι := Fin 2) (Measure.infinitePi fun _ : Key => gaussianReal 0 1) (fun ω k _ => ω k) 1
  (fun k => measurable_pi_apply k) (iIndepFun_infinitePi (X := fun _ x => x) fun _ => measurable_id)
  (fun k => Measure.infinitePi_map_eval _ k) 1 (by decide) (9 / 10) (1 / 10) (by norm_num) ![1, 2] ![1, 3]
  (by rw [(C144_every_step _ _ _ (by norm_num)).1, abs_lt]; norm_num)

end Verif.Props.Langevin
