import Verif.Props.LangevinLaw
import Mathlib.Analysis.PSeries
import Mathlib.Analysis.SpecialFunctions.Pow.Asymptotics

/-!
Property C111: SGLD with step sizes that shrink, in particular with `polynomial_schedule`, when the posterior is Gaussian.
-/
set_option linter.unusedSectionVars false

namespace Verif.Props.LangevinSchedule

open Verif.SGMCMC Verif.Props.Langevin MeasureTheory ProbabilityTheory Finset Filter Topology

/-! ### Averaging with weights that sum to infinity -/

/-- If `u` moves towards `b` by a share `α` in every step, the shares sum to infinity and `b` tends to zero, so does `u`. -/
theorem averaging (u α b : ℕ → ℝ) (hu : ∀ t, u (t + 1) = (1 - α t) * u t + α t * b t) (h0 : ∀ᶠ t in atTop, 0 ≤ α t)
    (h1 : ∀ᶠ t in atTop, α t ≤ 1) (hsum : Tendsto (fun t => ∑ k ∈ range t, α k) atTop atTop) (hb : Tendsto b atTop (𝓝 0)) :
    Tendsto u atTop (𝓝 0) := by
  rw [Metric.tendsto_atTop]
  intro ε hε
  have hbe : ∀ᶠ t in atTop, |b t| ≤ ε / 2 := by
    have := (Metric.tendsto_nhds.1 hb) (ε / 2) (by linarith)
    filter_upwards [this] with t ht
    rw [Real.dist_eq, sub_zero] at ht
    exact ht.le
  obtain ⟨T, hT⟩ := eventually_atTop.1 ((h0.and h1).and hbe)
  have hw : ∀ n, |u (T + n)| - ε / 2 ≤ max (|u T| - ε / 2) 0 * Real.exp (-(∑ k ∈ range n, α (T + k))) := by
    intro n
    induction n with
    | zero => simp
    | succ n ih =>
      obtain ⟨⟨a0, a1⟩, ab⟩ := hT (T + n) (by omega)
      have hstep : |u (T + (n + 1))| - ε / 2 ≤ (1 - α (T + n)) * (|u (T + n)| - ε / 2) := by
        rw [← add_assoc, hu]
        have h2 := abs_add_le ((1 - α (T + n)) * u (T + n)) (α (T + n) * b (T + n))
        rw [abs_mul, abs_mul, abs_of_nonneg a0, abs_of_nonneg (by linarith : 0 ≤ 1 - α (T + n))] at h2
        nlinarith
      have hexp : 1 - α (T + n) ≤ Real.exp (-α (T + n)) := by
        have := Real.add_one_le_exp (-α (T + n))
        linarith
      rw [sum_range_succ, neg_add, Real.exp_add]
      have hM : 0 ≤ max (|u T| - ε / 2) 0 * Real.exp (-(∑ k ∈ range n, α (T + k))) :=
        mul_nonneg (le_max_right _ _) (Real.exp_pos _).le
      calc |u (T + (n + 1))| - ε / 2 ≤ (1 - α (T + n)) * (|u (T + n)| - ε / 2) := hstep
        _ ≤ (1 - α (T + n)) * (max (|u T| - ε / 2) 0 * Real.exp (-(∑ k ∈ range n, α (T + k)))) :=
            mul_le_mul_of_nonneg_left ih (by linarith)
        _ ≤ Real.exp (-α (T + n)) * (max (|u T| - ε / 2) 0 * Real.exp (-(∑ k ∈ range n, α (T + k)))) :=
            mul_le_mul_of_nonneg_right hexp hM
        _ = _ := by ring
  have hS : Tendsto (fun n => ∑ k ∈ range n, α (T + k)) atTop atTop := by
    have hshift : Tendsto (fun n => ∑ k ∈ range (T + n), α k) atTop atTop :=
      hsum.comp (tendsto_atTop_mono (fun n => Nat.le_add_left n T) tendsto_id)
    have := tendsto_atTop_add_const_left atTop (-∑ k ∈ range T, α k) hshift
    refine this.congr fun n => ?_
    rw [sum_range_add]
    ring
  have hlim : Tendsto (fun n => max (|u T| - ε / 2) 0 * Real.exp (-(∑ k ∈ range n, α (T + k)))) atTop (𝓝 0) := by
    have := (Real.tendsto_exp_neg_atTop_nhds_zero.comp hS).const_mul (max (|u T| - ε / 2) 0)
    rw [mul_zero] at this
    exact this
  obtain ⟨N, hN⟩ := eventually_atTop.1 ((tendsto_order.1 hlim).2 (ε / 2) (by linarith))
  refine ⟨T + N, fun t ht => ?_⟩
  have h2 := hw (t - T)
  rw [show T + (t - T) = t by omega] at h2
  have h3 := hN (t - T) (by omega)
  rw [Real.dist_eq, sub_zero]
  linarith

/-! ### The samples -/

variable {ι Ω : Type} [MeasurableSpace Ω]

/-- SGLD (no momentum, no preconditioning) with the step sizes `h`, on a Gaussian posterior with independent coordinates. -/
noncomputable def sgld (resample : Option ℕ) (h : ℕ → ℝ) (μ s : ι → ℝ) (normal : Key → ι → ℝ) (key : Key) (x₀ : ι → ℝ) (t : ℕ) : ι → ℝ :=
  (sghmcRun (identityPrecond ι) 0 resample h normal (gaussGrad μ s) key x₀ t).1

/-- The mean after `t` steps: the distance from the mean of the posterior shrinks by `1 - h / σ²` in every step. -/
noncomputable def schedMean (h : ℕ → ℝ) (s μ x₀ : ℝ) (t : ℕ) : ℝ := μ + (x₀ - μ) * ∏ k ∈ range t, (1 - h k / s)

/-- The variance after `t` steps. -/
noncomputable def schedVar (h : ℕ → ℝ) (s : ℝ) : ℕ → ℝ
  | 0 => 0
  | t + 1 => (1 - h t / s) ^ 2 * schedVar h s t + 2 * h t

/-- The share of the `k`-th draw in the sample after `t` steps. -/
noncomputable def coef (h : ℕ → ℝ) (s : ℝ) : ℕ → ℕ → ℝ
  | 0, _ => 0
  | t + 1, k => if k = t then Real.sqrt 2 * Real.sqrt (h t) else (1 - h t / s) * coef h s t k

theorem sgld_eq (resample : Option ℕ) (h : ℕ → ℝ) (hh : ∀ t, 0 ≤ h t) (μ s : ι → ℝ) (normal : Key → ι → ℝ) (key : Key) (x₀ : ι → ℝ)
    (i : ι) (t : ℕ) :
    let R := sghmcRun (identityPrecond ι) 0 resample h normal (gaussGrad μ s) key x₀ t
    R.2.count = t ∧ R.2.key = Key.right^[t] key ∧ R.1 i = schedMean h (s i) (μ i) (x₀ i) t +
      ∑ k ∈ range t, coef h (s i) t k * normal (.left (Key.right^[k] key)) i := by
  intro R
  induction t with
  | zero => simp [R, sghmcRun, sghmcInit, schedMean]
  | succ t ih =>
    obtain ⟨hc, hk, hp⟩ := ih
    set R' := sghmcRun (identityPrecond ι) 0 resample h normal (gaussGrad μ s) key x₀ t with hR'
    refine ⟨by simp only [R, sghmcRun, sghmcUpdate]; rw [← hR', hc], ?_, ?_⟩
    · simp only [R, sghmcRun, sghmcUpdate]
      rw [← hR', hk, Function.iterate_succ_apply']
    have hpos : R.1 i = R'.1 i + (-(R'.1 i - μ i) / s i * Real.sqrt (h t) + normal (.left R'.2.key) i * Real.sqrt 2) * Real.sqrt (h t) := by
      obtain ⟨m0, hm0⟩ : ∃ m0, R.1 i = R'.1 i + (0 * m0 + -(R'.1 i - μ i) / s i * Real.sqrt (h R'.2.count) +
          normal (.left R'.2.key) i * Real.sqrt (2 * (1 - 0))) * Real.sqrt (h R'.2.count) := ⟨_, rfl⟩
      rw [hm0, hc, zero_mul, zero_add, sub_zero, mul_one]
    rw [hpos, hk, sum_range_succ]
    have hrr : Real.sqrt (h t) * Real.sqrt (h t) = h t := Real.mul_self_sqrt (hh t)
    have e1 : ∑ k ∈ range t, coef h (s i) (t + 1) k * normal (.left (Key.right^[k] key)) i =
        (1 - h t / s i) * ∑ k ∈ range t, coef h (s i) t k * normal (.left (Key.right^[k] key)) i := by
      rw [mul_sum]
      refine sum_congr rfl fun k hk => ?_
      rw [mem_range] at hk
      simp only [coef, if_neg hk.ne]
      ring
    have e2 : coef h (s i) (t + 1) t = Real.sqrt 2 * Real.sqrt (h t) := by simp [coef]
    rw [e1, e2]
    have e3 : schedMean h (s i) (μ i) (x₀ i) (t + 1) = μ i + (1 - h t / s i) * (schedMean h (s i) (μ i) (x₀ i) t - μ i) := by
      unfold schedMean
      rw [prod_range_succ]
      ring
    rw [e3, hp]
    linear_combination (-(schedMean h (s i) (μ i) (x₀ i) t + ∑ k ∈ range t, coef h (s i) t k * normal (.left (Key.right^[k] key)) i - μ i) / s i) * hrr

theorem coef_sq (h : ℕ → ℝ) (hh : ∀ t, 0 ≤ h t) (s : ℝ) (t : ℕ) : ∑ k ∈ range t, coef h s t k ^ 2 = schedVar h s t := by
  induction t with
  | zero => simp [schedVar]
  | succ t ih =>
    rw [sum_range_succ, schedVar, ← ih, mul_sum]
    congr 1
    · refine sum_congr rfl fun k hk => ?_
      rw [mem_range] at hk
      simp only [coef, if_neg hk.ne]
      ring
    · simp only [coef, if_true]
      rw [mul_pow, Real.sq_sqrt (by norm_num), Real.sq_sqrt (hh t)]

/-- **C111, the law of a sample.** After any number of steps of any sizes a coordinate of the sample is normally distributed, with the mean
`schedMean` and the variance `schedVar`; resampling the momentum makes no difference. -/
theorem C111_law (P : Measure Ω) [IsProbabilityMeasure P] (normal : Ω → Key → ι → ℝ) (i : ι)
    (hm : ∀ k, Measurable fun ω => normal ω k i) (hi : iIndepFun (fun k ω => normal ω k i) P)
    (hl : ∀ k, P.map (fun ω => normal ω k i) = gaussianReal 0 1) (resample : Option ℕ) (h : ℕ → ℝ) (hh : ∀ t, 0 ≤ h t) (μ s : ι → ℝ)
    (key : Key) (x₀ : ι → ℝ) (t : ℕ) :
    P.map (fun ω => sgld resample h μ s (normal ω) key x₀ t i) =
      gaussianReal (schedMean h (s i) (μ i) (x₀ i) t) (Real.toNNReal (schedVar h (s i) t)) := by
  have hrun : ∀ ω, sgld resample h μ s (normal ω) key x₀ t i = schedMean h (s i) (μ i) (x₀ i) t +
      ∑ k ∈ range t, coef h (s i) t k * normal ω (.left (Key.right^[k] key)) i :=
    fun ω => (sgld_eq resample h hh μ s (normal ω) key x₀ i t).2.2
  have hsum := sum_gaussian P (fun k ω => normal ω (.left (Key.right^[k] key)) i) (fun k => hm _)
    (hi.precomp (keys_injective key)) (fun k => hl _) (coef h (s i) t) (range t)
  rw [coef_sq h hh] at hsum
  simp only [hrun]
  have hmeas : Measurable fun ω => ∑ k ∈ range t, coef h (s i) t k * normal ω (.left (Key.right^[k] key)) i := by
    apply Finset.measurable_sum
    intro k _
    exact (hm _).const_mul _
  have hcomp : (fun ω => schedMean h (s i) (μ i) (x₀ i) t + ∑ k ∈ range t, coef h (s i) t k * normal ω (.left (Key.right^[k] key)) i) =
      (fun y => schedMean h (s i) (μ i) (x₀ i) t + y) ∘
      fun ω => ∑ k ∈ range t, coef h (s i) t k * normal ω (.left (Key.right^[k] key)) i := rfl
  rw [hcomp, ← Measure.map_map (by fun_prop) hmeas, hsum, gaussianReal_map_const_add, zero_add]

/-- **C111, shrinking steps.** If the step sizes tend to zero but sum to infinity, the mean and the variance of the samples tend to those
of the posterior, from any start. -/
theorem C111_limit (h : ℕ → ℝ) (hh : ∀ t, 0 ≤ h t) (h0 : Tendsto h atTop (𝓝 0)) (hsum : Tendsto (fun t => ∑ k ∈ range t, h k) atTop atTop)
    (s μ x₀ : ℝ) (hs : 0 < s) :
    Tendsto (schedMean h s μ x₀) atTop (𝓝 μ) ∧ Tendsto (schedVar h s) atTop (𝓝 s) := by
  have hα : Tendsto (fun t => h t / s) atTop (𝓝 0) := by simpa using h0.div_const s
  have hle : ∀ᶠ t in atTop, h t / s ≤ 1 := by
    filter_upwards [(tendsto_order.1 hα).2 1 one_pos] with t ht using ht.le
  have hsum' : Tendsto (fun t => ∑ k ∈ range t, h k / s) atTop atTop := by
    simp only [← sum_div]
    exact hsum.atTop_div_const hs
  constructor
  · have := averaging (fun t => schedMean h s μ x₀ t - μ) (fun t => h t / s) (fun _ => 0) (fun t => by
      simp only [schedMean]; rw [prod_range_succ]; ring) (Eventually.of_forall fun t => div_nonneg (hh t) hs.le) hle hsum' tendsto_const_nhds
    have := this.add_const μ
    simpa using this
  · have hb : Tendsto (fun t => s * (h t / s) / (2 - h t / s)) atTop (𝓝 0) := by
      have := (hα.const_mul s).div (hα.const_sub 2) (by norm_num)
      rw [mul_zero, zero_div] at this
      exact this
    have hne : ∀ᶠ t in atTop, 2 - h t / s ≠ 0 := by
      filter_upwards [hle] with t ht
      linarith
    obtain ⟨T, hT⟩ := eventually_atTop.1 (hle.and hne)
    have hα' : Tendsto (fun t => h (T + t) / s) atTop (𝓝 0) :=
      hα.comp (tendsto_atTop_mono (fun n => Nat.le_add_left n T) tendsto_id)
    have hb' : Tendsto (fun t => s * (h (T + t) / s) / (2 - h (T + t) / s)) atTop (𝓝 0) :=
      hb.comp (tendsto_atTop_mono (fun n => Nat.le_add_left n T) tendsto_id)
    have hS : Tendsto (fun n => ∑ k ∈ range n, h (T + k) / s) atTop atTop := by
      have hshift : Tendsto (fun n => ∑ k ∈ range (T + n), h k / s) atTop atTop :=
        hsum'.comp (tendsto_atTop_mono (fun n => Nat.le_add_left n T) tendsto_id)
      have := tendsto_atTop_add_const_left atTop (-∑ k ∈ range T, h k / s) hshift
      refine this.congr fun n => ?_
      rw [sum_range_add]
      ring
    have key := averaging (fun t => schedVar h s (T + t) - s) (fun t => h (T + t) / s * (2 - h (T + t) / s))
      (fun t => s * (h (T + t) / s) / (2 - h (T + t) / s)) (fun t => by
        have h2 := (hT (T + t) (by omega)).2
        have h3 : h (T + t) / s * (2 - h (T + t) / s) * (s * (h (T + t) / s) / (2 - h (T + t) / s)) = h (T + t) / s * (s * (h (T + t) / s)) := by
          rw [mul_assoc, mul_div_cancel₀ _ h2]
        rw [h3, ← add_assoc, schedVar]
        have h4 : s * (h (T + t) / s) = h (T + t) := mul_div_cancel₀ _ hs.ne'
        linear_combination (-2) * h4)
      (Eventually.of_forall fun t => by
        have := (hT (T + t) (by omega)).1
        exact mul_nonneg (div_nonneg (hh _) hs.le) (by linarith))
      (Eventually.of_forall fun t => by nlinarith [sq_nonneg (1 - h (T + t) / s)])
      (tendsto_atTop_mono (fun n => sum_le_sum fun k _ => by
        have h1 := (hT (T + k) (by omega)).1
        have h2 : 0 ≤ h (T + k) / s := div_nonneg (hh _) hs.le
        nlinarith) hS) hb'
    have h5 := key.add_const s
    simp only [sub_add_cancel, zero_add] at h5
    rw [← tendsto_add_atTop_iff_nat T]
    refine h5.congr fun n => ?_
    rw [add_comm]

/-- **C111, convergence in distribution.** If the step sizes tend to zero but sum to infinity, the expectation of every bounded continuous
function of a coordinate of the sample tends to its expectation under the posterior, from any start. -/
theorem C111_converges (P : Measure Ω) [IsProbabilityMeasure P] (normal : Ω → Key → ι → ℝ) (i : ι)
    (hm : ∀ k, Measurable fun ω => normal ω k i) (hi : iIndepFun (fun k ω => normal ω k i) P)
    (hl : ∀ k, P.map (fun ω => normal ω k i) = gaussianReal 0 1) (resample : Option ℕ) (h : ℕ → ℝ) (hh : ∀ t, 0 ≤ h t)
    (h0 : Tendsto h atTop (𝓝 0)) (hsum : Tendsto (fun t => ∑ k ∈ range t, h k) atTop atTop) (μ s : ι → ℝ) (hs : 0 < s i)
    (key : Key) (x₀ : ι → ℝ) (f : BoundedContinuousFunction ℝ ℝ) :
    Tendsto (fun t => ∫ ω, f (sgld resample h μ s (normal ω) key x₀ t i) ∂P) atTop
      (𝓝 (∫ x, f x ∂gaussianReal (μ i) (Real.toNNReal (s i)))) := by
  let law : ℕ → ProbabilityMeasure ℝ := fun t =>
    ⟨gaussianReal (schedMean h (s i) (μ i) (x₀ i) t) (Real.toNNReal (schedVar h (s i) t)), inferInstance⟩
  let target : ProbabilityMeasure ℝ := ⟨gaussianReal (μ i) (Real.toNNReal (s i)), inferInstance⟩
  obtain ⟨h1, h2⟩ := C111_limit h hh h0 hsum (s i) (μ i) (x₀ i) hs
  have hlaw : Tendsto law atTop (𝓝 target) := by
    refine ProbabilityMeasure.tendsto_of_tendsto_charFun fun u => ?_
    simp only [law, target, ProbabilityMeasure.coe_mk, charFun_gaussianReal]
    refine (Complex.continuous_exp.tendsto _).comp ?_
    have e1 := (Complex.continuous_ofReal.tendsto _).comp h1
    have e2 := (Complex.continuous_ofReal.tendsto _).comp ((NNReal.continuous_coe.tendsto _).comp ((continuous_real_toNNReal.tendsto _).comp h2))
    exact ((e1.const_mul (u : ℂ)).mul_const Complex.I).sub ((e2.mul_const ((u : ℂ) ^ 2)).div_const 2)
  have hint := ProbabilityMeasure.tendsto_iff_forall_integral_tendsto.1 hlaw f
  refine hint.congr fun t => ?_
  have hmeas : AEMeasurable (fun ω => sgld resample h μ s (normal ω) key x₀ t i) P := by
    by_contra hcon
    have h3 := C111_law P normal i hm hi hl resample h hh μ s key x₀ t
    rw [Measure.map_of_not_aemeasurable hcon] at h3
    have := congrArg (fun M => M Set.univ) h3
    simp at this
  simp only [law, ProbabilityMeasure.coe_mk]
  rw [← C111_law P normal i hm hi hl resample h hh μ s key x₀ t, integral_map hmeas f.continuous.aestronglyMeasurable]

/-- The step sizes of `polynomial_schedule` tend to zero and sum to infinity. -/
theorem polynomial_steps (a b γ : ℝ) (ha : 0 < a) (hb : 0 < b) (h : ℕ → ℝ) (hsch : polynomialSchedule a b γ = some h) :
    (∀ t, 0 < h t) ∧ Tendsto h atTop (𝓝 0) ∧ Tendsto (fun t => ∑ k ∈ range t, h k) atTop atTop := by
  unfold polynomialSchedule at hsch
  by_cases hγ : 0.5 < γ ∧ γ ≤ 1
  · rw [if_neg (not_not.2 hγ)] at hsch
    obtain ⟨g1, g2⟩ := hγ
    have g0 : 0 < γ := by norm_num at g1; linarith
    have hh : h = fun step : ℕ => a * (b + (step : ℝ)) ^ (-γ) := (Option.some.inj hsch).symm
    have hpos : ∀ t, 0 < h t := by
      intro t
      rw [hh]
      have : 0 < b + (t : ℝ) := by positivity
      positivity
    refine ⟨hpos, ?_, ?_⟩
    · rw [hh]
      have h1 : Tendsto (fun t : ℕ => b + (t : ℝ)) atTop atTop := tendsto_atTop_add_const_left _ _ tendsto_natCast_atTop_atTop
      have := ((tendsto_rpow_neg_atTop g0).comp h1).const_mul a
      rw [mul_zero] at this
      exact this
    · have hns : ¬ Summable h := by
        intro hcon
        have h1 := (summable_nat_add_iff 1).2 hcon
        have h2 : Summable fun n : ℕ => a * (b + 1) ^ (-γ) * (1 / ((n + 1 : ℕ) : ℝ)) := by
          refine Summable.of_nonneg_of_le (fun n => by positivity) (fun n => ?_) h1
          rw [hh]
          dsimp only
          rw [mul_assoc]
          refine mul_le_mul_of_nonneg_left ?_ ha.le
          have hn1 : (1 : ℝ) ≤ ((n + 1 : ℕ) : ℝ) := by push_cast; linarith [(Nat.cast_nonneg n : (0 : ℝ) ≤ n)]
          have e1 : 1 / ((n + 1 : ℕ) : ℝ) ≤ ((n + 1 : ℕ) : ℝ) ^ (-γ) := by
            rw [one_div, ← Real.rpow_neg_one]
            exact Real.rpow_le_rpow_of_exponent_le hn1 (by linarith)
          calc (b + 1) ^ (-γ) * (1 / ((n + 1 : ℕ) : ℝ)) ≤ (b + 1) ^ (-γ) * ((n + 1 : ℕ) : ℝ) ^ (-γ) :=
                mul_le_mul_of_nonneg_left e1 (by positivity)
            _ = ((b + 1) * ((n + 1 : ℕ) : ℝ)) ^ (-γ) := (Real.mul_rpow (by positivity) (by positivity)).symm
            _ ≤ (b + ((n + 1 : ℕ) : ℝ)) ^ (-γ) :=
                Real.rpow_le_rpow_of_nonpos (by positivity) (by nlinarith) (by linarith)
        have h3 : Summable fun n : ℕ => 1 / ((n + 1 : ℕ) : ℝ) :=
          (summable_mul_left_iff (by positivity)).1 h2
        exact Real.not_summable_one_div_natCast ((summable_nat_add_iff 1).1 h3)
      exact (not_summable_iff_tendsto_nat_atTop_of_nonneg fun t => (hpos t).le).1 hns
  · rw [if_pos hγ] at hsch
    exact absurd hsch (by simp)

/-- **C111, `polynomial_schedule`.** With the step sizes of `polynomial_schedule`, whatever the decay rate it accepts, the distribution of
every coordinate of the SGLD samples converges to that of the posterior, from any start. -/
theorem C111_polynomial (P : Measure Ω) [IsProbabilityMeasure P] (normal : Ω → Key → ι → ℝ) (i : ι)
    (hm : ∀ k, Measurable fun ω => normal ω k i) (hi : iIndepFun (fun k ω => normal ω k i) P)
    (hl : ∀ k, P.map (fun ω => normal ω k i) = gaussianReal 0 1) (resample : Option ℕ) (a b γ : ℝ) (ha : 0 < a) (hb : 0 < b) (h : ℕ → ℝ)
    (hsch : polynomialSchedule a b γ = some h) (μ s : ι → ℝ) (hs : 0 < s i)
    (key : Key) (x₀ : ι → ℝ) (f : BoundedContinuousFunction ℝ ℝ) :
    Tendsto (fun t => ∫ ω, f (sgld resample h μ s (normal ω) key x₀ t i) ∂P) atTop
      (𝓝 (∫ x, f x ∂gaussianReal (μ i) (Real.toNNReal (s i)))) := by
  obtain ⟨p1, p2, p3⟩ := polynomial_steps a b γ ha hb h hsch
  exact C111_converges P normal i hm hi hl resample h (fun t => (p1 t).le) p2 p3 μ s hs key x₀ f

/-- **C111, steps that shrink too fast.** If the step sizes sum to a finite value and stay below the variance of the posterior, the mean of
the samples stays away from that of the posterior, unless it started there: the start is never forgotten. -/
theorem C111_finite_false (h : ℕ → ℝ) (hh : ∀ t, 0 ≤ h t) (hsum : Summable h) (s μ x₀ : ℝ) (hs : 0 < s) (hlt : ∀ t, h t < s) (hx : x₀ ≠ μ) :
    ∃ c, 0 < c ∧ ∀ t, c ≤ |schedMean h s μ x₀ t - μ| := by
  have hfac : ∀ k, 0 < 1 - h k / s := fun k => by
    have : h k / s < 1 := (div_lt_one hs).2 (hlt k)
    linarith
  have ha : Summable fun k => h k / s := hsum.div_const s
  obtain ⟨T, hT⟩ := eventually_atTop.1 ((tendsto_order.1 ha.tendsto_atTop_zero).2 (1 / 2) (by norm_num))
  have hlow : ∀ n, Real.exp (-2 * ∑' k, h k / s) ≤ ∏ k ∈ range n, (1 - h (T + k) / s) := by
    intro n
    have h1 : ∀ k ∈ range n, Real.exp (-2 * (h (T + k) / s)) ≤ 1 - h (T + k) / s := by
      intro k _
      have hk := hT (T + k) (by omega)
      have hk0 : 0 ≤ h (T + k) / s := div_nonneg (hh _) hs.le
      set x := h (T + k) / s
      have h2 := Real.add_one_le_exp (2 * x)
      have h3 : Real.exp (-2 * x) * Real.exp (2 * x) = 1 := by rw [← Real.exp_add]; simp
      have h4 := Real.exp_pos (-2 * x)
      have h5 : Real.exp (-2 * x) * (2 * x + 1) ≤ 1 :=
        (mul_le_mul_of_nonneg_left h2 h4.le).trans_eq h3
      have h6 : 1 ≤ (1 - x) * (2 * x + 1) := by nlinarith
      by_contra hcon
      push Not at hcon
      nlinarith
    have h2 := prod_le_prod (fun k _ => (Real.exp_pos _).le) h1
    refine le_trans ?_ h2
    rw [← Real.exp_sum, Real.exp_le_exp, ← mul_sum]
    have h3 : ∑ k ∈ range n, h (T + k) / s ≤ ∑' k, h k / s := by
      have h4 := ha.sum_le_tsum (range (T + n)) fun k _ => div_nonneg (hh k) hs.le
      rw [sum_range_add] at h4
      have h5 : 0 ≤ ∑ k ∈ range T, h k / s := sum_nonneg fun k _ => div_nonneg (hh k) hs.le
      linarith
    linarith
  refine ⟨|x₀ - μ| * ((∏ k ∈ range T, (1 - h k / s)) * Real.exp (-2 * ∑' k, h k / s)),
    mul_pos (abs_pos.2 (sub_ne_zero.2 hx)) (mul_pos (prod_pos fun k _ => hfac k) (Real.exp_pos _)), fun t => ?_⟩
  unfold schedMean
  rw [add_sub_cancel_left, abs_mul, abs_of_pos (prod_pos fun k _ => hfac k)]
  refine mul_le_mul_of_nonneg_left ?_ (abs_nonneg _)
  have hanti : ∏ k ∈ range (T + t), (1 - h k / s) ≤ ∏ k ∈ range t, (1 - h k / s) := by
    rw [add_comm, prod_range_add]
    refine mul_le_of_le_one_right (prod_pos fun k _ => hfac k).le ?_
    exact prod_le_one (fun k _ => (hfac _).le) fun k _ => by
      have : 0 ≤ h (t + k) / s := div_nonneg (hh _) hs.le
      linarith
  refine le_trans ?_ hanti
  rw [prod_range_add]
  exact mul_le_mul_of_nonneg_left (hlow t) (prod_pos fun k _ => hfac k).le

/-- The default schedule is accepted, and its first step size is one. -/
example : ∃ h, polynomialSchedule 1 1 0.55 = some h ∧ h 0 = 1 := by
  refine ⟨_, by unfold polynomialSchedule; rw [if_neg (by norm_num)], ?_⟩
  simp

/-- Two steps of sizes one and one half on a standard normal posterior. -/
example : schedVar (fun t => 1 / ((t : ℝ) + 1)) 1 2 = 3 / 2 := by norm_num [schedVar]

/-- Halving step sizes sum to a finite value. -/
example : Summable fun t : ℕ => (1 / 2 : ℝ) * (1 / 2) ^ t := summable_geometric_two.mul_left _

/-! ### Concrete cases that meet the hypotheses of the theorems above -/

example := C111_law (ι := Unit) (Measure.infinitePi fun _ : Key => gaussianReal 0 1) (fun ω k _ => ω k) () (fun k => measurable_pi_apply k)
  (iIndepFun_infinitePi (P := fun _ : Key => gaussianReal 0 1) (X := fun _ x => x) fun _ => measurable_id)
  (fun k => Measure.infinitePi_map_eval _ k) (some 3) (fun t => 1 / ((t : ℝ) + 1)) (fun t => by positivity) (fun _ => 2) (fun _ => 3)
example := C111_limit (fun t => 1 / ((t : ℝ) + 1)) (fun t => by positivity) tendsto_one_div_add_atTop_nhds_zero_nat
  Real.tendsto_sum_range_one_div_nat_succ_atTop 3 2 10 (by norm_num)
example := C111_converges (ι := Unit) (Measure.infinitePi fun _ : Key => gaussianReal 0 1) (fun ω k _ => ω k) () (fun k => measurable_pi_apply k)
  (iIndepFun_infinitePi (P := fun _ : Key => gaussianReal 0 1) (X := fun _ x => x) fun _ => measurable_id)
  (fun k => Measure.infinitePi_map_eval _ k) (some 3) (fun t => 1 / ((t : ℝ) + 1)) (fun t => by positivity) tendsto_one_div_add_atTop_nhds_zero_nat
  Real.tendsto_sum_range_one_div_nat_succ_atTop (fun _ => 2) (fun _ => 3) (by norm_num)
example := C111_polynomial (ι := Unit) (Measure.infinitePi fun _ : Key => gaussianReal 0 1) (fun ω k _ => ω k) () (fun k => measurable_pi_apply k)
  (iIndepFun_infinitePi (P := fun _ : Key => gaussianReal 0 1) (X := fun _ x => x) fun _ => measurable_id)
  (fun k => Measure.infinitePi_map_eval _ k) (some 3) 1 1 0.55 one_pos one_pos _ (by unfold polynomialSchedule; rw [if_neg (by norm_num)])
  (fun _ => 2) (fun _ => 3) (by norm_num)

end Verif.Props.LangevinSchedule
