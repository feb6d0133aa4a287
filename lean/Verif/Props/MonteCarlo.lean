import Verif.Props.Predictive
import Mathlib.Probability.Moments.Variance
import Mathlib.Probability.Independence.InfinitePi
import Mathlib.Analysis.SpecialFunctions.Log.NegMulLog
import Mathlib.Analysis.Convex.Integral
import Mathlib.Analysis.Convex.SpecificFunctions.Basic
import Mathlib.MeasureTheory.Measure.Dirac

/-!
Property C109: what the predictive statistics estimate, when the posterior samples are independent draws.
-/
set_option linter.unusedSectionVars false

namespace Verif.Props.MonteCarlo

open Verif.Predictive Verif.Props MeasureTheory ProbabilityTheory Finset

variable {Key Ω Θ : Type} [MeasurableSpace Ω] [MeasurableSpace Θ]

/-- `posterior.sample(rng=k)` is `θ k`: samples with different keys are independent, each with law `Q`. -/
structure Draws (θ : Key → Ω → Θ) (Q : Measure Θ) (μ : Measure Ω) : Prop where
  meas : ∀ k, Measurable (θ k)
  indep : iIndepFun θ μ
  law : ∀ k, μ.map (θ k) = Q

/-- The keys that `random.split(rng, n)` returns are different. -/
def SplitsApart (split : Key → ℕ → ℕ → Key) (n : ℕ) (rng : Key) : Prop :=
  ∀ i < n, ∀ j < n, split rng n i = split rng n j → i = j

/-- The average of `f` over the samples with keys `ks`. -/
noncomputable def avg {n : ℕ} (θ : Key → Ω → Θ) (f : Θ → ℝ) (ks : Fin n → Key) (ω : Ω) : ℝ :=
  (∑ i, f (θ (ks i) ω)) / n

section general
variable {θ : Key → Ω → Θ} {Q : Measure Θ} {μ : Measure Ω} [IsProbabilityMeasure μ] (D : Draws θ Q μ)
include D

theorem prob_law [Nonempty Key] : IsProbabilityMeasure Q := by
  rw [← D.law (Classical.arbitrary Key)]
  exact Measure.isProbabilityMeasure_map (D.meas _).aemeasurable

theorem integrable_draw (k : Key) {f : Θ → ℝ} (hf : Integrable f Q) : Integrable (fun ω => f (θ k ω)) μ := by
  rw [← D.law k] at hf
  exact hf.comp_measurable (D.meas k)

theorem memLp_draw (k : Key) {f : Θ → ℝ} {p : ENNReal} (hf : MemLp f p Q) : MemLp (fun ω => f (θ k ω)) p μ := by
  rw [← D.law k] at hf
  exact hf.comp_of_map (D.meas k).aemeasurable

theorem integral_draw (k : Key) {f : Θ → ℝ} (hf : AEStronglyMeasurable f Q) : ∫ ω, f (θ k ω) ∂μ = ∫ x, f x ∂Q := by
  rw [← D.law k] at hf ⊢
  rw [integral_map (D.meas k).aemeasurable hf]

theorem variance_draw (k : Key) {f : Θ → ℝ} (hf : AEMeasurable f Q) :
    ProbabilityTheory.variance (fun ω => f (θ k ω)) μ = ProbabilityTheory.variance f Q := by
  rw [← D.law k] at hf ⊢
  rw [variance_map hf (D.meas k).aemeasurable]
  rfl

theorem integrable_avg {n : ℕ} (ks : Fin n → Key) {f : Θ → ℝ} (hf : Integrable f Q) : Integrable (avg θ f ks) μ :=
  (integrable_finsetSum _ fun i _ => integrable_draw D (ks i) hf).div_const _

theorem integral_avg {n : ℕ} (hn : 0 < n) (ks : Fin n → Key) {f : Θ → ℝ} (hf : Integrable f Q) :
    ∫ ω, avg θ f ks ω ∂μ = ∫ x, f x ∂Q := by
  have hn' : (n : ℝ) ≠ 0 := by positivity
  unfold avg
  rw [integral_div, integral_finsetSum _ fun i _ => integrable_draw D (ks i) hf]
  simp only [integral_draw D _ hf.1]
  simp
  field_simp

theorem memLp_avg {n : ℕ} (ks : Fin n → Key) {f : Θ → ℝ} (hf : MemLp f 2 Q) : MemLp (avg θ f ks) 2 μ := by
  have : avg θ f ks = fun ω => (n : ℝ)⁻¹ * (∑ i, fun ω => f (θ (ks i) ω)) ω := by
    funext ω
    unfold avg
    rw [Finset.sum_apply, div_eq_inv_mul]
  rw [this]
  exact (memLp_finsetSum' _ fun i _ => memLp_draw D (ks i) hf).const_mul _

theorem variance_avg {n : ℕ} (hn : 0 < n) (ks : Fin n → Key) (hks : Function.Injective ks) {f : Θ → ℝ}
    (hm : Measurable f) (hf : MemLp f 2 Q) :
    ProbabilityTheory.variance (avg θ f ks) μ = ProbabilityTheory.variance f Q / n := by
  have hn' : (n : ℝ) ≠ 0 := by positivity
  have : avg θ f ks = fun ω => (n : ℝ)⁻¹ * (∑ i, fun ω => f (θ (ks i) ω)) ω := by
    funext ω
    unfold avg
    rw [Finset.sum_apply, div_eq_inv_mul]
  rw [this, variance_const_mul, IndepFun.variance_sum]
  · simp only [variance_draw D _ hm.aemeasurable]
    simp
    field_simp
  · exact fun i _ => memLp_draw D (ks i) hf
  · intro i _ j _ hij
    exact (D.indep.indepFun (hks.ne hij)).comp hm hm

/-- A statistic of `n` samples depends in distribution only on `n`. -/
theorem integral_joint {n : ℕ} [IsProbabilityMeasure Q] (ks : Fin n → Key) (hks : Function.Injective ks)
    {F : (Fin n → Θ) → ℝ} (hF : AEStronglyMeasurable F (Measure.pi fun _ => Q)) :
    ∫ ω, F (fun i => θ (ks i) ω) ∂μ = ∫ x, F x ∂(Measure.pi fun _ => Q) := by
  have h := D.indep.precomp hks
  rw [iIndepFun_iff_map_fun_eq_pi_map fun i => (D.meas _).aemeasurable] at h
  simp only [D.law] at h
  rw [← h] at hF ⊢
  rw [integral_map (measurable_pi_lambda _ fun i => D.meas _).aemeasurable hF]

end general

/-- Leaving out one sample at a time. -/
theorem mean_leave_one_out {n : ℕ} (hn : 0 < n) (x : Fin (n + 1) → ℝ) :
    ∑ j : Fin (n + 1), ((1 : ℝ) / (n + 1)) • ((∑ i : Fin n, x (j.succAbove i)) / n) = (∑ i, x i) / (n + 1 : ℕ) := by
  have hn' : (n : ℝ) ≠ 0 := by positivity
  have h : ∀ j : Fin (n + 1), ∑ i : Fin n, x (j.succAbove i) = (∑ i, x i) - x j := fun j => by
    rw [Fin.sum_univ_succAbove x j]; ring
  simp only [h, smul_eq_mul]
  rw [← Finset.mul_sum, ← Finset.sum_div, Finset.sum_sub_distrib]
  simp
  field_simp
  ring

/-- The mean of more samples is closer to concentrating: concave functions of it grow on average. -/
theorem concave_mono {θ : Key → Ω → Θ} {Q : Measure Θ} {μ : Measure Ω} [IsProbabilityMeasure μ] (D : Draws θ Q μ) {φ : ℝ → ℝ} {s : Set ℝ}
    (hφ : ConcaveOn ℝ s φ) (hφm : Measurable φ) {f : Θ → ℝ} (hf : Measurable f) (hfs : ∀ x, f x ∈ s) {n : ℕ} (hn : 0 < n)
    (ks : Fin n → Key) (ks' : Fin (n + 1) → Key) (hks : Function.Injective ks) (hks' : Function.Injective ks')
    (hi : ∀ ks : Fin n → Key, Integrable (fun ω => φ (avg θ f ks ω)) μ) (hi' : Integrable (fun ω => φ (avg θ f ks' ω)) μ) :
    ∫ ω, φ (avg θ f ks ω) ∂μ ≤ ∫ ω, φ (avg θ f ks' ω) ∂μ := by
  have hQ : IsProbabilityMeasure Q := have : Nonempty Key := ⟨ks' 0⟩; prob_law D
  have hn' : (0 : ℝ) < n := by positivity
  have hF : AEStronglyMeasurable (fun x : Fin n → Θ => φ ((∑ i, f (x i)) / n)) (Measure.pi fun _ => Q) :=
    (hφm.comp ((Finset.measurable_sum _ fun i _ => hf.comp (measurable_pi_apply i)).div_const _)).aestronglyMeasurable
  have hj : ∀ ks₂ : Fin n → Key, Function.Injective ks₂ → ∫ ω, φ (avg θ f ks₂ ω) ∂μ = ∫ ω, φ (avg θ f ks ω) ∂μ := fun ks₂ h => by
    unfold avg
    rw [integral_joint D ks₂ h hF, integral_joint D ks hks hF]
  calc ∫ ω, φ (avg θ f ks ω) ∂μ = ∫ ω, ∑ j : Fin (n + 1), ((1 : ℝ) / (n + 1)) • φ (avg θ f (fun i => ks' (j.succAbove i)) ω) ∂μ := by
        simp only [smul_eq_mul]
        rw [integral_finsetSum _ fun j _ => (hi _).const_mul _]
        simp only [integral_const_mul]
        have hj' : ∀ j : Fin (n + 1), ∫ ω, φ (avg θ f (fun i => ks' (j.succAbove i)) ω) ∂μ = ∫ ω, φ (avg θ f ks ω) ∂μ := fun j =>
          hj _ (hks'.comp Fin.succAbove_right_injective)
        simp only [hj']
        simp
        field_simp
    _ ≤ _ := by
        refine integral_mono (integrable_finsetSum _ fun j _ => (hi _).const_mul _) hi' fun ω => ?_
        have hav : avg θ f ks' ω = ∑ j : Fin (n + 1), ((1 : ℝ) / (n + 1)) • avg θ f (fun i => ks' (j.succAbove i)) ω := by
          unfold avg
          exact (mean_leave_one_out hn fun i => f (θ (ks' i) ω)).symm
        dsimp only
        rw [hav]
        refine hφ.le_map_sum (fun j _ => by positivity) (by simp; field_simp) fun j _ => ?_
        have h := hφ.1.sum_mem (t := univ) (w := fun _ : Fin n => (1 : ℝ) / n) (z := fun i => f (θ (ks' (j.succAbove i)) ω))
          (fun i _ => by positivity) (by simp; field_simp) (fun i _ => hfs _)
        unfold avg
        simp only [smul_eq_mul, ← Finset.mul_sum] at h
        rwa [div_eq_inv_mul, ← one_div]

section statistics
variable {θ : Key → Ω → Θ} {Q : Measure Θ} {μ : Measure Ω} [IsProbabilityMeasure μ] (D : Draws θ Q μ)
variable (split : Key → ℕ → ℕ → Key)

theorem keys_injective {split : Key → ℕ → ℕ → Key} {n : ℕ} {rng : Key} (h : SplitsApart split n rng) :
    Function.Injective fun i : Fin n => split rng n i :=
  fun i j hij => Fin.ext (h i i.2 j j.2 hij)

theorem predMean_avg {n : ℕ} (hn : 0 < n) (rng : Key) (m : Θ → ℝ) (ω : Ω) :
    predMean split (fun k => m (θ k ω)) n rng = avg θ m (fun i : Fin n => split rng n i) ω := by
  unfold predMean avg
  rw [loopSum_eq n hn, Finset.sum_range]

theorem epistemic_avg {n : ℕ} (hn : 0 < n) (rng : Key) (m : Θ → ℝ) (ω : Ω) :
    epistemic split (fun k => m (θ k ω)) n rng =
      avg θ (fun x => m x ^ 2) (fun i : Fin n => split rng n i) ω - avg θ m (fun i : Fin n => split rng n i) ω ^ 2 := by
  have h0 : 0 ≤ (loopSum n fun i => m (θ (split rng n i) ω) ^ 2) / (n : ℝ) -
      ((loopSum n fun i => m (θ (split rng n i) ω)) / (n : ℝ)) ^ 2 := by
    rw [loopSum_eq n hn, loopSum_eq n hn, sq_gap n hn fun i => m (θ (split rng n i) ω)]
    positivity
  unfold epistemic avg
  dsimp only
  rw [max_eq_right h0, loopSum_eq n hn, loopSum_eq n hn, Finset.sum_range, Finset.sum_range]

include D

/-- **C109, mean.** The predictive mean is an unbiased estimate of the posterior expectation of the likelihood mean `m`, and is off by
`ε` or more with probability at most `Var m / (n ε²)`. -/
theorem C109_mean {n : ℕ} (hn : 0 < n) (rng : Key) (hs : SplitsApart split n rng) (m : Θ → ℝ) (hm : Measurable m)
    (hm2 : MemLp m 2 Q) :
    ∫ ω, predMean split (fun k => m (θ k ω)) n rng ∂μ = ∫ x, m x ∂Q ∧
    ∀ ε > 0, μ {ω | ε ≤ |predMean split (fun k => m (θ k ω)) n rng - ∫ x, m x ∂Q|} ≤
      ENNReal.ofReal (ProbabilityTheory.variance m Q / (n * ε ^ 2)) := by
  have hQ : IsProbabilityMeasure Q := have : Nonempty Key := ⟨rng⟩; prob_law D
  simp only [predMean_avg split hn]
  have he := integral_avg D hn (fun i : Fin n => split rng n i) (hm2.integrable one_le_two)
  refine ⟨he, fun ε hε => ?_⟩
  have h := meas_ge_le_variance_div_sq (memLp_avg D (fun i : Fin n => split rng n i) hm2) hε
  rwa [he, variance_avg D hn _ (keys_injective hs) hm hm2, div_div] at h

/-- **C109, aleatoric variance.** Likewise for the likelihood variance `v`. -/
theorem C109_aleatoric {n : ℕ} (hn : 0 < n) (rng : Key) (hs : SplitsApart split n rng) (v : Θ → ℝ) (hv : Measurable v)
    (hv2 : MemLp v 2 Q) :
    ∫ ω, aleatoric split (fun k => v (θ k ω)) n rng ∂μ = ∫ x, v x ∂Q ∧
    ∀ ε > 0, μ {ω | ε ≤ |aleatoric split (fun k => v (θ k ω)) n rng - ∫ x, v x ∂Q|} ≤
      ENNReal.ofReal (ProbabilityTheory.variance v Q / (n * ε ^ 2)) :=
  C109_mean D split hn rng hs v hv hv2

/-- **C109, epistemic variance.** Its expectation is the posterior variance of the likelihood mean, times `1 - 1/n`. -/
theorem C109_epistemic {n : ℕ} (hn : 0 < n) (rng : Key) (hs : SplitsApart split n rng) (m : Θ → ℝ) (hm : Measurable m)
    (hm2 : MemLp m 2 Q) :
    Integrable (fun ω => epistemic split (fun k => m (θ k ω)) n rng) μ ∧
    ∫ ω, epistemic split (fun k => m (θ k ω)) n rng ∂μ = (1 - 1 / n) * ProbabilityTheory.variance m Q := by
  have hQ : IsProbabilityMeasure Q := have : Nonempty Key := ⟨rng⟩; prob_law D
  simp only [epistemic_avg split hn]
  have h1 := integrable_avg D (fun i : Fin n => split rng n i) hm2.integrable_sq
  have h2 := (memLp_avg D (fun i : Fin n => split rng n i) hm2).integrable_sq
  refine ⟨h1.sub h2, ?_⟩
  rw [integral_sub h1 h2, integral_avg D hn _ hm2.integrable_sq]
  have e1 := variance_eq_sub (memLp_avg D (fun i : Fin n => split rng n i) hm2)
  have e2 := variance_eq_sub hm2
  rw [variance_avg D hn _ (keys_injective hs) hm hm2, integral_avg D hn _ (hm2.integrable one_le_two)] at e1
  simp only [Pi.pow_apply] at e1 e2
  have e3 : (1 - 1 / (n : ℝ)) * ProbabilityTheory.variance m Q =
    ProbabilityTheory.variance m Q - ProbabilityTheory.variance m Q / n := by ring
  linarith

/-- **C109, variance.** The expectation of the predictive variance falls short of the variance of the predictive distribution, which by the
law of total variance is `E v + Var m`, by exactly `Var m / n`. -/
theorem C109_variance {n : ℕ} (hn : 0 < n) (rng : Key) (hs : SplitsApart split n (split (split rng 2 0) 2 1)) (m v : Θ → ℝ)
    (hm : Measurable m) (hm2 : MemLp m 2 Q) (hv : Integrable v Q) :
    ∫ ω, Verif.Predictive.variance split (fun k => m (θ k ω)) (fun k => v (θ k ω)) n rng ∂μ =
      ((∫ x, v x ∂Q) + ProbabilityTheory.variance m Q) - ProbabilityTheory.variance m Q / n := by
  unfold Verif.Predictive.variance
  dsimp only
  obtain ⟨h1, h2⟩ := C109_epistemic D split hn _ hs m hm hm2
  have h3 := fun ω => predMean_avg (θ := θ) split hn (split rng 2 1) v ω
  have h4 : ∀ ω, aleatoric split (fun k => v (θ k ω)) n (split rng 2 1) = predMean split (fun k => v (θ k ω)) n (split rng 2 1) :=
    fun ω => rfl
  simp only [h4, h3]
  rw [integral_add (integrable_avg D _ hv) h1, h2, integral_avg D hn _ hv]
  ring

omit D in
/-- The log-likelihoods that `_batched_log_prob` averages. -/
noncomputable def lpOf (θ : Key → Ω → Θ) (ll : Θ → ℝ) (n : ℕ) (rng : Key) (ω : Ω) : ℝ :=
  logProb fun i : Fin n => ll (θ (split rng n i) ω)

omit D [IsProbabilityMeasure μ] in
theorem exp_lpOf {n : ℕ} (hn : 0 < n) (rng : Key) (ll : Θ → ℝ) (ω : Ω) :
    Real.exp (lpOf split θ ll n rng ω) = avg θ (fun x => Real.exp (ll x)) (fun i : Fin n => split rng n i) ω := by
  unfold lpOf avg
  rw [C49_log_mean hn]

omit D [IsProbabilityMeasure μ] in
theorem lpOf_eq {n : ℕ} (hn : 0 < n) (rng : Key) (ll : Θ → ℝ) (ω : Ω) :
    lpOf split θ ll n rng ω = Real.log (avg θ (fun x => Real.exp (ll x)) (fun i : Fin n => split rng n i) ω) := by
  rw [← exp_lpOf split hn, Real.log_exp]

theorem measurable_lpOf {n : ℕ} (rng : Key) (ll : Θ → ℝ) (hl : Measurable ll) : Measurable (lpOf split θ ll n rng) := by
  unfold lpOf logProb logsumexp
  refine Measurable.sub_const (Real.measurable_log.comp (Finset.measurable_sum _ fun i _ => Real.measurable_exp.comp (hl.comp (D.meas _)))) _

theorem integrable_log_avg {n : ℕ} (hn : 0 < n) (ks : Fin n → Key) (ll : Θ → ℝ) (hl : Measurable ll) (hi : Integrable ll Q)
    (he : Integrable (fun x => Real.exp (ll x)) Q) : Integrable (fun ω => Real.log (avg θ (fun x => Real.exp (ll x)) ks ω)) μ := by
  have h1 := integrable_avg D ks hi
  have h2 := integrable_avg D ks he
  have hm : Measurable fun ω => Real.log (avg θ (fun x => Real.exp (ll x)) ks ω) := by
    unfold avg
    exact Real.measurable_log.comp ((Finset.measurable_sum _ fun i _ => Real.measurable_exp.comp (hl.comp (D.meas _))).div_const _)
  refine (h1.norm.add h2.norm).mono' hm.aestronglyMeasurable (ae_of_all _ fun ω => ?_)
  have hx : Real.exp (logProb fun i => ll (θ (ks i) ω)) = avg θ (fun x => Real.exp (ll x)) ks ω := C49_log_mean hn _
  rw [← hx, Real.log_exp]
  have e1 : avg θ ll ks ω ≤ logProb fun i => ll (θ (ks i) ω) := C49_jensen hn _
  have e2 : (logProb fun i => ll (θ (ks i) ω)) ≤ avg θ (fun x => Real.exp (ll x)) ks ω := by
    rw [← hx]
    linarith [Real.add_one_le_exp (logProb fun i => ll (θ (ks i) ω))]
  simp only [Real.norm_eq_abs, Pi.add_apply]
  rw [abs_le]
  have a1 := neg_abs_le (avg θ ll ks ω)
  have a2 := le_abs_self (avg θ (fun x => Real.exp (ll x)) ks ω)
  have a3 := abs_nonneg (avg θ ll ks ω)
  have a4 := abs_nonneg (avg θ (fun x => Real.exp (ll x)) ks ω)
  constructor <;> linarith

theorem integrable_lpOf {n : ℕ} (hn : 0 < n) (rng : Key) (ll : Θ → ℝ) (hl : Measurable ll) (hi : Integrable ll Q)
    (he : Integrable (fun x => Real.exp (ll x)) Q) : Integrable (lpOf split θ ll n rng) μ := by
  have h := integrable_log_avg D hn (fun i : Fin n => split rng n i) ll hl hi he
  exact h.congr (ae_of_all _ fun ω => (lpOf_eq split hn rng ll ω).symm)

/-- **C109, likelihood.** The exponential of the predictive log-probability is an unbiased estimate of the predictive density, and is off by
`ε` or more with probability at most `Var / (n ε²)`. -/
theorem C109_prob {n : ℕ} (hn : 0 < n) (rng : Key) (hs : SplitsApart split n rng) (ll : Θ → ℝ) (hl : Measurable ll)
    (he : MemLp (fun x => Real.exp (ll x)) 2 Q) :
    ∫ ω, Real.exp (lpOf split θ ll n rng ω) ∂μ = ∫ x, Real.exp (ll x) ∂Q ∧
    ∀ ε > 0, μ {ω | ε ≤ |Real.exp (lpOf split θ ll n rng ω) - ∫ x, Real.exp (ll x) ∂Q|} ≤
      ENNReal.ofReal (ProbabilityTheory.variance (fun x => Real.exp (ll x)) Q / (n * ε ^ 2)) := by
  have h := C109_mean D split hn rng hs (fun x => Real.exp (ll x)) (Real.measurable_exp.comp hl) he
  have e := predMean_avg (θ := θ) split hn rng fun x => Real.exp (ll x)
  simp only [e] at h
  simpa only [exp_lpOf split hn] using h

/-- **C109, log-probability.** On average the predictive log-probability is at least the posterior expectation of the log-likelihood and at most
the logarithm of the predictive density. -/
theorem C109_log_prob {n : ℕ} (hn : 0 < n) (rng : Key) (ll : Θ → ℝ) (hl : Measurable ll) (hi : Integrable ll Q)
    (he : Integrable (fun x => Real.exp (ll x)) Q) :
    ∫ x, ll x ∂Q ≤ ∫ ω, lpOf split θ ll n rng ω ∂μ ∧
    ∫ ω, lpOf split θ ll n rng ω ∂μ ≤ Real.log (∫ x, Real.exp (ll x) ∂Q) := by
  have hQ : IsProbabilityMeasure Q := have : Nonempty Key := ⟨rng⟩; prob_law D
  have hI := integrable_lpOf D split hn rng ll hl hi he
  constructor
  · rw [← integral_avg D hn (fun i : Fin n => split rng n i) hi]
    exact integral_mono (integrable_avg D _ hi) hI fun ω => C49_jensen hn _
  · set a := ∫ x, Real.exp (ll x) ∂Q with ha
    have hpos : 0 < a := integral_exp_pos he
    have hb : ∫ ω, lpOf split θ ll n rng ω ∂μ ≤
        ∫ ω, (avg θ (fun x => Real.exp (ll x)) (fun i : Fin n => split rng n i) ω * a⁻¹ + (Real.log a - 1)) ∂μ := by
      refine integral_mono hI (((integrable_avg D _ he).mul_const _).add (integrable_const _)) fun ω => ?_
      have hp : 0 < avg θ (fun x => Real.exp (ll x)) (fun i : Fin n => split rng n i) ω := by
        rw [← exp_lpOf split hn]; exact Real.exp_pos _
      have := Real.log_le_sub_one_of_pos (mul_pos hp (inv_pos.2 hpos))
      rw [Real.log_mul hp.ne' (inv_pos.2 hpos).ne', Real.log_inv] at this
      rw [lpOf_eq split hn]
      dsimp only
      linarith
    rw [integral_add ((integrable_avg D _ he).mul_const _) (integrable_const _), integral_mul_const, integral_avg D hn _ he, ← ha,
      mul_inv_cancel₀ hpos.ne'] at hb
    simpa using hb

/-- **C109, unbiased is false.** If the likelihood is not the same for all posterior samples, the average predictive log-probability is strictly
below the logarithm of the predictive density, whatever the number of samples. -/
theorem C109_log_prob_unbiased_false {n : ℕ} (hn : 0 < n) (rng : Key) (hs : SplitsApart split n rng) (ll : Θ → ℝ) (hl : Measurable ll)
    (hi : Integrable ll Q) (he : MemLp (fun x => Real.exp (ll x)) 2 Q)
    (hv : ProbabilityTheory.variance (fun x => Real.exp (ll x)) Q ≠ 0) :
    ∫ ω, lpOf split θ ll n rng ω ∂μ < Real.log (∫ x, Real.exp (ll x) ∂Q) := by
  have hQ : IsProbabilityMeasure Q := have : Nonempty Key := ⟨rng⟩; prob_law D
  have he1 := he.integrable one_le_two
  have hI := integrable_lpOf D split hn rng ll hl hi he1
  refine lt_of_le_of_ne (C109_log_prob D split hn rng ll hl hi he1).2 fun heq => hv ?_
  set a := ∫ x, Real.exp (ll x) ∂Q with ha
  have hpos : 0 < a := integral_exp_pos he1
  have hJ : Integrable (fun ω => avg θ (fun x => Real.exp (ll x)) (fun i : Fin n => split rng n i) ω * a⁻¹ + (Real.log a - 1)) μ :=
    ((integrable_avg D _ he1).mul_const _).add (integrable_const _)
  have hge : ∀ ω, 0 ≤ avg θ (fun x => Real.exp (ll x)) (fun i : Fin n => split rng n i) ω * a⁻¹ + (Real.log a - 1) -
      lpOf split θ ll n rng ω := fun ω => by
    have hp : 0 < avg θ (fun x => Real.exp (ll x)) (fun i : Fin n => split rng n i) ω := by
      rw [← exp_lpOf split hn]; exact Real.exp_pos _
    have := Real.log_le_sub_one_of_pos (mul_pos hp (inv_pos.2 hpos))
    rw [Real.log_mul hp.ne' (inv_pos.2 hpos).ne', Real.log_inv] at this
    rw [lpOf_eq split hn]
    linarith
  have hz : ∫ ω, (avg θ (fun x => Real.exp (ll x)) (fun i : Fin n => split rng n i) ω * a⁻¹ + (Real.log a - 1) -
      lpOf split θ ll n rng ω) ∂μ = 0 := by
    rw [integral_sub hJ hI, heq, integral_add ((integrable_avg D _ he1).mul_const _) (integrable_const _), integral_mul_const,
      integral_avg D hn _ he1, ← ha, mul_inv_cancel₀ hpos.ne']
    simp
  have hae := (integral_eq_zero_iff_of_nonneg hge (hJ.sub hI)).1 hz
  have hconst : avg θ (fun x => Real.exp (ll x)) (fun i : Fin n => split rng n i) =ᵐ[μ] fun _ => a := by
    filter_upwards [hae] with ω hω
    have hp : 0 < avg θ (fun x => Real.exp (ll x)) (fun i : Fin n => split rng n i) ω := by
      rw [← exp_lpOf split hn]; exact Real.exp_pos _
    by_contra hne
    have hne' : avg θ (fun x => Real.exp (ll x)) (fun i : Fin n => split rng n i) ω * a⁻¹ ≠ 1 := by
      intro h
      apply hne
      field_simp at h
      exact h
    have := Real.log_lt_sub_one_of_pos (mul_pos hp (inv_pos.2 hpos)) hne'
    rw [Real.log_mul hp.ne' (inv_pos.2 hpos).ne', Real.log_inv] at this
    rw [lpOf_eq split hn] at hω
    simp only [Pi.zero_apply] at hω
    linarith
  have h0 := variance_avg D hn (fun i : Fin n => split rng n i) (keys_injective hs) (Real.measurable_exp.comp hl) he
  have h1 : ProbabilityTheory.variance (avg θ (fun x => Real.exp (ll x)) (fun i : Fin n => split rng n i)) μ = 0 := by
    rw [variance_congr hconst, variance_eq_sub (memLp_const a)]
    simp
  have hn' : (n : ℝ) ≠ 0 := by positivity
  rw [show (Real.exp ∘ ll) = fun x => Real.exp (ll x) from rfl, h1] at h0
  rcases div_eq_zero_iff.1 h0.symm with h | h
  · exact h
  · exact absurd h hn'

/-- **C109, more samples.** With more posterior samples the average predictive log-probability does not decrease. -/
theorem C109_log_prob_mono {n : ℕ} (hn : 0 < n) (rng rng' : Key) (hs : SplitsApart split n rng) (hs' : SplitsApart split (n + 1) rng')
    (ll : Θ → ℝ) (hl : Measurable ll) (hi : Integrable ll Q) (he : Integrable (fun x => Real.exp (ll x)) Q) :
    ∫ ω, lpOf split θ ll n rng ω ∂μ ≤ ∫ ω, lpOf split θ ll (n + 1) rng' ω ∂μ := by
  simp only [lpOf_eq split hn, lpOf_eq split (Nat.succ_pos n)]
  refine concave_mono D strictConcaveOn_log_Ioi.concaveOn Real.measurable_log (Real.measurable_exp.comp hl) (fun x => Real.exp_pos _) hn _ _
    (keys_injective hs) (keys_injective hs') ?_ ?_
  · intro ks
    exact integrable_log_avg D hn ks ll hl hi he
  · exact integrable_log_avg D (Nat.succ_pos n) _ ll hl hi he

/-! ### Classification: probabilities and entropies -/

omit D in
/-- The probability of class `i` given outputs `o`. -/
noncomputable def clsProb {c : ℕ} (o : Fin c → ℝ) (i : Fin c) : ℝ := Real.exp (o i) / ∑ j, Real.exp (o j)

omit D [IsProbabilityMeasure μ] in
theorem exp_classLogProb {c : ℕ} (o : Fin c → ℝ) (i : Fin c) : Real.exp (classLogProb o i) = clsProb o i := by
  rw [classLogProb_eq, Real.exp_sub, exp_logsumexp (Nat.lt_of_le_of_lt (Nat.zero_le _) i.2)]
  rfl

omit D [IsProbabilityMeasure μ] in
theorem clsProb_mem {c : ℕ} (o : Fin c → ℝ) (i : Fin c) : 0 < clsProb o i ∧ clsProb o i ≤ 1 := by
  rw [← exp_classLogProb]
  refine ⟨Real.exp_pos _, ?_⟩
  rw [← class_probs (Nat.lt_of_le_of_lt (Nat.zero_le _) i.2) o]
  exact Finset.single_le_sum (f := fun y => Real.exp (classLogProb o y)) (fun y _ => (Real.exp_pos _).le) (mem_univ i)

omit D [IsProbabilityMeasure μ] in
theorem measurable_clsProb {c : ℕ} {o : Θ → Fin c → ℝ} (ho : ∀ i, Measurable fun x => o x i) (i : Fin c) :
    Measurable fun x => clsProb (o x) i :=
  (Real.measurable_exp.comp (ho i)).div (Finset.measurable_sum _ fun j _ => Real.measurable_exp.comp (ho j))

omit D [IsProbabilityMeasure μ] in
theorem integrable_clsProb [IsProbabilityMeasure Q] {c : ℕ} {o : Θ → Fin c → ℝ} (ho : ∀ i, Measurable fun x => o x i) (i : Fin c) {p : ENNReal} :
    MemLp (fun x => clsProb (o x) i) p Q :=
  MemLp.of_bound (measurable_clsProb ho i).aestronglyMeasurable 1 (ae_of_all _ fun x => by
    rw [Real.norm_eq_abs, abs_of_pos (clsProb_mem _ i).1]
    exact (clsProb_mem _ i).2)

omit D [IsProbabilityMeasure μ] in
theorem negMulLog_mem {x : ℝ} (h0 : 0 ≤ x) (h1 : x ≤ 1) : |Real.negMulLog x| ≤ 1 := by
  have hn := Real.negMulLog_nonneg h0 h1
  rw [abs_of_nonneg hn]
  rcases h0.eq_or_lt with h | h
  · simp [← h]
  · have := Real.one_sub_inv_le_log_of_pos h
    unfold Real.negMulLog
    have h2 := mul_le_mul_of_nonneg_left this h0
    rw [mul_sub, mul_inv_cancel₀ h.ne'] at h2
    linarith

omit D [IsProbabilityMeasure μ] in
theorem avg_mem {n : ℕ} (hn : 0 < n) (ks : Fin n → Key) {f : Θ → ℝ} (hf : ∀ x, 0 ≤ f x ∧ f x ≤ 1) (ω : Ω) :
    0 ≤ avg θ f ks ω ∧ avg θ f ks ω ≤ 1 := by
  have hn' : (0 : ℝ) < n := by positivity
  unfold avg
  refine ⟨div_nonneg (Finset.sum_nonneg fun i _ => (hf _).1) hn'.le, ?_⟩
  rw [div_le_one hn']
  exact (Finset.sum_le_sum fun i _ => (hf (θ (ks i) ω)).2).trans (by simp)

theorem integrable_negMulLog_avg {n : ℕ} (hn : 0 < n) (ks : Fin n → Key) {f : Θ → ℝ} (hm : Measurable f) (hf : ∀ x, 0 ≤ f x ∧ f x ≤ 1) :
    Integrable (fun ω => Real.negMulLog (avg θ f ks ω)) μ := by
  have hM : Measurable fun ω => Real.negMulLog (avg θ f ks ω) := by
    unfold avg
    exact Real.continuous_negMulLog.measurable.comp ((Finset.measurable_sum _ fun i _ => hm.comp (D.meas _)).div_const _)
  refine (integrable_const (1 : ℝ)).mono' hM.aestronglyMeasurable (ae_of_all _ fun ω => ?_)
  exact negMulLog_mem (avg_mem hn ks hf ω).1 (avg_mem hn ks hf ω).2

omit D in
/-- The calibrated outputs of the `n` posterior samples, base.py L479-499. -/
def outs {c : ℕ} (θ : Key → Ω → Θ) (o : Θ → Fin c → ℝ) (n : ℕ) (rng : Key) (ω : Ω) : Fin n → Fin c → ℝ :=
  fun i => o (θ (split rng n i) ω)

omit D [IsProbabilityMeasure μ] in
theorem entropy_avg {n c : ℕ} (hn : 0 < n) (hc : 0 < c) (rng : Key) (o : Θ → Fin c → ℝ) (ω : Ω) :
    entropy (outs split θ o n rng ω) = ∑ i, Real.negMulLog (avg θ (fun x => clsProb (o x) i) (fun i : Fin n => split rng n i) ω) := by
  rw [(C46_meaning hn hc _).1, ← Finset.sum_neg_distrib]
  refine Finset.sum_congr rfl fun i _ => ?_
  unfold meanProb Real.negMulLog avg outs
  simp only [exp_classLogProb]
  ring

omit D [IsProbabilityMeasure μ] in
theorem aleatoricEntropy_avg {n c : ℕ} (hn : 0 < n) (hc : 0 < c) (rng : Key) (o : Θ → Fin c → ℝ) (ω : Ω) :
    aleatoricEntropy (outs split θ o n rng ω) = avg θ (fun x => ∑ i, Real.negMulLog (clsProb (o x) i)) (fun i : Fin n => split rng n i) ω := by
  rw [(C46_meaning hn hc _).2]
  unfold avg outs
  congr 1
  refine Finset.sum_congr rfl fun s _ => ?_
  rw [← Finset.sum_neg_distrib]
  refine Finset.sum_congr rfl fun i _ => ?_
  simp only [exp_classLogProb]
  unfold Real.negMulLog
  ring

/-- **C109, class probabilities.** With probability at least `1 - 1 / (n ε²)` all mean class probabilities are within `ε` of their posterior
expectations, whatever the number of classes. -/
theorem C109_class_probs {n c : ℕ} (hn : 0 < n) (rng : Key) (hs : SplitsApart split n rng) (o : Θ → Fin c → ℝ)
    (ho : ∀ i, Measurable fun x => o x i) (ε : ℝ) (hε : 0 < ε) :
    μ {ω | ∃ i, ε ≤ |predMean split (fun k => clsProb (o (θ k ω)) i) n rng - ∫ x, clsProb (o x) i ∂Q|} ≤
      ENNReal.ofReal (1 / (n * ε ^ 2)) := by
  have hQ : IsProbabilityMeasure Q := have : Nonempty Key := ⟨rng⟩; prob_law D
  rcases Nat.eq_zero_or_pos c with rfl | hc
  · simp
  have hn' : (0 : ℝ) < n := by positivity
  have h1 : {ω | ∃ i, ε ≤ |predMean split (fun k => clsProb (o (θ k ω)) i) n rng - ∫ x, clsProb (o x) i ∂Q|} =
      ⋃ i, {ω | ε ≤ |predMean split (fun k => clsProb (o (θ k ω)) i) n rng - ∫ x, clsProb (o x) i ∂Q|} := by
    ext ω; simp
  rw [h1]
  refine (measure_iUnion_fintype_le _ _).trans ?_
  refine (Finset.sum_le_sum fun i _ => (C109_mean D split hn rng hs (fun x => clsProb (o x) i) (measurable_clsProb ho i)
    (integrable_clsProb ho i)).2 ε hε).trans ?_
  rw [← ENNReal.ofReal_sum_of_nonneg fun i _ => div_nonneg (variance_nonneg _ _) (by positivity), ← Finset.sum_div]
  refine ENNReal.ofReal_le_ofReal (div_le_div_of_nonneg_right ?_ (by positivity))
  have h2 : ∀ i, ProbabilityTheory.variance (fun x => clsProb (o x) i) Q ≤ ∫ x, clsProb (o x) i ∂Q := fun i => by
    have hI : Integrable (fun x => clsProb (o x) i) Q := (integrable_clsProb ho i (p := 2)).integrable one_le_two
    refine (variance_le_expectation_sq (measurable_clsProb ho i).aestronglyMeasurable).trans ?_
    refine integral_mono (integrable_clsProb ho i (p := 2)).integrable_sq hI fun x => ?_
    simp only [Pi.pow_apply]
    have := clsProb_mem (o x) i
    nlinarith
  refine (Finset.sum_le_sum fun i _ => h2 i).trans ?_
  rw [← integral_finsetSum _ fun i _ => (integrable_clsProb ho i (p := 2)).integrable one_le_two]
  have h3 : ∀ x, ∑ i, clsProb (o x) i = 1 := fun x => by
    simp only [← exp_classLogProb]
    exact class_probs hc _
  simp [h3]

/-- **C109, entropies.** The aleatoric entropy is unbiased. The entropy and the epistemic entropy are on average at most those of the
posterior: the Shannon entropy of the expected class probabilities, and its excess over the expected Shannon entropy. -/
theorem C109_entropies {n c : ℕ} (hn : 0 < n) (hc : 0 < c) (rng : Key) (o : Θ → Fin c → ℝ) (ho : ∀ i, Measurable fun x => o x i) :
    let total := ∑ i, Real.negMulLog (∫ x, clsProb (o x) i ∂Q)
    let within := ∫ x, ∑ i, Real.negMulLog (clsProb (o x) i) ∂Q
    ∫ ω, aleatoricEntropy (outs split θ o n rng ω) ∂μ = within ∧
    within ≤ ∫ ω, entropy (outs split θ o n rng ω) ∂μ ∧
    ∫ ω, entropy (outs split θ o n rng ω) ∂μ ≤ total ∧
    0 ≤ ∫ ω, epistemicEntropy (outs split θ o n rng ω) ∂μ ∧
    ∫ ω, epistemicEntropy (outs split θ o n rng ω) ∂μ = ∫ ω, entropy (outs split θ o n rng ω) ∂μ - within ∧
    ∫ ω, epistemicEntropy (outs split θ o n rng ω) ∂μ ≤ total - within := by
  intro total within
  have hQ : IsProbabilityMeasure Q := have : Nonempty Key := ⟨rng⟩; prob_law D
  have hb : ∀ i x, 0 ≤ clsProb (o x) i ∧ clsProb (o x) i ≤ 1 := fun i x => ⟨(clsProb_mem _ i).1.le, (clsProb_mem _ i).2⟩
  have hH : Integrable (fun x => ∑ i, Real.negMulLog (clsProb (o x) i)) Q := by
    refine integrable_finsetSum _ fun i _ => (integrable_const (1 : ℝ)).mono'
      (Real.continuous_negMulLog.measurable.comp (measurable_clsProb ho i)).aestronglyMeasurable (ae_of_all _ fun x => ?_)
    exact negMulLog_mem (hb i x).1 (hb i x).2
  have hA : Integrable (fun ω => aleatoricEntropy (outs split θ o n rng ω)) μ := by
    simp only [aleatoricEntropy_avg split hn hc]
    exact integrable_avg D _ hH
  have hE' := fun i => integrable_negMulLog_avg D hn (fun j : Fin n => split rng n j) (measurable_clsProb ho i) (hb i)
  have hE : Integrable (fun ω => entropy (outs split θ o n rng ω)) μ := by
    simp only [entropy_avg split hn hc]
    exact integrable_finsetSum _ fun i _ => hE' i
  have eA : ∫ ω, aleatoricEntropy (outs split θ o n rng ω) ∂μ = within := by
    simp only [aleatoricEntropy_avg split hn hc]
    exact integral_avg D hn _ hH
  have eE : ∫ ω, entropy (outs split θ o n rng ω) ∂μ ≤ total := by
    simp only [entropy_avg split hn hc]
    rw [integral_finsetSum _ fun i _ => hE' i]
    refine Finset.sum_le_sum fun i _ => ?_
    have hI : Integrable (fun x => clsProb (o x) i) Q := (integrable_clsProb ho i (p := 2)).integrable one_le_two
    rw [← integral_avg D hn (fun j : Fin n => split rng n j) hI]
    exact Real.concaveOn_negMulLog.le_map_integral Real.continuous_negMulLog.continuousOn isClosed_Ici
      (ae_of_all _ fun ω => (avg_mem hn _ (hb i) ω).1) (integrable_avg D _ hI) (hE' i)
  have hle : within ≤ ∫ ω, entropy (outs split θ o n rng ω) ∂μ := by
    rw [← eA]
    exact integral_mono hA hE fun ω => (C46_range hn hc _).2.2.1
  have hd : ∀ ω, epistemicEntropy (outs split θ o n rng ω) = entropy (outs split θ o n rng ω) - aleatoricEntropy (outs split θ o n rng ω) :=
    fun ω => by rw [C46_decomposition]; ring
  have hS : ∫ ω, epistemicEntropy (outs split θ o n rng ω) ∂μ = ∫ ω, entropy (outs split θ o n rng ω) ∂μ - within := by
    simp only [hd]
    rw [integral_sub hE hA, eA]
  refine ⟨eA, hle, eE, integral_nonneg fun ω => (C46_range hn hc _).1, hS, ?_⟩
  rw [hS]
  linarith

omit D [IsProbabilityMeasure μ] in
/-- **C109, one sample.** With one posterior sample both the epistemic variance and the epistemic entropy are 0, whatever the posterior. -/
theorem C109_one_sample {c : ℕ} (hc : 0 < c) (rng : Key) (m : Θ → ℝ) (o : Θ → Fin c → ℝ) (ω : Ω) :
    epistemic split (fun k => m (θ k ω)) 1 rng = 0 ∧ epistemicEntropy (outs split θ o 1 rng ω) = 0 := by
  constructor
  · rw [epistemic_avg split one_pos]
    simp [avg]
  · refine C46_agree one_pos hc _ fun s t i => ?_
    rw [Subsingleton.elim s t]

/-- **C109, more samples.** With more posterior samples the average entropy and the average epistemic entropy do not decrease. -/
theorem C109_entropy_mono {n c : ℕ} (hn : 0 < n) (hc : 0 < c) (rng rng' : Key) (hs : SplitsApart split n rng)
    (hs' : SplitsApart split (n + 1) rng') (o : Θ → Fin c → ℝ) (ho : ∀ i, Measurable fun x => o x i) :
    ∫ ω, entropy (outs split θ o n rng ω) ∂μ ≤ ∫ ω, entropy (outs split θ o (n + 1) rng' ω) ∂μ ∧
    ∫ ω, epistemicEntropy (outs split θ o n rng ω) ∂μ ≤ ∫ ω, epistemicEntropy (outs split θ o (n + 1) rng' ω) ∂μ := by
  suffices h : ∫ ω, entropy (outs split θ o n rng ω) ∂μ ≤ ∫ ω, entropy (outs split θ o (n + 1) rng' ω) ∂μ by
    have h1 := (C109_entropies D split hn hc rng o ho).2.2.2.2.1
    have h2 := (C109_entropies D split (Nat.succ_pos n) hc rng' o ho).2.2.2.2.1
    exact ⟨h, by linarith⟩
  have hb : ∀ i x, 0 ≤ clsProb (o x) i ∧ clsProb (o x) i ≤ 1 := fun i x => ⟨(clsProb_mem _ i).1.le, (clsProb_mem _ i).2⟩
  simp only [entropy_avg split hn hc, entropy_avg split (Nat.succ_pos n) hc]
  rw [integral_finsetSum _ fun i _ => integrable_negMulLog_avg D hn _ (measurable_clsProb ho i) (hb i),
    integral_finsetSum _ fun i _ => integrable_negMulLog_avg D (Nat.succ_pos n) _ (measurable_clsProb ho i) (hb i)]
  refine Finset.sum_le_sum fun i _ => ?_
  exact concave_mono D Real.concaveOn_negMulLog Real.continuous_negMulLog.measurable (measurable_clsProb ho i) (fun x => (hb i x).1) hn _ _
    (keys_injective hs) (keys_injective hs') (fun ks => integrable_negMulLog_avg D hn ks (measurable_clsProb ho i) (hb i))
    (integrable_negMulLog_avg D (Nat.succ_pos n) _ (measurable_clsProb ho i) (hb i))

end statistics

/-! ### Examples -/

/-- Independent fair coins, one for every key. -/
noncomputable def coin : Measure Bool := (1 / 2 : ENNReal) • Measure.dirac true + (1 / 2 : ENNReal) • Measure.dirac false

instance : IsProbabilityMeasure coin := ⟨by
  simp [coin, ENNReal.inv_two_add_inv_two]⟩

theorem coin_draws : Draws (fun (k : ℕ) (ω : ℕ → Bool) => ω k) coin (Measure.infinitePi fun _ : ℕ => coin) where
  meas k := measurable_pi_apply k
  indep := iIndepFun_infinitePi (P := fun _ : ℕ => coin) (X := fun _ => id) fun _ => measurable_id
  law k := Measure.infinitePi_map_eval _ k

theorem pair_splits (n k : ℕ) : SplitsApart (fun k _ i => Nat.pair k i) n k := by
  intro i _ j _ h
  simpa using h

theorem integral_coin (f : Bool → ℝ) : ∫ x, f x ∂coin = (f true + f false) / 2 := by
  unfold coin
  rw [integral_add_measure (Integrable.of_finite.smul_measure (by simp)) (Integrable.of_finite.smul_measure (by simp)),
    integral_smul_measure, integral_smul_measure, integral_dirac, integral_dirac]
  simp
  ring

/-- A posterior that puts mass 1/2 on each of two models with likelihood means 0 and 2: the variance of the means is 1, but with `n` samples
the expected epistemic variance is `1 - 1/n`. -/
example (n : ℕ) (hn : 0 < n) :
    ∫ ω, epistemic (fun k _ i => Nat.pair k i) (fun k => if ω k then (2 : ℝ) else 0) n 0 ∂(Measure.infinitePi fun _ : ℕ => coin) = 1 - 1 / n := by
  have h := (C109_epistemic coin_draws (fun k _ i => Nat.pair k i) hn 0 (pair_splits n 0) (fun b => if b then (2 : ℝ) else 0)
    (measurable_of_finite _) (MemLp.of_discrete)).2
  rw [variance_eq_sub MemLp.of_discrete] at h
  simp only [Pi.pow_apply, integral_coin] at h
  norm_num at h ⊢
  exact h

/-- Two models that disagree: with 10000 samples both class probabilities are within 1/10 of their expectations
with probability at least 99/100. -/
example : (Measure.infinitePi fun _ : ℕ => coin) {ω | ∃ i : Fin 2, (1 / 10 : ℝ) ≤
      |predMean (fun k _ i => Nat.pair k i) (fun k => clsProb (fun j : Fin 2 => if (j = 0) = ω k then (3 : ℝ) else 0) i) 10000 0 -
        ∫ b, clsProb (fun j : Fin 2 => if (j = 0) = b then (3 : ℝ) else 0) i ∂coin|} ≤ ENNReal.ofReal (1 / 100) := by
  have h := C109_class_probs coin_draws (fun k _ i => Nat.pair k i) (n := 10000) (by norm_num) 0 (pair_splits _ 0)
    (fun b (j : Fin 2) => if (j = 0) = b then (3 : ℝ) else 0) (fun i => measurable_of_finite _) (1 / 10) (by norm_num)
  norm_num at h ⊢
  exact h

/-- Likelihoods 1 and 1/2: with any number of samples the predictive log-probability is on average below `log (3/4)`. -/
example (n : ℕ) (hn : 0 < n) :
    ∫ ω, lpOf (fun k _ i => Nat.pair k i) (fun (k : ℕ) (ω : ℕ → Bool) => ω k) (fun b => if b then 0 else Real.log (1 / 2)) n 0 ω
      ∂(Measure.infinitePi fun _ : ℕ => coin) < Real.log (3 / 4) := by
  have h := C109_log_prob_unbiased_false coin_draws (fun k _ i => Nat.pair k i) hn 0 (pair_splits n 0)
    (fun b => if b then 0 else Real.log (1 / 2)) (measurable_of_finite _) Integrable.of_finite MemLp.of_discrete (by
      rw [variance_eq_sub MemLp.of_discrete]
      simp only [Pi.pow_apply, integral_coin]
      norm_num [Real.exp_neg, Real.exp_log])
  simp only [integral_coin] at h
  norm_num [Real.exp_neg, Real.exp_log] at h ⊢
  exact h

/-! ### Concrete cases that meet the hypotheses of the theorems above -/

example := C109_mean coin_draws (fun k _ i => Nat.pair k i) (n := 3) (by decide) 0 (pair_splits 3 0) (fun b => if b then 2 else 0)
  (measurable_of_finite _) MemLp.of_discrete
example := C109_aleatoric coin_draws (fun k _ i => Nat.pair k i) (n := 3) (by decide) 0 (pair_splits 3 0) (fun b => if b then 2 else 0)
  (measurable_of_finite _) MemLp.of_discrete
example := C109_variance coin_draws (fun k _ i => Nat.pair k i) (n := 3) (by decide) 0 (pair_splits 3 _) (fun b => if b then 2 else 0)
  (fun b => if b then 1 else 3) (measurable_of_finite _) MemLp.of_discrete Integrable.of_finite
example := C109_prob coin_draws (fun k _ i => Nat.pair k i) (n := 3) (by decide) 0 (pair_splits 3 0) (fun b => if b then -2 else 0)
  (measurable_of_finite _) MemLp.of_discrete
example := C109_log_prob coin_draws (fun k _ i => Nat.pair k i) (n := 3) (by decide) 0 (fun b => if b then -2 else 0)
  (measurable_of_finite _) Integrable.of_finite Integrable.of_finite
example := C109_log_prob_mono coin_draws (fun k _ i => Nat.pair k i) (n := 3) (by decide) 0 1 (pair_splits 3 0) (pair_splits 4 1)
  (fun b => if b then -2 else 0) (measurable_of_finite _) Integrable.of_finite Integrable.of_finite
example := C109_entropies coin_draws (fun k _ i => Nat.pair k i) (n := 3) (c := 2) (by decide) (by decide) 0
  (fun b i => if b then (i : ℝ) else 0) (fun _ => measurable_of_finite _)
example := C109_one_sample (θ := fun (k : ℕ) (ω : ℕ → Bool) => ω k) (fun k _ i => Nat.pair k i) (c := 2) (by decide) 0
  (fun b => if b then 2 else 0) (fun b i => if b then (i : ℝ) else 0) (fun _ => true)

end Verif.Props.MonteCarlo
