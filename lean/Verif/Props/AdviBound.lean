import Verif.Props.GaussLaw
import Verif.Props.MapLaw
import Mathlib.Analysis.Convex.Extrema
import Mathlib.Analysis.Convex.Continuous
import Mathlib.Analysis.Convex.Integral
import Mathlib.Analysis.Convex.SpecificFunctions.Basic
import Mathlib.MeasureTheory.Integral.Pi
import Mathlib.Probability.Independence.InfinitePi
import Mathlib.Probability.Moments.SubGaussian
import Mathlib.MeasureTheory.Measure.LogLikelihoodRatio
import Mathlib.InformationTheory.KullbackLeibler.Basic

/-!
# C155: ADVI on any posterior
-/
set_option linter.unusedSectionVars false

namespace Verif.Props.AdviBound

open Verif.GaussPost Verif.Props Verif.Props.GaussLaw MeasureTheory ProbabilityTheory Finset Filter Topology

variable {ι : Type} [Fintype ι] {Ω : Type} [MeasurableSpace Ω]

/-- The approximate posterior: independent normals with the means and the standard deviations `exp(log_std) * exp(log_std_base)`. -/
noncomputable def approx (b : ℝ) (mean logStd : ι → ℝ) : Measure (ι → ℝ) :=
  Measure.pi fun i => gaussianReal (mean i) (Real.toNNReal ((Real.exp (logStd i) * Real.exp b) ^ 2))

instance (b : ℝ) (mean logStd : ι → ℝ) : IsProbabilityMeasure (approx b mean logStd) := by unfold approx; infer_instance

theorem pi_density (m : ι → ℝ) (v : ι → NNReal) (hv : ∀ i, v i ≠ 0) :
    Measure.pi (fun i => gaussianReal (m i) (v i)) = (volume : Measure (ι → ℝ)).withDensity fun x => ENNReal.ofReal (∏ i, gaussianPDFReal (m i) (v i) (x i)) := by
  refine Measure.pi_eq fun s hs => ?_
  rw [withDensity_apply _ (.univ_pi hs)]
  have hind : ∀ x : ι → ℝ, (Set.univ.pi s).indicator (fun x => ∏ i, gaussianPDFReal (m i) (v i) (x i)) x = ∏ i, (s i).indicator (gaussianPDFReal (m i) (v i)) (x i) := fun x => by
    by_cases h : x ∈ Set.univ.pi s
    · rw [Set.indicator_of_mem h]
      exact prod_congr rfl fun i _ => (Set.indicator_of_mem (h i (Set.mem_univ i)) _).symm
    · rw [Set.indicator_of_notMem h]
      have : ∃ i, x i ∉ s i := by
        by_contra h0
        push Not at h0
        exact h fun i _ => h0 i
      obtain ⟨i, hi⟩ := this
      exact (prod_eq_zero (mem_univ i) (Set.indicator_of_notMem hi _)).symm
  have hint : Integrable (fun x : ι → ℝ => ∏ i, gaussianPDFReal (m i) (v i) (x i)) :=
    Integrable.fintype_prod (f := fun i => gaussianPDFReal (m i) (v i)) fun i => integrable_gaussianPDFReal _ _
  rw [← ofReal_integral_eq_lintegral_ofReal hint.integrableOn (ae_of_all _ fun x => prod_nonneg fun i _ => gaussianPDFReal_nonneg _ _ _), ← integral_indicator (.univ_pi hs)]
  simp only [hind]
  rw [integral_fintype_prod_volume_eq_prod (fun i => (s i).indicator (gaussianPDFReal (m i) (v i))), ENNReal.ofReal_prod_of_nonneg fun i _ => integral_nonneg fun x =>
    Set.indicator_nonneg (fun _ _ => gaussianPDFReal_nonneg _ _ _) _]
  refine prod_congr rfl fun i _ => ?_
  rw [gaussianReal_apply_eq_integral _ (hv i), integral_indicator (hs i)]

theorem approx_density (b : ℝ) (mean logStd : ι → ℝ) : approx b mean logStd =
    (volume : Measure (ι → ℝ)).withDensity fun x => ENNReal.ofReal (Real.exp (diagLogProb mean (fun i => Real.exp (logStd i) * Real.exp b) x)) := by
  unfold approx
  rw [pi_density]
  · congr 1
    funext x
    rw [C76_gaussian mean _ x fun i => by positivity]
  · intro i h
    rw [Real.toNNReal_eq_zero] at h
    have : 0 < (Real.exp (logStd i) * Real.exp b) ^ 2 := by positivity
    linarith

theorem affine_law (m c : ℝ) : (gaussianReal 0 1).map (fun x => m + c * x) = gaussianReal m (Real.toNNReal (c ^ 2)) := by
  have h1 : (fun x : ℝ => m + c * x) = (m + ·) ∘ (c * ·) := rfl
  rw [h1, ← Measure.map_map (by fun_prop) (by fun_prop), gaussianReal_map_const_mul, gaussianReal_map_const_add, mul_zero, zero_add, mul_one]
  congr 1
  ext
  rw [Real.coe_toNNReal _ (sq_nonneg c)]
  rfl

theorem approx_law (μ : Measure Ω) [IsProbabilityMeasure μ] (Z : ι → Ω → ℝ) (hm : ∀ k, Measurable (Z k)) (hi : iIndepFun Z μ) (hl : ∀ k, μ.map (Z k) = gaussianReal 0 1)
    (b : ℝ) (mean logStd : ι → ℝ) : μ.map (fun ω i => mean i + Real.exp (logStd i) * Real.exp b * Z i ω) = approx b mean logStd := by
  have h1 := hi.comp (fun i x => mean i + Real.exp (logStd i) * Real.exp b * x) fun i => by fun_prop
  have h2 := (iIndepFun_iff_map_fun_eq_pi_map (f := fun i ω => mean i + Real.exp (logStd i) * Real.exp b * Z i ω) (μ := μ)
    fun i => ((measurable_const.add ((hm i).const_mul _))).aemeasurable).1 h1
  rw [h2]
  unfold approx
  congr 1
  funext i
  have h3 : (fun ω => mean i + Real.exp (logStd i) * Real.exp b * Z i ω) = (fun x => mean i + Real.exp (logStd i) * Real.exp b * x) ∘ Z i := rfl
  rw [h3, ← Measure.map_map (by fun_prop) (hm i), hl, affine_law]

/-- **C155, the loss.** Whatever the number of base samples, the expected loss is the average of the negative log-joint under the approximate posterior minus the sum of the log-standard deviations. -/
theorem C155_loss {N : ℕ} (hN : 0 < N) (μ : Measure Ω) [IsProbabilityMeasure μ] (Z : Fin N × ι → Ω → ℝ) (hm : ∀ k, Measurable (Z k)) (hi : iIndepFun Z μ)
    (hl : ∀ k, μ.map (Z k) = gaussianReal 0 1) (F : (ι → ℝ) → ℝ) (b : ℝ) (mean logStd : ι → ℝ) (hF : Integrable F (approx b mean logStd)) :
    expectedLoss μ Z F b mean logStd = ∫ θ, F θ ∂(approx b mean logStd) - ∑ i, logStd i := by
  have hN' : (N : ℝ) ≠ 0 := by exact_mod_cast hN.ne'
  have hlaw : ∀ s : Fin N, μ.map (fun ω i => mean i + Real.exp (logStd i) * Real.exp b * Z (s, i) ω) = approx b mean logStd := fun s =>
    approx_law μ (fun i => Z (s, i)) (fun i => hm _) (hi.precomp (g := fun i => (s, i)) fun a b h => (Prod.mk.inj h).2) (fun i => hl _) b mean logStd
  have hmeas : ∀ s : Fin N, AEMeasurable (fun ω i => mean i + Real.exp (logStd i) * Real.exp b * Z (s, i) ω) μ := fun s =>
    (measurable_pi_lambda _ fun i => measurable_const.add ((hm (s, i)).const_mul _)).aemeasurable
  have hint : ∀ s : Fin N, Integrable (fun ω => F fun i => mean i + Real.exp (logStd i) * Real.exp b * Z (s, i) ω) μ := fun s => by
    have := hF
    rw [← hlaw s] at this
    exact this.comp_aemeasurable (hmeas s)
  have hval : ∀ s : Fin N, ∫ ω, F (fun i => mean i + Real.exp (logStd i) * Real.exp b * Z (s, i) ω) ∂μ = ∫ θ, F θ ∂(approx b mean logStd) := fun s => by
    rw [← hlaw s, integral_map (hmeas s)]
    rw [hlaw s]
    exact hF.aestronglyMeasurable
  unfold expectedLoss adviLoss meanOver
  have e : ∀ ω, (∑ s : Fin N, F (adviForward mean logStd (diagSample (fun _ => 0) (baseStd b) fun i => Z (s, i) ω)).1) / (N : ℝ) -
      (∑ s : Fin N, (adviForward mean logStd (diagSample (fun _ => 0) (baseStd b) fun i => Z (s, i) ω)).2) / (N : ℝ) =
      (∑ s : Fin N, F fun i => mean i + Real.exp (logStd i) * Real.exp b * Z (s, i) ω) / N - ∑ i, logStd i := fun ω => by
    have h1 : ∀ s : Fin N, (adviForward mean logStd (diagSample (fun _ => 0) (baseStd b) fun i => Z (s, i) ω)).1 =
        fun i => mean i + Real.exp (logStd i) * Real.exp b * Z (s, i) ω := fun s => by
      funext i
      rw [C76_push]
    simp only [h1]
    simp only [adviForward, sum_const, card_univ, Fintype.card_fin, nsmul_eq_mul]
    rw [mul_div_cancel_left₀ _ hN']
  simp only [e]
  rw [integral_sub ((integrable_finsetSum _ fun s _ => hint s).div_const _) (integrable_const _), integral_div, integral_finsetSum _ fun s _ => hint s]
  simp only [hval, sum_const, card_univ, Fintype.card_fin, nsmul_eq_mul, integral_const, probReal_univ, one_smul]
  field_simp

theorem coord_moments (b : ℝ) (mean logStd : ι → ℝ) (i : ι) :
    Integrable (fun θ : ι → ℝ => (θ i - mean i) ^ 2) (approx b mean logStd) ∧ ∫ θ, (θ i - mean i) ^ 2 ∂(approx b mean logStd) = (Real.exp (logStd i) * Real.exp b) ^ 2 := by
  classical
  have hp : MeasurePreserving (fun θ : ι → ℝ => θ i) (approx b mean logStd) (gaussianReal (mean i) (Real.toNNReal ((Real.exp (logStd i) * Real.exp b) ^ 2))) := measurePreserving_eval _ i
  have hL : MemLp id 2 (gaussianReal (mean i) (Real.toNNReal ((Real.exp (logStd i) * Real.exp b) ^ 2))) := memLp_id_gaussianReal 2
  have h1 : Integrable (fun x : ℝ => (x - mean i) ^ 2) (gaussianReal (mean i) (Real.toNNReal ((Real.exp (logStd i) * Real.exp b) ^ 2))) := (hL.sub (memLp_const (mean i))).integrable_sq
  refine ⟨hp.integrable_comp_of_integrable h1, ?_⟩
  have h2 := variance_id_gaussianReal (μ := mean i) (v := Real.toNNReal ((Real.exp (logStd i) * Real.exp b) ^ 2))
  rw [variance_eq_integral aemeasurable_id] at h2
  simp only [id_eq, integral_id_gaussianReal] at h2
  rw [Real.coe_toNNReal _ (sq_nonneg _)] at h2
  rw [← h2, ← hp.map_eq, integral_map hp.measurable.aemeasurable (by fun_prop)]

theorem logq_moment (b : ℝ) (mean logStd : ι → ℝ) :
    Integrable (diagLogProb mean fun i => Real.exp (logStd i) * Real.exp b) (approx b mean logStd) ∧
    ∫ θ, diagLogProb mean (fun i => Real.exp (logStd i) * Real.exp b) θ ∂(approx b mean logStd) = -∑ i, logStd i - Fintype.card ι * (b + (1 + Real.log (2 * Real.pi)) / 2) := by
  have hterm : ∀ (i : ι) (θ : ι → ℝ), normLogpdf (θ i) (mean i) (Real.exp (logStd i) * Real.exp b) =
      (θ i - mean i) ^ 2 * (-1 / (2 * (Real.exp (logStd i) * Real.exp b) ^ 2)) + (-(Real.log (2 * Real.pi) / 2) - (logStd i + b)) := fun i θ => by
    unfold normLogpdf
    rw [← Real.exp_add, Real.log_exp, Real.exp_add]
    field_simp
    ring
  have hI : ∀ i, Integrable (fun θ : ι → ℝ => (θ i - mean i) ^ 2 * (-1 / (2 * (Real.exp (logStd i) * Real.exp b) ^ 2)) + (-(Real.log (2 * Real.pi) / 2) - (logStd i + b))) (approx b mean logStd) :=
    fun i => ((coord_moments b mean logStd i).1.mul_const _).add (integrable_const _)
  have e : diagLogProb mean (fun i => Real.exp (logStd i) * Real.exp b) =
      fun θ => ∑ i, ((θ i - mean i) ^ 2 * (-1 / (2 * (Real.exp (logStd i) * Real.exp b) ^ 2)) + (-(Real.log (2 * Real.pi) / 2) - (logStd i + b))) := by
    funext θ
    unfold diagLogProb
    exact sum_congr rfl fun i _ => hterm i θ
  rw [e]
  refine ⟨integrable_finsetSum _ fun i _ => hI i, ?_⟩
  rw [integral_finsetSum _ fun i _ => hI i]
  have hv : ∀ i, ∫ θ : ι → ℝ, ((θ i - mean i) ^ 2 * (-1 / (2 * (Real.exp (logStd i) * Real.exp b) ^ 2)) + (-(Real.log (2 * Real.pi) / 2) - (logStd i + b))) ∂(approx b mean logStd) =
      -logStd i - (b + (1 + Real.log (2 * Real.pi)) / 2) := fun i => by
    rw [integral_add ((coord_moments b mean logStd i).1.mul_const _) (integrable_const _), integral_mul_const, (coord_moments b mean logStd i).2]
    simp only [integral_const, probReal_univ, one_smul]
    have : (Real.exp (logStd i) * Real.exp b) ^ 2 ≠ 0 := by positivity
    field_simp
    ring
  simp only [hv, sum_sub_distrib, sum_neg_distrib, sum_const, card_univ, nsmul_eq_mul]

/-- **C155, the bound.** The expected loss is at least minus the logarithm of the evidence, up to a constant that depends on the number of parameters and the base only. It is equal to it
exactly if the approximate posterior is the posterior. -/
theorem C155_bound {N : ℕ} (hN : 0 < N) (μ : Measure Ω) [IsProbabilityMeasure μ] (Z : Fin N × ι → Ω → ℝ) (hm : ∀ k, Measurable (Z k)) (hi : iIndepFun Z μ)
    (hl : ∀ k, μ.map (Z k) = gaussianReal 0 1) (F : (ι → ℝ) → ℝ) (b : ℝ) (mean logStd : ι → ℝ) (hF : Integrable F (approx b mean logStd)) (hev : Integrable fun θ => Real.exp (-F θ)) :
    -Real.log (∫ θ, Real.exp (-F θ)) + Fintype.card ι * (b + (1 + Real.log (2 * Real.pi)) / 2) ≤ expectedLoss μ Z F b mean logStd ∧
    (expectedLoss μ Z F b mean logStd = -Real.log (∫ θ, Real.exp (-F θ)) + Fintype.card ι * (b + (1 + Real.log (2 * Real.pi)) / 2) ↔
      ∀ᵐ θ, Real.exp (-F θ) / (∫ θ, Real.exp (-F θ)) = Real.exp (diagLogProb mean (fun i => Real.exp (logStd i) * Real.exp b) θ)) := by
  set Q := approx b mean logStd with hQ
  set lq := diagLogProb mean fun i => Real.exp (logStd i) * Real.exp b with hlq
  obtain ⟨hqI, hqV⟩ := logq_moment b mean logStd
  have hlqm : Measurable lq := by
    rw [hlq]
    unfold diagLogProb normLogpdf
    fun_prop
  have hden := approx_density b mean logStd
  have hdm : Measurable fun θ => ENNReal.ofReal (Real.exp (lq θ)) := by fun_prop
  have hev0 : 0 < ∫ θ, Real.exp (-F θ) := integral_exp_pos hev
  have hg : Integrable (fun θ => -F θ - lq θ) Q := hF.neg.sub hqI
  have hw : ∀ f : (ι → ℝ) → ℝ, ∫ θ, f θ ∂Q = ∫ θ, Real.exp (lq θ) * f θ := fun f => by
    rw [hQ, hden, integral_withDensity_eq_integral_toReal_smul hdm (ae_of_all _ fun _ => ENNReal.ofReal_lt_top)]
    refine integral_congr_ae (ae_of_all _ fun θ => ?_)
    simp only [smul_eq_mul]
    rw [ENNReal.toReal_ofReal (Real.exp_pos _).le]
  have hcancel : ∀ θ, Real.exp (lq θ) * Real.exp (-F θ - lq θ) = Real.exp (-F θ) := fun θ => by
    rw [← Real.exp_add]
    congr 1
    ring
  have hgE : Integrable (fun θ => Real.exp (-F θ - lq θ)) Q := by
    rw [hQ, hden, integrable_withDensity_iff_integrable_smul' hdm (ae_of_all _ fun _ => ENNReal.ofReal_lt_top)]
    refine hev.congr (ae_of_all _ fun θ => ?_)
    simp only [smul_eq_mul]
    rw [ENNReal.toReal_ofReal (Real.exp_pos _).le, hcancel]
  have hE : ∫ θ, Real.exp (-F θ - lq θ) ∂Q = ∫ θ, Real.exp (-F θ) := by
    rw [hw]
    simp only [hcancel]
  have hloss : ∫ θ, (-F θ - lq θ) ∂Q = -(expectedLoss μ Z F b mean logStd) + Fintype.card ι * (b + (1 + Real.log (2 * Real.pi)) / 2) := by
    have h0 := integral_sub hF.neg hqI
    simp only [Pi.neg_apply] at h0
    rw [C155_loss hN μ Z hm hi hl F b mean logStd hF]
    refine h0.trans ?_
    rw [integral_neg, hqV]
    ring
  have hjen : Real.exp (∫ θ, (-F θ - lq θ) ∂Q) ≤ ∫ θ, Real.exp (-F θ - lq θ) ∂Q :=
    convexOn_exp.map_integral_le Real.continuous_exp.continuousOn isClosed_univ (ae_of_all _ fun _ => Set.mem_univ _) hg hgE
  refine ⟨?_, fun heq => ?_, fun hae => ?_⟩
  · rw [hE] at hjen
    have := (Real.le_log_iff_exp_le hev0).2 hjen
    rw [hloss] at this
    linarith
  · have h1 : ∫ θ, (-F θ - lq θ) ∂Q = Real.log (∫ θ, Real.exp (-F θ)) := by rw [hloss, heq]; ring
    have h2 := strictConvexOn_exp.ae_eq_const_or_map_average_lt Real.continuous_exp.continuousOn isClosed_univ (μ := Q) (ae_of_all _ fun _ => Set.mem_univ _) hg hgE
    rw [average_eq_integral, average_eq_integral, hE, h1, Real.exp_log hev0] at h2
    rcases h2 with h2 | h2
    · rw [hQ, hden] at h2
      have h3 := (ae_withDensity_iff hdm).1 h2
      filter_upwards [h3] with θ hθ
      have h4 := hθ (by simp [Real.exp_pos])
      simp only [Function.const_apply] at h4
      rw [div_eq_iff hev0.ne', ← Real.exp_log hev0, ← Real.exp_add]
      congr 1
      linarith
    · exact absurd h2 (lt_irrefl _)
  · have h1 : ∀ᵐ θ ∂Q, -F θ - lq θ = Real.log (∫ θ, Real.exp (-F θ)) := by
      rw [hQ, hden, ae_withDensity_iff hdm]
      filter_upwards [hae] with θ hθ _
      rw [div_eq_iff hev0.ne'] at hθ
      have := congrArg Real.log hθ
      rw [Real.log_exp, Real.log_mul (Real.exp_pos _).ne' hev0.ne', Real.log_exp] at this
      linarith
    have h2 : ∫ θ, (-F θ - lq θ) ∂Q = Real.log (∫ θ, Real.exp (-F θ)) := by
      rw [integral_congr_ae h1]
      simp
    rw [hloss] at h2
    linarith

/-! ## Log-concave posteriors -/

/-- Independent standard normals. -/
noncomputable def noise : Measure (ι → ℝ) := Measure.pi fun _ => gaussianReal 0 1

instance : IsProbabilityMeasure (noise : Measure (ι → ℝ)) := by unfold noise; infer_instance

/-- The expected loss as a function of means and standard deviations. -/
noncomputable def lossAt (F : (ι → ℝ) → ℝ) (b : ℝ) (p : (ι → ℝ) × (ι → ℝ)) : ℝ := ∫ z, F (fun i => p.1 i + p.2 i * Real.exp b * z i) ∂noise - ∑ i, Real.log (p.2 i)

theorem noise_map (b : ℝ) (mean logStd : ι → ℝ) : noise.map (fun z i => mean i + Real.exp (logStd i) * Real.exp b * z i) = approx b mean logStd := by
  unfold noise approx
  have h1 : ∀ i : ι, (gaussianReal 0 1).map (fun x => mean i + Real.exp (logStd i) * Real.exp b * x) = gaussianReal (mean i) (Real.toNNReal ((Real.exp (logStd i) * Real.exp b) ^ 2)) :=
    fun i => affine_law _ _
  have : ∀ i : ι, SigmaFinite ((gaussianReal 0 1).map (fun x => mean i + Real.exp (logStd i) * Real.exp b * x)) := fun i => by rw [h1]; infer_instance
  rw [Measure.pi_map_pi (f := fun i x => mean i + Real.exp (logStd i) * Real.exp b * x) fun i => by fun_prop]
  simp only [h1]

theorem noise_meas (b : ℝ) (mean logStd : ι → ℝ) : AEMeasurable (fun (z : ι → ℝ) i => mean i + Real.exp (logStd i) * Real.exp b * z i) noise := by
  refine Measurable.aemeasurable (measurable_pi_lambda _ fun i => ?_)
  fun_prop

theorem lossAt_eq {N : ℕ} (hN : 0 < N) (μ : Measure Ω) [IsProbabilityMeasure μ] (Z : Fin N × ι → Ω → ℝ) (hm : ∀ k, Measurable (Z k)) (hi : iIndepFun Z μ)
    (hl : ∀ k, μ.map (Z k) = gaussianReal 0 1) (F : (ι → ℝ) → ℝ) (b : ℝ) (mean logStd : ι → ℝ) (hF : Integrable F (approx b mean logStd)) :
    expectedLoss μ Z F b mean logStd = lossAt F b (mean, fun i => Real.exp (logStd i)) := by
  rw [C155_loss hN μ Z hm hi hl F b mean logStd hF]
  unfold lossAt
  simp only [Real.log_exp]
  congr 1
  rw [← noise_map, integral_map (noise_meas b mean logStd)]
  rw [noise_map]
  exact hF.aestronglyMeasurable

theorem shift_integrable (F : (ι → ℝ) → ℝ) (b : ℝ) (hF : ∀ mean logStd, Integrable F (approx b mean logStd)) (m σ : ι → ℝ) (hσ : ∀ i, 0 < σ i) :
    Integrable (fun z : ι → ℝ => F fun i => m i + σ i * Real.exp b * z i) noise := by
  have h1 := hF m fun i => Real.log (σ i)
  rw [← noise_map] at h1
  have h2 := h1.comp_aemeasurable (noise_meas b m fun i => Real.log (σ i))
  simpa only [Function.comp_def, Real.exp_log (hσ _)] using h2

theorem average_convex (F : (ι → ℝ) → ℝ) (b : ℝ) (hF : ∀ mean logStd, Integrable F (approx b mean logStd)) (hc : ConvexOn ℝ Set.univ F) (p q : (ι → ℝ) × (ι → ℝ))
    (hp : ∀ i, 0 < p.2 i) (hq : ∀ i, 0 < q.2 i) (α β : ℝ) (hα : 0 ≤ α) (hβ : 0 ≤ β) (h1 : α + β = 1) :
    ∫ z, F (fun i => (α • p + β • q).1 i + (α • p + β • q).2 i * Real.exp b * z i) ∂noise ≤
      α * ∫ z, F (fun i => p.1 i + p.2 i * Real.exp b * z i) ∂noise + β * ∫ z, F (fun i => q.1 i + q.2 i * Real.exp b * z i) ∂noise := by
  have hpq : ∀ i, 0 < (α • p + β • q).2 i := fun i => by
    simp only [Prod.snd_add, Prod.smul_snd, Pi.add_apply, Pi.smul_apply, smul_eq_mul]
    rcases hα.eq_or_lt with h | h
    · have : β = 1 := by linarith
      rw [← h, this]
      simpa using hq i
    · have := mul_pos h (hp i)
      have := mul_nonneg hβ (hq i).le
      linarith
  have ip := shift_integrable F b hF p.1 p.2 hp
  have iq := shift_integrable F b hF q.1 q.2 hq
  rw [← integral_const_mul, ← integral_const_mul, ← integral_add (ip.const_mul α) (iq.const_mul β)]
  refine integral_mono (shift_integrable F b hF _ _ hpq) ((ip.const_mul α).add (iq.const_mul β)) fun z => ?_
  have := hc.2 (Set.mem_univ fun i => p.1 i + p.2 i * Real.exp b * z i) (Set.mem_univ fun i => q.1 i + q.2 i * Real.exp b * z i) hα hβ h1
  simp only [smul_eq_mul] at this
  refine le_trans (le_of_eq ?_) this
  congr 1
  funext i
  simp only [Prod.fst_add, Prod.snd_add, Prod.smul_fst, Prod.smul_snd, Pi.add_apply, Pi.smul_apply, smul_eq_mul]
  ring

theorem lossAt_convex (F : (ι → ℝ) → ℝ) (b : ℝ) (hF : ∀ mean logStd, Integrable F (approx b mean logStd)) (hc : ConvexOn ℝ Set.univ F) :
    ConvexOn ℝ {p : (ι → ℝ) × (ι → ℝ) | ∀ i, 0 < p.2 i} (lossAt F b) := by
  have hS : Convex ℝ {p : (ι → ℝ) × (ι → ℝ) | ∀ i, 0 < p.2 i} := fun p hp q hq α β hα hβ h1 i => by
    have := (convex_Ioi (0 : ℝ)) (hp i) (hq i) hα hβ h1
    simpa using this
  refine ⟨hS, fun p hp q hq α β hα hβ h1 => ?_⟩
  have hA := average_convex F b hF hc p q hp hq α β hα hβ h1
  have hlog : α * ∑ i, Real.log (p.2 i) + β * ∑ i, Real.log (q.2 i) ≤ ∑ i, Real.log ((α • p + β • q).2 i) := by
    rw [mul_sum, mul_sum, ← sum_add_distrib]
    refine sum_le_sum fun i _ => ?_
    have := strictConcaveOn_log_Ioi.concaveOn.2 (Set.mem_Ioi.2 (hp i)) (Set.mem_Ioi.2 (hq i)) hα hβ h1
    simpa using this
  unfold lossAt
  simp only [smul_eq_mul, mul_sub]
  linarith

/-- **C155, log-concave posteriors.** If the log-joint is concave, every local minimum of the expected loss in the means and log-standard deviations is a global one. -/
theorem C155_local {N : ℕ} (hN : 0 < N) (μ : Measure Ω) [IsProbabilityMeasure μ] (Z : Fin N × ι → Ω → ℝ) (hm : ∀ k, Measurable (Z k)) (hi : iIndepFun Z μ)
    (hl : ∀ k, μ.map (Z k) = gaussianReal 0 1) (F : (ι → ℝ) → ℝ) (b : ℝ) (hF : ∀ mean logStd, Integrable F (approx b mean logStd)) (hc : ConvexOn ℝ Set.univ F)
    (mean logStd : ι → ℝ) (hmin : IsLocalMin (fun p : (ι → ℝ) × (ι → ℝ) => expectedLoss μ Z F b p.1 p.2) (mean, logStd)) (mean' logStd' : ι → ℝ) :
    expectedLoss μ Z F b mean logStd ≤ expectedLoss μ Z F b mean' logStd' := by
  have heq : ∀ m l : ι → ℝ, expectedLoss μ Z F b m l = lossAt F b (m, fun i => Real.exp (l i)) := fun m l => lossAt_eq hN μ Z hm hi hl F b m l (hF m l)
  set S := {p : (ι → ℝ) × (ι → ℝ) | ∀ i, 0 < p.2 i} with hS
  have hcont : ContinuousAt (fun p : (ι → ℝ) × (ι → ℝ) => (p.1, fun i => Real.log (p.2 i))) (mean, fun i => Real.exp (logStd i)) := by
    refine ContinuousAt.prodMk continuousAt_fst (continuousAt_pi.2 fun i => ?_)
    exact ContinuousAt.log ((continuous_apply i).comp continuous_snd).continuousAt (Real.exp_pos _).ne'
  have hloc : IsLocalMinOn (lossAt F b) S (mean, fun i => Real.exp (logStd i)) := by
    have h1 : (fun i => Real.log (Real.exp (logStd i))) = logStd := funext fun i => Real.log_exp _
    have h2 : ∀ᶠ p in 𝓝 (mean, fun i => Real.exp (logStd i)), expectedLoss μ Z F b mean logStd ≤ expectedLoss μ Z F b p.1 fun i => Real.log (p.2 i) := by
      have := hcont.tendsto
      simp only [h1] at this
      exact this.eventually hmin
    filter_upwards [mem_nhdsWithin_of_mem_nhds h2, self_mem_nhdsWithin] with p hp hpS
    have hp' : expectedLoss μ Z F b mean logStd ≤ expectedLoss μ Z F b p.1 fun i => Real.log (p.2 i) := hp
    rw [heq, heq] at hp'
    have h3 : (fun i => Real.exp (Real.log (p.2 i))) = p.2 := funext fun i => Real.exp_log (hpS i)
    rwa [h3] at hp'
  have hglob := IsMinOn.of_isLocalMinOn_of_convexOn (a := (mean, fun i => Real.exp (logStd i))) (show _ ∈ S from fun i => Real.exp_pos _) hloc (lossAt_convex F b hF hc)
  rw [heq, heq]
  exact hglob (show (mean', fun i => Real.exp (logStd' i)) ∈ S from fun i => Real.exp_pos _)

/-- **C155, one spread.** If the log-joint is concave, any two minima have the same standard deviations. -/
theorem C155_unique {N : ℕ} (hN : 0 < N) (μ : Measure Ω) [IsProbabilityMeasure μ] (Z : Fin N × ι → Ω → ℝ) (hm : ∀ k, Measurable (Z k)) (hi : iIndepFun Z μ)
    (hl : ∀ k, μ.map (Z k) = gaussianReal 0 1) (F : (ι → ℝ) → ℝ) (b : ℝ) (hF : ∀ mean logStd, Integrable F (approx b mean logStd)) (hc : ConvexOn ℝ Set.univ F)
    (m l m' l' : ι → ℝ) (h1 : ∀ m₀ l₀, expectedLoss μ Z F b m l ≤ expectedLoss μ Z F b m₀ l₀) (h2 : ∀ m₀ l₀, expectedLoss μ Z F b m' l' ≤ expectedLoss μ Z F b m₀ l₀) : l = l' := by
  have heq : ∀ m l : ι → ℝ, expectedLoss μ Z F b m l = lossAt F b (m, fun i => Real.exp (l i)) := fun m l => lossAt_eq hN μ Z hm hi hl F b m l (hF m l)
  by_contra hne
  have hex : ∃ i, l i ≠ l' i := by
    by_contra h0
    push Not at h0
    exact hne (funext h0)
  obtain ⟨j, hj⟩ := hex
  have hpos : ∀ l : ι → ℝ, ∀ i, 0 < Real.exp (l i) := fun l i => Real.exp_pos _
  have hA := average_convex F b hF hc (m, fun i => Real.exp (l i)) (m', fun i => Real.exp (l' i)) (hpos l) (hpos l') (1 / 2) (1 / 2) (by norm_num) (by norm_num) (by norm_num)
  have hlog : 1 / 2 * ∑ i, l i + 1 / 2 * ∑ i, l' i < ∑ i, Real.log (1 / 2 * Real.exp (l i) + 1 / 2 * Real.exp (l' i)) := by
    rw [mul_sum, mul_sum, ← sum_add_distrib]
    refine sum_lt_sum (fun i _ => ?_) ⟨j, mem_univ j, ?_⟩
    · have := strictConcaveOn_log_Ioi.concaveOn.2 (Set.mem_Ioi.2 (hpos l i)) (Set.mem_Ioi.2 (hpos l' i)) (show (0 : ℝ) ≤ 1 / 2 by norm_num) (show (0 : ℝ) ≤ 1 / 2 by norm_num) (by norm_num)
      simpa only [smul_eq_mul, Real.log_exp] using this
    · have := strictConcaveOn_log_Ioi.2 (Set.mem_Ioi.2 (hpos l j)) (Set.mem_Ioi.2 (hpos l' j)) (fun h => hj (Real.exp_injective h)) (show (0 : ℝ) < 1 / 2 by norm_num) (show (0 : ℝ) < 1 / 2 by norm_num) (by norm_num)
      simpa only [smul_eq_mul, Real.log_exp] using this
  set q : (ι → ℝ) × (ι → ℝ) := (1 / 2 : ℝ) • (m, fun i => Real.exp (l i)) + (1 / 2 : ℝ) • (m', fun i => Real.exp (l' i)) with hq
  have hq2 : ∀ i, q.2 i = 1 / 2 * Real.exp (l i) + 1 / 2 * Real.exp (l' i) := fun i => by simp [hq]
  have hq0 : ∀ i, 0 < q.2 i := fun i => by
    rw [hq2]
    have := hpos l i
    have := hpos l' i
    linarith
  have hqe : lossAt F b q = expectedLoss μ Z F b q.1 fun i => Real.log (q.2 i) := by
    rw [heq]
    have : (fun i => Real.exp (Real.log (q.2 i))) = q.2 := funext fun i => Real.exp_log (hq0 i)
    rw [this]
  have k1 := h1 q.1 fun i => Real.log (q.2 i)
  have k2 := h2 q.1 fun i => Real.log (q.2 i)
  rw [← hqe, heq] at k1 k2
  unfold lossAt at k1 k2
  simp only [Real.log_exp] at k1 k2
  simp only [hq2] at k1 k2 hA
  linarith

/-! ## What the gap of the loss says about the samples -/

/-- The posterior: the distribution with density proportional to the exponential of the log-joint. -/
noncomputable def posterior (F : (ι → ℝ) → ℝ) : Measure (ι → ℝ) := (volume : Measure (ι → ℝ)).withDensity fun θ => ENNReal.ofReal (Real.exp (-F θ) / ∫ θ, Real.exp (-F θ))

theorem posterior_tilted (F : (ι → ℝ) → ℝ) : posterior F = (volume : Measure (ι → ℝ)).tilted fun θ => -F θ := rfl

theorem posterior_prob (F : (ι → ℝ) → ℝ) (hev : Integrable fun θ => Real.exp (-F θ)) : IsProbabilityMeasure (posterior F) := by
  rw [posterior_tilted]
  exact isProbabilityMeasure_tilted hev

/-- How far the expected loss is above its lower bound. -/
noncomputable def gap {N : ℕ} (μ : Measure Ω) (Z : Fin N × ι → Ω → ℝ) (F : (ι → ℝ) → ℝ) (b : ℝ) (mean logStd : ι → ℝ) : ℝ :=
  expectedLoss μ Z F b mean logStd - (-Real.log (∫ θ, Real.exp (-F θ)) + Fintype.card ι * (b + (1 + Real.log (2 * Real.pi)) / 2))

/-- **C155, the divergence.** The gap is the Kullback-Leibler divergence of the approximate posterior from the posterior. -/
theorem C155_kl {N : ℕ} (hN : 0 < N) (μ : Measure Ω) [IsProbabilityMeasure μ] (Z : Fin N × ι → Ω → ℝ) (hm : ∀ k, Measurable (Z k)) (hi : iIndepFun Z μ)
    (hl : ∀ k, μ.map (Z k) = gaussianReal 0 1) (F : (ι → ℝ) → ℝ) (b : ℝ) (mean logStd : ι → ℝ) (hF : Integrable F (approx b mean logStd)) (hev : Integrable fun θ => Real.exp (-F θ)) :
    InformationTheory.klDiv (approx b mean logStd) (posterior F) = ENNReal.ofReal (gap μ Z F b mean logStd) := by
  have := posterior_prob F hev
  obtain ⟨hqI, hqV⟩ := logq_moment b mean logStd
  have hden := approx_density b mean logStd
  have hlqm : Measurable (diagLogProb mean fun i => Real.exp (logStd i) * Real.exp b) := by
    unfold diagLogProb normLogpdf
    fun_prop
  have hac : approx b mean logStd ≪ volume := by
    rw [hden]
    exact withDensity_absolutelyContinuous _ _
  have hllr : llr (approx b mean logStd) volume =ᵐ[approx b mean logStd] diagLogProb mean fun i => Real.exp (logStd i) * Real.exp b := by
    refine hac.ae_le ?_
    have h1 : (approx b mean logStd).rnDeriv volume =ᵐ[volume] fun x => ENNReal.ofReal (Real.exp (diagLogProb mean (fun i => Real.exp (logStd i) * Real.exp b) x)) := by
      rw [hden]
      exact Measure.rnDeriv_withDensity _ (by fun_prop)
    filter_upwards [h1] with x hx
    rw [llr, hx, ENNReal.toReal_ofReal (Real.exp_pos _).le, Real.log_exp]
  have hli : Integrable (llr (approx b mean logStd) volume) (approx b mean logStd) := hqI.congr hllr.symm
  have hac2 : approx b mean logStd ≪ posterior F := by
    rw [posterior_tilted]
    exact hac.trans (absolutelyContinuous_tilted hev)
  have hli2 : Integrable (llr (approx b mean logStd) (posterior F)) (approx b mean logStd) := by
    rw [posterior_tilted]
    exact integrable_llr_tilted_right hac hF.neg hli hev
  rw [← ENNReal.ofReal_toReal (InformationTheory.klDiv_ne_top hac2 hli2), InformationTheory.toReal_klDiv_of_measure_eq hac2 (by simp), posterior_tilted,
    integral_llr_tilted_right (f := fun θ => -F θ) hac hF.neg hev hli, integral_congr_ae hllr, hqV]
  unfold gap
  rw [C155_loss hN μ Z hm hi hl F b mean logStd hF]
  congr 1
  rw [integral_neg]
  ring

/-- The gap bounds every change of measure. -/
theorem gap_ge {N : ℕ} (hN : 0 < N) (μ : Measure Ω) [IsProbabilityMeasure μ] (Z : Fin N × ι → Ω → ℝ) (hm : ∀ k, Measurable (Z k)) (hi : iIndepFun Z μ)
    (hl : ∀ k, μ.map (Z k) = gaussianReal 0 1) (F : (ι → ℝ) → ℝ) (b : ℝ) (mean logStd : ι → ℝ) (hF : Integrable F (approx b mean logStd)) (hev : Integrable fun θ => Real.exp (-F θ))
    (g : (ι → ℝ) → ℝ) (hg : Integrable g (approx b mean logStd)) (hge : Integrable (fun θ => Real.exp (g θ)) (posterior F)) :
    ∫ θ, g θ ∂(approx b mean logStd) - Real.log (∫ θ, Real.exp (g θ) ∂(posterior F)) ≤ gap μ Z F b mean logStd := by
  have := posterior_prob F hev
  have hZ : 0 < ∫ θ, Real.exp (-F θ) := integral_exp_pos hev
  have hE : 0 < ∫ θ, Real.exp (g θ) ∂(posterior F) := integral_exp_pos hge
  have e1 : ∫ θ, Real.exp (g θ) ∂(posterior F) = (∫ θ, Real.exp (-(F θ - g θ))) / ∫ θ, Real.exp (-F θ) := by
    rw [posterior_tilted, integral_exp_tilted]
    congr 2
    funext θ
    simp only [Pi.add_apply]
    congr 1
    ring
  have hne : ∫ θ, Real.exp (-(F θ - g θ)) ≠ 0 := by
    intro h0
    rw [e1, h0, zero_div] at hE
    exact lt_irrefl _ hE
  have hint : Integrable fun θ => Real.exp (-(F θ - g θ)) := by
    by_contra h
    exact hne (integral_undef h)
  have hb := (C155_bound hN μ Z hm hi hl (fun θ => F θ - g θ) b mean logStd (hF.sub hg) hint).1
  rw [C155_loss hN μ Z hm hi hl (fun θ => F θ - g θ) b mean logStd (hF.sub hg), integral_sub hF hg] at hb
  rw [e1, Real.log_div hne hZ.ne']
  unfold gap
  rw [C155_loss hN μ Z hm hi hl F b mean logStd hF]
  linarith

/-- **C155, what the gap guarantees.** For every quantity with values between `lo` and `hi`, its mean under the approximate posterior differs from its posterior mean by at most `hi - lo` times
the square root of half the gap. -/
theorem C155_error {N : ℕ} (hN : 0 < N) (μ : Measure Ω) [IsProbabilityMeasure μ] (Z : Fin N × ι → Ω → ℝ) (hm : ∀ k, Measurable (Z k)) (hi : iIndepFun Z μ)
    (hl : ∀ k, μ.map (Z k) = gaussianReal 0 1) (F : (ι → ℝ) → ℝ) (b : ℝ) (mean logStd : ι → ℝ) (hF : Integrable F (approx b mean logStd)) (hev : Integrable fun θ => Real.exp (-F θ))
    (f : (ι → ℝ) → ℝ) (hf : Measurable f) (lo up : ℝ) (hb : ∀ θ, f θ ∈ Set.Icc lo up) :
    2 * (∫ θ, f θ ∂(approx b mean logStd) - ∫ θ, f θ ∂(posterior F)) ^ 2 ≤ (up - lo) ^ 2 * gap μ Z F b mean logStd := by
  have := posterior_prob F hev
  have hg0 : 0 ≤ gap μ Z F b mean logStd := by
    unfold gap
    linarith [(C155_bound hN μ Z hm hi hl F b mean logStd hF hev).1]
  have hQ : Integrable f (approx b mean logStd) := Integrable.of_mem_Icc lo up hf.aemeasurable (ae_of_all _ hb)
  have hP : Integrable f (posterior F) := Integrable.of_mem_Icc lo up hf.aemeasurable (ae_of_all _ hb)
  have hsub := hasSubgaussianMGF_of_mem_Icc (μ := posterior F) hf.aemeasurable (ae_of_all _ hb)
  set δ := ∫ θ, f θ ∂(approx b mean logStd) - ∫ θ, f θ ∂(posterior F) with hδ
  have key : ∀ t : ℝ, t * δ - (up - lo) ^ 2 * t ^ 2 / 8 ≤ gap μ Z F b mean logStd := fun t => by
    have h1 := gap_ge hN μ Z hm hi hl F b mean logStd hF hev (fun θ => t * (f θ - ∫ θ, f θ ∂(posterior F))) ((hQ.sub (integrable_const _)).const_mul t) (hsub.integrable_exp_mul t)
    have h2 : Real.log (∫ θ, Real.exp (t * (f θ - ∫ θ, f θ ∂(posterior F))) ∂(posterior F)) ≤ (up - lo) ^ 2 * t ^ 2 / 8 := by
      rw [Real.log_le_iff_le_exp (integral_exp_pos (hsub.integrable_exp_mul t))]
      refine (hsub.mgf_le t).trans (le_of_eq ?_)
      congr 1
      simp only [NNReal.coe_pow, NNReal.coe_div, coe_nnnorm, NNReal.coe_ofNat, div_pow, Real.norm_eq_abs, sq_abs]
      ring
    have h3 : ∫ θ, t * (f θ - ∫ θ, f θ ∂(posterior F)) ∂(approx b mean logStd) = t * δ := by
      rw [integral_const_mul, integral_sub hQ (integrable_const _)]
      simp [hδ]
    linarith
  rcases eq_or_ne (up - lo) 0 with h | h
  · have hconst : ∀ θ, f θ = lo := fun θ => le_antisymm (by linarith [(hb θ).2]) (hb θ).1
    have : δ = 0 := by
      rw [hδ]
      simp [hconst]
    rw [this, h]
    simp
  · have hpos : 0 < (up - lo) ^ 2 := by positivity
    have h1 := key (4 * δ / (up - lo) ^ 2)
    have h2 : 4 * δ / (up - lo) ^ 2 * δ - (up - lo) ^ 2 * (4 * δ / (up - lo) ^ 2) ^ 2 / 8 = 2 * δ ^ 2 / (up - lo) ^ 2 := by
      field_simp
      ring
    rw [h2, div_le_iff₀ hpos] at h1
    linarith

/-- **C155, probabilities.** The probability of every set under the approximate posterior differs from its posterior probability by at most the square root of half the gap. -/
theorem C155_probability {N : ℕ} (hN : 0 < N) (μ : Measure Ω) [IsProbabilityMeasure μ] (Z : Fin N × ι → Ω → ℝ) (hm : ∀ k, Measurable (Z k)) (hi : iIndepFun Z μ)
    (hl : ∀ k, μ.map (Z k) = gaussianReal 0 1) (F : (ι → ℝ) → ℝ) (b : ℝ) (mean logStd : ι → ℝ) (hF : Integrable F (approx b mean logStd)) (hev : Integrable fun θ => Real.exp (-F θ))
    (A : Set (ι → ℝ)) (hA : MeasurableSet A) : |(approx b mean logStd).real A - (posterior F).real A| ≤ Real.sqrt (gap μ Z F b mean logStd / 2) := by
  have h1 := C155_error hN μ Z hm hi hl F b mean logStd hF hev (A.indicator 1) (measurable_one.indicator hA) 0 1 fun θ => by
    by_cases h : θ ∈ A <;> simp [h]
  rw [integral_indicator_one hA, integral_indicator_one hA] at h1
  refine Real.abs_le_sqrt ?_
  linarith

/-- **C155, the draws.** What `sample` returns is distributed like the approximate posterior. -/
theorem C155_samples (μ : Measure Ω) [IsProbabilityMeasure μ] (Z : ι → Ω → ℝ) (hm : ∀ k, Measurable (Z k)) (hi : iIndepFun Z μ) (hl : ∀ k, μ.map (Z k) = gaussianReal 0 1)
    (b : ℝ) (mean logStd : ι → ℝ) : μ.map (fun ω => (adviForward mean logStd (diagSample (fun _ => 0) (baseStd b) fun i => Z i ω)).1) = approx b mean logStd := by
  rw [← approx_law μ Z hm hi hl b mean logStd]
  congr 1
  funext ω i
  rw [C76_push]

/-! ## Gaussian prior and concave log-likelihood -/

theorem average_eq (F : (ι → ℝ) → ℝ) (b : ℝ) (mean logStd : ι → ℝ) (hF : Integrable F (approx b mean logStd)) :
    ∫ θ, F θ ∂(approx b mean logStd) = ∫ z, F (fun i => mean i + Real.exp (logStd i) * Real.exp b * z i) ∂noise := by
  rw [← noise_map, integral_map (noise_meas b mean logStd)]
  rw [noise_map]
  exact hF.aestronglyMeasurable

theorem sq_moment (b : ℝ) (mean logStd : ι → ℝ) (i : ι) :
    Integrable (fun θ : ι → ℝ => θ i ^ 2) (approx b mean logStd) ∧ ∫ θ, θ i ^ 2 ∂(approx b mean logStd) = mean i ^ 2 + (Real.exp (logStd i) * Real.exp b) ^ 2 := by
  classical
  have hp : MeasurePreserving (fun θ : ι → ℝ => θ i) (approx b mean logStd) (gaussianReal (mean i) (Real.toNNReal ((Real.exp (logStd i) * Real.exp b) ^ 2))) := measurePreserving_eval _ i
  have h1 : Integrable (fun x : ℝ => x) (gaussianReal (mean i) (Real.toNNReal ((Real.exp (logStd i) * Real.exp b) ^ 2))) := (memLp_id_gaussianReal 1).integrable le_rfl
  have i1 : Integrable (fun θ : ι → ℝ => θ i) (approx b mean logStd) := hp.integrable_comp_of_integrable h1
  have v1 : ∫ θ : ι → ℝ, θ i ∂(approx b mean logStd) = mean i := by
    have h2 := integral_id_gaussianReal (μ := mean i) (v := Real.toNNReal ((Real.exp (logStd i) * Real.exp b) ^ 2))
    rw [← hp.map_eq, integral_map hp.measurable.aemeasurable (by fun_prop)] at h2
    exact h2
  obtain ⟨i2, v2⟩ := coord_moments b mean logStd i
  have e : (fun θ : ι → ℝ => θ i ^ 2) = fun θ => (θ i - mean i) ^ 2 + (2 * mean i * θ i - mean i ^ 2) := by
    funext θ
    ring
  have i3 : Integrable (fun θ : ι → ℝ => 2 * mean i * θ i - mean i ^ 2) (approx b mean logStd) := (i1.const_mul _).sub (integrable_const _)
  rw [e]
  refine ⟨i2.add i3, ?_⟩
  rw [integral_add i2 i3, v2, integral_sub (i1.const_mul _) (integrable_const _), integral_const_mul, v1]
  simp only [integral_const, probReal_univ, one_smul]
  ring

/-- **C155, one optimum.** With a Gaussian prior and a concave log-likelihood that is bounded above, the expected loss has exactly one minimum. -/
theorem C155_one {N : ℕ} (hN : 0 < N) (μ : Measure Ω) [IsProbabilityMeasure μ] (Z : Fin N × ι → Ω → ℝ) (hm : ∀ k, Measurable (Z k)) (hi : iIndepFun Z μ)
    (hl : ∀ k, μ.map (Z k) = gaussianReal 0 1) (G : (ι → ℝ) → ℝ) (κ C b : ℝ) (hκ : 0 < κ) (hG : ∀ mean logStd, Integrable G (approx b mean logStd)) (hc : ConvexOn ℝ Set.univ G)
    (hC : ∀ θ, C ≤ G θ) : ∃! p : (ι → ℝ) × (ι → ℝ), ∀ q : (ι → ℝ) × (ι → ℝ),
      expectedLoss μ Z (fun θ => G θ + κ * ∑ i, θ i ^ 2) b p.1 p.2 ≤ expectedLoss μ Z (fun θ => G θ + κ * ∑ i, θ i ^ 2) b q.1 q.2 := by
  set F : (ι → ℝ) → ℝ := fun θ => G θ + κ * ∑ i, θ i ^ 2 with hFdef
  have hS : ∀ m l : ι → ℝ, Integrable (fun θ : ι → ℝ => κ * ∑ i, θ i ^ 2) (approx b m l) := fun m l => (integrable_finsetSum _ fun i _ => (sq_moment b m l i).1).const_mul κ
  have hF : ∀ m l : ι → ℝ, Integrable F (approx b m l) := fun m l => (hG m l).add (hS m l)
  have hform : ∀ m l : ι → ℝ, expectedLoss μ Z F b m l = ∫ θ, G θ ∂(approx b m l) + κ * ∑ i, (m i ^ 2 + (Real.exp (l i) * Real.exp b) ^ 2) - ∑ i, l i := fun m l => by
    rw [C155_loss hN μ Z hm hi hl F b m l (hF m l), hFdef, integral_add (hG m l) (hS m l), integral_const_mul, integral_finsetSum _ fun i _ => (sq_moment b m l i).1]
    simp only [(sq_moment b m l _).2]
  have hFc : ConvexOn ℝ Set.univ F := by
    refine hc.add ⟨convex_univ, fun x _ y _ α β hα hβ h1 => ?_⟩
    simp only [smul_eq_mul, mul_left_comm _ κ, ← mul_add]
    refine mul_le_mul_of_nonneg_left ?_ hκ.le
    simp only [mul_sum, ← sum_add_distrib]
    refine sum_le_sum fun i _ => ?_
    have h2 := (even_two.convexOn_pow (𝕜 := ℝ)).2 (Set.mem_univ (x i)) (Set.mem_univ (y i)) hα hβ h1
    simpa only [smul_eq_mul, Pi.add_apply, Pi.smul_apply] using h2
  have hcont : Continuous fun p : (ι → ℝ) × (ι → ℝ) => expectedLoss μ Z F b p.1 p.2 := by
    have ho : IsOpen {p : (ι → ℝ) × (ι → ℝ) | ∀ i, 0 < p.2 i} := by
      simp only [Set.setOf_forall]
      exact isOpen_iInter_of_finite fun i => isOpen_lt continuous_const ((continuous_apply i).comp continuous_snd)
    have h1 := ConvexOn.continuousOn ho (lossAt_convex F b hF hFc)
    have h2 : (fun p : (ι → ℝ) × (ι → ℝ) => expectedLoss μ Z F b p.1 p.2) = lossAt F b ∘ fun p => (p.1, fun i => Real.exp (p.2 i)) := by
      funext p
      exact lossAt_eq hN μ Z hm hi hl F b p.1 p.2 (hF p.1 p.2)
    rw [h2]
    refine h1.comp_continuous (by fun_prop) fun p i => Real.exp_pos _
  set D : ℝ := |Real.log (κ * Real.exp b ^ 2) + 1| + 1 / (4 * κ) with hD
  have hscalar : ∀ x y : ℝ, |x| + |y| - D ≤ κ * (x ^ 2 + (Real.exp y * Real.exp b) ^ 2) - y := fun x y => by
    have h1 : |x| - 1 / (4 * κ) ≤ κ * x ^ 2 := by
      rw [← sq_abs x]
      have h0 : 0 ≤ (2 * κ * |x| - 1) ^ 2 / (4 * κ) := by positivity
      have e0 : (2 * κ * |x| - 1) ^ 2 / (4 * κ) = κ * |x| ^ 2 - |x| + 1 / (4 * κ) := by
        field_simp
        ring
      linarith
    have h2 : |y| - |Real.log (κ * Real.exp b ^ 2) + 1| ≤ κ * (Real.exp y * Real.exp b) ^ 2 - y := by
      rcases le_total 0 y with h | h
      · have h3 := Real.add_one_le_exp (2 * y + Real.log (κ * Real.exp b ^ 2))
        rw [Real.exp_add, Real.exp_log (by positivity), two_mul, Real.exp_add] at h3
        have h4 := neg_abs_le (Real.log (κ * Real.exp b ^ 2) + 1)
        rw [abs_of_nonneg h]
        nlinarith
      · rw [abs_of_nonpos h]
        have : 0 ≤ κ * (Real.exp y * Real.exp b) ^ 2 := by positivity
        have := abs_nonneg (Real.log (κ * Real.exp b ^ 2) + 1)
        linarith
    rw [hD, mul_add]
    linarith
  have hcoer : ∀ p : (ι → ℝ) × (ι → ℝ), ‖p‖ + (C - Fintype.card ι * D) ≤ expectedLoss μ Z F b p.1 p.2 := fun p => by
    rw [hform]
    have h1 : C ≤ ∫ θ, G θ ∂(approx b p.1 p.2) := by
      have := integral_mono (integrable_const C) (hG p.1 p.2) hC
      simpa using this
    have h2 : ∑ i, (|p.1 i| + |p.2 i| - D) ≤ ∑ i, (κ * (p.1 i ^ 2 + (Real.exp (p.2 i) * Real.exp b) ^ 2) - p.2 i) := sum_le_sum fun i _ => hscalar _ _
    have h3 : ‖p‖ ≤ ∑ i, (|p.1 i| + |p.2 i|) := by
      have h0 : ∀ i, |p.1 i| + |p.2 i| ≤ ∑ j, (|p.1 j| + |p.2 j|) := fun i => single_le_sum (f := fun j => |p.1 j| + |p.2 j|) (fun j _ => by positivity) (mem_univ i)
      have hn : 0 ≤ ∑ i, (|p.1 i| + |p.2 i|) := sum_nonneg fun j _ => by positivity
      refine norm_prod_le_iff.2 ⟨(pi_norm_le_iff_of_nonneg hn).2 fun i => ?_, (pi_norm_le_iff_of_nonneg hn).2 fun i => ?_⟩
      · have := h0 i
        have := abs_nonneg (p.2 i)
        rw [Real.norm_eq_abs]
        linarith
      · have := h0 i
        have := abs_nonneg (p.1 i)
        rw [Real.norm_eq_abs]
        linarith
    rw [sum_sub_distrib, sum_sub_distrib, ← mul_sum] at h2
    simp only [sum_const, card_univ, nsmul_eq_mul] at h2
    linarith
  obtain ⟨p, hp⟩ := hcont.exists_forall_le (tendsto_atTop_mono hcoer (tendsto_atTop_add_const_right _ _ (tendsto_norm_cocompact_atTop (E := (ι → ℝ) × (ι → ℝ)))))
  refine ⟨p, hp, fun q hq => ?_⟩
  have hl2 : p.2 = q.2 := C155_unique hN μ Z hm hi hl F b hF hFc p.1 p.2 q.1 q.2 (fun m l => hp (m, l)) fun m l => hq (m, l)
  have hA := average_convex G b hG hc (p.1, fun i => Real.exp (p.2 i)) (q.1, fun i => Real.exp (p.2 i)) (fun i => Real.exp_pos _) (fun i => Real.exp_pos _) (1 / 2) (1 / 2) (by norm_num) (by norm_num) (by norm_num)
  set r : ι → ℝ := fun i => 1 / 2 * p.1 i + 1 / 2 * q.1 i with hr
  have e1 : ∀ z : ι → ℝ, (fun i => ((1 / 2 : ℝ) • (p.1, fun i => Real.exp (p.2 i)) + (1 / 2 : ℝ) • (q.1, fun i => Real.exp (p.2 i))).1 i +
      ((1 / 2 : ℝ) • (p.1, fun i => Real.exp (p.2 i)) + (1 / 2 : ℝ) • (q.1, fun i => Real.exp (p.2 i))).2 i * Real.exp b * z i) = fun i => r i + Real.exp (p.2 i) * Real.exp b * z i := fun z => by
    funext i
    simp only [hr, Prod.fst_add, Prod.snd_add, Prod.smul_fst, Prod.smul_snd, Pi.add_apply, Pi.smul_apply, smul_eq_mul]
    ring
  simp only [e1] at hA
  rw [← average_eq G b r p.2 (hG _ _), ← average_eq G b p.1 p.2 (hG _ _), ← average_eq G b q.1 p.2 (hG _ _)] at hA
  have k1 := hp (r, p.2)
  have k2 := hq (r, p.2)
  rw [← hl2] at k2
  rw [hform, hform] at k1 k2
  have e2 : ∑ i, (r i ^ 2 + (Real.exp (p.2 i) * Real.exp b) ^ 2) = 1 / 2 * ∑ i, (p.1 i ^ 2 + (Real.exp (p.2 i) * Real.exp b) ^ 2) + 1 / 2 * ∑ i, (q.1 i ^ 2 + (Real.exp (p.2 i) * Real.exp b) ^ 2) -
      1 / 4 * ∑ i, (q.1 i - p.1 i) ^ 2 := by
    simp only [mul_sum, ← sum_add_distrib, ← sum_sub_distrib]
    refine sum_congr rfl fun i _ => ?_
    rw [hr]
    ring
  simp only at k1 k2
  rw [e2] at k1 k2
  have h0 : ∑ i, (q.1 i - p.1 i) ^ 2 ≤ 0 := by
    by_contra h
    push Not at h
    have := mul_pos hκ h
    nlinarith
  have h1 := (sum_eq_zero_iff_of_nonneg fun i _ => sq_nonneg (q.1 i - p.1 i)).1 (le_antisymm h0 (sum_nonneg fun i _ => sq_nonneg _))
  refine Prod.ext (funext fun i => ?_) hl2.symm
  have := pow_eq_zero_iff (two_ne_zero) |>.1 (h1 i (mem_univ i))
  linarith

/-! ## Linear classifiers with a Gaussian prior -/

section
open Verif.OutputLayer Verif.Likelihood Verif.Props.MapLaw
open Verif.Predictive (logsumexp)

variable {κ : Type} [Fintype κ] {c n : ℕ}

theorem lse_pos (hc : 0 < c) (o : Fin c → ℝ) : 0 < ∑ j, Real.exp (o j) := by
  have : Nonempty (Fin c) := ⟨⟨0, hc⟩⟩
  exact sum_pos (fun j _ => Real.exp_pos _) univ_nonempty

theorem lse_convex (hc : 0 < c) : ConvexOn ℝ Set.univ (logsumexp : (Fin c → ℝ) → ℝ) := by
  refine ⟨convex_univ, fun x _ y _ α β hα hβ h1 => ?_⟩
  simp only [smul_eq_mul]
  have hx : ∑ j, Real.exp (x j - logsumexp x) = 1 := by
    simp only [Real.exp_sub, ← sum_div]
    unfold logsumexp
    rw [Real.exp_log (lse_pos hc x), div_self (lse_pos hc x).ne']
  have hy : ∑ j, Real.exp (y j - logsumexp y) = 1 := by
    simp only [Real.exp_sub, ← sum_div]
    unfold logsumexp
    rw [Real.exp_log (lse_pos hc y), div_self (lse_pos hc y).ne']
  have h2 : ∑ j, Real.exp ((α • x + β • y) j - (α * logsumexp x + β * logsumexp y)) ≤ 1 := by
    have : ∑ j, Real.exp ((α • x + β • y) j - (α * logsumexp x + β * logsumexp y)) ≤ ∑ j, (α * Real.exp (x j - logsumexp x) + β * Real.exp (y j - logsumexp y)) :=
      sum_le_sum fun j _ => by
        have := convexOn_exp.2 (Set.mem_univ (x j - logsumexp x)) (Set.mem_univ (y j - logsumexp y)) hα hβ h1
        simp only [smul_eq_mul] at this
        refine le_trans (le_of_eq ?_) this
        simp only [Pi.add_apply, Pi.smul_apply, smul_eq_mul]
        congr 1
        ring
    rw [sum_add_distrib, ← mul_sum, ← mul_sum, hx, hy, mul_one, mul_one, h1] at this
    exact this
  simp only [Real.exp_sub, ← sum_div] at h2
  rw [div_le_one (Real.exp_pos _)] at h2
  exact (Real.log_le_iff_le_exp (lse_pos hc _)).2 h2

/-- The log-probability of a row. -/
theorem class_row (o : Fin c → ℝ) (y : Fin c) : classLogProb o (y : ℤ) = o y - logsumexp o := by
  unfold classLogProb oneHot
  simp [Fin.val_inj]

theorem logits_integrable (b : ℝ) (mean logStd : κ × Fin c → ℝ) (φ : κ → ℝ) (j : Fin c) : Integrable (fun w => logits w φ j) (approx b mean logStd) := by
  classical
  unfold logits
  refine integrable_finsetSum _ fun k _ => Integrable.const_mul ?_ _
  have hp : MeasurePreserving (fun θ : κ × Fin c → ℝ => θ (k, j)) (approx b mean logStd) (gaussianReal (mean (k, j)) (Real.toNNReal ((Real.exp (logStd (k, j)) * Real.exp b) ^ 2))) := measurePreserving_eval _ (k, j)
  have h1 : Integrable (fun x : ℝ => x) (gaussianReal (mean (k, j)) (Real.toNNReal ((Real.exp (logStd (k, j)) * Real.exp b) ^ 2))) := (memLp_id_gaussianReal 1).integrable le_rfl
  exact hp.integrable_comp_of_integrable h1

theorem row_nonneg (o : Fin c → ℝ) (y : Fin c) : 0 ≤ logsumexp o - o y := by
  have h1 : Real.exp (o y) ≤ ∑ j, Real.exp (o j) := single_le_sum (f := fun j => Real.exp (o j)) (fun j _ => (Real.exp_pos _).le) (mem_univ y)
  have := Real.log_le_log (Real.exp_pos _) h1
  rw [Real.log_exp] at this
  unfold logsumexp
  linarith

theorem row_integrable (hc : 0 < c) (b : ℝ) (mean logStd : κ × Fin c → ℝ) (φ : κ → ℝ) (y : Fin c) :
    Integrable (fun w => logsumexp (logits w φ) - logits w φ y) (approx b mean logStd) := by
  have hb : Integrable (fun w : κ × Fin c → ℝ => Real.log c + 2 * ∑ j, |logits w φ j|) (approx b mean logStd) :=
    (integrable_const _).add ((integrable_finsetSum _ fun j _ => (logits_integrable b mean logStd φ j).abs).const_mul 2)
  refine hb.mono' ?_ (ae_of_all _ fun w => ?_)
  · refine Measurable.aestronglyMeasurable ?_
    unfold logsumexp logits
    fun_prop
  · rw [Real.norm_of_nonneg (row_nonneg _ y)]
    have h0 : ∀ j, |logits w φ j| ≤ ∑ k, |logits w φ k| := fun j => single_le_sum (f := fun k => |logits w φ k|) (fun k _ => abs_nonneg _) (mem_univ j)
    have h1 : logsumexp (logits w φ) ≤ Real.log c + ∑ k, |logits w φ k| := by
      unfold logsumexp
      have h2 : ∑ j, Real.exp (logits w φ j) ≤ c * Real.exp (∑ k, |logits w φ k|) := by
        have : ∑ j, Real.exp (logits w φ j) ≤ ∑ _j : Fin c, Real.exp (∑ k, |logits w φ k|) := sum_le_sum fun j _ => Real.exp_le_exp.2 ((le_abs_self _).trans (h0 j))
        simpa using this
      have h3 := Real.log_le_log (lse_pos hc _) h2
      rw [Real.log_mul (by exact_mod_cast hc.ne') (Real.exp_pos _).ne', Real.log_exp] at h3
      exact h3
    have h4 := neg_abs_le (logits w φ y)
    have h5 := h0 y
    linarith

/-- **C155, a linear softmax classifier** with the isotropic Gaussian prior: the expected ADVI loss has exactly one minimum, and every local minimum is this one. -/
theorem C155_classifier {S : ℕ} (hS : 0 < S) (μ : Measure Ω) [IsProbabilityMeasure μ] (Z : Fin S × (κ × Fin c) → Ω → ℝ) (hm : ∀ k, Measurable (Z k)) (hi : iIndepFun Z μ)
    (hl : ∀ k, μ.map (Z k) = gaussianReal 0 1) (hc : 0 < c) (N : ℕ) (lv b : ℝ) (rows : Fin n → (κ → ℝ) × ℤ) (hy : ∀ i, ∃ j : Fin c, (rows i).2 = j) :
    ∃ mean logStd : κ × Fin c → ℝ,
      (∀ mean' logStd', expectedLoss μ Z (fun w => -logPost N lv rows w) b mean logStd ≤ expectedLoss μ Z (fun w => -logPost N lv rows w) b mean' logStd') ∧
      ∀ mean' logStd', IsLocalMin (fun p : (κ × Fin c → ℝ) × (κ × Fin c → ℝ) => expectedLoss μ Z (fun w => -logPost N lv rows w) b p.1 p.2) (mean', logStd') →
        mean' = mean ∧ logStd' = logStd := by
  choose y hy using hy
  set C : ℝ := 1 / 2 * (Fintype.card (κ × Fin c) * (Real.log (2 * Real.pi) + lv)) with hC
  set G : (κ × Fin c → ℝ) → ℝ := fun w => C + (∑ i, (logsumexp (logits w (rows i).1) - logits w (rows i).1 (y i))) * ((N : ℝ) / n) with hG
  have hF : (fun w => -logPost N lv rows w) = fun w => G w + Real.exp (-lv) / 2 * ∑ a, w a ^ 2 := by
    funext w
    unfold logPost weighted
    rw [iso_sum, List.sum_ofFn, List.length_ofFn]
    simp only [hy, class_row, hG, hC, sumSq]
    have e : ∑ i, (logits w (rows i).1 (y i) - logsumexp (logits w (rows i).1)) = -∑ i, (logsumexp (logits w (rows i).1) - logits w (rows i).1 (y i)) := by
      rw [← sum_neg_distrib]
      exact sum_congr rfl fun i _ => by ring
    rw [e]
    ring
  have hN : (0 : ℝ) ≤ (N : ℝ) / n := by positivity
  have hGi : ∀ mean logStd, Integrable G (approx b mean logStd) := fun mean logStd =>
    (integrable_const _).add ((integrable_finsetSum _ fun i _ => row_integrable hc b mean logStd _ _).mul_const _)
  have hGc : ConvexOn ℝ Set.univ G := by
    refine ⟨convex_univ, fun u _ v _ α β hα hβ h1 => ?_⟩
    have hlin : ∀ φ : κ → ℝ, logits (α • u + β • v) φ = α • logits u φ + β • logits v φ := fun φ => by
      funext j
      simp only [logits, Pi.add_apply, Pi.smul_apply, smul_eq_mul, mul_sum, ← sum_add_distrib]
      exact sum_congr rfl fun k _ => by ring
    have h2 : ∑ i, (logsumexp (logits (α • u + β • v) (rows i).1) - logits (α • u + β • v) (rows i).1 (y i)) ≤
        α * ∑ i, (logsumexp (logits u (rows i).1) - logits u (rows i).1 (y i)) + β * ∑ i, (logsumexp (logits v (rows i).1) - logits v (rows i).1 (y i)) := by
      rw [mul_sum, mul_sum, ← sum_add_distrib]
      refine sum_le_sum fun i _ => ?_
      have h3 := (lse_convex hc).2 (Set.mem_univ (logits u (rows i).1)) (Set.mem_univ (logits v (rows i).1)) hα hβ h1
      rw [hlin]
      simp only [smul_eq_mul, Pi.add_apply, Pi.smul_apply] at h3 ⊢
      linarith
    have h4 := mul_le_mul_of_nonneg_right h2 hN
    have h5 : C = α * C + β * C := by rw [← add_mul, h1, one_mul]
    simp only [hG, smul_eq_mul]
    nlinarith
  have hGb : ∀ w, C ≤ G w := fun w => by
    have : 0 ≤ (∑ i, (logsumexp (logits w (rows i).1) - logits w (rows i).1 (y i))) * ((N : ℝ) / n) := mul_nonneg (sum_nonneg fun i _ => row_nonneg _ _) hN
    simp only [hG]
    linarith
  have hκ : 0 < Real.exp (-lv) / 2 := by positivity
  rw [hF]
  obtain ⟨p, hp, hu⟩ := C155_one hS μ Z hm hi hl G _ C b hκ hGi hGc hGb
  refine ⟨p.1, p.2, fun m l => hp (m, l), fun m l hloc => ?_⟩
  have hFi : ∀ m l, Integrable (fun w => G w + Real.exp (-lv) / 2 * ∑ a, w a ^ 2) (approx b m l) := fun m l =>
    (hGi m l).add ((integrable_finsetSum _ fun a _ => (sq_moment b m l a).1).const_mul _)
  have hFc : ConvexOn ℝ Set.univ fun w => G w + Real.exp (-lv) / 2 * ∑ a, w a ^ 2 := by
    refine hGc.add ⟨convex_univ, fun x _ z _ α β hα hβ h1 => ?_⟩
    simp only [smul_eq_mul, mul_left_comm _ (Real.exp (-lv) / 2), ← mul_add]
    refine mul_le_mul_of_nonneg_left ?_ hκ.le
    simp only [mul_sum, ← sum_add_distrib]
    refine sum_le_sum fun i _ => ?_
    have h2 := (even_two.convexOn_pow (𝕜 := ℝ)).2 (Set.mem_univ (x i)) (Set.mem_univ (z i)) hα hβ h1
    simpa only [smul_eq_mul, Pi.add_apply, Pi.smul_apply] using h2
  have hglob := C155_local hS μ Z hm hi hl _ b hFi hFc m l hloc
  have := hu (m, l) fun q => hglob q.1 q.2
  exact ⟨congrArg Prod.fst this, congrArg Prod.snd this⟩

end

/-! ### Concrete cases that meet the hypotheses of the theorems above: a standard normal posterior -/

/-- The negative log-density of the standard normal distribution. -/
noncomputable def exF (θ : Fin 2 → ℝ) : ℝ := -diagLogProb (fun _ => 0) (fun _ => Real.exp 0 * Real.exp 0) θ

theorem exF_eq (θ : Fin 2 → ℝ) : exF θ = ∑ i, (θ i ^ 2 / 2 + Real.log (2 * Real.pi) / 2) := by
  unfold exF diagLogProb normLogpdf
  rw [← sum_neg_distrib]
  refine sum_congr rfl fun i _ => ?_
  simp only [Real.exp_zero, mul_one, sub_zero, div_one, Real.log_one]
  ring

theorem exF_integrable (b : ℝ) (mean logStd : Fin 2 → ℝ) : Integrable exF (approx b mean logStd) := by
  have h : ∀ i : Fin 2, Integrable (fun θ : Fin 2 → ℝ => θ i ^ 2) (approx b mean logStd) := fun i => by
    have hp : MeasurePreserving (fun θ : Fin 2 → ℝ => θ i) (approx b mean logStd) (gaussianReal (mean i) (Real.toNNReal ((Real.exp (logStd i) * Real.exp b) ^ 2))) := measurePreserving_eval _ i
    have hL : MemLp id 2 (gaussianReal (mean i) (Real.toNNReal ((Real.exp (logStd i) * Real.exp b) ^ 2))) := memLp_id_gaussianReal 2
    exact hp.integrable_comp_of_integrable hL.integrable_sq
  have e : exF = fun θ => ∑ i, (θ i ^ 2 / 2 + Real.log (2 * Real.pi) / 2) := funext exF_eq
  rw [e]
  exact integrable_finsetSum _ fun i _ => ((h i).div_const _).add (integrable_const _)

theorem exF_evidence : Integrable (fun θ => Real.exp (-exF θ)) ∧ ∫ θ, Real.exp (-exF θ) = 1 := by
  have e : (fun θ => Real.exp (-exF θ)) = fun θ : Fin 2 → ℝ => ∏ i, gaussianPDFReal 0 (Real.toNNReal ((Real.exp 0 * Real.exp 0) ^ 2)) (θ i) := by
    funext θ
    unfold exF
    rw [neg_neg, C76_gaussian _ _ _ fun i => by positivity]
  rw [e]
  refine ⟨Integrable.fintype_prod (f := fun _ => gaussianPDFReal 0 (Real.toNNReal ((Real.exp 0 * Real.exp 0) ^ 2))) fun i => integrable_gaussianPDFReal _ _, ?_⟩
  rw [integral_fintype_prod_volume_eq_prod (fun _ => gaussianPDFReal 0 (Real.toNNReal ((Real.exp 0 * Real.exp 0) ^ 2)))]
  rw [integral_gaussianPDFReal_eq_one 0 (by simp)]
  simp

theorem exF_convex : ConvexOn ℝ Set.univ exF := by
  refine ⟨convex_univ, fun x _ y _ α β hα hβ h1 => ?_⟩
  simp only [exF_eq, smul_eq_mul, mul_sum, ← sum_add_distrib]
  refine sum_le_sum fun i _ => ?_
  have h2 := (even_two.convexOn_pow (𝕜 := ℝ)).2 (Set.mem_univ (x i)) (Set.mem_univ (y i)) hα hβ h1
  simp only [smul_eq_mul] at h2
  simp only [Pi.add_apply, Pi.smul_apply, smul_eq_mul]
  have : Real.log (2 * Real.pi) / 2 = α * (Real.log (2 * Real.pi) / 2) + β * (Real.log (2 * Real.pi) / 2) := by rw [← add_mul, h1, one_mul]
  linarith

/-- Base samples of three draws for two parameters. -/
theorem ex_base : ∃ (Ω : Type) (_ : MeasurableSpace Ω) (μ : Measure Ω) (_ : IsProbabilityMeasure μ) (Z : Fin 3 × Fin 2 → Ω → ℝ),
    (∀ k, Measurable (Z k)) ∧ iIndepFun Z μ ∧ ∀ k, μ.map (Z k) = gaussianReal 0 1 := by
  refine ⟨Fin 3 × Fin 2 → ℝ, inferInstance, Measure.infinitePi fun _ => gaussianReal 0 1, inferInstance, fun k ω => ω k, fun k => measurable_pi_apply k, ?_, fun k => ?_⟩
  · exact iIndepFun_infinitePi (P := fun _ : Fin 3 × Fin 2 => gaussianReal 0 1) (X := fun _ x => x) fun _ => measurable_id
  · exact Measure.infinitePi_map_eval _ k

example : ∃ (Ω : Type) (_ : MeasurableSpace Ω) (μ : Measure Ω) (Z : Fin 3 × Fin 2 → Ω → ℝ),
    (∀ m l, -Real.log (∫ θ, Real.exp (-exF θ)) + Fintype.card (Fin 2) * (0 + (1 + Real.log (2 * Real.pi)) / 2) ≤ expectedLoss μ Z exF 0 m l) ∧
    (∀ m l, expectedLoss μ Z exF 0 (fun _ => 0) (fun _ => 0) ≤ expectedLoss μ Z exF 0 m l) ∧
    ∀ m l, (∀ m₀ l₀, expectedLoss μ Z exF 0 m l ≤ expectedLoss μ Z exF 0 m₀ l₀) → l = fun _ => 0 := by
  obtain ⟨Ω, _, μ, _, Z, hm, hi, hl⟩ := ex_base
  have hb := fun m l => C155_bound (by decide) μ Z hm hi hl exF 0 m l (exF_integrable 0 m l) exF_evidence.1
  have h0 : expectedLoss μ Z exF 0 (fun _ => 0) (fun _ => 0) = _ := (hb (fun _ => 0) (fun _ => 0)).2.2 (ae_of_all _ fun θ => by
    rw [exF_evidence.2, div_one]
    unfold exF
    rw [neg_neg])
  have hmin : ∀ m l, expectedLoss μ Z exF 0 (fun _ => 0) (fun _ => 0) ≤ expectedLoss μ Z exF 0 m l := fun m l => by
    rw [h0]
    exact (hb m l).1
  have hloc := C155_local (by decide) μ Z hm hi hl exF 0 (exF_integrable 0) exF_convex (fun _ => 0) (fun _ => 0) (Eventually.of_forall fun p => hmin p.1 p.2)
  exact ⟨Ω, _, μ, Z, fun m l => (hb m l).1, hloc, fun m l h => C155_unique (by decide) μ Z hm hi hl exF 0 (exF_integrable 0) exF_convex m l _ _ h hmin⟩

/-- An approximate posterior with wrong means and standard deviations. -/
example : ∃ (Ω : Type) (_ : MeasurableSpace Ω) (μ : Measure Ω) (Z : Fin 3 × Fin 2 → Ω → ℝ),
    InformationTheory.klDiv (approx 0 (fun _ => 1) fun _ => -1) (posterior exF) = ENNReal.ofReal (gap μ Z exF 0 (fun _ => 1) fun _ => -1) ∧
    0 < gap μ Z exF 0 (fun _ => 1) (fun _ => -1) ∧
    |(approx 0 (fun _ : Fin 2 => 1) fun _ => -1).real {θ | 0 < θ 0} - (posterior exF).real {θ | 0 < θ 0}| ≤ Real.sqrt (gap μ Z exF 0 (fun _ => 1) (fun _ => -1) / 2) := by
  obtain ⟨Ω, _, μ, _, Z, hm, hi, hl⟩ := ex_base
  have hF := exF_integrable 0 (fun _ => 1) fun _ => -1
  have hl0 : expectedLoss μ Z exF 0 (fun _ => 0) (fun _ => 0) = _ := (C155_bound (by decide) μ Z hm hi hl exF 0 (fun _ => 0) (fun _ => 0) (exF_integrable 0 _ _) exF_evidence.1).2.2 (ae_of_all _ fun θ => by
    rw [exF_evidence.2, div_one]
    unfold exF
    rw [neg_neg])
  have hmin : ∀ m l, expectedLoss μ Z exF 0 (fun _ => 0) (fun _ => 0) ≤ expectedLoss μ Z exF 0 m l := fun m l => by
    rw [hl0]
    exact (C155_bound (by decide) μ Z hm hi hl exF 0 m l (exF_integrable 0 m l) exF_evidence.1).1
  refine ⟨Ω, _, μ, Z, C155_kl (by decide) μ Z hm hi hl exF 0 _ _ hF exF_evidence.1, ?_,
    C155_probability (by decide) μ Z hm hi hl exF 0 _ _ hF exF_evidence.1 _ (measurableSet_lt measurable_const (measurable_pi_apply 0))⟩
  by_contra h
  unfold gap at h
  have hmin' : ∀ m l, expectedLoss μ Z exF 0 (fun _ => 1) (fun _ => -1) ≤ expectedLoss μ Z exF 0 m l := fun m l => by
    have := hmin m l
    rw [hl0] at this
    linarith
  have := congrFun (C155_unique (by decide) μ Z hm hi hl exF 0 (exF_integrable 0) exF_convex _ _ _ _ hmin' hmin) 0
  norm_num at this

/-- Logistic regression with two classes on three rows with one feature. -/
example : ∃ (Ω : Type) (_ : MeasurableSpace Ω) (μ : Measure Ω) (Z : Fin 3 × (Fin 1 × Fin 2) → Ω → ℝ) (mean logStd : Fin 1 × Fin 2 → ℝ), ∀ mean' logStd',
    expectedLoss μ Z (fun w => -MapLaw.logPost 3 0 ![(![1], 0), (![2], 1), (![-1], 1)] w) 0 mean logStd ≤
      expectedLoss μ Z (fun w => -MapLaw.logPost 3 0 ![(![1], 0), (![2], 1), (![-1], 1)] w) 0 mean' logStd' := by
  obtain ⟨m, l, h, _⟩ := C155_classifier (S := 3) (by decide) (Measure.infinitePi fun _ : Fin 3 × (Fin 1 × Fin 2) => gaussianReal 0 1) (fun k ω => ω k) (fun k => measurable_pi_apply k)
    (iIndepFun_infinitePi (P := fun _ : Fin 3 × (Fin 1 × Fin 2) => gaussianReal 0 1) (X := fun _ x => x) fun _ => measurable_id) (fun k => Measure.infinitePi_map_eval _ k)
    (by decide : 0 < 2) 3 0 0 ![(![1], 0), (![2], 1), (![-1], 1)] (by decide)
  exact ⟨_, _, _, _, m, l, h⟩

/-- A quadratic negative log-likelihood and the draws of `sample`. -/
example : ∃ (Ω : Type) (_ : MeasurableSpace Ω) (μ : Measure Ω) (Z : Fin 3 × Fin 2 → Ω → ℝ),
    (∃! p : (Fin 2 → ℝ) × (Fin 2 → ℝ), ∀ q : (Fin 2 → ℝ) × (Fin 2 → ℝ),
      expectedLoss μ Z (fun θ => exF θ + 1 * ∑ i, θ i ^ 2) 0 p.1 p.2 ≤ expectedLoss μ Z (fun θ => exF θ + 1 * ∑ i, θ i ^ 2) 0 q.1 q.2) ∧
    μ.map (fun ω => (adviForward ![1, 2] ![0, -1] (diagSample (fun _ => 0) (baseStd 0) fun i => Z (0, i) ω)).1) = approx 0 ![1, 2] ![0, -1] := by
  obtain ⟨Ω, _, μ, _, Z, hm, hi, hl⟩ := ex_base
  refine ⟨Ω, _, μ, Z, C155_one (by decide) μ Z hm hi hl exF 1 0 0 one_pos (exF_integrable 0) exF_convex fun θ => ?_,
    C155_samples μ (fun i => Z (0, i)) (fun i => hm _) (hi.precomp (g := fun i => ((0 : Fin 3), i)) fun a b h => (Prod.mk.inj h).2) (fun i => hl _) 0 _ _⟩
  rw [exF_eq]
  refine sum_nonneg fun i _ => ?_
  have h1 : 0 ≤ Real.log (2 * Real.pi) := Real.log_nonneg (by linarith [Real.pi_gt_three])
  positivity

end Verif.Props.AdviBound
