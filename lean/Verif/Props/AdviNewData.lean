import Verif.Props.AdviBound
import Verif.Model.Metrics
import Mathlib.Analysis.Complex.ExponentialBounds

/-!
# C156: what an ADVI fit says about new data
-/
set_option linter.unusedSectionVars false

namespace Verif.Props.AdviNewData

open Verif.GaussPost Verif.Props Verif.Props.GaussLaw Verif.Props.AdviBound MeasureTheory ProbabilityTheory Finset
open Verif.OutputLayer (isoLogProb)

variable {ι : Type} [Fintype ι] {Ω : Type} [MeasurableSpace Ω]

/-- The negative logarithm of the isotropic Gaussian prior. -/
noncomputable def negPrior (plv : ℝ) (θ : ι → ℝ) : ℝ := -isoLogProb plv (univ.toList.map θ)

/-- Specification: the Kullback-Leibler divergence of independent normals with means `mean` and standard deviations `exp(logStd) * exp(b)` from independent normals with mean 0 and variance `exp(plv)`. -/
noncomputable def complexity (plv b : ℝ) (mean logStd : ι → ℝ) : ℝ :=
  ∑ i, 1 / 2 * (Real.exp (-plv) * (mean i ^ 2 + (Real.exp (logStd i) * Real.exp b) ^ 2) - 1 - Real.log (Real.exp (-plv) * (Real.exp (logStd i) * Real.exp b) ^ 2))

/-- The prior: independent normals with mean 0 and variance `exp(plv)`. -/
noncomputable def prior (plv : ℝ) : Measure (ι → ℝ) := Measure.pi fun _ => gaussianReal 0 (Real.toNNReal (Real.exp plv))

instance (plv : ℝ) : IsProbabilityMeasure (prior plv : Measure (ι → ℝ)) := by unfold prior; infer_instance

theorem negPrior_eq (plv : ℝ) (θ : ι → ℝ) : negPrior plv θ = ∑ i, (Real.exp (-plv) / 2 * θ i ^ 2 + (Real.log (2 * Real.pi) + plv) / 2) := by
  unfold negPrior isoLogProb
  rw [List.map_map, List.length_map, length_toList, card_univ]
  have : (List.map ((fun a => a ^ 2) ∘ θ) univ.toList).sum = ∑ i, θ i ^ 2 := sum_map_toList univ fun i => θ i ^ 2
  rw [this, sum_add_distrib, ← mul_sum]
  simp only [sum_const, card_univ, nsmul_eq_mul]
  ring

theorem half_exp (plv : ℝ) : (Real.exp (plv / 2) * Real.exp 0) ^ 2 = Real.exp plv := by
  rw [Real.exp_zero, mul_one, sq, ← Real.exp_add]
  congr 1
  ring

theorem prior_approx (plv : ℝ) : (prior plv : Measure (ι → ℝ)) = approx 0 (fun _ => 0) fun _ => plv / 2 := by
  unfold prior approx
  simp only [half_exp]

theorem negPrior_diag (plv : ℝ) (θ : ι → ℝ) : -negPrior plv θ = diagLogProb (fun _ => 0) (fun _ => Real.exp (plv / 2) * Real.exp 0) θ := by
  rw [negPrior_eq]
  unfold diagLogProb normLogpdf
  rw [← sum_neg_distrib]
  refine sum_congr rfl fun i _ => ?_
  rw [sub_zero, div_pow, half_exp, Real.exp_neg, Real.exp_zero, mul_one, Real.log_exp]
  have := (Real.exp_pos plv).ne'
  field_simp
  ring

theorem prior_evidence (plv : ℝ) : (Integrable fun θ : ι → ℝ => Real.exp (-negPrior plv θ)) ∧ ∫ θ : ι → ℝ, Real.exp (-negPrior plv θ) = 1 := by
  have e : (fun θ : ι → ℝ => Real.exp (-negPrior plv θ)) = fun θ => ∏ i, gaussianPDFReal 0 (Real.toNNReal ((Real.exp (plv / 2) * Real.exp 0) ^ 2)) (θ i) := by
    funext θ
    rw [negPrior_diag, C76_gaussian _ _ _ fun i => by positivity]
  rw [e]
  refine ⟨Integrable.fintype_prod (f := fun _ => gaussianPDFReal 0 (Real.toNNReal ((Real.exp (plv / 2) * Real.exp 0) ^ 2))) fun i => integrable_gaussianPDFReal _ _, ?_⟩
  rw [integral_fintype_prod_volume_eq_prod (fun _ => gaussianPDFReal 0 (Real.toNNReal ((Real.exp (plv / 2) * Real.exp 0) ^ 2)))]
  rw [integral_gaussianPDFReal_eq_one 0 (by rw [half_exp]; simp [Real.exp_pos])]
  simp

theorem prior_posterior (plv : ℝ) : posterior (negPrior plv) = (prior plv : Measure (ι → ℝ)) := by
  unfold posterior
  rw [(prior_evidence plv).2, prior_approx, approx_density]
  simp only [div_one, negPrior_diag]

theorem negPrior_moment (plv b : ℝ) (mean logStd : ι → ℝ) : Integrable (negPrior plv) (approx b mean logStd) ∧
    ∫ θ, negPrior plv θ ∂(approx b mean logStd) = complexity plv b mean logStd + ∑ i, logStd i + Fintype.card ι * (b + (1 + Real.log (2 * Real.pi)) / 2) := by
  have e : negPrior plv = fun θ : ι → ℝ => ∑ i, (Real.exp (-plv) / 2 * θ i ^ 2 + (Real.log (2 * Real.pi) + plv) / 2) := funext (negPrior_eq plv)
  have hI : ∀ i, Integrable (fun θ : ι → ℝ => Real.exp (-plv) / 2 * θ i ^ 2 + (Real.log (2 * Real.pi) + plv) / 2) (approx b mean logStd) := fun i =>
    ((sq_moment b mean logStd i).1.const_mul _).add (integrable_const _)
  rw [e]
  refine ⟨integrable_finsetSum _ fun i _ => hI i, ?_⟩
  rw [integral_finsetSum _ fun i _ => hI i]
  have hv : ∀ i, ∫ θ : ι → ℝ, (Real.exp (-plv) / 2 * θ i ^ 2 + (Real.log (2 * Real.pi) + plv) / 2) ∂(approx b mean logStd) =
      1 / 2 * (Real.exp (-plv) * (mean i ^ 2 + (Real.exp (logStd i) * Real.exp b) ^ 2) - 1 - Real.log (Real.exp (-plv) * (Real.exp (logStd i) * Real.exp b) ^ 2)) + logStd i +
        (b + (1 + Real.log (2 * Real.pi)) / 2) := fun i => by
    rw [integral_add ((sq_moment b mean logStd i).1.const_mul _) (integrable_const _), integral_const_mul, (sq_moment b mean logStd i).2]
    simp only [integral_const, probReal_univ, one_smul]
    rw [Real.log_mul (Real.exp_pos _).ne' (by positivity), Real.log_pow, ← Real.exp_add, Real.log_exp, Real.log_exp]
    push_cast
    ring
  simp only [hv, sum_add_distrib, sum_const, card_univ, nsmul_eq_mul]
  unfold complexity
  ring

/-- **C156, the parts of the loss.** With the isotropic Gaussian prior the expected loss is the average of the negative log-likelihood under the approximate posterior, plus the divergence of the
approximate posterior from the prior, plus a constant. -/
theorem C156_parts {N : ℕ} (hN : 0 < N) (μ : Measure Ω) [IsProbabilityMeasure μ] (Z : Fin N × ι → Ω → ℝ) (hm : ∀ k, Measurable (Z k)) (hi : iIndepFun Z μ)
    (hl : ∀ k, μ.map (Z k) = gaussianReal 0 1) (G : (ι → ℝ) → ℝ) (plv b : ℝ) (mean logStd : ι → ℝ) (hG : Integrable G (approx b mean logStd)) :
    expectedLoss μ Z (fun θ => G θ - isoLogProb plv (univ.toList.map θ)) b mean logStd =
      ∫ θ, G θ ∂(approx b mean logStd) + complexity plv b mean logStd + Fintype.card ι * (b + (1 + Real.log (2 * Real.pi)) / 2) ∧
    InformationTheory.klDiv (approx b mean logStd) (prior plv) = ENNReal.ofReal (complexity plv b mean logStd) := by
  have hp := negPrior_moment plv b mean logStd
  refine ⟨?_, ?_⟩
  · have e : (fun θ : ι → ℝ => G θ - isoLogProb plv (univ.toList.map θ)) = fun θ => G θ + negPrior plv θ := by
      funext θ
      unfold negPrior
      ring
    rw [e, C155_loss hN μ Z hm hi hl (fun θ => G θ + negPrior plv θ) b mean logStd (hG.add hp.1), integral_add hG hp.1, hp.2]
    ring
  · rw [← prior_posterior, C155_kl hN μ Z hm hi hl (negPrior plv) b mean logStd hp.1 (prior_evidence plv).1]
    congr 1
    unfold gap
    rw [C155_loss hN μ Z hm hi hl _ b mean logStd hp.1, hp.2, (prior_evidence plv).2, Real.log_one]
    ring

/-- The change of measure from the prior. -/
theorem change (plv b : ℝ) (mean logStd : ι → ℝ) (g : (ι → ℝ) → ℝ) (hg : Integrable g (approx b mean logStd)) (hge : Integrable (fun θ => Real.exp (g θ)) (prior plv)) :
    ∫ θ, g θ ∂(approx b mean logStd) ≤ complexity plv b mean logStd + Real.log (∫ θ, Real.exp (g θ) ∂(prior plv)) := by
  have hp := negPrior_moment plv b mean logStd
  have hm : ∀ k : Fin 1 × ι, Measurable fun ω : Fin 1 × ι → ℝ => ω k := fun k => measurable_pi_apply k
  have hi : iIndepFun (fun (k : Fin 1 × ι) (ω : Fin 1 × ι → ℝ) => ω k) (Measure.infinitePi fun _ : Fin 1 × ι => gaussianReal 0 1) :=
    iIndepFun_infinitePi (P := fun _ : Fin 1 × ι => gaussianReal 0 1) (X := fun _ x => x) fun _ => measurable_id
  have hl : ∀ k : Fin 1 × ι, (Measure.infinitePi fun _ : Fin 1 × ι => gaussianReal 0 1).map (fun ω => ω k) = gaussianReal 0 1 := fun k => Measure.infinitePi_map_eval _ k
  have h1 := gap_ge one_pos (Measure.infinitePi fun _ : Fin 1 × ι => gaussianReal 0 1) (fun (k : Fin 1 × ι) (ω : Fin 1 × ι → ℝ) => ω k) hm hi hl (negPrior plv) b mean logStd hp.1 (prior_evidence plv).1 g hg (by rwa [prior_posterior])
  unfold gap at h1
  rw [C155_loss one_pos (Measure.infinitePi fun _ : Fin 1 × ι => gaussianReal 0 1) (fun (k : Fin 1 × ι) (ω : Fin 1 × ι → ℝ) => ω k) hm hi hl _ b mean logStd hp.1, hp.2, (prior_evidence plv).2, Real.log_one, prior_posterior] at h1
  linarith

/-! ## New data -/

variable {𝒵 : Type} [MeasurableSpace 𝒵]

/-- The error of a parameter vector on new data. -/
noncomputable def risk (D : Measure 𝒵) (ℓ : (ι → ℝ) → 𝒵 → ℝ) (θ : ι → ℝ) : ℝ := ∫ z, ℓ θ z ∂D

/-- Its average error on the training data. -/
noncomputable def trainErr {n : ℕ} (ℓ : (ι → ℝ) → 𝒵 → ℝ) (data : Fin n → 𝒵) (θ : ι → ℝ) : ℝ := (∑ i, ℓ θ (data i)) / n

theorem risk_mem (D : Measure 𝒵) [IsProbabilityMeasure D] (ℓ : (ι → ℝ) → 𝒵 → ℝ) (hℓ : Measurable (Function.uncurry ℓ)) (h01 : ∀ θ z, ℓ θ z ∈ Set.Icc (0 : ℝ) 1) (θ : ι → ℝ) :
    risk D ℓ θ ∈ Set.Icc (0 : ℝ) 1 := by
  have hI : Integrable (ℓ θ) D := Integrable.of_mem_Icc 0 1 (hℓ.comp measurable_prodMk_left).aemeasurable (ae_of_all _ (h01 θ))
  refine ⟨integral_nonneg fun z => (h01 θ z).1, ?_⟩
  have := integral_mono hI (integrable_const 1) fun z => (h01 θ z).2
  simp only [integral_const, probReal_univ, one_smul] at this
  exact this

theorem train_mem {n : ℕ} (hn : 0 < n) (ℓ : (ι → ℝ) → 𝒵 → ℝ) (h01 : ∀ θ z, ℓ θ z ∈ Set.Icc (0 : ℝ) 1) (data : Fin n → 𝒵) (θ : ι → ℝ) : trainErr ℓ data θ ∈ Set.Icc (0 : ℝ) 1 := by
  have hn' : (0 : ℝ) < n := by exact_mod_cast hn
  refine ⟨div_nonneg (sum_nonneg fun i _ => (h01 θ _).1) hn'.le, ?_⟩
  unfold trainErr
  rw [div_le_one hn']
  have : ∑ i, ℓ θ (data i) ≤ ∑ _i : Fin n, (1 : ℝ) := sum_le_sum fun i _ => (h01 θ _).2
  simpa using this

theorem risk_meas (D : Measure 𝒵) [IsProbabilityMeasure D] (ℓ : (ι → ℝ) → 𝒵 → ℝ) (hℓ : Measurable (Function.uncurry ℓ)) : Measurable (risk D ℓ) :=
  (StronglyMeasurable.integral_prod_right' (ν := D) (f := Function.uncurry ℓ) hℓ.stronglyMeasurable).measurable

theorem excess_meas {n : ℕ} (D : Measure 𝒵) [IsProbabilityMeasure D] (ℓ : (ι → ℝ) → 𝒵 → ℝ) (hℓ : Measurable (Function.uncurry ℓ)) (lam : ℝ) :
    Measurable fun p : (ι → ℝ) × (Fin n → 𝒵) => Real.exp (lam * (risk D ℓ p.1 - trainErr ℓ p.2 p.1)) := by
  have h1 : Measurable fun p : (ι → ℝ) × (Fin n → 𝒵) => risk D ℓ p.1 := (risk_meas D ℓ hℓ).comp measurable_fst
  have h2 : Measurable fun p : (ι → ℝ) × (Fin n → 𝒵) => trainErr ℓ p.2 p.1 := by
    unfold trainErr
    refine Measurable.div_const (Finset.measurable_sum _ fun i _ => ?_) _
    exact hℓ.comp (measurable_fst.prodMk ((measurable_pi_apply i).comp measurable_snd))
  exact ((h1.sub h2).const_mul lam).exp

theorem excess_bound {n : ℕ} (hn : 0 < n) (D : Measure 𝒵) [IsProbabilityMeasure D] (ℓ : (ι → ℝ) → 𝒵 → ℝ) (hℓ : Measurable (Function.uncurry ℓ)) (h01 : ∀ θ z, ℓ θ z ∈ Set.Icc (0 : ℝ) 1)
    (lam : ℝ) (hlam : 0 < lam) (θ : ι → ℝ) (data : Fin n → 𝒵) : Real.exp (lam * (risk D ℓ θ - trainErr ℓ data θ)) ∈ Set.Icc 0 (Real.exp lam) := by
  refine ⟨(Real.exp_pos _).le, Real.exp_le_exp.2 ?_⟩
  have h1 := (risk_mem D ℓ hℓ h01 θ).2
  have h2 := (train_mem hn ℓ h01 data θ).1
  nlinarith

/-- One parameter vector, all data sets. -/
theorem hoeffding {n : ℕ} (hn : 0 < n) (D : Measure 𝒵) [IsProbabilityMeasure D] (ℓ : (ι → ℝ) → 𝒵 → ℝ) (hℓ : Measurable (Function.uncurry ℓ)) (h01 : ∀ θ z, ℓ θ z ∈ Set.Icc (0 : ℝ) 1)
    (lam : ℝ) (θ : ι → ℝ) : ∫ data : Fin n → 𝒵, Real.exp (lam * (risk D ℓ θ - trainErr ℓ data θ)) ∂(Measure.pi fun _ => D) ≤ Real.exp (lam ^ 2 / (8 * n)) := by
  have hn' : (n : ℝ) ≠ 0 := by exact_mod_cast hn.ne'
  have hmθ : Measurable (ℓ θ) := hℓ.comp measurable_prodMk_left
  have e : ∀ data : Fin n → 𝒵, Real.exp (lam * (risk D ℓ θ - trainErr ℓ data θ)) = ∏ i, Real.exp (lam / n * (-ℓ θ (data i) - ∫ z, -ℓ θ z ∂D)) := fun data => by
    rw [← Real.exp_sum]
    congr 1
    unfold trainErr risk
    rw [← mul_sum, sum_sub_distrib, sum_neg_distrib, integral_neg]
    simp only [sum_const, card_univ, Fintype.card_fin, nsmul_eq_mul]
    field_simp
    ring
  simp only [e]
  rw [integral_fintype_prod_eq_pow (fun z => Real.exp (lam / n * (-ℓ θ z - ∫ z, -ℓ θ z ∂D)))]
  have hsub := hasSubgaussianMGF_of_mem_Icc (μ := D) (X := fun z => -ℓ θ z) (a := -1) (b := 0) hmθ.neg.aemeasurable (ae_of_all _ fun z => ⟨by linarith [(h01 θ z).2], by linarith [(h01 θ z).1]⟩)
  have h1 := hsub.mgf_le (lam / n)
  unfold mgf at h1
  refine (pow_le_pow_left₀ (integral_nonneg fun z => (Real.exp_pos _).le) h1 _).trans (le_of_eq ?_)
  rw [← Real.exp_nat_mul, Fintype.card_fin]
  congr 1
  simp only [zero_sub, neg_neg, NNReal.coe_pow, NNReal.coe_div, coe_nnnorm, NNReal.coe_ofNat, norm_one]
  field_simp
  ring

/-- **C156, new data.** With probability at least `1 - δ` over independent training data, for all means and log-standard deviations at once, and so for those found on these data: the error on new data
of a parameter vector drawn from the approximate posterior is on average at most its training error plus `(KL + log(1/δ)) / λ + λ / (8n)`. -/
theorem C156_new_data {n : ℕ} (hn : 0 < n) (D : Measure 𝒵) [IsProbabilityMeasure D] (ℓ : (ι → ℝ) → 𝒵 → ℝ) (hℓ : Measurable (Function.uncurry ℓ)) (h01 : ∀ θ z, ℓ θ z ∈ Set.Icc (0 : ℝ) 1)
    (plv b lam δ : ℝ) (hlam : 0 < lam) (hδ : 0 < δ) :
    (Measure.pi fun _ : Fin n => D).real {data | ∃ mean logStd : ι → ℝ,
      ∫ θ, trainErr ℓ data θ ∂(approx b mean logStd) + (complexity plv b mean logStd + Real.log (1 / δ)) / lam + lam / (8 * n) < ∫ θ, risk D ℓ θ ∂(approx b mean logStd)} ≤ δ := by
  have hn' : (0 : ℝ) < n := by exact_mod_cast hn
  set Φ : (Fin n → 𝒵) → ℝ := fun data => ∫ θ, Real.exp (lam * (risk D ℓ θ - trainErr ℓ data θ)) ∂(prior plv) with hΦ
  have hint : Integrable (Function.uncurry fun (θ : ι → ℝ) (data : Fin n → 𝒵) => Real.exp (lam * (risk D ℓ θ - trainErr ℓ data θ))) ((prior plv).prod (Measure.pi fun _ => D)) :=
    Integrable.of_mem_Icc 0 (Real.exp lam) (excess_meas D ℓ hℓ lam).aemeasurable (ae_of_all _ fun p => excess_bound hn D ℓ hℓ h01 lam hlam p.1 p.2)
  have hΦi : Integrable Φ (Measure.pi fun _ => D) := hint.integral_prod_right
  have hΦ0 : ∀ data, 0 ≤ Φ data := fun data => integral_nonneg fun θ => (Real.exp_pos _).le
  have hΦe : ∫ data, Φ data ∂(Measure.pi fun _ => D) ≤ Real.exp (lam ^ 2 / (8 * n)) := by
    rw [hΦ, ← integral_integral_swap hint]
    have := integral_mono hint.integral_prod_left (integrable_const (Real.exp (lam ^ 2 / (8 * n)))) fun θ => hoeffding hn D ℓ hℓ h01 lam θ
    simpa using this
  have hmark := mul_meas_ge_le_integral_of_nonneg (ae_of_all _ hΦ0) hΦi (Real.exp (lam ^ 2 / (8 * n)) / δ)
  have hE : 0 < Real.exp (lam ^ 2 / (8 * n)) := Real.exp_pos _
  have hsmall : (Measure.pi fun _ : Fin n => D).real {data | Real.exp (lam ^ 2 / (8 * n)) / δ ≤ Φ data} ≤ δ := by
    have h1 := hmark.trans hΦe
    rw [div_mul_eq_mul_div, div_le_iff₀ hδ] at h1
    exact le_of_mul_le_mul_left h1 hE
  refine (measureReal_mono ?_).trans hsmall
  rintro data ⟨mean, logStd, hlt⟩
  by_contra hnot
  simp only [Set.mem_ofPred_eq, not_le] at hnot
  have hR : Integrable (risk D ℓ) (approx b mean logStd) := Integrable.of_mem_Icc 0 1 (risk_meas D ℓ hℓ).aemeasurable (ae_of_all _ fun θ => risk_mem D ℓ hℓ h01 θ)
  have hTm : Measurable fun θ => trainErr ℓ data θ := by
    unfold trainErr
    refine Measurable.div_const (Finset.measurable_sum _ fun i _ => ?_) _
    exact hℓ.comp measurable_prodMk_right
  have hT : Integrable (fun θ => trainErr ℓ data θ) (approx b mean logStd) := Integrable.of_mem_Icc 0 1 hTm.aemeasurable (ae_of_all _ fun θ => train_mem hn ℓ h01 data θ)
  have hge : Integrable (fun θ => Real.exp (lam * (risk D ℓ θ - trainErr ℓ data θ))) (prior plv) :=
    Integrable.of_mem_Icc 0 (Real.exp lam) ((excess_meas D ℓ hℓ lam).comp (measurable_id.prodMk measurable_const)).aemeasurable (ae_of_all _ fun θ => excess_bound hn D ℓ hℓ h01 lam hlam θ data)
  have h1 := change plv b mean logStd (fun θ => lam * (risk D ℓ θ - trainErr ℓ data θ)) ((hR.sub hT).const_mul lam) hge
  have hpos : 0 < Φ data := integral_exp_pos hge
  have h2 : Real.log (Φ data) ≤ lam ^ 2 / (8 * n) + Real.log (1 / δ) := by
    have := Real.log_le_log hpos hnot.le
    rw [Real.log_div hE.ne' hδ.ne', Real.log_exp] at this
    rw [one_div, Real.log_inv]
    linarith
  rw [integral_const_mul, integral_sub hR hT] at h1
  have h3 : lam * (∫ θ, risk D ℓ θ ∂(approx b mean logStd) - ∫ θ, trainErr ℓ data θ ∂(approx b mean logStd)) ≤ complexity plv b mean logStd + (lam ^ 2 / (8 * n) + Real.log (1 / δ)) := h1.trans (by linarith)
  have h4 : ∫ θ, risk D ℓ θ ∂(approx b mean logStd) - ∫ θ, trainErr ℓ data θ ∂(approx b mean logStd) ≤ (complexity plv b mean logStd + (lam ^ 2 / (8 * n) + Real.log (1 / δ))) / lam := by
    rw [le_div_iff₀ hlam]
    linarith
  have h5 : (complexity plv b mean logStd + (lam ^ 2 / (8 * n) + Real.log (1 / δ))) / lam = (complexity plv b mean logStd + Real.log (1 / δ)) / lam + lam / (8 * n) := by
    field_simp
    ring
  linarith

/-! ## The Brier score of the predictive probabilities -/

section
open Verif.Metrics (brierRow)

variable {𝒳 : Type} [MeasurableSpace 𝒳] {c : ℕ}

theorem brier_sum (p : Fin c → ℝ) (y : Fin c) : brierRow (List.ofFn p) (y : ℤ) = ∑ j, (p j - if j = y then 1 else 0) ^ 2 := by
  have h : List.zipWith (fun a b : ℝ => (a - b) ^ 2) (List.ofFn p) (Verif.Metrics.oneHot (List.ofFn p).length (y : ℤ)) = List.ofFn fun j : Fin c => (p j - if j = y then 1 else 0) ^ 2 := by
    refine List.ext_getElem (by simp [Verif.Metrics.oneHot]) fun i h1 h2 => ?_
    simp [Verif.Metrics.oneHot, Fin.ext_iff]
  unfold brierRow
  rw [h, List.sum_ofFn]

theorem brier_mem (p : Fin c → ℝ) (h0 : ∀ j, 0 ≤ p j) (h1 : ∑ j, p j = 1) (y : Fin c) : brierRow (List.ofFn p) (y : ℤ) / 2 ∈ Set.Icc (0 : ℝ) 1 := by
  rw [brier_sum]
  refine ⟨div_nonneg (sum_nonneg fun j _ => sq_nonneg _) zero_le_two, ?_⟩
  have h2 : ∀ j, (p j - if j = y then 1 else 0) ^ 2 ≤ p j + if j = y then 1 else 0 := fun j => by
    have h3 : p j ≤ 1 := h1 ▸ single_le_sum (f := p) (fun k _ => h0 k) (mem_univ j)
    have h4 := h0 j
    split
    · nlinarith
    · nlinarith
  have h5 := sum_le_sum fun j (_ : j ∈ univ) => h2 j
  rw [sum_add_distrib, h1] at h5
  simp only [sum_ite_eq', mem_univ, if_true] at h5
  linarith

/-- The predictive probabilities: the average over the approximate posterior. -/
noncomputable def predictive (f : (ι → ℝ) → 𝒳 → Fin c → ℝ) (b : ℝ) (mean logStd : ι → ℝ) (x : 𝒳) (j : Fin c) : ℝ := ∫ θ, f θ x j ∂(approx b mean logStd)

theorem predictive_brier (D : Measure (𝒳 × Fin c)) [IsProbabilityMeasure D] (f : (ι → ℝ) → 𝒳 → Fin c → ℝ) (hf : ∀ j, Measurable fun q : (ι → ℝ) × 𝒳 => f q.1 q.2 j) (h0 : ∀ θ x j, 0 ≤ f θ x j)
    (h1 : ∀ θ x, ∑ j, f θ x j = 1) (hℓ : Measurable (Function.uncurry fun (θ : ι → ℝ) (z : 𝒳 × Fin c) => brierRow (List.ofFn (f θ z.1)) (z.2 : ℤ) / 2)) (b : ℝ) (mean logStd : ι → ℝ) :
    ∫ z, brierRow (List.ofFn (predictive f b mean logStd z.1)) (z.2 : ℤ) / 2 ∂D ≤
      ∫ θ, risk D (fun θ z => brierRow (List.ofFn (f θ z.1)) (z.2 : ℤ) / 2) θ ∂(approx b mean logStd) := by
  set Q := approx b mean logStd with hQ
  have hle : ∀ θ x j, f θ x j ≤ 1 := fun θ x j => (h1 θ x) ▸ single_le_sum (f := f θ x) (fun k _ => h0 θ x k) (mem_univ j)
  have hint : Integrable (Function.uncurry fun (θ : ι → ℝ) (z : 𝒳 × Fin c) => brierRow (List.ofFn (f θ z.1)) (z.2 : ℤ) / 2) (Q.prod D) :=
    Integrable.of_mem_Icc 0 1 hℓ.aemeasurable (ae_of_all _ fun p => brier_mem _ (h0 _ _) (h1 _ _) _)
  have hfx : ∀ x j, Measurable fun θ => f θ x j := fun x j => (hf j).comp measurable_prodMk_right
  have hfi : ∀ x j, Integrable (fun θ => f θ x j) Q := fun x j => Integrable.of_mem_Icc 0 1 (hfx x j).aemeasurable (ae_of_all _ fun θ => ⟨h0 θ x j, hle θ x j⟩)
  have hp1 : ∀ x, ∑ j, predictive f b mean logStd x j = 1 := fun x => by
    unfold predictive
    rw [← integral_finsetSum _ fun j _ => hfi x j]
    simp [h1]
  have hpm : ∀ j, Measurable fun x => predictive f b mean logStd x j := fun j =>
    (StronglyMeasurable.integral_prod_left' (μ := Q) (f := fun q : (ι → ℝ) × 𝒳 => f q.1 q.2 j) (hf j).stronglyMeasurable).measurable
  have hbm : Measurable fun z : 𝒳 × Fin c => brierRow (List.ofFn (predictive f b mean logStd z.1)) (z.2 : ℤ) / 2 := by
    refine measurable_from_prod_countable_left fun y => ?_
    simp only [brier_sum]
    refine Measurable.div_const (Finset.measurable_sum _ fun j _ => ?_) _
    exact ((hpm j).sub_const _).pow_const 2
  have hbi : Integrable (fun z : 𝒳 × Fin c => brierRow (List.ofFn (predictive f b mean logStd z.1)) (z.2 : ℤ) / 2) D :=
    Integrable.of_mem_Icc 0 1 hbm.aemeasurable (ae_of_all _ fun z => brier_mem _ (fun j => integral_nonneg fun θ => h0 θ z.1 j) (hp1 z.1) _)
  have hswap := integral_integral_swap hint
  unfold risk
  rw [hswap]
  refine integral_mono hbi hint.integral_prod_right fun z => ?_
  have hsq : ∀ j, Integrable (fun θ => (f θ z.1 j - if j = z.2 then 1 else 0) ^ 2) Q := fun j =>
    Integrable.of_mem_Icc 0 1 (((hfx z.1 j).sub_const _).pow_const 2).aemeasurable (ae_of_all _ fun θ => by
      have := h0 θ z.1 j
      have := hle θ z.1 j
      refine ⟨sq_nonneg _, ?_⟩
      split <;> nlinarith)
  simp only [brier_sum]
  rw [integral_div, integral_finsetSum _ fun j _ => hsq j]
  refine div_le_div_of_nonneg_right (sum_le_sum fun j _ => ?_) zero_le_two
  have hjen := (even_two.convexOn_pow (𝕜 := ℝ)).map_integral_le (continuous_pow 2).continuousOn isClosed_univ (μ := Q) (f := fun θ => f θ z.1 j - if j = z.2 then 1 else 0)
    (ae_of_all _ fun _ => Set.mem_univ _) ((hfi z.1 j).sub (integrable_const _)) (hsq j)
  rw [integral_sub (hfi z.1 j) (integrable_const _)] at hjen
  simpa [predictive, hQ] using hjen

/-- **C156, predictive probabilities.** With probability at least `1 - δ` over independent training data, for all means and log-standard deviations at once: the Brier score of the predictive
probabilities on new data is at most the Brier score of single draws on the training data plus `2 ((KL + log(1/δ)) / λ + λ / (8n))`. -/
theorem C156_brier {n : ℕ} (hn : 0 < n) (D : Measure (𝒳 × Fin c)) [IsProbabilityMeasure D] (f : (ι → ℝ) → 𝒳 → Fin c → ℝ) (hf : ∀ j, Measurable fun q : (ι → ℝ) × 𝒳 => f q.1 q.2 j)
    (h0 : ∀ θ x j, 0 ≤ f θ x j) (h1 : ∀ θ x, ∑ j, f θ x j = 1) (plv b lam δ : ℝ) (hlam : 0 < lam) (hδ : 0 < δ) :
    (Measure.pi fun _ : Fin n => D).real {data | ∃ mean logStd : ι → ℝ,
      ∫ θ, (∑ i, brierRow (List.ofFn (f θ (data i).1)) ((data i).2 : ℤ)) / n ∂(approx b mean logStd) + 2 * ((complexity plv b mean logStd + Real.log (1 / δ)) / lam + lam / (8 * n)) <
        ∫ z, brierRow (List.ofFn (predictive f b mean logStd z.1)) (z.2 : ℤ) ∂D} ≤ δ := by
  have hℓ : Measurable (Function.uncurry fun (θ : ι → ℝ) (z : 𝒳 × Fin c) => brierRow (List.ofFn (f θ z.1)) (z.2 : ℤ) / 2) := by
    have h2 : Measurable fun q : ((ι → ℝ) × 𝒳) × Fin c => brierRow (List.ofFn (f q.1.1 q.1.2)) (q.2 : ℤ) / 2 := by
      refine measurable_from_prod_countable_left fun y => ?_
      simp only [brier_sum]
      refine Measurable.div_const (Finset.measurable_sum _ fun j _ => ?_) _
      exact ((hf j).sub_const _).pow_const 2
    exact h2.comp ((measurable_fst.prodMk (measurable_fst.comp measurable_snd)).prodMk (measurable_snd.comp measurable_snd))
  refine (measureReal_mono ?_).trans (C156_new_data hn D (fun (θ : ι → ℝ) (z : 𝒳 × Fin c) => brierRow (List.ofFn (f θ z.1)) (z.2 : ℤ) / 2) hℓ (fun θ z => brier_mem _ (h0 _ _) (h1 _ _) _) plv b lam δ hlam hδ)
  rintro data ⟨mean, logStd, hlt⟩
  refine ⟨mean, logStd, ?_⟩
  have h2 := predictive_brier D f hf h0 h1 hℓ b mean logStd
  rw [integral_div] at h2
  have h3 : ∫ θ, trainErr (fun (θ : ι → ℝ) (z : 𝒳 × Fin c) => brierRow (List.ofFn (f θ z.1)) (z.2 : ℤ) / 2) data θ ∂(approx b mean logStd) =
      (∫ θ, (∑ i, brierRow (List.ofFn (f θ (data i).1)) ((data i).2 : ℤ)) / n ∂(approx b mean logStd)) / 2 := by
    rw [← integral_div]
    refine integral_congr_ae (ae_of_all _ fun θ => ?_)
    unfold trainErr
    simp only [← sum_div]
    ring
  rw [h3]
  linarith

end

/-! ## The Laplace approximation -/

/-- The law of the draws of the Laplace approximation (C110). -/
noncomputable def laplaceLaw (plv : ℝ) (mean hess : ι → ℝ) : Measure (ι → ℝ) := Measure.pi fun i => gaussianReal (mean i) (Real.toNNReal (laplaceStd plv (hess i) ^ 2))

/-- Specification: its divergence from the prior. -/
noncomputable def laplaceComplexity (plv : ℝ) (mean hess : ι → ℝ) : ℝ :=
  ∑ i, 1 / 2 * (Real.exp (-plv) * mean i ^ 2 + Real.exp (-plv) / (Real.exp (-plv) + hess i) - 1 + Real.log (1 + Real.exp plv * hess i))

theorem laplace_pos (plv h : ℝ) (hh : 0 ≤ h) : 0 < laplaceStd plv h := by
  unfold laplaceStd
  have := Real.exp_pos (-plv)
  positivity

theorem laplace_sq (plv h : ℝ) (hh : 0 ≤ h) : laplaceStd plv h ^ 2 = 1 / (Real.exp (-plv) + h) := by
  unfold laplaceStd
  have := Real.exp_pos (-plv)
  rw [div_pow, one_pow, Real.sq_sqrt (by positivity)]

/-- **C156, Laplace draws.** The draws of the Laplace approximation around `mean` with a diagonal of the likelihood's curvature that is 0 or more are distributed like an approximate posterior as
above, and this is its divergence from the prior. -/
theorem C156_laplace (μ : Measure Ω) [IsProbabilityMeasure μ] (Z : ι → Ω → ℝ) (hm : ∀ k, Measurable (Z k)) (hi : iIndepFun Z μ) (hl : ∀ k, μ.map (Z k) = gaussianReal 0 1)
    (plv : ℝ) (mean hess : ι → ℝ) (hh : ∀ i, 0 ≤ hess i) :
    μ.map (fun ω i => mean i + laplaceStd plv (hess i) * Z i ω) = laplaceLaw plv mean hess ∧
    InformationTheory.klDiv (laplaceLaw plv mean hess) (prior plv) = ENNReal.ofReal (laplaceComplexity plv mean hess) ∧
    laplaceLaw plv mean hess = approx 0 mean (fun i => Real.log (laplaceStd plv (hess i))) ∧
    laplaceComplexity plv mean hess = complexity plv 0 mean (fun i => Real.log (laplaceStd plv (hess i))) := by
  have hs : ∀ i, Real.exp (Real.log (laplaceStd plv (hess i))) * Real.exp 0 = laplaceStd plv (hess i) := fun i => by
    rw [Real.exp_log (laplace_pos plv _ (hh i)), Real.exp_zero, mul_one]
  have hA : laplaceLaw plv mean hess = approx 0 mean (fun i => Real.log (laplaceStd plv (hess i))) := by
    unfold laplaceLaw approx
    simp only [hs]
  have hC : laplaceComplexity plv mean hess = complexity plv 0 mean (fun i => Real.log (laplaceStd plv (hess i))) := by
    unfold laplaceComplexity complexity
    refine sum_congr rfl fun i _ => ?_
    have hp : 0 < Real.exp (-plv) + hess i := by
      have := Real.exp_pos (-plv)
      have := hh i
      positivity
    rw [hs, laplace_sq plv _ (hh i)]
    have h1 : Real.exp (-plv) * (1 / (Real.exp (-plv) + hess i)) = (1 + Real.exp plv * hess i)⁻¹ := by
      have h2 : Real.exp (-plv) * (1 + Real.exp plv * hess i) = Real.exp (-plv) + hess i := by
        rw [mul_add, mul_one, ← mul_assoc, ← Real.exp_add, neg_add_cancel, Real.exp_zero, one_mul]
      rw [← h2]
      have h3 := Real.exp_pos (-plv)
      have h4 : 0 < 1 + Real.exp plv * hess i := by
        have := hh i
        positivity
      field_simp
    rw [h1, Real.log_inv]
    ring
  refine ⟨?_, ?_, hA, hC⟩
  · rw [hA, ← approx_law μ Z hm hi hl 0 mean fun i => Real.log (laplaceStd plv (hess i))]
    simp only [hs]
  · have hmm : ∀ k : Fin 1 × ι, Measurable fun ω : Fin 1 × ι → ℝ => ω k := fun k => measurable_pi_apply k
    have hii : iIndepFun (fun (k : Fin 1 × ι) (ω : Fin 1 × ι → ℝ) => ω k) (Measure.infinitePi fun _ : Fin 1 × ι => gaussianReal 0 1) :=
      iIndepFun_infinitePi (P := fun _ : Fin 1 × ι => gaussianReal 0 1) (X := fun _ x => x) fun _ => measurable_id
    have hll : ∀ k : Fin 1 × ι, (Measure.infinitePi fun _ : Fin 1 × ι => gaussianReal 0 1).map (fun ω => ω k) = gaussianReal 0 1 := fun k => Measure.infinitePi_map_eval _ k
    rw [hA, hC]
    exact (C156_parts one_pos (Measure.infinitePi fun _ : Fin 1 × ι => gaussianReal 0 1) (fun (k : Fin 1 × ι) (ω : Fin 1 × ι → ℝ) => ω k) hmm hii hll (fun _ => 0) plv 0 mean _ (integrable_const 0)).2

/-- **C156, new data, Laplace.** The same guarantee for the Laplace approximation, at all parameters and curvatures at once. -/
theorem C156_laplace_new_data {n : ℕ} (hn : 0 < n) (D : Measure 𝒵) [IsProbabilityMeasure D] (ℓ : (ι → ℝ) → 𝒵 → ℝ) (hℓ : Measurable (Function.uncurry ℓ))
    (h01 : ∀ θ z, ℓ θ z ∈ Set.Icc (0 : ℝ) 1) (plv lam δ : ℝ) (hlam : 0 < lam) (hδ : 0 < δ) :
    (Measure.pi fun _ : Fin n => D).real {data | ∃ mean hess : ι → ℝ, (∀ i, 0 ≤ hess i) ∧
      ∫ θ, trainErr ℓ data θ ∂(laplaceLaw plv mean hess) + (laplaceComplexity plv mean hess + Real.log (1 / δ)) / lam + lam / (8 * n) < ∫ θ, risk D ℓ θ ∂(laplaceLaw plv mean hess)} ≤ δ := by
  refine (measureReal_mono ?_).trans (C156_new_data hn D ℓ hℓ h01 plv 0 lam δ hlam hδ)
  rintro data ⟨mean, hess, hh, hlt⟩
  obtain ⟨_, _, hA, hC⟩ := C156_laplace (Measure.infinitePi fun _ : ι => gaussianReal 0 1) (fun (k : ι) (ω : ι → ℝ) => ω k) (fun k => measurable_pi_apply k)
    (iIndepFun_infinitePi (P := fun _ : ι => gaussianReal 0 1) (X := fun _ x => x) fun _ => measurable_id) (fun k => Measure.infinitePi_map_eval _ k) plv mean hess hh
  rw [hA, hC] at hlt
  exact ⟨mean, _, hlt⟩

/-- **C156, tuned prior.** If the prior's log-variance is picked from a finite grid by looking at the data, the guarantee holds with the logarithm of the size of the grid added. -/
theorem C156_laplace_tuned {n : ℕ} (hn : 0 < n) (D : Measure 𝒵) [IsProbabilityMeasure D] (ℓ : (ι → ℝ) → 𝒵 → ℝ) (hℓ : Measurable (Function.uncurry ℓ))
    (h01 : ∀ θ z, ℓ θ z ∈ Set.Icc (0 : ℝ) 1) (grid : Finset ℝ) (hg : grid.Nonempty) (lam δ : ℝ) (hlam : 0 < lam) (hδ : 0 < δ) :
    (Measure.pi fun _ : Fin n => D).real {data | ∃ plv ∈ grid, ∃ mean hess : ι → ℝ, (∀ i, 0 ≤ hess i) ∧
      ∫ θ, trainErr ℓ data θ ∂(laplaceLaw plv mean hess) + (laplaceComplexity plv mean hess + Real.log (grid.card / δ)) / lam + lam / (8 * n) < ∫ θ, risk D ℓ θ ∂(laplaceLaw plv mean hess)} ≤ δ := by
  have hk : (0 : ℝ) < grid.card := by exact_mod_cast hg.card_pos
  have h1 : ∀ plv ∈ grid, (Measure.pi fun _ : Fin n => D).real {data | ∃ mean hess : ι → ℝ, (∀ i, 0 ≤ hess i) ∧
      ∫ θ, trainErr ℓ data θ ∂(laplaceLaw plv mean hess) + (laplaceComplexity plv mean hess + Real.log (grid.card / δ)) / lam + lam / (8 * n) < ∫ θ, risk D ℓ θ ∂(laplaceLaw plv mean hess)} ≤
      δ / grid.card := fun plv _ => by
    have := C156_laplace_new_data hn D ℓ hℓ h01 plv lam (δ / grid.card) hlam (div_pos hδ hk)
    rwa [one_div_div] at this
  have h2 := (measureReal_biUnion_finset_le (μ := Measure.pi fun _ : Fin n => D) grid fun plv => {data | ∃ mean hess : ι → ℝ, (∀ i, 0 ≤ hess i) ∧
      ∫ θ, trainErr ℓ data θ ∂(laplaceLaw plv mean hess) + (laplaceComplexity plv mean hess + Real.log (grid.card / δ)) / lam + lam / (8 * n) < ∫ θ, risk D ℓ θ ∂(laplaceLaw plv mean hess)}).trans
    (sum_le_sum h1)
  rw [sum_const, nsmul_eq_mul, mul_div_cancel₀ _ hk.ne'] at h2
  refine (measureReal_mono ?_ (measure_ne_top _ _)).trans h2
  rintro data ⟨plv, hp, hd⟩
  exact Set.mem_biUnion (Finset.mem_coe.2 hp) hd

/-! ### Concrete cases that meet the hypotheses of the theorems above -/

/-- The divergence from a standard normal prior of one parameter with mean 1 and standard deviation 1 is 1/2. -/
theorem ex_complexity : complexity 0 0 (fun _ : Fin 1 => 1) (fun _ => 0) = 1 / 2 := by
  simp [complexity]

example : ∃ (Ω : Type) (_ : MeasurableSpace Ω) (μ : Measure Ω) (Z : Fin 3 × Fin 2 → Ω → ℝ),
    expectedLoss μ Z (fun θ => exF θ - isoLogProb 1 (univ.toList.map θ)) 0 ![1, 2] ![0, -1] =
      ∫ θ, exF θ ∂(approx 0 ![1, 2] ![0, -1]) + complexity 1 0 ![1, 2] ![0, -1] + Fintype.card (Fin 2) * (0 + (1 + Real.log (2 * Real.pi)) / 2) := by
  obtain ⟨Ω, _, μ, _, Z, hm, hi, hl⟩ := ex_base
  exact ⟨Ω, _, μ, Z, (C156_parts (by decide) μ Z hm hi hl exF 1 0 _ _ (exF_integrable 0 _ _)).1⟩

/-- A threshold on 1000 rows: with probability at least 9/10, a threshold drawn around 1 errs on new data at most 6/100 more often than in training (λ = 80). -/
example (D : Measure ℝ) [IsProbabilityMeasure D] :
    (Measure.pi fun _ : Fin 1000 => D).real {data | ∫ θ, trainErr (fun (θ : Fin 1 → ℝ) (z : ℝ) => if θ 0 < z then 1 else 0) data θ ∂(approx 0 (fun _ => 1) fun _ => 0) + 6 / 100 <
      ∫ θ, risk D (fun (θ : Fin 1 → ℝ) (z : ℝ) => if θ 0 < z then 1 else 0) θ ∂(approx 0 (fun _ => 1) fun _ => 0)} ≤ 1 / 10 := by
  refine (measureReal_mono ?_).trans (C156_new_data (n := 1000) (by decide) D (fun (θ : Fin 1 → ℝ) (z : ℝ) => if θ 0 < z then 1 else 0) ?_ (fun θ z => by split <;> simp) 0 0 80 (1 / 10) (by norm_num) (by norm_num))
  · intro data hd
    refine ⟨fun _ => 1, fun _ => 0, lt_of_le_of_lt ?_ hd⟩
    rw [ex_complexity, one_div_one_div]
    have h10 : Real.log 10 ≤ 2.4 := by
      rw [Real.log_le_iff_le_exp (by norm_num)]
      have h1 : (2.7 : ℝ) ≤ Real.exp 1 := by linarith [Real.exp_one_gt_d9]
      have h2 : (1.4 : ℝ) ≤ Real.exp 0.4 := by linarith [Real.add_one_le_exp (0.4 : ℝ)]
      have h3 : Real.exp 2.4 = Real.exp 1 * Real.exp 1 * Real.exp 0.4 := by
        rw [← Real.exp_add, ← Real.exp_add]
        norm_num
      rw [h3]
      have h4 : (2.7 : ℝ) * 2.7 ≤ Real.exp 1 * Real.exp 1 := by nlinarith
      nlinarith
    have h5 : (1 / 2 + Real.log 10) / 80 + 80 / (8 * ((1000 : ℕ) : ℝ)) ≤ 6 / 100 := by
      push_cast
      linarith
    linarith
  · refine Measurable.ite (measurableSet_lt ?_ measurable_snd) measurable_const measurable_const
    exact (measurable_pi_apply 0).comp measurable_fst

/-- The probabilities of a logistic regression with one parameter. -/
noncomputable def exProb (θ : Fin 1 → ℝ) (x : ℝ) (j : Fin 2) : ℝ := if j = 0 then Real.exp (θ 0 * x) / (1 + Real.exp (θ 0 * x)) else 1 / (1 + Real.exp (θ 0 * x))

example (D : Measure (ℝ × Fin 2)) [IsProbabilityMeasure D] :
    (Measure.pi fun _ : Fin 1000 => D).real {data | ∃ mean logStd : Fin 1 → ℝ,
      ∫ θ, (∑ i, Verif.Metrics.brierRow (List.ofFn (exProb θ (data i).1)) ((data i).2 : ℤ)) / (1000 : ℕ) ∂(approx 0 mean logStd) +
        2 * ((complexity 0 0 mean logStd + Real.log (1 / (1 / 10))) / 80 + 80 / (8 * (1000 : ℕ))) <
        ∫ z, Verif.Metrics.brierRow (List.ofFn (predictive exProb 0 mean logStd z.1)) (z.2 : ℤ) ∂D} ≤ 1 / 10 := by
  have hp : ∀ t : ℝ, 0 < 1 + Real.exp t := fun t => by positivity
  refine C156_brier (by decide) D exProb (fun j => ?_) (fun θ x j => ?_) (fun θ x => ?_) 0 0 80 (1 / 10) (by norm_num) (by norm_num)
  · have h1 : Measurable fun q : (Fin 1 → ℝ) × ℝ => Real.exp (q.1 0 * q.2) := (((measurable_pi_apply 0).comp measurable_fst).mul measurable_snd).exp
    unfold exProb
    split
    · exact h1.div (measurable_const.add h1)
    · exact measurable_const.div (measurable_const.add h1)
  · unfold exProb
    split <;> positivity
  · have := (hp (θ 0 * x)).ne'
    simp only [exProb, Fin.sum_univ_two]
    simp
    field_simp
    ring

/-- Two parameters, one of which the data say nothing about: its share of the divergence is that of its mean. -/
example : laplaceComplexity 0 ![2, 0] ![0, 3] = 1 / 2 * 4 + 1 / 2 * (1 / 4 - 1 + Real.log 4) := by
  simp [laplaceComplexity, Fin.sum_univ_two]
  norm_num

example : InformationTheory.klDiv (laplaceLaw 0 ![2, 0] ![0, 3]) (prior 0) = ENNReal.ofReal (laplaceComplexity 0 ![2, 0] ![0, 3]) :=
  (C156_laplace (Measure.infinitePi fun _ : Fin 2 => gaussianReal 0 1) (fun k ω => ω k) (fun k => measurable_pi_apply k)
    (iIndepFun_infinitePi (P := fun _ : Fin 2 => gaussianReal 0 1) (X := fun _ x => x) fun _ => measurable_id) (fun k => Measure.infinitePi_map_eval _ k) 0 ![2, 0] ![0, 3]
    (by intro i; fin_cases i <;> simp)).2.1

example (D : Measure ℝ) [IsProbabilityMeasure D] :
    (Measure.pi fun _ : Fin 1000 => D).real {data | ∃ mean hess : Fin 1 → ℝ, (∀ i, 0 ≤ hess i) ∧
      ∫ θ, trainErr (fun (θ : Fin 1 → ℝ) (z : ℝ) => if θ 0 < z then 1 else 0) data θ ∂(laplaceLaw 0 mean hess) + (laplaceComplexity 0 mean hess + Real.log (1 / (1 / 10))) / 80 + 80 / (8 * (1000 : ℕ)) <
      ∫ θ, risk D (fun (θ : Fin 1 → ℝ) (z : ℝ) => if θ 0 < z then 1 else 0) θ ∂(laplaceLaw 0 mean hess)} ≤ 1 / 10 := by
  refine C156_laplace_new_data (by decide) D _ ?_ (fun θ z => by split <;> simp) 0 80 (1 / 10) (by norm_num) (by norm_num)
  refine Measurable.ite (measurableSet_lt ?_ measurable_snd) measurable_const measurable_const
  exact (measurable_pi_apply 0).comp measurable_fst

/-- The prior's log-variance picked among three. -/
example (D : Measure ℝ) [IsProbabilityMeasure D] :
    (Measure.pi fun _ : Fin 1000 => D).real {data | ∃ plv ∈ ({-1, 0, 1} : Finset ℝ), ∃ mean hess : Fin 1 → ℝ, (∀ i, 0 ≤ hess i) ∧
      ∫ θ, trainErr (fun (θ : Fin 1 → ℝ) (z : ℝ) => if θ 0 < z then 1 else 0) data θ ∂(laplaceLaw plv mean hess) +
        (laplaceComplexity plv mean hess + Real.log (({-1, 0, 1} : Finset ℝ).card / (1 / 10))) / 80 + 80 / (8 * (1000 : ℕ)) <
      ∫ θ, risk D (fun (θ : Fin 1 → ℝ) (z : ℝ) => if θ 0 < z then 1 else 0) θ ∂(laplaceLaw plv mean hess)} ≤ 1 / 10 := by
  refine C156_laplace_tuned (by decide) D _ ?_ (fun θ z => by split <;> simp) _ (by simp) 80 (1 / 10) (by norm_num) (by norm_num)
  refine Measurable.ite (measurableSet_lt ?_ measurable_snd) measurable_const measurable_const
  exact (measurable_pi_apply 0).comp measurable_fst

end Verif.Props.AdviNewData
