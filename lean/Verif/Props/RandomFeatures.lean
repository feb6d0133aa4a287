import Verif.Model.SNGP
import Mathlib.Probability.Distributions.Gaussian.Real
import Mathlib.Probability.Moments.Variance
import Mathlib.Probability.ConditionalProbability
import Mathlib.Probability.Independence.Basic
import Mathlib.Probability.Moments.SubGaussian
import Mathlib.MeasureTheory.Integral.Pi
import Mathlib.MeasureTheory.Integral.Prod
import Mathlib.Analysis.SpecialFunctions.Integrals.Basic

/-!
Property C106: the random Fourier features of SNGP estimate a radial basis function kernel.
-/
set_option linter.unusedSectionVars false

namespace Verif.Props.RandomFeatures

open Verif.SNGP MeasureTheory ProbabilityTheory Finset

variable {ι κ : Type} [Fintype ι] [Fintype κ]

/-! ### The initial distribution -/

/-- `nn.initializers.uniform(scale=2.0 * jnp.pi)`: uniform between 0 and 2π. -/
noncomputable def biasLaw : Measure ℝ := volume[|Set.Ioc 0 (2 * Real.pi)]

/-- The weights of a feature (`nn.initializers.normal(stddev=1.0)`) and its bias. -/
noncomputable def featureLaw (κ : Type) [Fintype κ] : Measure ((κ → ℝ) × ℝ) := (Measure.pi fun _ : κ => gaussianReal 0 1).prod biasLaw

/-- The weights and biases of all features, independent. -/
noncomputable def initLaw (ι κ : Type) [Fintype ι] [Fintype κ] : Measure (ι → (κ → ℝ) × ℝ) := Measure.pi fun _ : ι => featureLaw κ

/-- The inner product of the features of two inputs. -/
noncomputable def inner (fs ks : ℝ) (x x' : κ → ℝ) (ω : ι → (κ → ℝ) × ℝ) : ℝ :=
  ∑ i, rff fs ks (fun k i => (ω i).1 k) (fun i => (ω i).2) x i * rff fs ks (fun k i => (ω i).1 k) (fun i => (ω i).2) x' i

/-- The radial basis function kernel of length scale `ks`. -/
noncomputable def rbf (ks : ℝ) (x x' : κ → ℝ) : ℝ := Real.exp (-(∑ k, (x k - x' k) ^ 2) / (2 * ks ^ 2))

/-! ### One feature -/

theorem volume_period : (volume : Measure ℝ) (Set.Ioc 0 (2 * Real.pi)) = ENNReal.ofReal (2 * Real.pi) := by
  rw [Real.volume_Ioc, sub_zero]

instance : IsProbabilityMeasure biasLaw := by
  unfold biasLaw
  apply cond_isProbabilityMeasure_of_finite
  · rw [volume_period]
    simp [Real.pi_pos]
  · rw [volume_period]
    exact ENNReal.ofReal_ne_top

instance : IsProbabilityMeasure (featureLaw κ) := by unfold featureLaw; infer_instance

instance : IsProbabilityMeasure (initLaw ι κ) := by unfold initLaw; infer_instance

/-- Averaging over the bias. -/
theorem bias_integral (a b : ℝ) : ∫ t, Real.cos (a + t) * Real.cos (b + t) ∂biasLaw = Real.cos (a - b) / 2 := by
  unfold biasLaw
  rw [ProbabilityTheory.cond, integral_smul_measure, volume_period, ← intervalIntegral.integral_of_le (by positivity)]
  have h : ∀ t : ℝ, Real.cos (a + t) * Real.cos (b + t) = Real.cos (a - b) / 2 + Real.cos ((a + b) + 2 * t) / 2 := by
    intro t
    have h1 := Real.cos_add (a + t) (b + t)
    have h2 := Real.cos_sub (a + t) (b + t)
    rw [show a + t + (b + t) = (a + b) + 2 * t by ring] at h1
    rw [show a + t - (b + t) = a - b by ring] at h2
    rw [h1, h2]; ring
  simp only [h]
  rw [intervalIntegral.integral_add (by simp) (by apply Continuous.intervalIntegrable; fun_prop), intervalIntegral.integral_const,
    intervalIntegral.integral_div, intervalIntegral.integral_comp_add_mul (f := Real.cos) (by norm_num : (2 : ℝ) ≠ 0), integral_cos]
  have hs : Real.sin (a + b + 2 * (2 * Real.pi)) = Real.sin (a + b + 2 * 0) := by
    have := Real.sin_add_nat_mul_two_pi (a + b) 2
    push_cast at this
    rw [this]; simp
  rw [hs, sub_self, smul_zero, zero_div, add_zero, sub_zero, smul_eq_mul, ENNReal.toReal_inv, ENNReal.toReal_ofReal (by positivity),
    smul_eq_mul]
  field_simp

/-- Averaging over the weights. -/
theorem weight_integral (t : κ → ℝ) :
    ∫ w, Real.cos (∑ k, t k * w k) ∂(Measure.pi fun _ : κ => gaussianReal 0 1) = Real.exp (-(∑ k, t k ^ 2) / 2) := by
  have h1 : ∀ w : κ → ℝ, Real.cos (∑ k, t k * w k) = RCLike.re (∏ k, Complex.exp (t k * w k * Complex.I)) := by
    intro w
    rw [← Complex.exp_sum, ← Finset.sum_mul]
    have : ∑ k, (t k : ℂ) * (w k : ℂ) = ((∑ k, t k * w k : ℝ) : ℂ) := by push_cast; rfl
    rw [this]
    exact (Complex.exp_ofReal_mul_I_re _).symm
  simp only [h1]
  have hint : Integrable (fun w : κ → ℝ => ∏ k, Complex.exp (t k * w k * Complex.I)) (Measure.pi fun _ : κ => gaussianReal 0 1) := by
    refine Integrable.of_bound (C := 1) (Continuous.aestronglyMeasurable (by fun_prop)) (Filter.Eventually.of_forall fun w => ?_)
    rw [norm_prod]
    apply le_of_eq
    apply Finset.prod_eq_one
    intro k _
    have : (t k : ℂ) * (w k : ℂ) * Complex.I = ((t k * w k : ℝ) : ℂ) * Complex.I := by push_cast; ring
    rw [this, Complex.norm_exp_ofReal_mul_I]
  rw [integral_re hint, integral_fintype_prod_eq_prod (f := fun k (v : ℝ) => Complex.exp (t k * v * Complex.I))]
  have h2 : ∀ k, ∫ v : ℝ, Complex.exp (t k * v * Complex.I) ∂(gaussianReal 0 1) = Complex.exp (((-(t k ^ 2) / 2 : ℝ)) : ℂ) := by
    intro k
    have := charFun_gaussianReal (μ := 0) (v := 1) (t k)
    rw [charFun_apply_real] at this
    rw [this]
    congr 1
    push_cast
    simp
    ring
  simp only [h2]
  rw [← Complex.exp_sum, ← Complex.ofReal_sum, ← Complex.ofReal_exp]
  simp only [RCLike.re_to_complex, Complex.ofReal_re]
  congr 1
  rw [← Finset.sum_div, Finset.sum_neg_distrib]

/-- The product of one feature of two inputs. -/
noncomputable def prodOf (fs ks : ℝ) (x x' : κ → ℝ) (ω : (κ → ℝ) × ℝ) : ℝ :=
  (fs * Real.cos ((∑ k, x k * (1 / ks * ω.1 k)) + ω.2)) * (fs * Real.cos ((∑ k, x' k * (1 / ks * ω.1 k)) + ω.2))

theorem measurable_prodOf (fs ks : ℝ) (x x' : κ → ℝ) : Measurable (prodOf fs ks x x') := by
  unfold prodOf; fun_prop

theorem abs_prodOf (fs ks : ℝ) (x x' : κ → ℝ) (ω : (κ → ℝ) × ℝ) : |prodOf fs ks x x' ω| ≤ fs ^ 2 := by
  unfold prodOf
  rw [abs_mul, abs_mul, abs_mul, ← sq_abs fs, pow_two]
  have h1 := Real.abs_cos_le_one ((∑ k, x k * (1 / ks * ω.1 k)) + ω.2)
  have h2 := Real.abs_cos_le_one ((∑ k, x' k * (1 / ks * ω.1 k)) + ω.2)
  have h3 := abs_nonneg fs
  apply mul_le_mul (mul_le_of_le_one_right h3 h1) (mul_le_of_le_one_right h3 h2) (by positivity) h3

theorem feature_integral (fs ks : ℝ) (hks : ks ≠ 0) (x x' : κ → ℝ) :
    ∫ ω, prodOf fs ks x x' ω ∂(featureLaw κ) = fs ^ 2 / 2 * rbf ks x x' := by
  have hint : Integrable (prodOf fs ks x x') (featureLaw κ) :=
    Integrable.of_bound (C := fs ^ 2) (measurable_prodOf fs ks x x').aestronglyMeasurable
      (Filter.Eventually.of_forall fun ω => by rw [Real.norm_eq_abs]; exact abs_prodOf fs ks x x' ω)
  unfold featureLaw at hint ⊢
  rw [integral_prod _ hint]
  have h1 : ∀ w : κ → ℝ, ∫ t, prodOf fs ks x x' (w, t) ∂biasLaw = fs ^ 2 / 2 * Real.cos (∑ k, ((x k - x' k) / ks) * w k) := by
    intro w
    have : ∀ t, prodOf fs ks x x' (w, t) = fs ^ 2 * (Real.cos ((∑ k, x k * (1 / ks * w k)) + t) *
        Real.cos ((∑ k, x' k * (1 / ks * w k)) + t)) := by intro t; unfold prodOf; ring
    simp only [this]
    rw [integral_const_mul, bias_integral, ← Finset.sum_sub_distrib]
    have : ∀ k, x k * (1 / ks * w k) - x' k * (1 / ks * w k) = (x k - x' k) / ks * w k := by intro k; ring
    simp only [this]
    ring
  simp only [h1]
  rw [integral_const_mul, weight_integral]
  unfold rbf
  congr 2
  simp only [div_pow]
  rw [← Finset.sum_div]
  field_simp

/-! ### All features -/

theorem inner_eq (fs ks : ℝ) (x x' : κ → ℝ) (ω : ι → (κ → ℝ) × ℝ) : inner fs ks x x' ω = ∑ i, prodOf fs ks x x' (ω i) := rfl

/-- **C106, the mean.** With the default initial weights and biases and a kernel scale that is not zero, the expected inner product of the
features of two inputs is half the number of features times the square of the feature scale times the radial basis function kernel whose
length scale is the kernel scale. -/
theorem C106_mean (fs ks : ℝ) (hks : ks ≠ 0) (x x' : κ → ℝ) :
    ∫ ω, inner fs ks x x' ω ∂(initLaw ι κ) = Fintype.card ι * (fs ^ 2 / 2) * rbf ks x x' := by
  simp only [inner_eq]
  have hb : ∀ i : ι, Integrable (fun ω : ι → (κ → ℝ) × ℝ => prodOf fs ks x x' (ω i)) (initLaw ι κ) := fun i =>
    Integrable.of_bound (C := fs ^ 2) ((measurable_prodOf fs ks x x').comp (measurable_pi_apply i)).aestronglyMeasurable
      (Filter.Eventually.of_forall fun ω => by rw [Real.norm_eq_abs]; exact abs_prodOf fs ks x x' _)
  rw [integral_finsetSum _ fun i _ => hb i]
  have : ∀ i : ι, ∫ ω, prodOf fs ks x x' (ω i) ∂(initLaw ι κ) = fs ^ 2 / 2 * rbf ks x x' := by
    intro i
    rw [← feature_integral fs ks hks x x']
    exact integral_comp_eval (μ := fun _ : ι => featureLaw κ) (f := prodOf fs ks x x')
      (measurable_prodOf fs ks x x').aestronglyMeasurable
  simp only [this, sum_const, card_univ, nsmul_eq_mul]
  ring

/-- **C106, spread.** The inner product differs from its mean by `ε` or more with probability at most `n fs⁴ / ε²`. -/
theorem C106_spread (fs ks : ℝ) (hks : ks ≠ 0) (x x' : κ → ℝ) (ε : ℝ) (hε : 0 < ε) :
    initLaw ι κ {ω | ε ≤ |inner fs ks x x' ω - Fintype.card ι * (fs ^ 2 / 2) * rbf ks x x'|} ≤
      ENNReal.ofReal (Fintype.card ι * fs ^ 4 / ε ^ 2) := by
  rw [← C106_mean (ι := ι) fs ks hks]
  set Y : ι → (ι → (κ → ℝ) × ℝ) → ℝ := fun i ω => prodOf fs ks x x' (ω i) with hY
  have hm : ∀ i, Measurable (Y i) := fun i => (measurable_prodOf fs ks x x').comp (measurable_pi_apply i)
  have hL : ∀ i, MemLp (Y i) 2 (initLaw ι κ) := fun i =>
    MemLp.of_bound (hm i).aestronglyMeasurable (fs ^ 2)
      (Filter.Eventually.of_forall fun ω => by rw [Real.norm_eq_abs]; exact abs_prodOf fs ks x x' _)
  have hsum : inner fs ks x x' = ∑ i, Y i := by
    funext ω
    rw [inner_eq, Finset.sum_apply]
  have hind : iIndepFun Y (initLaw ι κ) :=
    iIndepFun_pi (μ := fun _ : ι => featureLaw κ) (X := fun _ => prodOf fs ks x x') fun _ => (measurable_prodOf fs ks x x').aemeasurable
  have hvar : variance (inner fs ks x x') (initLaw ι κ) ≤ Fintype.card ι * fs ^ 4 := by
    rw [hsum, IndepFun.variance_sum (fun i _ => hL i) fun i _ j _ hij => hind.indepFun hij]
    have : ∀ i ∈ (univ : Finset ι), variance (Y i) (initLaw ι κ) ≤ fs ^ 4 := by
      intro i _
      refine (variance_le_sq_of_bounded (a := -fs ^ 2) (b := fs ^ 2)
        (Filter.Eventually.of_forall fun ω => abs_le.1 (abs_prodOf fs ks x x' _)) (hm i).aemeasurable).trans (le_of_eq ?_)
      ring
    refine (Finset.sum_le_sum this).trans (le_of_eq ?_)
    rw [sum_const, card_univ, nsmul_eq_mul]
  refine (meas_ge_le_variance_div_sq (X := inner fs ks x x') (by rw [hsum]; exact memLp_finsetSum' _ fun i _ => hL i) hε).trans ?_
  apply ENNReal.ofReal_le_ofReal
  gcongr

/-- **C106, the feature scale.** Without a feature scale the mean is the kernel itself, and the inner product of `n` features is within
`ε` of it with probability at least `1 - 4 / (n ε²)`; with the default feature scale of one the mean is `n / 2` times the kernel. -/
theorem C106_scale [Nonempty ι] (ks : ℝ) (hks : ks ≠ 0) (x x' : κ → ℝ) :
    ∫ ω, inner (featureScaleOf (Fintype.card ι) none) ks x x' ω ∂(initLaw ι κ) = rbf ks x x' ∧
    (∀ ε, 0 < ε → initLaw ι κ {ω | ε ≤ |inner (featureScaleOf (Fintype.card ι) none) ks x x' ω - rbf ks x x'|} ≤
      ENNReal.ofReal (4 / (Fintype.card ι * ε ^ 2))) ∧
    ∫ ω, inner (featureScaleOf (Fintype.card ι) (some 1)) ks x x' ω ∂(initLaw ι κ) = Fintype.card ι / 2 * rbf ks x x' := by
  have hn : (0 : ℝ) < Fintype.card ι := by exact_mod_cast Fintype.card_pos
  have hsq : featureScaleOf (Fintype.card ι) none ^ 2 = 2 / Fintype.card ι := by
    unfold featureScaleOf
    exact Real.sq_sqrt (by positivity)
  have h1 : (Fintype.card ι : ℝ) * (featureScaleOf (Fintype.card ι) none ^ 2 / 2) = 1 := by
    rw [hsq]; field_simp
  refine ⟨?_, fun ε hε => ?_, ?_⟩
  · rw [C106_mean _ ks hks, h1, one_mul]
  · have := C106_spread (ι := ι) (featureScaleOf (Fintype.card ι) none) ks hks x x' ε hε
    rw [h1, one_mul] at this
    refine this.trans (ENNReal.ofReal_le_ofReal (le_of_eq ?_))
    rw [show (4 : ℕ) = 2 * 2 by rfl, pow_mul, hsq]
    field_simp
    norm_num
  · rw [C106_mean _ ks hks]
    unfold featureScaleOf
    ring

/-- **C106.** The kernel is one for equal inputs only, and decreases with their distance. -/
theorem C106_kernel (ks : ℝ) (hks : ks ≠ 0) (x x' y y' : κ → ℝ) :
    (rbf ks x x' = 1 ↔ x = x') ∧ (rbf ks x x' ≤ rbf ks y y' ↔ ∑ k, (y k - y' k) ^ 2 ≤ ∑ k, (x k - x' k) ^ 2) := by
  have hpos : 0 < 2 * ks ^ 2 := by positivity
  constructor
  · unfold rbf
    rw [Real.exp_eq_one_iff, div_eq_zero_iff, neg_eq_zero, Finset.sum_eq_zero_iff_of_nonneg fun _ _ => sq_nonneg _]
    constructor
    · rintro (h | h)
      · funext k
        have := h k (mem_univ k)
        rw [sq_eq_zero_iff] at this
        linarith
      · exact absurd h hpos.ne'
    · rintro rfl
      exact Or.inl fun k _ => by simp
  · unfold rbf
    rw [Real.exp_le_exp, div_le_div_iff_of_pos_right hpos, neg_le_neg_iff]

/-- **C106, exponential bound.** The inner product differs from its mean by `ε` or more with probability at most
`2 exp (-ε² / (2 n fs⁴))`. -/
theorem C106_exponential [Nonempty ι] (fs ks : ℝ) (hfs : fs ≠ 0) (hks : ks ≠ 0) (x x' : κ → ℝ) (ε : ℝ) (hε : 0 ≤ ε) :
    (initLaw ι κ).real {ω | ε ≤ |inner fs ks x x' ω - Fintype.card ι * (fs ^ 2 / 2) * rbf ks x x'|} ≤
      2 * Real.exp (-ε ^ 2 / (2 * Fintype.card ι * fs ^ 4)) := by
  set m := fs ^ 2 / 2 * rbf ks x x' with hm
  set Y : ι → (ι → (κ → ℝ) × ℝ) → ℝ := fun i ω => prodOf fs ks x x' (ω i) - m with hY
  have hn : (0 : ℝ) < Fintype.card ι := by exact_mod_cast Fintype.card_pos
  have hsub : ∀ i, HasSubgaussianMGF (Y i) ((‖fs ^ 2 - -fs ^ 2‖₊ / 2) ^ 2) (initLaw ι κ) := by
    intro i
    have h := hasSubgaussianMGF_of_mem_Icc (μ := initLaw ι κ) (X := fun ω => prodOf fs ks x x' (ω i)) (a := -fs ^ 2) (b := fs ^ 2)
      ((measurable_prodOf fs ks x x').comp (measurable_pi_apply i)).aemeasurable
      (Filter.Eventually.of_forall fun ω => abs_le.1 (abs_prodOf fs ks x x' _))
    have e : ∫ ω, prodOf fs ks x x' (ω i) ∂(initLaw ι κ) = m := by
      rw [hm, ← feature_integral fs ks hks x x']
      exact integral_comp_eval (μ := fun _ : ι => featureLaw κ) (f := prodOf fs ks x x') (measurable_prodOf fs ks x x').aestronglyMeasurable
    rw [e] at h
    exact h
  have hind : iIndepFun Y (initLaw ι κ) :=
    iIndepFun_pi (μ := fun _ : ι => featureLaw κ) (X := fun _ q => prodOf fs ks x x' q - m)
      fun _ => ((measurable_prodOf fs ks x x').sub_const m).aemeasurable
  have hind' : iIndepFun (fun i ω => -Y i ω) (initLaw ι κ) :=
    iIndepFun_pi (μ := fun _ : ι => featureLaw κ) (X := fun _ q => -(prodOf fs ks x x' q - m))
      fun _ => ((measurable_prodOf fs ks x x').sub_const m).neg.aemeasurable
  have h1 := HasSubgaussianMGF.measure_sum_ge_le_of_iIndepFun hind (s := univ) (fun i _ => hsub i) (ε := ε) hε
  have h2 := HasSubgaussianMGF.measure_sum_ge_le_of_iIndepFun hind' (s := univ) (fun i _ => (hsub i).neg) (ε := ε) hε
  have hexp : -ε ^ 2 / (2 * ∑ _i : ι, (((‖fs ^ 2 - -fs ^ 2‖₊ / 2) ^ 2 : NNReal) : ℝ)) = -ε ^ 2 / (2 * Fintype.card ι * fs ^ 4) := by
    have e : (((‖fs ^ 2 - -fs ^ 2‖₊ / 2) ^ 2 : NNReal) : ℝ) = fs ^ 4 := by
      push_cast
      rw [Real.norm_eq_abs, div_pow, sq_abs]
      ring
    simp only [e, sum_const, card_univ, nsmul_eq_mul]
    ring
  simp only [NNReal.coe_sum] at h1 h2
  rw [hexp] at h1 h2
  have hsum : ∀ ω, ∑ i, Y i ω = inner fs ks x x' ω - Fintype.card ι * (fs ^ 2 / 2) * rbf ks x x' := by
    intro ω
    simp only [hY, inner_eq, Finset.sum_sub_distrib, sum_const, card_univ, nsmul_eq_mul, hm]
    ring
  have hset : {ω | ε ≤ |inner fs ks x x' ω - Fintype.card ι * (fs ^ 2 / 2) * rbf ks x x'|} ⊆
      {ω | ε ≤ ∑ i, Y i ω} ∪ {ω | ε ≤ ∑ i, -Y i ω} := by
    intro ω hω
    simp only [Set.mem_setOf_eq, Set.mem_union, Finset.sum_neg_distrib, hsum] at hω ⊢
    exact le_abs.1 hω
  refine (measureReal_mono hset).trans ((measureReal_union_le _ _).trans ?_)
  linarith

/-- **C106, all pairs at once.** Without a feature scale, all inner products of the features of `m` inputs are within `ε` of the kernel with
probability at least `1 - 2 m² exp (-n ε² / 8)`. -/
theorem C106_gram [Nonempty ι] (ks : ℝ) (hks : ks ≠ 0) {m : ℕ} (xs : Fin m → κ → ℝ) (ε : ℝ) (hε : 0 ≤ ε) :
    1 - 2 * (m : ℝ) ^ 2 * Real.exp (-(Fintype.card ι * ε ^ 2) / 8) ≤
      (initLaw ι κ).real {ω | ∀ a b, |inner (featureScaleOf (Fintype.card ι) none) ks (xs a) (xs b) ω - rbf ks (xs a) (xs b)| < ε} := by
  set fs := featureScaleOf (Fintype.card ι) none with hfs
  have hn : (0 : ℝ) < Fintype.card ι := by exact_mod_cast Fintype.card_pos
  have hsq : fs ^ 2 = 2 / Fintype.card ι := by
    rw [hfs]
    unfold featureScaleOf
    exact Real.sq_sqrt (by positivity)
  have h0 : fs ≠ 0 := by
    intro h
    rw [h] at hsq
    have : (0 : ℝ) < 2 / Fintype.card ι := by positivity
    rw [← hsq] at this
    norm_num at this
  have h1 : (Fintype.card ι : ℝ) * (fs ^ 2 / 2) = 1 := by
    rw [hsq]; field_simp
  set G := {ω : ι → (κ → ℝ) × ℝ | ∀ a b, |inner fs ks (xs a) (xs b) ω - rbf ks (xs a) (xs b)| < ε} with hG
  have hmeas : ∀ a b, Measurable fun ω : ι → (κ → ℝ) × ℝ => inner fs ks (xs a) (xs b) ω := by
    intro a b
    simp only [inner_eq]
    exact Finset.measurable_sum _ fun i _ => (measurable_prodOf fs ks _ _).comp (measurable_pi_apply i)
  have hGm : MeasurableSet G := by
    rw [hG]
    simp only [Set.setOf_forall]
    exact MeasurableSet.iInter fun a => MeasurableSet.iInter fun b =>
      measurableSet_lt (((hmeas a b).sub_const _).norm) measurable_const
  have hc : Gᶜ ⊆ ⋃ q ∈ (univ : Finset (Fin m × Fin m)), {ω | ε ≤ |inner fs ks (xs q.1) (xs q.2) ω - rbf ks (xs q.1) (xs q.2)|} := by
    intro ω hω
    rw [hG, Set.mem_compl_iff, Set.mem_setOf_eq] at hω
    push Not at hω
    obtain ⟨a, b, hab⟩ := hω
    simp only [Set.mem_iUnion]
    exact ⟨(a, b), mem_univ _, hab⟩
  have hb : (initLaw ι κ).real Gᶜ ≤ 2 * (m : ℝ) ^ 2 * Real.exp (-(Fintype.card ι * ε ^ 2) / 8) := by
    refine (measureReal_mono hc (measure_ne_top _ _)).trans ((measureReal_biUnion_finset_le _ _).trans ?_)
    have h2 : ∀ q ∈ (univ : Finset (Fin m × Fin m)), (initLaw ι κ).real
        {ω | ε ≤ |inner fs ks (xs q.1) (xs q.2) ω - rbf ks (xs q.1) (xs q.2)|} ≤ 2 * Real.exp (-(Fintype.card ι * ε ^ 2) / 8) := by
      intro q _
      have h3 := C106_exponential (ι := ι) fs ks h0 hks (xs q.1) (xs q.2) ε hε
      rw [h1, one_mul, show (4 : ℕ) = 2 * 2 by rfl, pow_mul, hsq] at h3
      refine h3.trans (le_of_eq ?_)
      congr 2
      field_simp
      norm_num
    refine (Finset.sum_le_sum h2).trans (le_of_eq ?_)
    rw [sum_const, card_univ, Fintype.card_prod, Fintype.card_fin, nsmul_eq_mul]
    push_cast
    ring
  have := probReal_add_probReal_compl (μ := initLaw ι κ) hGm
  linarith

example : (1 : ℝ) ≠ 0 ∧ featureScaleOf 8 none = 1 / 2 ∧ featureScaleOf 8 (some 1) = 1 := by
  refine ⟨one_ne_zero, ?_, rfl⟩
  unfold featureScaleOf
  rw [show (2 : ℝ) / (8 : ℕ) = (1 / 2) ^ 2 by norm_num, Real.sqrt_sq (by norm_num)]

/-! ### Concrete cases that meet the hypotheses of the theorems above -/

example := C106_mean (ι := Fin 8) (κ := Fin 2) 2 (1 / 2) (by norm_num) ![1, 2] ![0, 1]
example := C106_spread (ι := Fin 8) (κ := Fin 2) 2 (1 / 2) (by norm_num) ![1, 2] ![0, 1] (1 / 10) (by norm_num)
example := C106_scale (ι := Fin 8) (κ := Fin 2) (1 / 2) (by norm_num) ![1, 2] ![0, 1]
example := C106_kernel (κ := Fin 2) (1 / 2) (by norm_num) ![1, 2] ![0, 1] ![1, 2] ![1, 3]
example := C106_exponential (ι := Fin 8) (κ := Fin 2) 2 (1 / 2) (by norm_num) (by norm_num) ![1, 2] ![0, 1] (1 / 10) (by norm_num)

end Verif.Props.RandomFeatures
