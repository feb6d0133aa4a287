import Mathlib.Probability.Distributions.Gaussian.Multivariate
import Mathlib.Analysis.SpecialFunctions.Gaussian.FourierTransform
import Mathlib.LinearAlgebra.Matrix.PosDef
import Mathlib.MeasureTheory.Measure.Lebesgue.EqHaar

/-!
The density of a multivariate Gaussian distribution (not in Mathlib).
-/
set_option linter.unusedSectionVars false

namespace Verif.GaussDensity

open MeasureTheory ProbabilityTheory Matrix WithLp Complex
open scoped MatrixOrder

variable {ι : Type} [Fintype ι] [DecidableEq ι]

/-- The quadratic form of a matrix. -/
def quad (P : Matrix ι ι ℝ) (x : ι → ℝ) : ℝ := ∑ i, ∑ j, x i * P i j * x j

theorem quad_eq (P : Matrix ι ι ℝ) (x : ι → ℝ) : quad P x = x ⬝ᵥ P *ᵥ x := by
  simp only [quad, dotProduct, mulVec, Finset.mul_sum, mul_assoc]

/-- The standard Gaussian has density proportional to `exp (-‖x‖² / 2)`. -/
theorem std_density : ∃ c : ℝ, 0 < c ∧ stdGaussian (EuclideanSpace ℝ ι) =
    (volume : Measure (EuclideanSpace ℝ ι)).withDensity fun x => ENNReal.ofReal (c * Real.exp (-‖x‖ ^ 2 / 2)) := by
  set Z : ℝ := (2 * Real.pi) ^ (Fintype.card ι / 2 : ℝ) with hZ
  have hZ0 : 0 < Z := by positivity
  have hint : Integrable fun x : EuclideanSpace ℝ ι => Real.exp (-‖x‖ ^ 2 / 2) := by
    have h := GaussianFourier.integrable_cexp_neg_mul_sq_norm_add (V := EuclideanSpace ℝ ι) (b := 1 / 2) (by norm_num) 0 0
    have h2 := h.norm
    refine h2.congr (ae_of_all _ fun x => ?_)
    simp only [Complex.norm_exp]
    congr 1
    simp [← Complex.ofReal_pow]
    ring
  refine ⟨Z⁻¹, by positivity, ?_⟩
  have hfin : IsFiniteMeasure ((volume : Measure (EuclideanSpace ℝ ι)).withDensity fun x => ENNReal.ofReal (Z⁻¹ * Real.exp (-‖x‖ ^ 2 / 2))) :=
    isFiniteMeasure_withDensity_ofReal (hint.const_mul _).2
  apply Measure.ext_of_charFun
  ext t
  rw [charFun_stdGaussian, charFun_apply]
  rw [integral_withDensity_eq_integral_toReal_smul (by fun_prop) (ae_of_all _ fun x => ENNReal.ofReal_lt_top)]
  have h := GaussianFourier.integral_cexp_neg_mul_sq_norm_add (V := EuclideanSpace ℝ ι) (b := 1 / 2) (by norm_num) I t
  have e : ∀ x : EuclideanSpace ℝ ι, (ENNReal.ofReal (Z⁻¹ * Real.exp (-‖x‖ ^ 2 / 2))).toReal • cexp (inner ℝ x t * I) =
      (Z⁻¹ : ℂ) * cexp (-(1 / 2) * ‖x‖ ^ 2 + I * inner ℝ t x) := fun x => by
    rw [ENNReal.toReal_ofReal (by positivity), Complex.real_smul, Complex.ofReal_mul, Complex.ofReal_exp, mul_assoc, ← Complex.exp_add,
      real_inner_comm]
    push_cast
    congr 2
    ring
  simp only [e]
  rw [integral_const_mul, h]
  have hc : ((Real.pi : ℂ) / (1 / 2)) ^ (Module.finrank ℝ (EuclideanSpace ℝ ι) / 2 : ℂ) = (Z : ℂ) := by
    rw [hZ, Complex.ofReal_cpow (by positivity)]
    push_cast
    rw [finrank_euclideanSpace]
    congr 1
    ring
  rw [hc, ← mul_assoc, inv_mul_cancel₀ (by exact_mod_cast hZ0.ne'), one_mul]
  congr 1
  rw [I_sq]
  ring

/-- A Gaussian with precision matrix `P` has density proportional to `exp (-(x - m)ᵀ P (x - m) / 2)`. -/
theorem density (P : Matrix ι ι ℝ) (hP : P.PosDef) (m : EuclideanSpace ℝ ι) :
    ∃ c : ℝ, 0 < c ∧ multivariateGaussian m P⁻¹ = (volume : Measure (EuclideanSpace ℝ ι)).withDensity fun x =>
      ENNReal.ofReal (c * Real.exp (-(1 / 2) * quad P fun i => x i - m i)) := by
  obtain ⟨c, hc, hstd⟩ := std_density (ι := ι)
  have hS : P⁻¹.PosDef := hP.inv
  set A := CFC.sqrt P⁻¹ with hA
  have hAA : A * A = P⁻¹ := CFC.sqrt_mul_sqrt_self _ hS.posSemidef.nonneg
  have hsym : Aᵀ = A := by
    have h := (CFC.sqrt_nonneg P⁻¹).isSelfAdjoint
    rw [← hA] at h
    have h2 : Aᴴ = A := h
    rwa [conjTranspose_eq_transpose_of_trivial] at h2
  have hdetP : IsUnit P.det := hP.det_pos.ne'.isUnit
  have hdet : A.det ≠ 0 := by
    intro h
    have h2 := congrArg Matrix.det hAA
    rw [det_mul, h, zero_mul] at h2
    exact hS.det_pos.ne' h2.symm
  have hAPA : A * P * A = 1 := by
    have h1 : A * (A * P) = 1 := by rw [← mul_assoc, hAA, nonsing_inv_mul _ hdetP]
    have h2 : (A * P) * A = 1 := mul_eq_one_comm.1 h1
    exact h2
  let f : EuclideanSpace ℝ ι →ₗ[ℝ] EuclideanSpace ℝ ι := (toEuclideanCLM (𝕜 := ℝ) A).toLinearMap
  have hfdet : LinearMap.det f ≠ 0 := by
    have : f = Matrix.toLin (EuclideanSpace.basisFun ι ℝ).toBasis (EuclideanSpace.basisFun ι ℝ).toBasis A := by
      rw [← toEuclideanLin_eq_toLin_orthonormal]
      exact coe_toEuclideanCLM_eq_toEuclideanLin A
    rw [this, LinearMap.det_toLin]
    exact hdet
  have hmap : (volume : Measure (EuclideanSpace ℝ ι)).map (fun x => m + toEuclideanCLM (𝕜 := ℝ) A x) =
      ENNReal.ofReal |(LinearMap.det f)⁻¹| • volume := by
    have h1 : (fun x => m + toEuclideanCLM (𝕜 := ℝ) A x) = (fun x => m + x) ∘ f := rfl
    rw [h1, ← Measure.map_map (by fun_prop) (by exact (toEuclideanCLM (𝕜 := ℝ) A).continuous.measurable),
      Measure.map_linearMap_addHaar_eq_smul_addHaar _ hfdet, Measure.map_smul, map_add_left_eq_self]
  set k : ℝ := |(LinearMap.det f)⁻¹| with hk
  have hk0 : 0 < k := abs_pos.2 (inv_ne_zero hfdet)
  refine ⟨c * k, by positivity, ?_⟩
  have hH : Measurable fun x : EuclideanSpace ℝ ι => ENNReal.ofReal (c * Real.exp (-(1 / 2) * quad P fun i => x i - m i)) := by
    unfold quad
    fun_prop
  have hg : Measurable fun x : EuclideanSpace ℝ ι => m + toEuclideanCLM (𝕜 := ℝ) A x := by fun_prop
  ext s hs
  unfold multivariateGaussian
  rw [← hA, hstd, Measure.map_apply hg hs, withDensity_apply _ (hg hs), withDensity_apply _ hs]
  have e : ∀ x : EuclideanSpace ℝ ι, ENNReal.ofReal (c * Real.exp (-‖x‖ ^ 2 / 2)) =
      (fun y : EuclideanSpace ℝ ι => ENNReal.ofReal (c * Real.exp (-(1 / 2) * quad P fun i => y i - m i))) (m + toEuclideanCLM (𝕜 := ℝ) A x) := by
    intro x
    dsimp only
    congr 3
    have h1 : (fun i => (m + toEuclideanCLM (𝕜 := ℝ) A x) i - m i) = A *ᵥ (ofLp x) := by
      funext i
      simp
    rw [h1, quad_eq, EuclideanSpace.real_norm_sq_eq]
    have h2 : (A *ᵥ ofLp x) ⬝ᵥ P *ᵥ A *ᵥ ofLp x = ∑ i, x i ^ 2 := by
      rw [dotProduct_comm, dotProduct_mulVec, ← mulVec_transpose, hsym, mulVec_mulVec, mulVec_mulVec, hAPA, one_mulVec]
      simp [dotProduct, pow_two]
    rw [h2]
    ring
  simp only [e]
  rw [← setLIntegral_map hs hH hg, hmap, Measure.restrict_smul, lintegral_smul_measure, smul_eq_mul,
    ← lintegral_const_mul' _ _ ENNReal.ofReal_ne_top]
  refine lintegral_congr fun x => ?_
  rw [← ENNReal.ofReal_mul hk0.le]
  congr 1
  ring

end Verif.GaussDensity
