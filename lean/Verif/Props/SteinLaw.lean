import Verif.Props.Diagnostic
import Mathlib.Analysis.Calculus.LineDeriv.IntegrationByParts
import Mathlib.MeasureTheory.Measure.WithDensity
import Mathlib.MeasureTheory.Integral.Prod
import Mathlib.MeasureTheory.Measure.Haar.OfBasis
import Mathlib.Probability.Independence.Basic
import Mathlib.Probability.Independence.InfinitePi
import Mathlib.MeasureTheory.Integral.Pi
import Mathlib.Analysis.SpecificLimits.Basic
import Mathlib.Probability.Distributions.Gaussian.Real

/-!
Property C115: what the kernel Stein discrepancy of independent samples estimates.
-/
set_option linter.unusedSectionVars false

namespace Verif.Props.SteinLaw

open Verif.Diagnostic Verif.Props MeasureTheory ProbabilityTheory Finset

variable {ι : Type} [Fintype ι] [DecidableEq ι]

/-- Specification: `g` is the gradient of the logarithm of the probability density `p`, with finite second moments. -/
structure Score (p : (ι → ℝ) → ℝ) (g : (ι → ℝ) → ι → ℝ) : Prop where
  nonneg : ∀ x, 0 ≤ p x
  meas : Measurable p
  integrable : Integrable p
  total : ∫ x, p x = 1
  deriv : ∀ x a, HasLineDerivAt ℝ p (p x * g x a) x (Pi.single a 1)
  score_meas : Measurable g
  moment : ∀ a, Integrable fun x => p x * g x a ^ 2

/-- The distribution with density `p`. -/
noncomputable def target (p : (ι → ℝ) → ℝ) : Measure (ι → ℝ) := volume.withDensity fun x => ENNReal.ofReal (p x)

/-! ### The kernel -/

/-- The two functions whose combination is the kernel, by coordinate. -/
noncomputable def phi (c beta : ℝ) (y h : ι → ℝ) (a : ι) (x : ι → ℝ) : ℝ :=
  h a * base c x y ^ beta + -2 * beta * (x a - y a) * base c x y ^ (beta - 1)

noncomputable def phi' (c beta : ℝ) (y h : ι → ℝ) (a : ι) (x : ι → ℝ) : ℝ :=
  h a * (2 * beta * (x a - y a) * base c x y ^ (beta - 1)) +
    (-2 * beta * base c x y ^ (beta - 1) - 4 * beta * (beta - 1) * (x a - y a) ^ 2 * base c x y ^ (beta - 2))

theorem k0_eq (c beta : ℝ) (x y g h : ι → ℝ) : k0 c beta x y g h = ∑ a, (g a * phi c beta y h a x + phi' c beta y h a x) := by
  unfold k0 phi phi'
  simp only [mul_add, Finset.sum_add_distrib, Finset.sum_sub_distrib]
  have e1 : ∑ a, g a * (-2 * beta * (x a - y a) * base c x y ^ (beta - 1)) =
      -2 * beta * (∑ a, g a * (x a - y a)) * base c x y ^ (beta - 1) := by
    rw [Finset.mul_sum, Finset.sum_mul]
    exact Finset.sum_congr rfl fun a _ => by ring
  have e2 : ∑ a, h a * (2 * beta * (x a - y a) * base c x y ^ (beta - 1)) =
      2 * beta * (∑ a, h a * (x a - y a)) * base c x y ^ (beta - 1) := by
    rw [Finset.mul_sum, Finset.sum_mul]
    exact Finset.sum_congr rfl fun a _ => by ring
  have e3 : ∑ a, 4 * beta * (beta - 1) * (x a - y a) ^ 2 * base c x y ^ (beta - 2) =
      4 * beta * (beta - 1) * base c x y ^ (beta - 2) * ∑ a, (x a - y a) ^ 2 := by
    rw [Finset.mul_sum]
    exact Finset.sum_congr rfl fun a _ => by ring
  have e4 : ∑ a, g a * (h a * base c x y ^ beta) = (∑ a, g a * h a) * base c x y ^ beta := by
    rw [Finset.sum_mul]
    exact Finset.sum_congr rfl fun a _ => by ring
  rw [e1, e2, e3, e4, Finset.sum_const, nsmul_eq_mul, Finset.card_univ]
  ring

theorem base_line (c : ℝ) (x y : ι → ℝ) (a : ι) (t : ℝ) :
    base c (x + t • (Pi.single a 1 : ι → ℝ)) y = base c x y + 2 * t * (x a - y a) + t ^ 2 := by
  unfold base
  rw [← Finset.add_sum_erase _ _ (Finset.mem_univ a),
    ← Finset.add_sum_erase _ (fun b => (x b - y b) * (x b - y b)) (Finset.mem_univ a),
    Finset.sum_congr rfl (g := fun b => (x b - y b) * (x b - y b))]
  · simp only [Pi.add_apply, Pi.smul_apply, Pi.single_eq_same, smul_eq_mul, mul_one]
    ring
  · intro b hb
    simp [Pi.single_eq_of_ne (Finset.ne_of_mem_erase hb)]

theorem phi_deriv (c beta : ℝ) (hc : 0 < c) (x y h : ι → ℝ) (a : ι) :
    HasLineDerivAt ℝ (phi c beta y h a) (phi' c beta y h a x) x (Pi.single a 1) := by
  unfold HasLineDerivAt
  have hB := base_pos c hc x y
  have hf : (fun t : ℝ => phi c beta y h a (x + t • (Pi.single a 1 : ι → ℝ))) = fun t =>
      h a * (base c x y + 2 * t * (x a - y a) + t ^ 2) ^ beta +
        -2 * beta * (x a + t - y a) * (base c x y + 2 * t * (x a - y a) + t ^ 2) ^ (beta - 1) := by
    funext t
    unfold phi
    rw [base_line]
    simp only [Pi.add_apply, Pi.smul_apply, Pi.single_eq_same, smul_eq_mul, mul_one]
  rw [hf]
  have hb : HasDerivAt (fun t : ℝ => base c x y + 2 * t * (x a - y a) + t ^ 2) (2 * (x a - y a)) 0 := by
    have h1 : HasDerivAt (fun t : ℝ => base c x y + 2 * t * (x a - y a)) (2 * (x a - y a)) 0 := by
      have := (((hasDerivAt_id (0 : ℝ)).const_mul 2).mul_const (x a - y a)).const_add (base c x y)
      simpa using this
    have h2 : HasDerivAt (fun t : ℝ => t ^ 2) 0 0 := ((hasDerivAt_id (0 : ℝ)).pow 2).congr_deriv (by simp)
    exact (h1.add h2).congr_deriv (by ring)
  have hb0 : (base c x y + 2 * (0 : ℝ) * (x a - y a) + 0 ^ 2) = base c x y := by ring
  have hne : (base c x y + 2 * (0 : ℝ) * (x a - y a) + 0 ^ 2) ≠ 0 := by rw [hb0]; exact hB.ne'
  have d1 := (hb.rpow_const (p := beta) (Or.inl hne)).const_mul (h a)
  have d2 := hb.rpow_const (p := beta - 1) (Or.inl hne)
  have d3 : HasDerivAt (fun t : ℝ => -2 * beta * (x a + t - y a)) (-2 * beta) 0 := by
    have := (((hasDerivAt_id (0 : ℝ)).const_add (x a)).sub_const (y a)).const_mul (-2 * beta)
    simpa using this
  refine (d1.add (d3.mul d2)).congr_deriv ?_
  unfold phi'
  rw [hb0, show beta - 1 - 1 = beta - 2 by ring]
  ring

theorem base_ge (c : ℝ) (x y : ι → ℝ) : c ^ 2 ≤ base c x y := by
  unfold base
  have : 0 ≤ ∑ a, (x a - y a) * (x a - y a) := Finset.sum_nonneg fun a _ => mul_self_nonneg _
  linarith

theorem sq_le_base (c : ℝ) (x y : ι → ℝ) (a : ι) : (x a - y a) ^ 2 ≤ base c x y := by
  unfold base
  have : (x a - y a) * (x a - y a) ≤ ∑ b, (x b - y b) * (x b - y b) :=
    Finset.single_le_sum (f := fun b => (x b - y b) * (x b - y b)) (fun b _ => mul_self_nonneg _) (Finset.mem_univ a)
  nlinarith [sq_nonneg c]

/-- A bound on all parts of the kernel. -/
noncomputable def bound (c beta : ℝ) : ℝ :=
  (1 + 2 * |beta|) * ((c ^ 2) ^ beta + (c ^ 2) ^ (beta - 1)) + (2 * |beta| + 4 * |beta * (beta - 1)|) * (c ^ 2) ^ (beta - 1)

theorem bound_nonneg (c beta : ℝ) : 0 ≤ bound c beta := by
  unfold bound
  have h1 : 0 ≤ (c ^ 2) ^ beta := Real.rpow_nonneg (sq_nonneg c) _
  have h2 : 0 ≤ (c ^ 2) ^ (beta - 1) := Real.rpow_nonneg (sq_nonneg c) _
  positivity

section
variable {c beta : ℝ} (hc : 0 < c) (hb : beta < 0)
include hc hb

theorem pow_le (x y : ι → ℝ) : base c x y ^ beta ≤ (c ^ 2) ^ beta :=
  Real.rpow_le_rpow_of_nonpos (by positivity) (base_ge c x y) hb.le

theorem pow_le' (x y : ι → ℝ) : base c x y ^ (beta - 1) ≤ (c ^ 2) ^ (beta - 1) :=
  Real.rpow_le_rpow_of_nonpos (by positivity) (base_ge c x y) (by linarith)

theorem diff_le (x y : ι → ℝ) (a : ι) : |x a - y a| * base c x y ^ (beta - 1) ≤ (c ^ 2) ^ beta + (c ^ 2) ^ (beta - 1) := by
  have hB := base_pos c hc x y
  have h1 : |x a - y a| ≤ 1 + base c x y := by
    have h2 := sq_le_base c x y a
    rw [← sq_abs] at h2
    nlinarith [sq_nonneg (|x a - y a| - 1), abs_nonneg (x a - y a)]
  have h3 : base c x y * base c x y ^ (beta - 1) = base c x y ^ beta := by
    rw [Real.rpow_sub hB, Real.rpow_one]; field_simp
  calc |x a - y a| * base c x y ^ (beta - 1) ≤ (1 + base c x y) * base c x y ^ (beta - 1) :=
        mul_le_mul_of_nonneg_right h1 (Real.rpow_nonneg hB.le _)
    _ = base c x y ^ beta + base c x y ^ (beta - 1) := by rw [add_mul, h3]; ring
    _ ≤ _ := add_le_add (pow_le hc hb x y) (pow_le' hc hb x y)

theorem sq_diff_le (x y : ι → ℝ) (a : ι) : (x a - y a) ^ 2 * base c x y ^ (beta - 2) ≤ (c ^ 2) ^ (beta - 1) := by
  have hB := base_pos c hc x y
  have h3 : base c x y * base c x y ^ (beta - 2) = base c x y ^ (beta - 1) := by
    rw [show beta - 2 = (beta - 1) - 1 by ring, Real.rpow_sub hB (beta - 1) 1, Real.rpow_one]; field_simp
  calc (x a - y a) ^ 2 * base c x y ^ (beta - 2) ≤ base c x y * base c x y ^ (beta - 2) :=
        mul_le_mul_of_nonneg_right (sq_le_base c x y a) (Real.rpow_nonneg hB.le _)
    _ ≤ _ := by rw [h3]; exact pow_le' hc hb x y

theorem phi_le (x y h : ι → ℝ) (a : ι) : |phi c beta y h a x| ≤ bound c beta * (|h a| + 1) := by
  have hB := base_pos c hc x y
  have h1 := pow_le hc hb x y
  have h2 := diff_le hc hb x y a
  have n1 : 0 ≤ base c x y ^ beta := Real.rpow_nonneg hB.le _
  have n2 : 0 ≤ base c x y ^ (beta - 1) := Real.rpow_nonneg hB.le _
  have n3 : 0 ≤ (c ^ 2) ^ beta := Real.rpow_nonneg (sq_nonneg c) _
  have n4 : 0 ≤ (c ^ 2) ^ (beta - 1) := Real.rpow_nonneg (sq_nonneg c) _
  unfold phi
  refine (abs_add_le _ _).trans ?_
  rw [abs_mul, abs_of_nonneg n1, abs_mul, abs_of_nonneg n2, abs_mul, abs_mul, abs_neg, abs_two]
  have e1 : |h a| * base c x y ^ beta ≤ |h a| * bound c beta := by
    refine mul_le_mul_of_nonneg_left (h1.trans ?_) (abs_nonneg _)
    unfold bound
    have : 0 ≤ 2 * |beta| * ((c ^ 2) ^ beta + (c ^ 2) ^ (beta - 1)) := by positivity
    have : 0 ≤ (2 * |beta| + 4 * |beta * (beta - 1)|) * (c ^ 2) ^ (beta - 1) := by positivity
    nlinarith
  have e2 : 2 * |beta| * |x a - y a| * base c x y ^ (beta - 1) ≤ bound c beta := by
    have : 2 * |beta| * (|x a - y a| * base c x y ^ (beta - 1)) ≤ 2 * |beta| * ((c ^ 2) ^ beta + (c ^ 2) ^ (beta - 1)) :=
      mul_le_mul_of_nonneg_left h2 (by positivity)
    unfold bound
    have : 0 ≤ (2 * |beta| + 4 * |beta * (beta - 1)|) * (c ^ 2) ^ (beta - 1) := by positivity
    nlinarith
  linarith

theorem phi'_le (x y h : ι → ℝ) (a : ι) : |phi' c beta y h a x| ≤ bound c beta * (|h a| + 1) := by
  have hB := base_pos c hc x y
  have h1 := pow_le' hc hb x y
  have h2 := diff_le hc hb x y a
  have h3 := sq_diff_le hc hb x y a
  have n2 : 0 ≤ base c x y ^ (beta - 1) := Real.rpow_nonneg hB.le _
  have n5 : 0 ≤ base c x y ^ (beta - 2) := Real.rpow_nonneg hB.le _
  have n3 : 0 ≤ (c ^ 2) ^ beta := Real.rpow_nonneg (sq_nonneg c) _
  have n4 : 0 ≤ (c ^ 2) ^ (beta - 1) := Real.rpow_nonneg (sq_nonneg c) _
  unfold phi'
  refine (abs_add_le _ _).trans ?_
  have e1 : |h a * (2 * beta * (x a - y a) * base c x y ^ (beta - 1))| ≤ |h a| * bound c beta := by
    rw [abs_mul]
    refine mul_le_mul_of_nonneg_left ?_ (abs_nonneg _)
    rw [abs_mul, abs_of_nonneg n2, abs_mul, abs_mul, abs_two]
    have : 2 * |beta| * (|x a - y a| * base c x y ^ (beta - 1)) ≤ 2 * |beta| * ((c ^ 2) ^ beta + (c ^ 2) ^ (beta - 1)) :=
      mul_le_mul_of_nonneg_left h2 (by positivity)
    unfold bound
    have : 0 ≤ (2 * |beta| + 4 * |beta * (beta - 1)|) * (c ^ 2) ^ (beta - 1) := by positivity
    nlinarith
  have e2 : |-2 * beta * base c x y ^ (beta - 1) - 4 * beta * (beta - 1) * (x a - y a) ^ 2 * base c x y ^ (beta - 2)| ≤ bound c beta := by
    refine (abs_sub _ _).trans ?_
    have f1 : |-2 * beta * base c x y ^ (beta - 1)| ≤ 2 * |beta| * (c ^ 2) ^ (beta - 1) := by
      rw [abs_mul, abs_of_nonneg n2, abs_mul, abs_neg, abs_two]
      exact mul_le_mul_of_nonneg_left h1 (by positivity)
    have f2 : |4 * beta * (beta - 1) * (x a - y a) ^ 2 * base c x y ^ (beta - 2)| ≤ 4 * |beta * (beta - 1)| * (c ^ 2) ^ (beta - 1) := by
      have : 4 * beta * (beta - 1) * (x a - y a) ^ 2 * base c x y ^ (beta - 2) =
          4 * (beta * (beta - 1)) * ((x a - y a) ^ 2 * base c x y ^ (beta - 2)) := by ring
      rw [this, abs_mul, abs_mul, abs_of_nonneg (by norm_num : (0 : ℝ) ≤ 4), abs_of_nonneg (mul_nonneg (sq_nonneg _) n5)]
      exact mul_le_mul_of_nonneg_left h3 (by positivity)
    unfold bound
    have : 0 ≤ (1 + 2 * |beta|) * ((c ^ 2) ^ beta + (c ^ 2) ^ (beta - 1)) := by positivity
    nlinarith
  linarith

theorem k0_le (x y g h : ι → ℝ) : |k0 c beta x y g h| ≤ bound c beta * ∑ a, (|g a| + 1) * (|h a| + 1) := by
  rw [k0_eq, Finset.mul_sum]
  refine (Finset.abs_sum_le_sum_abs _ _).trans (Finset.sum_le_sum fun a _ => ?_)
  refine (abs_add_le _ _).trans ?_
  rw [abs_mul]
  have h1 := mul_le_mul_of_nonneg_left (phi_le hc hb x y h a) (abs_nonneg (g a))
  have h2 := phi'_le hc hb x y h a
  nlinarith

end

theorem measurable_k0 (c beta : ℝ) {S : Type} [MeasurableSpace S] {x y g h : S → ι → ℝ} (hx : Measurable x) (hy : Measurable y)
    (hg : Measurable g) (hh : Measurable h) : Measurable fun s => k0 c beta (x s) (y s) (g s) (h s) := by
  unfold k0 base
  have mx : ∀ a, Measurable fun s => x s a := fun a => (measurable_pi_apply a).comp hx
  have my : ∀ a, Measurable fun s => y s a := fun a => (measurable_pi_apply a).comp hy
  have mg : ∀ a, Measurable fun s => g s a := fun a => (measurable_pi_apply a).comp hg
  have mh : ∀ a, Measurable fun s => h s a := fun a => (measurable_pi_apply a).comp hh
  fun_prop

/-! ### The Stein identity -/

theorem integral_target {p : (ι → ℝ) → ℝ} (h0 : ∀ x, 0 ≤ p x) (hm : Measurable p) (F : (ι → ℝ) → ℝ) :
    ∫ x, F x ∂(target p) = ∫ x, p x * F x := by
  unfold target
  have h := integral_withDensity_eq_integral_smul (μ := (volume : Measure (ι → ℝ))) (f := fun x => (p x).toNNReal) hm.real_toNNReal F
  refine Eq.trans h (integral_congr_ae (Filter.Eventually.of_forall fun x => ?_))
  simp only [NNReal.smul_def, Real.coe_toNNReal _ (h0 x), smul_eq_mul]

theorem integrable_target {p : (ι → ℝ) → ℝ} (h0 : ∀ x, 0 ≤ p x) (hm : Measurable p) (F : (ι → ℝ) → ℝ) :
    Integrable F (target p) ↔ Integrable fun x => p x * F x := by
  unfold target
  have h := integrable_withDensity_iff_integrable_smul (μ := (volume : Measure (ι → ℝ))) (f := fun x => (p x).toNNReal) hm.real_toNNReal (g := F)
  refine Iff.trans h ?_
  simp only [NNReal.smul_def, fun x => Real.coe_toNNReal _ (h0 x), smul_eq_mul]

section score
variable {p : (ι → ℝ) → ℝ} {g : (ι → ℝ) → ι → ℝ} (G : Score p g)
include G

theorem target_prob : IsProbabilityMeasure (target p) := by
  constructor
  unfold target
  rw [withDensity_apply _ MeasurableSet.univ, Measure.restrict_univ,
    ← ofReal_integral_eq_lintegral_ofReal G.integrable (Filter.Eventually.of_forall G.nonneg), G.total, ENNReal.ofReal_one]

theorem score_coord (a : ι) : Measurable fun x => g x a := (measurable_pi_apply a).comp G.score_meas

theorem score_memLp (a : ι) : MemLp (fun x => g x a) 2 (target p) := by
  rw [memLp_two_iff_integrable_sq (score_coord G a).aestronglyMeasurable, integrable_target G.nonneg G.meas]
  exact G.moment a

theorem score_integrable (a : ι) : Integrable fun x => p x * g x a := by
  have := target_prob G
  rw [← integrable_target G.nonneg G.meas]
  exact (score_memLp G a).integrable (by norm_num)

theorem stein_coord (a : ι) {φ φ' : (ι → ℝ) → ℝ} {B : ℝ} (hφ : ∀ x, |φ x| ≤ B) (hφ' : ∀ x, |φ' x| ≤ B) (mφ : Measurable φ)
    (mφ' : Measurable φ') (hd : ∀ x, HasLineDerivAt ℝ φ (φ' x) x (Pi.single a 1)) :
    ∫ x, (g x a * φ x + φ' x) ∂(target p) = 0 := by
  rw [integral_target G.nonneg G.meas]
  have i1 : Integrable fun x => p x * g x a * φ x :=
    (score_integrable G a).mul_bdd (c := B) mφ.aestronglyMeasurable (Filter.Eventually.of_forall fun x => by rw [Real.norm_eq_abs]; exact hφ x)
  have i2 : Integrable fun x => p x * φ' x :=
    G.integrable.mul_bdd (c := B) mφ'.aestronglyMeasurable (Filter.Eventually.of_forall fun x => by rw [Real.norm_eq_abs]; exact hφ' x)
  have i3 : Integrable fun x => p x * φ x :=
    G.integrable.mul_bdd (c := B) mφ.aestronglyMeasurable (Filter.Eventually.of_forall fun x => by rw [Real.norm_eq_abs]; exact hφ x)
  have h := integral_bilinear_hasLineDerivAt_right_eq_neg_left_of_integrable (μ := (volume : Measure (ι → ℝ)))
    (f := p) (f' := fun x => p x * g x a) (g := φ) (g' := φ') (v := Pi.single a 1) (B := ContinuousLinearMap.mul ℝ ℝ)
    i1 i2 i3 (fun x _ => G.deriv x a) (fun x _ => hd x)
  simp only [ContinuousLinearMap.mul_apply'] at h
  have e : (fun x => p x * (g x a * φ x + φ' x)) = fun x => p x * g x a * φ x + p x * φ' x := by funext x; ring
  rw [e, integral_add i1 i2, h]
  ring

/-- **C115, the Stein identity.** At any second sample the kernel has expectation zero under the distribution whose gradients it is given. -/
theorem C115_identity {c beta : ℝ} (hc : 0 < c) (hb : beta < 0) (y h : ι → ℝ) :
    ∫ x, k0 c beta x y (g x) h ∂(target p) = 0 := by
  have := target_prob G
  have mphi : ∀ a, Measurable (phi c beta y h a) := fun a => by unfold phi base; fun_prop
  have mphi' : ∀ a, Measurable (phi' c beta y h a) := fun a => by unfold phi' base; fun_prop
  have hi : ∀ a, Integrable (fun x => g x a * phi c beta y h a x + phi' c beta y h a x) (target p) := by
    intro a
    refine Integrable.add ?_ ?_
    · exact ((score_memLp G a).integrable (by norm_num)).mul_bdd (c := bound c beta * (|h a| + 1)) (mphi a).aestronglyMeasurable
        (Filter.Eventually.of_forall fun x => by rw [Real.norm_eq_abs]; exact phi_le hc hb x y h a)
    · exact Integrable.of_bound (mphi' a).aestronglyMeasurable (bound c beta * (|h a| + 1))
        (Filter.Eventually.of_forall fun x => by rw [Real.norm_eq_abs]; exact phi'_le hc hb x y h a)
  simp only [k0_eq]
  rw [integral_finsetSum _ fun a _ => hi a]
  exact Finset.sum_eq_zero fun a _ => stein_coord G a (fun x => phi_le hc hb x y h a) (fun x => phi'_le hc hb x y h a) (mphi a) (mphi' a)
    fun x => phi_deriv c beta hc x y h a

end score

/-! ### Independent samples -/

/-- Specification: `n` independent samples of the distribution `R`. -/
structure Samples {Ω : Type} [MeasurableSpace Ω] {n : ℕ} (X : Fin n → Ω → ι → ℝ) (R : Measure (ι → ℝ)) (μ : Measure Ω) : Prop where
  meas : ∀ i, Measurable (X i)
  indep : iIndepFun X μ
  law : ∀ i, μ.map (X i) = R

/-- The discrepancy of the samples with the gradients `g`. -/
noncomputable def ksdOf {Ω : Type} {n : ℕ} (c beta : ℝ) (g : (ι → ℝ) → ι → ℝ) (X : Fin n → Ω → ι → ℝ) (ω : Ω) : ℝ :=
  ksd c beta (List.ofFn fun i => (X i ω, g (X i ω)))

/-- The kernel of a sample with itself. -/
theorem k0_diag (c beta : ℝ) (x g : ι → ℝ) :
    k0 c beta x x g g = (c ^ 2) ^ beta * ∑ a, g a ^ 2 - 2 * beta * Fintype.card ι * (c ^ 2) ^ (beta - 1) := by
  unfold k0 base
  simp only [sub_self, mul_zero, Finset.sum_const_zero, add_zero, ne_eq, OfNat.ofNat_ne_zero, not_false_eq_true, zero_pow]
  rw [Finset.sum_congr rfl fun a _ => (pow_two (g a)).symm]
  ring

theorem ksdSum_ofFn {n : ℕ} (c beta : ℝ) (x g : Fin n → ι → ℝ) :
    ksdSum c beta (List.ofFn fun i => (x i, g i)) = ∑ i, ∑ j, k0 c beta (x i) (x j) (g i) (g j) := by
  have hf : ∀ (l : List ((ι → ℝ) × (ι → ℝ))) (f : (ι → ℝ) × (ι → ℝ) → ℝ) (r : ℝ),
      l.foldl (fun acc x => acc + f x) r = r + (l.map f).sum := by
    intro l f
    induction l with
    | nil => intro r; simp
    | cons a l ih => intro r; rw [List.foldl_cons, ih, List.map_cons, List.sum_cons]; ring
  unfold ksdSum
  rw [hf, zero_add, List.map_ofFn, List.sum_ofFn]
  refine Finset.sum_congr rfl fun i _ => ?_
  simp only [Function.comp_apply, List.map_ofFn, List.sum_ofFn]

section samples
variable {Ω : Type} [MeasurableSpace Ω] {μ : Measure Ω} [IsProbabilityMeasure μ] {n : ℕ} {X : Fin n → Ω → ι → ℝ} {R : Measure (ι → ℝ)}
  [IsProbabilityMeasure R] (D : Samples X R μ) {g : (ι → ℝ) → ι → ℝ} (hg : Measurable g) (hg2 : ∀ a, MemLp (fun x => g x a) 2 R)
  {c beta : ℝ} (hc : 0 < c) (hb : beta < 0)

include D hg hg2 hc hb

/-- The discrepancy between the distribution of the samples and the one of the gradients. -/
noncomputable def gap (c beta : ℝ) (g : (ι → ℝ) → ι → ℝ) (R : Measure (ι → ℝ)) : ℝ :=
  ∫ y, ∫ x, k0 c beta x y (g x) (g y) ∂R ∂R

omit D [IsProbabilityMeasure μ] in
theorem integrable_pair : Integrable (fun q : (ι → ℝ) × (ι → ℝ) => k0 c beta q.1 q.2 (g q.1) (g q.2)) (R.prod R) := by
  have hi : ∀ a, Integrable (fun x => |g x a| + 1) R := fun a =>
    (((hg2 a).integrable (by norm_num)).abs).add (integrable_const 1)
  have hdom : Integrable (fun q : (ι → ℝ) × (ι → ℝ) => bound c beta * ∑ a, (|g q.1 a| + 1) * (|g q.2 a| + 1)) (R.prod R) :=
    (integrable_finsetSum _ fun a _ => (hi a).mul_prod (hi a)).const_mul _
  refine hdom.mono' (measurable_k0 c beta measurable_fst measurable_snd (hg.comp measurable_fst) (hg.comp measurable_snd)).aestronglyMeasurable ?_
  exact Filter.Eventually.of_forall fun q => by rw [Real.norm_eq_abs]; exact k0_le hc hb q.1 q.2 (g q.1) (g q.2)

omit hc hb in
theorem integrable_self : Integrable (fun x => k0 c beta x x (g x) (g x)) R := by
  simp only [k0_diag]
  refine (Integrable.const_mul (integrable_finsetSum _ fun a _ => ?_) _).sub (integrable_const _)
  exact (hg2 a).integrable_sq

theorem pair_law {i j : Fin n} (hij : i ≠ j) : μ.map (fun ω => (X i ω, X j ω)) = R.prod R := by
  have h := D.indep.indepFun hij
  rw [indepFun_iff_map_prod_eq_prod_map_map (D.meas i).aemeasurable (D.meas j).aemeasurable, D.law, D.law] at h
  exact h

theorem integrable_k0 (i j : Fin n) : Integrable (fun ω => k0 c beta (X i ω) (X j ω) (g (X i ω)) (g (X j ω))) μ := by
  by_cases hij : i = j
  · subst hij
    have h := integrable_self D hg hg2 (c := c) (beta := beta)
    rw [← D.law i] at h
    exact h.comp_measurable (D.meas i)
  · have h := integrable_pair hg hg2 hc hb
    rw [← pair_law D hg hg2 hc hb hij] at h
    exact h.comp_measurable ((D.meas i).prodMk (D.meas j))

theorem integral_off {i j : Fin n} (hij : i ≠ j) :
    ∫ ω, k0 c beta (X i ω) (X j ω) (g (X i ω)) (g (X j ω)) ∂μ = gap c beta g R := by
  have h := integrable_pair hg hg2 hc hb
  unfold gap
  rw [← integral_prod_symm _ h, ← pair_law D hg hg2 hc hb hij,
    integral_map ((D.meas i).prodMk (D.meas j)).aemeasurable (by rw [pair_law D hg hg2 hc hb hij]; exact h.1)]

theorem integral_self (i : Fin n) :
    ∫ ω, k0 c beta (X i ω) (X i ω) (g (X i ω)) (g (X i ω)) ∂μ =
      (c ^ 2) ^ beta * ∑ a, ∫ x, g x a ^ 2 ∂R - 2 * beta * Fintype.card ι * (c ^ 2) ^ (beta - 1) := by
  have h := integrable_self D hg hg2 (c := c) (beta := beta)
  rw [← integral_finsetSum _ fun a _ => (hg2 a).integrable_sq, ← integral_const_mul]
  have e : ∫ ω, k0 c beta (X i ω) (X i ω) (g (X i ω)) (g (X i ω)) ∂μ = ∫ x, k0 c beta x x (g x) (g x) ∂R := by
    rw [← D.law i] at h ⊢
    rw [integral_map (D.meas i).aemeasurable h.1]
  rw [e]
  simp only [k0_diag]
  rw [integral_sub (Integrable.const_mul (integrable_finsetSum _ fun a _ => (hg2 a).integrable_sq) _) (integrable_const _)]
  simp

theorem ksd_sq (ω : Ω) :
    ksdOf c beta g X ω ^ 2 = (∑ i, ∑ j, k0 c beta (X i ω) (X j ω) (g (X i ω)) (g (X j ω))) / n ^ 2 := by
  unfold ksdOf ksd
  rw [div_pow, Real.sq_sqrt (C81_ksd_nonneg c beta hc hb _), List.length_ofFn, ksdSum_ofFn (x := fun i => X i ω) (g := fun i => g (X i ω))]

theorem integrable_sq : Integrable (fun ω => ksdOf c beta g X ω ^ 2) μ := by
  simp only [ksd_sq D hg hg2 hc hb]
  exact (integrable_finsetSum _ fun i _ => integrable_finsetSum _ fun j _ => integrable_k0 D hg hg2 hc hb i j).div_const _

/-- **C115, any samples.** The squared discrepancy of `n` independent samples of `R` has expectation
`(1 - 1/n) gap + (c^(2β) E|g|² - 2 β d c^(2β-2)) / n`, where the gap belongs to the pair of distributions and does not depend on `n`. -/
theorem C115_mean (hn : 0 < n) : ∫ ω, ksdOf c beta g X ω ^ 2 ∂μ =
    (1 - 1 / n) * gap c beta g R +
      ((c ^ 2) ^ beta * ∑ a, ∫ x, g x a ^ 2 ∂R - 2 * beta * Fintype.card ι * (c ^ 2) ^ (beta - 1)) / n := by
  have hn' : (n : ℝ) ≠ 0 := by positivity
  simp only [ksd_sq D hg hg2 hc hb]
  rw [integral_div, integral_finsetSum _ fun i _ => integrable_finsetSum _ fun j _ => integrable_k0 D hg hg2 hc hb i j]
  set V := (c ^ 2) ^ beta * ∑ a, ∫ x, g x a ^ 2 ∂R - 2 * beta * Fintype.card ι * (c ^ 2) ^ (beta - 1) with hV
  have hrow : ∀ i : Fin n, ∫ ω, ∑ j, k0 c beta (X i ω) (X j ω) (g (X i ω)) (g (X j ω)) ∂μ = ((n : ℝ) - 1) * gap c beta g R + V := by
    intro i
    rw [integral_finsetSum _ fun j _ => integrable_k0 D hg hg2 hc hb i j, ← Finset.sum_erase_add _ _ (Finset.mem_univ i),
      integral_self D hg hg2 hc hb i, Finset.sum_congr rfl fun j hj => integral_off D hg hg2 hc hb (Finset.ne_of_mem_erase hj).symm,
      Finset.sum_const, Finset.card_erase_of_mem (Finset.mem_univ i), nsmul_eq_mul]
    congr 2
    rw [Finset.card_univ, Fintype.card_fin, Nat.cast_sub hn, Nat.cast_one]
  rw [Finset.sum_congr rfl fun i _ => hrow i, Finset.sum_const, Finset.card_univ, Fintype.card_fin, nsmul_eq_mul]
  field_simp

end samples

/-- **C115, exact samples.** The squared discrepancy of `n` independent samples of the target has expectation
`(c^(2β) E|g|² - 2 β d c^(2β-2)) / n`. -/
theorem C115_exact {Ω : Type} [MeasurableSpace Ω] {μ : Measure Ω} [IsProbabilityMeasure μ] {n : ℕ} (hn : 0 < n) {X : Fin n → Ω → ι → ℝ}
    {p : (ι → ℝ) → ℝ} {g : (ι → ℝ) → ι → ℝ} (G : Score p g) (D : Samples X (target p) μ) {c beta : ℝ} (hc : 0 < c) (hb : beta < 0) :
    ∫ ω, ksdOf c beta g X ω ^ 2 ∂μ =
      ((c ^ 2) ^ beta * ∑ a, (∫ x, p x * g x a ^ 2) - 2 * beta * Fintype.card ι * (c ^ 2) ^ (beta - 1)) / n := by
  have := target_prob G
  rw [C115_mean D G.score_meas (score_memLp G) hc hb hn]
  have h0 : gap c beta g (target p) = 0 := by
    unfold gap
    simp only [C115_identity G hc hb, integral_zero]
  rw [h0, mul_zero, zero_add]
  simp only [integral_target G.nonneg G.meas]

/-- **C115, convergence.** So the discrepancy of exact samples is at least `ε` with probability at most a constant over `n ε²`. -/
theorem C115_tail {Ω : Type} [MeasurableSpace Ω] {μ : Measure Ω} [IsProbabilityMeasure μ] {n : ℕ} (hn : 0 < n) {X : Fin n → Ω → ι → ℝ}
    {p : (ι → ℝ) → ℝ} {g : (ι → ℝ) → ι → ℝ} (G : Score p g) (D : Samples X (target p) μ) {c beta : ℝ} (hc : 0 < c) (hb : beta < 0)
    {ε : ℝ} (hε : 0 < ε) : μ.real {ω | ε ≤ ksdOf c beta g X ω} ≤
      ((c ^ 2) ^ beta * ∑ a, (∫ x, p x * g x a ^ 2) - 2 * beta * Fintype.card ι * (c ^ 2) ^ (beta - 1)) / (n * ε ^ 2) := by
  have := target_prob G
  have h := mul_meas_ge_le_integral_of_nonneg (μ := μ) (f := fun ω => ksdOf c beta g X ω ^ 2) (Filter.Eventually.of_forall fun ω => sq_nonneg _)
    (integrable_sq D G.score_meas (score_memLp G) hc hb) (ε ^ 2)
  rw [C115_exact hn G D hc hb] at h
  have hsub : μ.real {ω | ε ≤ ksdOf c beta g X ω} ≤ μ.real {ω | ε ^ 2 ≤ ksdOf c beta g X ω ^ 2} :=
    measureReal_mono fun ω hω => pow_le_pow_left₀ hε.le hω 2
  rw [← div_div, le_div_iff₀ (by positivity)]
  nlinarith [sq_nonneg ε]

/-- **C115, negation.** No list of samples has discrepancy zero if it has one sample, and the expectation for exact samples is positive:
the value never tells by itself that samples are exact. -/
theorem C115_zero_false [Nonempty ι] {c beta : ℝ} (hc : 0 < c) (hb : beta < 0) :
    (∀ x g : ι → ℝ, 0 < ksd c beta [(x, g)]) ∧
    ∀ (Ω : Type) [MeasurableSpace Ω] (μ : Measure Ω) [IsProbabilityMeasure μ] (n : ℕ) (_ : 0 < n) (X : Fin n → Ω → ι → ℝ)
      (p : (ι → ℝ) → ℝ) (g : (ι → ℝ) → ι → ℝ) (_ : Score p g) (_ : Samples X (target p) μ), 0 < ∫ ω, ksdOf c beta g X ω ^ 2 ∂μ := by
  have hd : 0 < -(2 * beta * Fintype.card ι * (c ^ 2) ^ (beta - 1)) := by
    have h1 : (0 : ℝ) < Fintype.card ι := by exact_mod_cast Fintype.card_pos
    have h2 : 0 < (c ^ 2) ^ (beta - 1) := Real.rpow_pos_of_pos (by positivity) _
    have h3 : 0 < Fintype.card ι * (c ^ 2) ^ (beta - 1) := mul_pos h1 h2
    nlinarith
  constructor
  · intro x g
    unfold ksd ksdSum
    simp only [List.foldl_cons, List.foldl_nil, List.map_cons, List.map_nil, List.sum_cons, List.sum_nil, add_zero, zero_add,
      List.length_singleton, Nat.cast_one, div_one]
    rw [Real.sqrt_pos, k0_diag]
    have : 0 ≤ (c ^ 2) ^ beta * ∑ a, g a ^ 2 := mul_nonneg (Real.rpow_nonneg (sq_nonneg c) _) (Finset.sum_nonneg fun a _ => sq_nonneg _)
    linarith
  · intro Ω _ μ _ n hn X p g G D
    rw [C115_exact hn G D hc hb]
    have : 0 ≤ (c ^ 2) ^ beta * ∑ a, ∫ x, p x * g x a ^ 2 := mul_nonneg (Real.rpow_nonneg (sq_nonneg c) _)
      (Finset.sum_nonneg fun a _ => integral_nonneg fun x => mul_nonneg (G.nonneg x) (sq_nonneg _))
    have hn' : (0 : ℝ) < n := by exact_mod_cast hn
    apply div_pos _ hn'
    linarith

/-- Independent samples of every distribution exist. -/
theorem pi_samples (n : ℕ) (R : Measure (ι → ℝ)) [IsProbabilityMeasure R] :
    Samples (fun (i : Fin n) (ω : Fin n → ι → ℝ) => ω i) R (Measure.pi fun _ => R) where
  meas i := measurable_pi_apply i
  indep := iIndepFun_pi (X := fun _ x => x) fun _ => aemeasurable_id
  law i := by
    have := (measurePreserving_eval (fun _ : Fin n => R) i).map_eq
    exact this

/-- **C115, the gap is a discrepancy.** It is never negative, and zero if the samples are from the target. -/
theorem C115_gap {p : (ι → ℝ) → ℝ} {g : (ι → ℝ) → ι → ℝ} (G : Score p g) {c beta : ℝ} (hc : 0 < c) (hb : beta < 0) :
    gap c beta g (target p) = 0 ∧
    ∀ (R : Measure (ι → ℝ)) [IsProbabilityMeasure R], (∀ a, MemLp (fun x => g x a) 2 R) → 0 ≤ gap c beta g R := by
  refine ⟨?_, fun R _ hR => ?_⟩
  · unfold gap
    simp only [C115_identity G hc hb, integral_zero]
  · set V := (c ^ 2) ^ beta * ∑ a, ∫ x, g x a ^ 2 ∂R - 2 * beta * Fintype.card ι * (c ^ 2) ^ (beta - 1) with hV
    have hge : ∀ n : ℕ, 0 ≤ (1 - 1 / ((n : ℝ) + 1)) * gap c beta g R + V * (1 / ((n : ℝ) + 1)) := by
      intro n
      have h := C115_mean (pi_samples (n + 1) R) G.score_meas hR hc hb (Nat.succ_pos n)
      have h0 : 0 ≤ ∫ ω, ksdOf c beta g (fun (i : Fin (n + 1)) (ω : Fin (n + 1) → ι → ℝ) => ω i) ω ^ 2 ∂(Measure.pi fun _ => R) :=
        integral_nonneg fun ω => sq_nonneg _
      rw [h] at h0
      push_cast at h0
      rw [mul_one_div]
      exact h0
    have hlim := tendsto_one_div_add_atTop_nhds_zero_nat (𝕜 := ℝ)
    have h1 : Filter.Tendsto (fun n : ℕ => (1 - 1 / ((n : ℝ) + 1)) * gap c beta g R + V * (1 / ((n : ℝ) + 1))) Filter.atTop
        (nhds ((1 - 0) * gap c beta g R + V * 0)) := ((hlim.const_sub 1).mul_const _).add (hlim.const_mul V)
    have := ge_of_tendsto' h1 hge
    simpa using this

/-! ### The standard Gaussian -/

/-- The standard Gaussian density in several dimensions. -/
noncomputable def gaussP (x : ι → ℝ) : ℝ := ∏ a, gaussianPDFReal 0 1 (x a)

theorem pdf_deriv (t : ℝ) : HasDerivAt (gaussianPDFReal 0 1) (gaussianPDFReal 0 1 t * -t) t := by
  have hf : gaussianPDFReal 0 1 = fun t => (Real.sqrt (2 * Real.pi * (1 : NNReal)))⁻¹ * Real.exp (-(t - 0) ^ 2 / (2 * (1 : NNReal))) := by
    funext t; rfl
  have h1 : HasDerivAt (fun t : ℝ => -(t - 0) ^ 2 / (2 * ((1 : NNReal) : ℝ))) (-t) t := by
    have := ((((hasDerivAt_id t).sub_const 0).pow 2).neg).div_const (2 * ((1 : NNReal) : ℝ))
    refine this.congr_deriv ?_
    simp only [NNReal.coe_one, id_eq]
    push_cast
    ring
  rw [hf]
  exact (h1.exp.const_mul _).congr_deriv (by ring)

theorem pdf_sq_integrable : Integrable fun t : ℝ => gaussianPDFReal 0 1 t * t ^ 2 := by
  have h : MemLp (fun t : ℝ => t) 2 (gaussianReal 0 1) := memLp_id_gaussianReal 2
  have h2 := h.integrable_sq
  rw [gaussianReal_of_var_ne_zero _ one_ne_zero, show gaussianPDF 0 1 = fun x => ((gaussianPDFReal 0 1 x).toNNReal : ENNReal) from rfl,
    integrable_withDensity_iff_integrable_smul (measurable_gaussianPDFReal 0 1).real_toNNReal] at h2
  simpa only [NNReal.smul_def, Real.coe_toNNReal _ (gaussianPDFReal_nonneg 0 1 _), smul_eq_mul] using h2

theorem pdf_sq_integral : ∫ t : ℝ, gaussianPDFReal 0 1 t * t ^ 2 = 1 := by
  have h : ∫ t, t ^ 2 ∂(gaussianReal 0 1) = 1 := by
    have hv := variance_id_gaussianReal (μ := 0) (v := 1)
    rw [variance_eq_sub (memLp_id_gaussianReal 2)] at hv
    simpa using hv
  rw [integral_gaussianReal_eq_integral_smul one_ne_zero] at h
  simpa using h

theorem factor_sq (x : ι → ℝ) (a : ι) :
    gaussP x * (-x a) ^ 2 = ∏ b, (if b = a then gaussianPDFReal 0 1 (x b) * x b ^ 2 else gaussianPDFReal 0 1 (x b)) := by
  unfold gaussP
  rw [← Finset.mul_prod_erase _ _ (Finset.mem_univ a), ← Finset.mul_prod_erase (a := a) univ
    (fun b => if b = a then gaussianPDFReal 0 1 (x b) * x b ^ 2 else gaussianPDFReal 0 1 (x b)) (Finset.mem_univ a), if_pos rfl,
    Finset.prod_congr rfl (g := fun b => gaussianPDFReal 0 1 (x b)) (s₁ := univ.erase a) (f := fun b =>
      if b = a then gaussianPDFReal 0 1 (x b) * x b ^ 2 else gaussianPDFReal 0 1 (x b)) fun b hb => if_neg (Finset.ne_of_mem_erase hb)]
  ring

theorem gauss_score : Score (ι := ι) gaussP fun x a => -x a where
  nonneg x := Finset.prod_nonneg fun a _ => gaussianPDFReal_nonneg 0 1 _
  meas := by
    unfold gaussP
    exact Finset.measurable_prod _ fun a _ => (measurable_gaussianPDFReal 0 1).comp (measurable_pi_apply a)
  integrable := Integrable.fintype_prod (f := fun _ => gaussianPDFReal 0 1) fun a => integrable_gaussianPDFReal 0 1
  total := by
    have h := integral_fintype_prod_volume_eq_prod (ι := ι) (𝕜 := ℝ) (E := fun _ => ℝ) (fun _ => gaussianPDFReal 0 1)
    unfold gaussP
    rw [h]
    simp [integral_gaussianPDFReal_eq_one 0 one_ne_zero]
  deriv x a := by
    unfold HasLineDerivAt
    have hf : (fun t : ℝ => gaussP (x + t • (Pi.single a 1 : ι → ℝ))) = fun t =>
        gaussianPDFReal 0 1 (x a + t) * ∏ b ∈ univ.erase a, gaussianPDFReal 0 1 (x b) := by
      funext t
      unfold gaussP
      rw [← Finset.mul_prod_erase _ _ (Finset.mem_univ a)]
      congr 1
      · simp
      · refine Finset.prod_congr rfl fun b hb => ?_
        simp [Pi.single_eq_of_ne (Finset.ne_of_mem_erase hb)]
    rw [hf]
    have h1 : HasDerivAt (fun t : ℝ => gaussianPDFReal 0 1 (x a + t)) (gaussianPDFReal 0 1 (x a) * -x a) 0 := by
      have h2 : HasDerivAt (gaussianPDFReal 0 1) (gaussianPDFReal 0 1 (x a) * -x a) (x a + 0) := by
        rw [add_zero]; exact pdf_deriv (x a)
      exact HasDerivAt.comp_const_add (x a) 0 h2
    refine (h1.mul_const _).congr_deriv ?_
    unfold gaussP
    rw [← Finset.mul_prod_erase _ _ (Finset.mem_univ a)]
    ring
  score_meas := measurable_pi_lambda _ fun a => (measurable_pi_apply a).neg
  moment a := by
    simp only [factor_sq]
    refine Integrable.fintype_prod (f := fun b t => if b = a then gaussianPDFReal 0 1 t * t ^ 2 else gaussianPDFReal 0 1 t) fun b => ?_
    by_cases h : b = a
    · simp only [if_pos h]; exact pdf_sq_integrable
    · simp only [if_neg h]; exact integrable_gaussianPDFReal 0 1

/-- **C115, a target.** With the default parameters, `n` independent samples of a standard Gaussian in `d` dimensions have an expected
squared discrepancy of `2d/n`. -/
theorem C115_gaussian {n : ℕ} (hn : 0 < n) :
    ∫ ω : Fin n → ι → ℝ, ksdOf 1 (-1 / 2) (fun x a => -x a) (fun i ω => ω i) ω ^ 2 ∂(Measure.pi fun _ => target gaussP) =
      2 * Fintype.card ι / n := by
  have := target_prob (gauss_score (ι := ι))
  rw [C115_exact hn gauss_score (pi_samples n _) one_pos (by norm_num)]
  have h : ∀ a : ι, (∫ x : ι → ℝ, gaussP x * (-x a) ^ 2) = 1 := by
    intro a
    simp only [factor_sq]
    have h := integral_fintype_prod_volume_eq_prod (ι := ι) (𝕜 := ℝ) (E := fun _ => ℝ)
      (fun b t => if b = a then gaussianPDFReal 0 1 t * t ^ 2 else gaussianPDFReal 0 1 t)
    rw [h]
    refine Finset.prod_eq_one fun b _ => ?_
    by_cases hb : b = a
    · simp only [if_pos hb]; exact pdf_sq_integral
    · simp only [if_neg hb]; exact integral_gaussianPDFReal_eq_one 0 one_ne_zero
  rw [Finset.sum_congr rfl fun a _ => h a]
  simp
  ring

/-- 800 samples in two dimensions: the discrepancy is below 1 with probability at least 199/200. -/
example : (Measure.pi fun _ : Fin 800 => target (ι := Fin 2) gaussP).real
    {ω | 1 ≤ ksdOf 1 (-1 / 2) (fun x a => -x a) (fun i (ω : Fin 800 → Fin 2 → ℝ) => ω i) ω} ≤ 1 / 200 := by
  have := target_prob (gauss_score (ι := Fin 2))
  have h := C115_tail (by norm_num) gauss_score (pi_samples 800 (target (ι := Fin 2) gaussP)) one_pos (by norm_num : (-1 / 2 : ℝ) < 0) one_pos
  have e := C115_exact (by norm_num) gauss_score (pi_samples 800 (target (ι := Fin 2) gaussP)) one_pos (by norm_num : (-1 / 2 : ℝ) < 0)
  rw [C115_gaussian (ι := Fin 2) (by norm_num)] at e
  simp only [one_pow, mul_one] at h e
  rw [← e] at h
  refine h.trans ?_
  norm_num

/-! ### Concrete cases that meet the hypotheses of the theorems above -/

example := C115_identity (gauss_score (ι := Fin 2)) (c := 1) (beta := -1 / 2) one_pos (by norm_num) ![1, 2] ![3, 4]
example := have := target_prob (gauss_score (ι := Fin 2))
  C115_mean (pi_samples 800 (target (ι := Fin 2) gaussP)) (gauss_score (ι := Fin 2)).score_meas (score_memLp gauss_score) (c := 1) (beta := -1 / 2) one_pos
    (by norm_num) (by norm_num)
example := C115_zero_false (ι := Fin 2) (c := 1) (beta := -1 / 2) one_pos (by norm_num)
example := C115_gap (gauss_score (ι := Fin 2)) (c := 1) (beta := -1 / 2) one_pos (by norm_num)

end Verif.Props.SteinLaw
