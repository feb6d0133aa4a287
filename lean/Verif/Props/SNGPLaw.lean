import Verif.Props.SNGP
import Verif.Props.GaussLaw
import Mathlib.Probability.Distributions.Gaussian.Multivariate

/-!
Property C116: the predictive variance of SNGP is the posterior variance of a Gaussian process and of Bayesian linear regression.
-/
set_option linter.unusedSectionVars false

namespace Verif.Props.SNGPLaw

open Verif.SNGP Verif.Props Verif.Props.GaussLaw MeasureTheory ProbabilityTheory Matrix WithLp Finset

variable {n m : ℕ}

/-- The kernel: the inner product of the features. -/
def kern (φ ψ : Fin n → ℝ) : ℝ := ∑ i, φ i * ψ i

theorem kern_comm (φ ψ : Fin n → ℝ) : kern φ ψ = kern ψ φ := Finset.sum_congr rfl fun i _ => mul_comm _ _

/-- The weights of the training points in the prediction of a Gaussian process: `(K + ridge) α = k(·, φ)`. -/
def GPWeights (ridge : ℝ) (data : Fin m → Fin n → ℝ) (φ : Fin n → ℝ) (α : Fin m → ℝ) : Prop :=
  ∀ a, (∑ b, kern (data a) (data b) * α b) + ridge * α a = kern (data a) φ

theorem solves_ofFn (ridge : ℝ) (data : Fin m → Fin n → ℝ) (x φ : Fin n → ℝ) :
    Solves (dataPrec ridge (List.ofFn data)) x φ ↔ ∀ i, ridge * x i + ∑ a, data a i * kern (data a) x = φ i := by
  unfold Solves
  refine forall_congr' fun i => ?_
  have e : ∑ j, dataPrec ridge (List.ofFn data) i j * x j = ridge * x i + ∑ a, data a i * kern (data a) x := by
    unfold dataPrec kern
    simp only [List.map_ofFn, List.sum_ofFn, Function.comp, add_mul, Finset.sum_add_distrib, ite_mul, zero_mul, Finset.sum_ite_eq,
      Finset.mem_univ, if_true, Finset.sum_mul, Finset.mul_sum]
    congr 1
    rw [Finset.sum_comm]
    exact Finset.sum_congr rfl fun a _ => Finset.sum_congr rfl fun j _ => by ring
  rw [e]

/-- The weights exist and are unique: they are the inner products with the solution for the precision matrix. -/
theorem weights_iff (ridge : ℝ) (hr : 0 < ridge) (data : Fin m → Fin n → ℝ) (x φ : Fin n → ℝ)
    (hx : Solves (dataPrec ridge (List.ofFn data)) x φ) (α : Fin m → ℝ) : GPWeights ridge data φ α ↔ ∀ a, α a = kern (data a) x := by
  rw [solves_ofFn] at hx
  have h1 : GPWeights ridge data φ fun a => kern (data a) x := by
    intro a
    have e : kern (data a) φ = ∑ i, data a i * (ridge * x i + ∑ b, data b i * kern (data b) x) :=
      Finset.sum_congr rfl fun i _ => by rw [hx i]
    rw [e]
    simp only [mul_add, Finset.sum_add_distrib, Finset.mul_sum]
    rw [Finset.sum_comm (f := fun i b => data a i * (data b i * kern (data b) x)), add_comm]
    congr 1
    · rw [kern, Finset.mul_sum]
      exact Finset.sum_congr rfl fun i _ => by ring
    · refine Finset.sum_congr rfl fun b _ => ?_
      rw [kern, Finset.sum_mul]
      exact Finset.sum_congr rfl fun i _ => by ring
  constructor
  · intro h
    set β : Fin m → ℝ := fun a => α a - kern (data a) x with hβ
    have h2 : ∀ a, (∑ b, kern (data a) (data b) * β b) + ridge * β a = 0 := by
      intro a
      have e1 := h a
      have e2 := h1 a
      simp only [hβ, mul_sub, Finset.sum_sub_distrib]
      linarith
    have h3 : (∑ i, (∑ a, β a * data a i) ^ 2) + ridge * ∑ a, β a ^ 2 = 0 := by
      have e : ∑ a, β a * ((∑ b, kern (data a) (data b) * β b) + ridge * β a) = 0 :=
        Finset.sum_eq_zero fun a _ => by rw [h2 a, mul_zero]
      rw [← e]
      simp only [mul_add, Finset.sum_add_distrib, Finset.mul_sum]
      congr 1
      · simp only [pow_two, kern, Finset.mul_sum, Finset.sum_mul]
        rw [Finset.sum_comm]
        refine Finset.sum_congr rfl fun a _ => ?_
        rw [Finset.sum_comm]
        exact Finset.sum_congr rfl fun b _ => Finset.sum_congr rfl fun i _ => by ring
      · exact Finset.sum_congr rfl fun a _ => by ring
    have h4 : 0 ≤ ∑ i, (∑ a, β a * data a i) ^ 2 := Finset.sum_nonneg fun _ _ => sq_nonneg _
    have h5 : 0 ≤ ∑ a, β a ^ 2 := Finset.sum_nonneg fun _ _ => sq_nonneg _
    have h6 : ∑ a, β a ^ 2 = 0 := by nlinarith
    intro a
    have := (Finset.sum_eq_zero_iff_of_nonneg fun a _ => sq_nonneg (β a)).1 h6 a (Finset.mem_univ a)
    rw [sq_eq_zero_iff] at this
    exact sub_eq_zero.1 this
  · intro h
    rw [show α = fun a => kern (data a) x from funext h]
    exact h1

/-- **C116, Gaussian process.** The covariance of two points is that of a Gaussian process conditioned on noisy values at the training points:
the kernel is the inner product of the features and the variance of the noise is the ridge penalty. -/
theorem C116_gp (ridge : ℝ) (hr : 0 < ridge) (data : Fin m → Fin n → ℝ) (L : Fin n → Fin n → ℝ)
    (hL : IsChol (dataPrec ridge (List.ofFn data)) L) (φ φ' w w' : Fin n → ℝ) (hw : Solves L w φ) (hw' : Solves L w' φ') :
    (∃! α, GPWeights ridge data φ' α) ∧
    ∀ α, GPWeights ridge data φ' α →
      predCov ridge w w' = kern φ φ' - ∑ a, kern (data a) φ * α a ∧ (φ = φ' → w = w' → predVar ridge w = kern φ φ - ∑ a, kern (data a) φ * α a) := by
  obtain ⟨x, hx⟩ := exists_solve ridge hr (List.ofFn data) φ
  obtain ⟨x', hx'⟩ := exists_solve ridge hr (List.ofFn data) φ'
  have hiff := weights_iff ridge hr data x' φ' hx'
  have hc := C78_covariance ridge _ L hL φ φ' w w' x x' hw hw' hx hx'
  refine ⟨⟨fun a => kern (data a) x', (hiff _).2 fun _ => rfl, fun α hα => funext ((hiff α).1 hα)⟩, fun α hα => ?_⟩
  have hα' := (hiff α).1 hα
  have hs := (solves_ofFn ridge data x' φ').1 hx'
  have key : ridge * ∑ i, φ i * x' i = kern φ φ' - ∑ a, kern (data a) φ * α a := by
    have e : kern φ φ' = ∑ i, φ i * (ridge * x' i + ∑ a, data a i * kern (data a) x') :=
      Finset.sum_congr rfl fun i _ => by rw [hs i]
    rw [e]
    simp only [mul_add, Finset.sum_add_distrib, Finset.mul_sum, hα']
    rw [Finset.sum_comm (f := fun i a => φ i * (data a i * kern (data a) x'))]
    have e2 : ∀ a, kern (data a) φ * kern (data a) x' = ∑ i, φ i * (data a i * kern (data a) x') := by
      intro a
      rw [kern, Finset.sum_mul]
      exact Finset.sum_congr rfl fun i _ => by ring
    simp only [e2, add_sub_cancel_right]
    exact Finset.sum_congr rfl fun i _ => by ring
  refine ⟨hc.1.trans key, ?_⟩
  rintro rfl rfl
  rw [hc.2.1, hc.1, key]

/-- **C116, best prediction.** If the values of the function are `⟨φ, W⟩` for weights `W` of independent standard normal entries, and the values at
the training points are observed with independent normal noise of variance `ridge`, then the predicted variance is the least mean squared error with which any linear
combination of the observed values predicts the value at the point. -/
theorem C116_best {Ω : Type} [MeasurableSpace Ω] (μ : Measure Ω) [IsProbabilityMeasure μ] (Z : Fin n ⊕ Fin m → Ω → ℝ)
    (hm : ∀ k, Measurable (Z k)) (hi : iIndepFun Z μ) (hl : ∀ k, μ.map (Z k) = gaussianReal 0 1)
    (ridge : ℝ) (hr : 0 < ridge) (data : Fin m → Fin n → ℝ) (L : Fin n → Fin n → ℝ)
    (hL : IsChol (dataPrec ridge (List.ofFn data)) L) (φ w : Fin n → ℝ) (hw : Solves L w φ) :
    IsLeast (Set.range fun c : Fin m → ℝ => ∫ ω, ((∑ i, φ i * Z (.inl i) ω) -
      ∑ a, c a * ((∑ i, data a i * Z (.inl i) ω) + Real.sqrt ridge * Z (.inr a) ω)) ^ 2 ∂μ) (predVar ridge w) := by
  have herr : ∀ c : Fin m → ℝ, ∫ ω, ((∑ i, φ i * Z (.inl i) ω) -
      ∑ a, c a * ((∑ i, data a i * Z (.inl i) ω) + Real.sqrt ridge * Z (.inr a) ω)) ^ 2 ∂μ =
      ∑ i, (φ i - ∑ a, c a * data a i) ^ 2 + ridge * ∑ a, c a ^ 2 := by
    intro c
    set q : Fin n ⊕ Fin m → ℝ := Sum.elim (fun i => φ i - ∑ a, c a * data a i) (fun a => -(c a * Real.sqrt ridge)) with hq
    have e1 : ∀ ω, (∑ i, φ i * Z (.inl i) ω) - ∑ a, c a * ((∑ i, data a i * Z (.inl i) ω) + Real.sqrt ridge * Z (.inr a) ω) =
        ∑ k, q k * Z k ω := by
      intro ω
      rw [Fintype.sum_sum_type]
      simp only [hq, Sum.elim_inl, Sum.elim_inr, mul_add, Finset.sum_add_distrib, sub_mul, Finset.sum_sub_distrib, Finset.mul_sum, Finset.sum_mul,
        neg_mul, Finset.sum_neg_distrib]
      rw [Finset.sum_comm (f := fun i a => c a * data a i * Z (.inl i) ω)]
      simp only [mul_assoc]
      ring
    have e2 : ∀ ω, (∑ k, q k * Z k ω) ^ 2 = ∑ k, ∑ l, q k * q l * (Z k ω * Z l ω) := by
      intro ω
      rw [pow_two, Finset.sum_mul_sum]
      exact Finset.sum_congr rfl fun k _ => Finset.sum_congr rfl fun l _ => by ring
    simp only [e1, e2]
    have hint : ∀ k l, Integrable (fun ω => q k * q l * (Z k ω * Z l ω)) μ := fun k l => ((gauss_moments μ Z hm hi hl k l).2.2.1).const_mul _
    rw [integral_finsetSum _ fun k _ => integrable_finsetSum _ fun l _ => hint k l]
    have e3 : ∀ k, ∫ ω, ∑ l, q k * q l * (Z k ω * Z l ω) ∂μ = q k ^ 2 := by
      intro k
      rw [integral_finsetSum _ fun l _ => hint k l]
      simp only [integral_const_mul, (gauss_moments μ Z hm hi hl k _).2.2.2, mul_ite, mul_one, mul_zero, Finset.sum_ite_eq, Finset.mem_univ, if_true]
      ring
    simp only [e3]
    rw [Fintype.sum_sum_type]
    simp only [hq, Sum.elim_inl, Sum.elim_inr, neg_sq, mul_pow, Real.sq_sqrt hr.le, Finset.mul_sum]
    congr 1
    exact Finset.sum_congr rfl fun a _ => by ring
  obtain ⟨x, hx⟩ := exists_solve ridge hr (List.ofFn data) φ
  have hs := (solves_ofFn ridge data x φ).1 hx
  have hv : predVar ridge w = ridge * ∑ i, φ i * x i := (C78_covariance ridge _ L hL φ φ w w x x hw hw hx hx).2.2
  set α : Fin m → ℝ := fun a => kern (data a) x with hα
  -- the error of any combination, around the best one
  have hsplit : ∀ c : Fin m → ℝ, ∑ i, (φ i - ∑ a, c a * data a i) ^ 2 + ridge * ∑ a, c a ^ 2 =
      predVar ridge w + (∑ i, (∑ a, (c a - α a) * data a i) ^ 2 + ridge * ∑ a, (c a - α a) ^ 2) := by
    intro c
    set d : Fin m → ℝ := fun a => c a - α a with hd
    have e1 : ∀ i, φ i - ∑ a, c a * data a i = ridge * x i - ∑ a, d a * data a i := by
      intro i
      rw [← hs i]
      simp only [hd, sub_mul, Finset.sum_sub_distrib]
      have : ∑ a, data a i * kern (data a) x = ∑ a, α a * data a i := Finset.sum_congr rfl fun a _ => mul_comm _ _
      rw [this]; ring
    have e2 : ∑ i, x i * ∑ a, d a * data a i = ∑ a, α a * d a := by
      simp only [Finset.mul_sum]
      rw [Finset.sum_comm]
      refine Finset.sum_congr rfl fun a _ => ?_
      simp only [hα, kern, Finset.sum_mul]
      exact Finset.sum_congr rfl fun i _ => by ring
    have e3 : ∑ i, φ i * x i = ridge * ∑ i, x i ^ 2 + ∑ a, α a ^ 2 := by
      have : ∀ i, φ i * x i = ridge * x i ^ 2 + ∑ a, α a * (data a i * x i) := by
        intro i
        rw [← hs i, add_mul, Finset.sum_mul]
        congr 1
        · ring
        · exact Finset.sum_congr rfl fun a _ => by simp only [hα]; ring
      simp only [this, Finset.sum_add_distrib, Finset.mul_sum]
      congr 1
      rw [Finset.sum_comm]
      refine Finset.sum_congr rfl fun a _ => ?_
      rw [← Finset.mul_sum, pow_two]
      rfl
    have e4 : ∑ a, c a ^ 2 = ∑ a, α a ^ 2 + 2 * ∑ a, α a * d a + ∑ a, d a ^ 2 := by
      rw [Finset.mul_sum, ← Finset.sum_add_distrib, ← Finset.sum_add_distrib]
      exact Finset.sum_congr rfl fun a _ => by simp only [hd]; ring
    have e5 : ∑ i, (ridge * x i - ∑ a, d a * data a i) ^ 2 =
        ridge ^ 2 * ∑ i, x i ^ 2 - 2 * ridge * ∑ i, x i * ∑ a, d a * data a i + ∑ i, (∑ a, d a * data a i) ^ 2 := by
      rw [Finset.mul_sum, Finset.mul_sum, ← Finset.sum_sub_distrib, ← Finset.sum_add_distrib]
      exact Finset.sum_congr rfl fun i _ => by ring
    simp only [e1]
    rw [e5, e4, e2, hv, e3]
    ring
  refine ⟨⟨α, ?_⟩, ?_⟩
  · dsimp only
    rw [herr, hsplit]
    simp
  · rintro _ ⟨c, rfl⟩
    dsimp only
    rw [herr, hsplit]
    have h1 : 0 ≤ ∑ i, (∑ a, (c a - α a) * data a i) ^ 2 := Finset.sum_nonneg fun _ _ => sq_nonneg _
    have h2 : 0 ≤ ridge * ∑ a, (c a - α a) ^ 2 := mul_nonneg hr.le (Finset.sum_nonneg fun _ _ => sq_nonneg _)
    linarith

/-! ### Bayesian linear regression -/

/-- A training point of a linear regression on features, with noise of variance `ridge`. -/
noncomputable def regPoint (ridge : ℝ) (φ : Fin n → ℝ) (y : ℝ) : RegPoint 1 n := ⟨fun _ => 0, fun _ => φ, fun _ => Real.log ridge, fun _ => y⟩

theorem prec_regPoint (ridge : ℝ) (hr : 0 < ridge) (data : List ((Fin n → ℝ) × ℝ)) (i k : Fin n) :
    ridge * prec 0 (data.map fun p => regPoint ridge p.1 p.2) i k = dataPrec ridge (data.map Prod.fst) i k := by
  unfold prec dataPrec
  rw [mul_add]
  congr 1
  · split_ifs <;> simp
  · simp only [List.map_map, Function.comp_def, regPoint, Finset.univ_unique, Finset.sum_singleton, Real.exp_neg, Real.exp_log hr]
    rw [← List.sum_map_mul_left]
    congr 1
    refine List.map_congr_left fun p _ => ?_
    field_simp

/-- **C116, linear regression.** Take the features as fixed, the weights of the linear layer as standard normal and any targets at the training
points observed with normal noise of variance `ridge`. Under the posterior of the weights, the value at a point is normal, and its variance is the
predicted variance, whatever the targets were. -/
theorem C116_bayes (ridge : ℝ) (hr : 0 < ridge) (data : List ((Fin n → ℝ) × ℝ)) (L : Fin n → Fin n → ℝ)
    (hL : IsChol (dataPrec ridge (data.map Prod.fst)) L) (φ w : Fin n → ℝ) (hw : Solves L w φ) :
    ∃ (θh : Fin n → ℝ) (c : ℝ), 0 < c ∧
      ((volume : Measure (EuclideanSpace ℝ (Fin n))).withDensity fun x =>
        ENNReal.ofReal (c * Real.exp (-negLogJoint 0 (data.map fun p => regPoint ridge p.1 p.2) (ofLp x)))).map
        (fun x => ∑ i, φ i * x i) = gaussianReal (∑ i, φ i * θh i) (predVar ridge w).toNNReal := by
  set pts := data.map fun p => regPoint ridge p.1 p.2 with hpts
  obtain ⟨⟨θh, hmap, -⟩, -⟩ := C110_quadratic 0 pts
  obtain ⟨c, hc, hd⟩ := C110_posterior 0 pts θh hmap
  refine ⟨θh, c, hc, ?_⟩
  rw [hd]
  have hP := prec_posDef 0 pts
  have hS : ((prec 0 pts)⁻¹).PosSemidef := hP.inv.posSemidef
  set x : Fin n → ℝ := fun i => (1 / ridge) * ∑ k, (prec 0 pts)⁻¹ i k * φ k with hxdef
  have hx : Solves (dataPrec ridge (data.map Prod.fst)) x φ := by
    intro i
    have h1 : (prec 0 pts) *ᵥ ((prec 0 pts)⁻¹ *ᵥ φ) = φ := by
      rw [Matrix.mulVec_mulVec, Matrix.mul_nonsing_inv _ ((Matrix.isUnit_iff_isUnit_det _).1 hP.isUnit), Matrix.one_mulVec]
    have h2 := congrFun h1 i
    rw [Matrix.mulVec, dotProduct] at h2
    rw [← h2]
    refine Finset.sum_congr rfl fun j _ => ?_
    rw [← prec_regPoint ridge hr data i j, ← hpts, hxdef]
    simp only [Matrix.mulVec, dotProduct]
    field_simp
  have hv : predVar ridge w = ∑ i, φ i * ∑ k, (prec 0 pts)⁻¹ i k * φ k := by
    rw [(C78_covariance ridge _ L hL φ φ w w x x hw hw hx hx).2.2, hxdef, Finset.mul_sum]
    exact Finset.sum_congr rfl fun i _ => by field_simp
  have hv0 : 0 ≤ predVar ridge w := mul_nonneg hr.le (Finset.sum_nonneg fun i _ => sq_nonneg _)
  have hmeas : Measurable fun x : EuclideanSpace ℝ (Fin n) => ∑ i, φ i * x i := by fun_prop
  refine Measure.ext_of_charFun (funext fun t => ?_)
  rw [charFun_gaussianReal, charFun_apply_real, integral_map hmeas.aemeasurable (by fun_prop)]
  have h1 : ∀ x : EuclideanSpace ℝ (Fin n), Complex.exp (t * ((∑ i, φ i * x i : ℝ) : ℂ) * Complex.I) =
      Complex.exp ((inner ℝ x (toLp 2 fun i => t * φ i) : ℝ) * Complex.I) := by
    intro x
    congr 2
    rw [PiLp.inner_apply]
    push_cast
    rw [Finset.mul_sum]
    refine Finset.sum_congr rfl fun i _ => ?_
    simp
    ring
  simp only [h1]
  rw [← charFun_apply, charFun_multivariateGaussian hS]
  congr 1
  have e1 : (inner ℝ (toLp 2 fun i => t * φ i) (toLp 2 θh) : ℝ) = t * ∑ i, φ i * θh i := by
    rw [PiLp.inner_apply, Finset.mul_sum]
    exact Finset.sum_congr rfl fun i _ => by simp; ring
  have e2 : ((fun i => t * φ i) ⬝ᵥ (prec 0 pts)⁻¹ *ᵥ fun i => t * φ i) = t ^ 2 * predVar ridge w := by
    rw [hv, dotProduct, Finset.mul_sum]
    refine Finset.sum_congr rfl fun i _ => ?_
    rw [Matrix.mulVec, dotProduct, Finset.mul_sum, Finset.mul_sum, Finset.mul_sum]
    exact Finset.sum_congr rfl fun k _ => by ring
  rw [e1, e2, Real.coe_toNNReal _ hv0]
  push_cast
  ring

/-- One training point with one feature: variance `1 · 4 / (1 + 4)`, whatever the target. -/
example : ∃ (L : Fin 1 → Fin 1 → ℝ) (w : Fin 1 → ℝ), IsChol (dataPrec 1 (List.ofFn fun (_ : Fin 1) (_ : Fin 1) => (2 : ℝ))) L ∧
    Solves L w (fun _ => 2) ∧ predVar 1 w = 4 / 5 ∧ GPWeights (n := 1) 1 (fun _ _ => 2) (fun _ => 2) (fun _ : Fin 1 => 4 / 5) ∧
    kern (n := 1) (fun _ => 2) (fun _ => 2) - 4 * (4 / 5) = 4 / 5 := by
  refine ⟨fun _ _ => Real.sqrt 5, fun _ => 2 / Real.sqrt 5, ⟨fun i j h => ?_, fun _ => by positivity, fun i j => ?_⟩, fun i => ?_, ?_, fun a => ?_, ?_⟩
  · exact absurd h (by omega)
  · rw [Subsingleton.elim i j]
    simp [dataPrec]
    norm_num
  · simp
    field_simp
  · simp [predVar, div_pow]
    norm_num
  · simp [kern]
    norm_num
  · simp [kern]
    norm_num

end Verif.Props.SNGPLaw
