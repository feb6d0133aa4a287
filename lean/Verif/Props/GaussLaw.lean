import Verif.Lemmas.GaussDensity
import Verif.Props.Laplace
import Verif.Props.ADVI
import Verif.Props.LangevinLaw

/-!
Property C110: how the samples of Laplace, ADVI and SWAG are distributed, and how they compare with a Gaussian posterior.
-/
set_option linter.unusedSectionVars false

namespace Verif.Props.GaussLaw

open Verif.GaussPost Verif.OutputLayer Verif.GaussDensity MeasureTheory ProbabilityTheory Matrix WithLp

/-! ### A linear regression model and its posterior -/

/-- A training point of a model whose means are affine in the parameters and whose log-variances are fixed: mean `j` is
`base j + ∑ k, feat j k * θ k`. -/
structure RegPoint (d n : ℕ) where
  base : Fin d → ℝ
  feat : Fin d → Fin n → ℝ
  lv : Fin d → ℝ
  t : Fin d → ℝ

variable {d n : ℕ}

/-- The means predicted with parameters `θ`. -/
def meanOf (p : RegPoint d n) (θ : Fin n → ℝ) (j : Fin d) : ℝ := p.base j + ∑ k, p.feat j k * θ k

/-- The negative log-joint of parameters and data: isotropic Gaussian prior and regression likelihood. -/
noncomputable def negLogJoint (plv : ℝ) (data : List (RegPoint d n)) (θ : Fin n → ℝ) : ℝ :=
  -(isoLogProb plv (List.ofFn θ) + (data.map fun p => regLogProb (meanOf p θ) p.lv p.t).sum)

/-- The posterior precision matrix. -/
noncomputable def prec (plv : ℝ) (data : List (RegPoint d n)) : Matrix (Fin n) (Fin n) ℝ := fun i k =>
  (if i = k then Real.exp (-plv) else 0) + (data.map fun p => ∑ j, Real.exp (-p.lv j) * p.feat j i * p.feat j k).sum

theorem prec_symm (plv : ℝ) (data : List (RegPoint d n)) (i k : Fin n) : prec plv data i k = prec plv data k i := by
  unfold prec
  congr 1
  · simp only [eq_comm]
  · congr 1
    refine List.map_congr_left fun p _ => Finset.sum_congr rfl fun j _ => by ring

theorem quad_prec (plv : ℝ) (data : List (RegPoint d n)) (v : Fin n → ℝ) :
    quad (prec plv data) v = Real.exp (-plv) * ∑ i, v i ^ 2 +
      (data.map fun p => ∑ j, Real.exp (-p.lv j) * (∑ k, p.feat j k * v k) ^ 2).sum := by
  have h1 : quad (prec plv data) v = Real.exp (-plv) * ∑ i, v i ^ 2 +
      ∑ i, ∑ k, v i * (data.map fun p => ∑ j, Real.exp (-p.lv j) * p.feat j i * p.feat j k).sum * v k := by
    unfold quad prec
    simp only [mul_add, add_mul, Finset.sum_add_distrib]
    congr 1
    rw [Finset.mul_sum]
    refine Finset.sum_congr rfl fun i _ => ?_
    simp only [mul_ite, mul_zero, ite_mul, zero_mul, Finset.sum_ite_eq, Finset.mem_univ, if_true]
    ring
  rw [h1]
  congr 1
  clear h1
  induction data with
  | nil => simp
  | cons p l ih =>
    simp only [List.map_cons, List.sum_cons, mul_add, add_mul, Finset.sum_add_distrib]
    rw [ih]
    congr 1
    simp only [pow_two, Finset.mul_sum, Finset.sum_mul]
    rw [Finset.sum_congr rfl fun i _ => Finset.sum_comm, Finset.sum_comm]
    refine Finset.sum_congr rfl fun j _ => Finset.sum_congr rfl fun i _ => Finset.sum_congr rfl fun k _ => by ring

theorem prec_posDef (plv : ℝ) (data : List (RegPoint d n)) : (prec plv data).PosDef := by
  rw [posDef_iff_dotProduct_mulVec]
  refine ⟨?_, fun v hv => ?_⟩
  · ext i k
    simp [conjTranspose_apply, prec_symm plv data i k]
  · have h := quad_prec plv data v
    rw [quad_eq] at h
    rw [star_trivial, h]
    have h1 : 0 < ∑ i, v i ^ 2 := by
      obtain ⟨i, hi⟩ := Function.ne_iff.1 hv
      exact Finset.sum_pos' (fun _ _ => sq_nonneg _) ⟨i, Finset.mem_univ _, by have : v i ≠ 0 := hi; positivity⟩
    have h2 : 0 ≤ (data.map fun p => ∑ j, Real.exp (-p.lv j) * (∑ k, p.feat j k * v k) ^ 2).sum := by
      apply List.sum_nonneg
      intro x hx
      obtain ⟨p, -, rfl⟩ := List.mem_map.1 hx
      exact Finset.sum_nonneg fun j _ => mul_nonneg (Real.exp_pos _).le (sq_nonneg _)
    have := Real.exp_pos (-plv)
    positivity

/-- The linear term of the negative log-joint. -/
noncomputable def lin (data : List (RegPoint d n)) (i : Fin n) : ℝ :=
  (data.map fun p => ∑ j, Real.exp (-p.lv j) * (p.t j - p.base j) * p.feat j i).sum

theorem negLogJoint_eq (plv : ℝ) (data : List (RegPoint d n)) (θ : Fin n → ℝ) :
    negLogJoint plv data θ = negLogJoint plv data 0 - ∑ i, lin data i * θ i + 1 / 2 * quad (prec plv data) θ := by
  rw [quad_prec]
  have hiso : ∀ θ : Fin n → ℝ, isoLogProb plv (List.ofFn θ) = -(1 / 2) * (Real.exp (-plv) * ∑ i, θ i ^ 2) -
      1 / 2 * (n * (Real.log (2 * Real.pi) + plv)) := by
    intro θ
    unfold isoLogProb
    rw [List.map_ofFn, List.sum_ofFn, List.length_ofFn]
    simp only [Function.comp]
    ring
  unfold negLogJoint
  rw [hiso, hiso]
  have h2 : (data.map fun p => regLogProb (meanOf p θ) p.lv p.t).sum = (data.map fun p => regLogProb (meanOf p 0) p.lv p.t).sum +
      ∑ i, lin data i * θ i - 1 / 2 * (data.map fun p => ∑ j, Real.exp (-p.lv j) * (∑ k, p.feat j k * θ k) ^ 2).sum := by
    unfold lin
    induction data with
    | nil => simp
    | cons p l ih =>
      simp only [List.map_cons, List.sum_cons, add_mul, Finset.sum_add_distrib]
      rw [ih]
      have h3 : regLogProb (meanOf p θ) p.lv p.t = regLogProb (meanOf p 0) p.lv p.t +
          ∑ i, (∑ j, Real.exp (-p.lv j) * (p.t j - p.base j) * p.feat j i) * θ i -
          1 / 2 * ∑ j, Real.exp (-p.lv j) * (∑ k, p.feat j k * θ k) ^ 2 := by
        have h4 : ∑ i, (∑ j, Real.exp (-p.lv j) * (p.t j - p.base j) * p.feat j i) * θ i =
            ∑ j, Real.exp (-p.lv j) * (p.t j - p.base j) * ∑ k, p.feat j k * θ k := by
          simp only [Finset.sum_mul, Finset.mul_sum]
          rw [Finset.sum_comm]
          exact Finset.sum_congr rfl fun j _ => Finset.sum_congr rfl fun i _ => by ring
        rw [h4]
        unfold regLogProb meanOf
        simp only [Pi.zero_apply, mul_zero, Finset.sum_const_zero, add_zero]
        rw [Finset.mul_sum, Finset.mul_sum, Finset.mul_sum, ← Finset.sum_add_distrib, ← Finset.sum_sub_distrib]
        exact Finset.sum_congr rfl fun j _ => by ring
      rw [h3]
      ring
  rw [h2]
  simp only [Pi.zero_apply, ne_eq, OfNat.ofNat_ne_zero, not_false_eq_true, zero_pow, Finset.sum_const_zero, mul_zero]
  ring

/-- Expansion of a quadratic form around a point. -/
theorem quad_sub {ι : Type} [Fintype ι] (P : Matrix ι ι ℝ) (hP : ∀ i k, P i k = P k i) (x y : ι → ℝ) :
    quad P (fun i => x i - y i) = quad P x - 2 * ∑ i, (∑ k, P i k * y k) * x i + quad P y := by
  unfold quad
  have h1 : ∑ i, (∑ k, P i k * y k) * x i = ∑ i, ∑ k, x i * P i k * y k :=
    Finset.sum_congr rfl fun i _ => by rw [Finset.sum_mul]; exact Finset.sum_congr rfl fun k _ => by ring
  have h2 : ∑ i, ∑ k, x i * P i k * y k = ∑ i, ∑ k, y i * P i k * x k := by
    rw [Finset.sum_comm]
    exact Finset.sum_congr rfl fun i _ => Finset.sum_congr rfl fun k _ => by rw [hP k i]; ring
  rw [h1, two_mul]
  nth_rw 2 [h2]
  simp only [← Finset.sum_add_distrib, ← Finset.sum_sub_distrib]
  exact Finset.sum_congr rfl fun i _ => Finset.sum_congr rfl fun k _ => by ring

/-- `θ` is a maximum a posteriori estimate. -/
def IsMAP (plv : ℝ) (data : List (RegPoint d n)) (θ : Fin n → ℝ) : Prop :=
  ∀ θ', negLogJoint plv data θ ≤ negLogJoint plv data θ'

theorem quad_pos (P : Matrix (Fin n) (Fin n) ℝ) (hP : P.PosDef) (v : Fin n → ℝ) (hv : v ≠ 0) : 0 < quad P v := by
  have := (posDef_iff_dotProduct_mulVec.1 hP).2 hv
  rwa [star_trivial, ← quad_eq] at this

theorem quad_zero (P : Matrix (Fin n) (Fin n) ℝ) : quad P (fun _ => 0) = 0 := by simp [quad]

/-- **C110, the posterior is quadratic.** There is exactly one maximum a posteriori estimate, and around it the negative
log-joint is a quadratic form with the posterior precision matrix. -/
theorem C110_quadratic (plv : ℝ) (data : List (RegPoint d n)) :
    (∃! θ, IsMAP plv data θ) ∧ ∀ θh, IsMAP plv data θh → ∀ θ,
      negLogJoint plv data θ = negLogJoint plv data θh + 1 / 2 * quad (prec plv data) fun i => θ i - θh i := by
  set P := prec plv data with hPd
  have hP : P.PosDef := prec_posDef plv data
  have hdet : IsUnit P.det := hP.det_pos.ne'.isUnit
  set z : Fin n → ℝ := P⁻¹ *ᵥ lin data with hz
  have hPz : ∀ i, ∑ k, P i k * z k = lin data i := by
    intro i
    have : P *ᵥ z = lin data := by rw [hz, mulVec_mulVec, mul_nonsing_inv _ hdet, one_mulVec]
    exact congrFun this i
  have hq : ∀ θ, negLogJoint plv data θ = negLogJoint plv data z + 1 / 2 * quad P fun i => θ i - z i := by
    intro θ
    rw [quad_sub P (prec_symm plv data), negLogJoint_eq plv data θ, negLogJoint_eq plv data z]
    simp only [hPz, ← hPd]
    have : quad P z = ∑ i, lin data i * z i := by
      unfold quad
      refine Finset.sum_congr rfl fun i _ => ?_
      rw [← hPz i, Finset.sum_mul]
      exact Finset.sum_congr rfl fun k _ => by ring
    rw [this]
    ring
  have hmin : IsMAP plv data z := by
    intro θ'
    rw [hq θ']
    have : 0 ≤ quad P fun i => θ' i - z i := by
      by_cases h : (fun i => θ' i - z i) = 0
      · rw [h]; exact (quad_zero P).ge
      · exact (quad_pos P hP _ h).le
    linarith
  have huniq : ∀ θ, IsMAP plv data θ → θ = z := by
    intro θ h
    by_contra hne
    have h1 := h z
    rw [hq θ] at h1
    have : 0 < quad P fun i => θ i - z i := quad_pos P hP _ fun h0 => hne (by
      funext i
      exact sub_eq_zero.1 (congrFun h0 i))
    linarith
  exact ⟨⟨z, hmin, huniq⟩, fun θh h => huniq θh h ▸ hq⟩

/-- **C110, the posterior.** The measure with density proportional to the exponential of the log-joint is the Gaussian
with the maximum a posteriori estimate as mean and the inverse of the precision matrix as covariance. -/
theorem C110_posterior (plv : ℝ) (data : List (RegPoint d n)) (θh : Fin n → ℝ) (h : IsMAP plv data θh) :
    ∃ c : ℝ, 0 < c ∧ (volume : Measure (EuclideanSpace ℝ (Fin n))).withDensity
        (fun x => ENNReal.ofReal (c * Real.exp (-negLogJoint plv data (ofLp x)))) =
      multivariateGaussian (toLp 2 θh) (prec plv data)⁻¹ := by
  obtain ⟨c, hc, hd⟩ := density (prec plv data) (prec_posDef plv data) (toLp 2 θh)
  refine ⟨c * Real.exp (negLogJoint plv data θh), by positivity, ?_⟩
  rw [hd]
  congr 1
  funext x
  rw [(C110_quadratic plv data).2 θh h (ofLp x), mul_assoc, ← Real.exp_add]
  congr 3
  ring

/-! ### Laplace -/

/-- **C110, the Laplace standard deviations.** Whatever the batches, at the maximum a posteriori estimate the squared
standard deviation of a parameter is the inverse of the diagonal entry of the posterior precision matrix. -/
theorem C110_laplace_std (plv : ℝ) (bs : List (List (RegPoint d n))) (θh : Fin n → ℝ)
    (g : RegPoint d n → GGNPoint (Fin d ⊕ Fin d) (Fin n)) (H : RegPoint d n → Fin d ⊕ Fin d → Fin d ⊕ Fin d → ℝ)
    (hjac : ∀ b ∈ bs, ∀ p ∈ b, ∀ k, (∀ j, (g p).jac (.inl j) k = p.feat j k) ∧ ∀ j, (g p).jac (.inr j) k = 0)
    (hess : ∀ b ∈ bs, ∀ p ∈ b, IsHess (regRow p.t) (Sum.elim (meanOf p θh) p.lv) (H p))
    (heig : ∀ b ∈ bs, ∀ p ∈ b, IsEig (H p) (g p)) (i : Fin n) :
    laplaceStd plv (hessLoop (bs.map fun b => b.map g) i) ^ 2 = 1 / prec plv bs.flatten i i := by
  have h1 : hessLoop (bs.map fun b => b.map g) i =
      (bs.flatten.map fun p => ∑ j, Real.exp (-p.lv j) * p.feat j i * p.feat j i).sum := by
    rw [hessLoop_eq, neg_sum_map, show (bs.map fun b => b.map g).flatten = bs.flatten.map g by rw [List.map_flatten], List.map_map]
    congr 1
    refine List.map_congr_left fun p hp => ?_
    obtain ⟨b, hb, hpb⟩ := List.mem_flatten.1 hp
    simp only [Function.comp]
    rw [hess_point _ _ (heig b hb p hpb) i, reg_hess_mean _ _ _ (hess b hb p hpb) (fun a => (g p).jac a i)
      (hjac b hb p hpb i).2, neg_neg]
    refine Finset.sum_congr rfl fun j _ => ?_
    rw [(hjac b hb p hpb i).1]
    simp only [Sum.elim_inr]
    ring
  have h2 : prec plv bs.flatten i i = Real.exp (-plv) + hessLoop (bs.map fun b => b.map g) i := by
    rw [h1]
    unfold prec
    rw [if_pos rfl]
  have h3 : 0 < prec plv bs.flatten i i := by
    have h4 := quad_pos _ (prec_posDef plv bs.flatten) (Pi.single i 1) (by simp)
    simpa [quad, Pi.single_apply] using h4
  unfold laplaceStd
  rw [← h2, div_pow, Real.sq_sqrt h3.le, one_pow]

/-! ### Diagonal approximations of a Gaussian -/

/-- **C110, too narrow.** For every positive definite precision matrix the inverse of a diagonal entry is at most the
variance of that coordinate, with equality exactly if the coordinate is independent of all others. -/
theorem C110_narrow (P : Matrix (Fin n) (Fin n) ℝ) (hP : P.PosDef) (m : Fin n → ℝ) (i : Fin n) :
    0 < P i i ∧ 1 / P i i ≤ Var[fun x => x i; multivariateGaussian (toLp 2 m) P⁻¹] ∧
    (1 / P i i = Var[fun x => x i; multivariateGaussian (toLp 2 m) P⁻¹] ↔ ∀ j, j ≠ i → P j i = 0) := by
  rw [variance_eval_multivariateGaussian hP.inv.posSemidef]
  have hpos : 0 < P i i := by
    have h4 := quad_pos _ hP (Pi.single i 1) (by simp)
    simpa [quad, Pi.single_apply] using h4
  have hsym : ∀ i k, P i k = P k i := fun i k => by
    have := hP.1.apply i k
    simpa using this.symm
  have hdet : IsUnit P.det := hP.det_pos.ne'.isUnit
  have hPS : ∀ a b, ∑ k, P a k * P⁻¹ k b = if a = b then 1 else 0 := fun a b => by
    have := congrFun (congrFun (mul_nonsing_inv P hdet) a) b
    rw [mul_apply, one_apply] at this
    exact this
  have hkey : quad P (fun k => P⁻¹ k i - if k = i then 1 / P i i else 0) = P⁻¹ i i - 1 / P i i := by
    rw [quad_sub P hsym]
    have e1 : quad P (fun k => P⁻¹ k i) = P⁻¹ i i := by
      unfold quad
      simp only [mul_assoc, ← Finset.mul_sum, hPS]
      simp
    have e2 : ∑ a, (∑ k, P a k * if k = i then 1 / P i i else 0) * P⁻¹ a i = 1 / P i i := by
      simp only [mul_ite, mul_zero, Finset.sum_ite_eq', Finset.mem_univ, if_true]
      have : ∀ a, P a i * (1 / P i i) * P⁻¹ a i = 1 / P i i * (P i a * P⁻¹ a i) := fun a => by rw [hsym a i]; ring
      simp only [this, ← Finset.mul_sum, hPS, if_true, mul_one]
    have e3 : quad P (fun k => if k = i then 1 / P i i else 0) = 1 / P i i := by
      unfold quad
      simp only [mul_ite, mul_zero, ite_mul, zero_mul, Finset.sum_ite_eq', Finset.mem_univ, if_true]
      field_simp
    rw [e1, e2, e3]
    ring
  refine ⟨hpos, ?_, ?_⟩
  · have : 0 ≤ quad P (fun k => P⁻¹ k i - if k = i then 1 / P i i else 0) := by
      by_cases h : (fun k => P⁻¹ k i - if k = i then 1 / P i i else 0) = 0
      · rw [h]; exact (quad_zero P).ge
      · exact (quad_pos P hP _ h).le
    linarith
  · constructor
    · intro he j hj
      have h0 : (fun k => P⁻¹ k i - if k = i then 1 / P i i else 0) = 0 := by
        by_contra h
        have := quad_pos P hP _ h
        linarith
      have h1 := hPS j i
      have h2 : ∀ k, P⁻¹ k i = if k = i then 1 / P i i else 0 := fun k => sub_eq_zero.1 (congrFun h0 k)
      simp only [h2, mul_ite, mul_zero, Finset.sum_ite_eq', Finset.mem_univ, if_true, if_neg hj] at h1
      rcases mul_eq_zero.1 h1 with h | h
      · exact h
      · exact absurd h (one_div_ne_zero hpos.ne')
    · intro h
      have h1 := hPS i i
      rw [Finset.sum_eq_single i (fun k _ hk => by rw [hsym i k, h k hk, zero_mul]) (by simp), if_pos rfl] at h1
      rw [eq_comm, eq_div_iff hpos.ne', mul_comm]
      exact h1

/-! ### The distribution of samples -/

variable {Ω : Type} [MeasurableSpace Ω] {ι : Type} [Fintype ι] [DecidableEq ι]

/-- A vector of means plus independent standard normal noise times standard deviations. -/
theorem shift_law (μ : Measure Ω) [IsProbabilityMeasure μ] (Z : ι → Ω → ℝ) (hm : ∀ k, Measurable (Z k)) (hi : iIndepFun Z μ)
    (hl : ∀ k, μ.map (Z k) = gaussianReal 0 1) (m s : ι → ℝ) :
    μ.map (fun ω i => m i + s i * Z i ω) = Measure.pi fun i => gaussianReal (m i) (Real.toNNReal (s i ^ 2)) := by
  have hc : iIndepFun (fun i ω => m i + s i * Z i ω) μ := hi.comp (fun i x => m i + s i * x) fun i => by fun_prop
  rw [(iIndepFun_iff_map_fun_eq_pi_map fun i => by fun_prop).1 hc]
  congr 1
  funext i
  have h1 : (fun ω => m i + s i * Z i ω) = (fun x => m i + x) ∘ (fun x => s i * x) ∘ Z i := rfl
  rw [h1, ← Measure.map_map (by fun_prop) (by fun_prop), ← Measure.map_map (by fun_prop) (hm i), hl, gaussianReal_map_const_mul,
    gaussianReal_map_const_add]
  congr 1
  · ring
  · ext
    simp [Real.coe_toNNReal _ (sq_nonneg (s i))]

/-- **C110, Laplace samples.** With independent standard normal noise the entries of a sample are independent normal
variables with the stored means and the computed standard deviations. -/
theorem C110_laplace_law (μ : Measure Ω) [IsProbabilityMeasure μ] (Z : Fin n → Ω → ℝ) (hm : ∀ k, Measurable (Z k)) (hi : iIndepFun Z μ)
    (hl : ∀ k, μ.map (Z k) = gaussianReal 0 1) (plv : ℝ) (mean hess : Fin n → ℝ) :
    (∀ ω, shiftLeaf (List.ofFn mean) ((List.ofFn hess).map (laplaceStd plv)) (List.ofFn fun i => Z i ω) =
      List.ofFn fun i => mean i + laplaceStd plv (hess i) * Z i ω) ∧
    μ.map (fun ω i => mean i + laplaceStd plv (hess i) * Z i ω) =
      Measure.pi fun i => gaussianReal (mean i) (Real.toNNReal (laplaceStd plv (hess i) ^ 2)) := by
  refine ⟨fun ω => ?_, shift_law μ Z hm hi hl mean fun i => laplaceStd plv (hess i)⟩
  unfold shiftLeaf
  apply List.ext_getElem
  · simp
  · intro i h1 h2
    simp

/-- **C110, ADVI samples.** The entries of a sample are independent normal variables with the stored means and standard
deviations `exp(log_std) * exp(log_std_base)`. -/
theorem C110_advi_law (μ : Measure Ω) [IsProbabilityMeasure μ] (Z : ι → Ω → ℝ) (hm : ∀ k, Measurable (Z k)) (hi : iIndepFun Z μ)
    (hl : ∀ k, μ.map (Z k) = gaussianReal 0 1) (mean logStd : ι → ℝ) (b : ℝ) :
    μ.map (fun ω => (adviForward mean logStd (diagSample (fun _ => 0) (baseStd b) fun i => Z i ω)).1) =
      Measure.pi fun i => gaussianReal (mean i) (Real.toNNReal ((Real.exp (logStd i) * Real.exp b) ^ 2)) := by
  rw [← shift_law μ Z hm hi hl]
  congr 1
  funext ω i
  exact C76_push mean logStd _ b i

/-- The covariance matrix of SWAG samples: half the diagonal of squared standard deviations plus half the mean of the outer
products of the deviations. -/
noncomputable def swagCov {r : ℕ} (std : ι → ℝ) (dev : ι → Fin r → ℝ) : Matrix ι ι ℝ := fun i k =>
  (if i = k then std i ^ 2 / 2 else 0) + (∑ j, dev i j * dev k j) / (2 * r)

theorem swagCov_quad {r : ℕ} (std : ι → ℝ) (dev : ι → Fin r → ℝ) (a : ι → ℝ) :
    quad (swagCov std dev) a = (∑ i, a i ^ 2 * std i ^ 2) / 2 + (∑ j, (∑ i, a i * dev i j) ^ 2) / (2 * r) := by
  unfold quad swagCov
  simp only [mul_add, add_mul, Finset.sum_add_distrib]
  congr 1
  · rw [Finset.sum_div]
    refine Finset.sum_congr rfl fun i _ => ?_
    simp only [mul_ite, mul_zero, ite_mul, zero_mul, Finset.sum_ite_eq, Finset.mem_univ, if_true]
    ring
  · have e : ∀ j, (∑ i, a i * dev i j) ^ 2 = ∑ i, ∑ k, a i * dev i j * (a k * dev k j) := fun j => by
      rw [pow_two, Finset.sum_mul_sum]
    simp only [e, Finset.sum_div, Finset.mul_sum, Finset.sum_mul]
    conv_rhs => rw [Finset.sum_comm]
    refine Finset.sum_congr rfl fun i _ => ?_
    conv_rhs => rw [Finset.sum_comm]
    exact Finset.sum_congr rfl fun k _ => Finset.sum_congr rfl fun j _ => by ring

/-- **C110, SWAG samples, one direction.** Every linear combination of the entries of a sample is normal. -/
theorem C110_swag_functional {r : ℕ} (μ : Measure Ω) [IsProbabilityMeasure μ] (Z : ι ⊕ Fin r → Ω → ℝ) (hm : ∀ k, Measurable (Z k))
    (hi : iIndepFun Z μ) (hl : ∀ k, μ.map (Z k) = gaussianReal 0 1) (mean std : ι → ℝ) (dev : ι → Fin r → ℝ) (a : ι → ℝ) :
    μ.map (fun ω => ∑ i, a i * swagSample mean std dev (fun i => Z (.inl i) ω) (fun j => Z (.inr j) ω) i) =
      gaussianReal (∑ i, a i * mean i) (Real.toNNReal (quad (swagCov std dev) a)) := by
  let c : ι ⊕ Fin r → ℝ := Sum.elim (fun i => 1 / Real.sqrt 2 * a i * std i)
    (fun j => 1 / Real.sqrt 2 / Real.sqrt r * ∑ i, a i * dev i j)
  have e : (fun ω => ∑ i, a i * swagSample mean std dev (fun i => Z (.inl i) ω) (fun j => Z (.inr j) ω) i) =
      (fun x => ∑ i, a i * mean i + x) ∘ fun ω => ∑ k, c k * Z k ω := by
    funext ω
    simp only [Function.comp, Fintype.sum_sum_type, c, Sum.elim_inl, Sum.elim_inr, swagSample, mul_add, Finset.sum_add_distrib]
    rw [add_assoc]
    congr 2
    · exact Finset.sum_congr rfl fun i _ => by ring
    · simp only [Finset.mul_sum, Finset.sum_mul]
      rw [Finset.sum_comm]
      exact Finset.sum_congr rfl fun j _ => Finset.sum_congr rfl fun i _ => by ring
  rw [e, ← Measure.map_map (by fun_prop) (by fun_prop), Langevin.sum_gaussian μ Z hm hi hl c Finset.univ, gaussianReal_map_const_add]
  congr 1
  · ring
  · congr 1
    have h2 : (1 / Real.sqrt 2) ^ 2 = 1 / 2 := by rw [div_pow, Real.sq_sqrt (by norm_num)]; norm_num
    have hr : (1 / Real.sqrt 2 / Real.sqrt r) ^ 2 = 1 / (2 * r) := by
      rw [div_pow, h2, Real.sq_sqrt (Nat.cast_nonneg r), div_div]
    simp only [Fintype.sum_sum_type, c, Sum.elim_inl, Sum.elim_inr]
    have e1 : ∀ i, (1 / Real.sqrt 2 * a i * std i) ^ 2 = 1 / 2 * (a i ^ 2 * std i ^ 2) := fun i => by rw [mul_pow, mul_pow, h2]; ring
    have e2 : ∀ j, (1 / Real.sqrt 2 / Real.sqrt r * ∑ i, a i * dev i j) ^ 2 = 1 / (2 * r) * (∑ i, a i * dev i j) ^ 2 := fun j => by
      rw [mul_pow, hr]
    simp only [e1, e2, ← Finset.mul_sum]
    rw [swagCov_quad]
    ring

theorem swagCov_posSemidef {r : ℕ} (std : ι → ℝ) (dev : ι → Fin r → ℝ) : (swagCov std dev).PosSemidef := by
  rw [posSemidef_iff_dotProduct_mulVec]
  refine ⟨?_, fun v => ?_⟩
  · ext i k
    rw [conjTranspose_apply, star_trivial]
    unfold swagCov
    congr 1
    · by_cases h : i = k
      · rw [h]
      · rw [if_neg h, if_neg (Ne.symm h)]
    · congr 1
      exact Finset.sum_congr rfl fun j _ => by ring
  · rw [star_trivial, ← quad_eq, swagCov_quad]
    positivity

/-- **C110, SWAG samples.** A sample is Gaussian with the stored mean and the covariance matrix `swagCov`. -/
theorem C110_swag_law {r : ℕ} (μ : Measure Ω) [IsProbabilityMeasure μ] (Z : ι ⊕ Fin r → Ω → ℝ) (hm : ∀ k, Measurable (Z k))
    (hi : iIndepFun Z μ) (hl : ∀ k, μ.map (Z k) = gaussianReal 0 1) (mean std : ι → ℝ) (dev : ι → Fin r → ℝ) :
    μ.map (fun ω => toLp 2 fun i => swagSample mean std dev (fun i => Z (.inl i) ω) (fun j => Z (.inr j) ω) i) =
      multivariateGaussian (toLp 2 mean) (swagCov std dev) := by
  have hmeas : Measurable fun ω => toLp 2 fun i => swagSample mean std dev (fun i => Z (.inl i) ω) (fun j => Z (.inr j) ω) i := by
    unfold swagSample
    fun_prop
  have : IsProbabilityMeasure (μ.map (fun ω => toLp 2 fun i => swagSample mean std dev (fun i => Z (.inl i) ω) (fun j => Z (.inr j) ω) i)) :=
    Measure.isProbabilityMeasure_map hmeas.aemeasurable
  apply Measure.ext_of_charFun
  ext a
  rw [charFun_multivariateGaussian (swagCov_posSemidef std dev), charFun_apply, integral_map hmeas.aemeasurable (by fun_prop)]
  have h1 := C110_swag_functional μ Z hm hi hl mean std dev (ofLp a)
  have h2 : Measurable fun ω => ∑ i, a i * swagSample mean std dev (fun i => Z (.inl i) ω) (fun j => Z (.inr j) ω) i := by
    unfold swagSample
    fun_prop
  have h3 := charFun_gaussianReal (μ := ∑ i, a i * mean i) (v := Real.toNNReal (quad (swagCov std dev) (ofLp a))) 1
  rw [← h1, charFun_apply, integral_map h2.aemeasurable (by fun_prop)] at h3
  have hq : 0 ≤ quad (swagCov std dev) (ofLp a) := by rw [swagCov_quad]; positivity
  rw [Real.coe_toNNReal _ hq] at h3
  have h4 : ∀ x y : EuclideanSpace ℝ ι, inner ℝ x y = ∑ i, x i * y i := fun x y => by
    simp [PiLp.inner_apply, mul_comm]
  simp only [h4]
  rw [quad_eq] at h3
  convert h3 using 2
  · funext ω
    congr 2
    simp [mul_comm]
  · push_cast
    ring

/-! ### What ADVI aims at -/

omit [Fintype ι] in
theorem gauss_moments (μ : Measure Ω) [IsProbabilityMeasure μ] (Z : ι → Ω → ℝ) (hm : ∀ k, Measurable (Z k)) (hi : iIndepFun Z μ)
    (hl : ∀ k, μ.map (Z k) = gaussianReal 0 1) (i k : ι) :
    Integrable (Z i) μ ∧ ∫ ω, Z i ω ∂μ = 0 ∧ Integrable (fun ω => Z i ω * Z k ω) μ ∧
      ∫ ω, Z i ω * Z k ω ∂μ = if i = k then 1 else 0 := by
  have h2 : ∀ i, MemLp (Z i) 2 μ := fun i => by
    have : MemLp id 2 (μ.map (Z i)) := by rw [hl]; exact memLp_id_gaussianReal 2
    exact (memLp_map_measure_iff (by fun_prop) (hm i).aemeasurable).1 this
  have h0 : ∀ i, ∫ ω, Z i ω ∂μ = 0 := fun i => by
    have : ∫ ω, Z i ω ∂μ = ∫ x, x ∂(μ.map (Z i)) :=
      (integral_map (f := fun x : ℝ => x) (hm i).aemeasurable measurable_id.aestronglyMeasurable).symm
    rw [this, hl, integral_id_gaussianReal]
  have hint : ∀ i, Integrable (Z i) μ := fun i => (h2 i).integrable (by norm_num)
  refine ⟨hint i, h0 i, (h2 i).integrable_mul (h2 k), ?_⟩
  by_cases h : i = k
  · subst h
    rw [if_pos rfl]
    have hv : ProbabilityTheory.variance (Z i) μ = 1 := by
      have : ProbabilityTheory.variance id (μ.map (Z i)) = ProbabilityTheory.variance (id ∘ Z i) μ :=
        variance_map (by fun_prop) (hm i).aemeasurable
      rw [hl, variance_id_gaussianReal] at this
      simpa using this.symm
    rw [variance_eq_sub (h2 i), h0 i] at hv
    simp only [Pi.pow_apply] at hv
    simp only [← pow_two]
    linarith
  · rw [if_neg h]
    rw [(hi.indepFun h).integral_fun_mul_eq_mul_integral (hm i).aestronglyMeasurable (hm k).aestronglyMeasurable, h0, zero_mul]

theorem integral_quad (μ : Measure Ω) [IsProbabilityMeasure μ] (Z : ι → Ω → ℝ) (hm : ∀ k, Measurable (Z k)) (hi : iIndepFun Z μ)
    (hl : ∀ k, μ.map (Z k) = gaussianReal 0 1) (P : Matrix ι ι ℝ) (w c : ι → ℝ) :
    Integrable (fun ω => quad P fun i => w i + c i * Z i ω) μ ∧
    ∫ ω, quad P (fun i => w i + c i * Z i ω) ∂μ = quad P w + ∑ i, P i i * c i ^ 2 := by
  have hM := gauss_moments μ Z hm hi hl
  have e : ∀ ω, quad P (fun i => w i + c i * Z i ω) = ∑ i, ∑ k, (w i * P i k * w k + w i * P i k * c k * Z k ω +
      w k * P i k * c i * Z i ω + c i * P i k * c k * (Z i ω * Z k ω)) := fun ω => by
    unfold quad
    exact Finset.sum_congr rfl fun i _ => Finset.sum_congr rfl fun k _ => by ring
  have hI : ∀ i k, Integrable (fun ω => w i * P i k * w k + w i * P i k * c k * Z k ω +
      w k * P i k * c i * Z i ω + c i * P i k * c k * (Z i ω * Z k ω)) μ := fun i k =>
    (((integrable_const _).add ((hM k k).1.const_mul _)).add ((hM i i).1.const_mul _)).add ((hM i k).2.2.1.const_mul _)
  simp only [e]
  refine ⟨integrable_finsetSum _ fun i _ => integrable_finsetSum _ fun k _ => hI i k, ?_⟩
  rw [integral_finsetSum _ fun i _ => integrable_finsetSum _ fun k _ => hI i k]
  simp only [integral_finsetSum _ fun k _ => hI _ k]
  have hv : ∀ i k, ∫ ω, (w i * P i k * w k + w i * P i k * c k * Z k ω +
      w k * P i k * c i * Z i ω + c i * P i k * c k * (Z i ω * Z k ω)) ∂μ = w i * P i k * w k +
      (if i = k then c i * P i k * c k else 0) := fun i k => by
    have i1 : Integrable (fun _ : Ω => w i * P i k * w k) μ := integrable_const _
    have i2 : Integrable (fun ω => w i * P i k * c k * Z k ω) μ := (hM k k).1.const_mul _
    have i3 : Integrable (fun ω => w k * P i k * c i * Z i ω) μ := (hM i i).1.const_mul _
    have i4 : Integrable (fun ω => c i * P i k * c k * (Z i ω * Z k ω)) μ := (hM i k).2.2.1.const_mul _
    have i12 : Integrable (fun ω => w i * P i k * w k + w i * P i k * c k * Z k ω) μ := i1.add i2
    have i123 : Integrable (fun ω => w i * P i k * w k + w i * P i k * c k * Z k ω + w k * P i k * c i * Z i ω) μ := i12.add i3
    rw [integral_add i123 i4, integral_add i12 i3, integral_add i1 i2, integral_const, integral_const_mul, integral_const_mul, integral_const_mul,
      (hM k k).2.1, (hM i i).2.1, (hM i k).2.2.2]
    simp
  simp only [hv, Finset.sum_add_distrib]
  unfold quad
  congr 1
  refine Finset.sum_congr rfl fun i _ => ?_
  simp only [Finset.sum_ite_eq, Finset.mem_univ, if_true]
  ring

/-- The loss ADVI minimises, in expectation over the base samples. -/
noncomputable def expectedLoss {N : ℕ} (μ : Measure Ω) (Z : Fin N × ι → Ω → ℝ) (negLogp : (ι → ℝ) → ℝ) (b : ℝ) (mean logStd : ι → ℝ) : ℝ :=
  ∫ ω, adviLoss negLogp mean logStd (fun s => diagSample (fun _ => 0) (baseStd b) fun i => Z (s, i) ω) ∂μ

/-- **C110, the expected ADVI loss** of a posterior whose negative log-density is a quadratic form. -/
theorem C110_advi_expected {N : ℕ} (hN : 0 < N) (μ : Measure Ω) [IsProbabilityMeasure μ] (Z : Fin N × ι → Ω → ℝ)
    (hm : ∀ k, Measurable (Z k)) (hi : iIndepFun Z μ) (hl : ∀ k, μ.map (Z k) = gaussianReal 0 1) (P : Matrix ι ι ℝ) (C b : ℝ)
    (θh mean logStd : ι → ℝ) :
    expectedLoss μ Z (fun θ => C + 1 / 2 * quad P fun i => θ i - θh i) b mean logStd =
      C + 1 / 2 * (quad P (fun i => mean i - θh i)) + 1 / 2 * (∑ i, P i i * (Real.exp (logStd i) * Real.exp b) ^ 2) -
        ∑ i, logStd i := by
  have hN' : (N : ℝ) ≠ 0 := by exact_mod_cast hN.ne'
  unfold expectedLoss adviLoss meanOver
  have hq : ∀ s : Fin N, _ := fun s => integral_quad μ (fun i => Z (s, i)) (fun i => hm _)
    (hi.precomp (g := fun i => (s, i)) fun a b h => (Prod.mk.inj h).2) (fun i => hl _) P (fun i => mean i - θh i) fun i => Real.exp (logStd i) * Real.exp b
  have e : ∀ ω, (∑ s : Fin N, (C + 1 / 2 * quad P fun i =>
      (adviForward mean logStd (diagSample (fun _ => 0) (baseStd b) fun i => Z (s, i) ω)).1 i - θh i)) / (N : ℝ) -
      (∑ s : Fin N, (adviForward mean logStd (diagSample (fun _ => 0) (baseStd b) fun i => Z (s, i) ω)).2) / (N : ℝ) =
      (∑ s : Fin N, (C + 1 / 2 * quad P fun i => (mean i - θh i) + Real.exp (logStd i) * Real.exp b * Z (s, i) ω)) * (1 / N) +
        -∑ i, logStd i := fun ω => by
    have h1 : ∀ s : Fin N, (fun i => (adviForward mean logStd (diagSample (fun _ => 0) (baseStd b) fun i => Z (s, i) ω)).1 i - θh i) =
        fun i => (mean i - θh i) + Real.exp (logStd i) * Real.exp b * Z (s, i) ω := fun s => by
      funext i
      rw [C76_push]
      ring
    simp only [h1]
    have h2 : (∑ s : Fin N, (adviForward mean logStd (diagSample (fun _ => 0) (baseStd b) fun i => Z (s, i) ω)).2) / (N : ℝ) =
        ∑ i, logStd i := by
      simp only [adviForward, Finset.sum_const, Finset.card_univ, Fintype.card_fin, nsmul_eq_mul]
      field_simp
    rw [h2]
    ring
  simp only [e]
  have hI : ∀ s : Fin N, Integrable (fun ω => C + 1 / 2 * quad P fun i => (mean i - θh i) + Real.exp (logStd i) * Real.exp b * Z (s, i) ω) μ :=
    fun s => (integrable_const _).add ((hq s).1.const_mul _)
  rw [integral_add ((integrable_finsetSum _ fun s _ => hI s).mul_const _) (integrable_const _), integral_mul_const,
    integral_finsetSum _ fun s _ => hI s]
  have hv : ∀ s : Fin N, ∫ ω, (C + 1 / 2 * quad P fun i => (mean i - θh i) + Real.exp (logStd i) * Real.exp b * Z (s, i) ω) ∂μ =
      C + 1 / 2 * (quad P (fun i => mean i - θh i) + ∑ i, P i i * (Real.exp (logStd i) * Real.exp b) ^ 2) := fun s => by
    rw [integral_add (integrable_const _) ((hq s).1.const_mul _), integral_const_mul, (hq s).2]
    simp
  simp only [hv, Finset.sum_const, Finset.card_univ, Fintype.card_fin, nsmul_eq_mul, integral_const, probReal_univ, one_smul]
  set A := quad P fun i => mean i - θh i
  set B := ∑ i, P i i * (Real.exp (logStd i) * Real.exp b) ^ 2
  field_simp
  ring

theorem half_log_le (x : ℝ) (hx : 0 < x) : 1 ≤ x - Real.log x ∧ (x - Real.log x = 1 ↔ x = 1) := by
  refine ⟨by linarith [Real.log_le_sub_one_of_pos hx], fun h => ?_, fun h => by simp [h]⟩
  by_contra hne
  have := Real.log_lt_sub_one_of_pos hx hne
  linarith

/-- **C110, what ADVI aims at.** Variational parameters minimise the expected loss exactly if the means are those of the
posterior and every squared standard deviation is the inverse of the diagonal entry of the posterior precision matrix. -/
theorem C110_advi_optimum {N : ℕ} (hN : 0 < N) (μ : Measure Ω) [IsProbabilityMeasure μ] (Z : Fin N × Fin n → Ω → ℝ)
    (hm : ∀ k, Measurable (Z k)) (hi : iIndepFun Z μ) (hl : ∀ k, μ.map (Z k) = gaussianReal 0 1) (P : Matrix (Fin n) (Fin n) ℝ) (hP : P.PosDef) (C b : ℝ)
    (θh mean logStd : Fin n → ℝ) :
    (∀ mean' logStd', expectedLoss μ Z (fun θ => C + 1 / 2 * quad P fun i => θ i - θh i) b mean logStd ≤
      expectedLoss μ Z (fun θ => C + 1 / 2 * quad P fun i => θ i - θh i) b mean' logStd') ↔
    mean = θh ∧ ∀ i, (Real.exp (logStd i) * Real.exp b) ^ 2 = 1 / P i i := by
  simp only [C110_advi_expected hN μ Z hm hi hl]
  have hpos : ∀ i, 0 < P i i := fun i => (C110_narrow P hP 0 i).1
  have hform : ∀ mean logStd : Fin n → ℝ, C + 1 / 2 * (quad P (fun i => mean i - θh i)) +
      1 / 2 * (∑ i, P i i * (Real.exp (logStd i) * Real.exp b) ^ 2) - ∑ i, logStd i =
      C + ∑ i, (b + 1 / 2 * Real.log (P i i)) + 1 / 2 * quad P (fun i => mean i - θh i) +
        1 / 2 * ∑ i, (P i i * (Real.exp (logStd i) * Real.exp b) ^ 2 - Real.log (P i i * (Real.exp (logStd i) * Real.exp b) ^ 2)) := by
    intro mean logStd
    have h1 : ∀ i, Real.log (P i i * (Real.exp (logStd i) * Real.exp b) ^ 2) = Real.log (P i i) + 2 * (logStd i + b) := fun i => by
      rw [Real.log_mul (hpos i).ne' (by positivity), Real.log_pow, ← Real.exp_add, Real.log_exp]
      norm_num
    simp only [h1, Finset.sum_sub_distrib, Finset.sum_add_distrib, ← Finset.mul_sum]
    ring
  simp only [hform]
  have hx : ∀ (logStd : Fin n → ℝ) i, 0 < P i i * (Real.exp (logStd i) * Real.exp b) ^ 2 := fun logStd i => mul_pos (hpos i) (by positivity)
  have hquad : ∀ v : Fin n → ℝ, 0 ≤ quad P v := fun v => by
    by_cases h : v = 0
    · rw [h]; exact (quad_zero P).ge
    · exact (quad_pos P hP _ h).le
  let best : Fin n → ℝ := fun i => -b - 1 / 2 * Real.log (P i i)
  have hbest : ∀ i, P i i * (Real.exp (best i) * Real.exp b) ^ 2 = 1 := fun i => by
    rw [← Real.exp_add, ← Real.exp_nat_mul]
    have : ((2 : ℕ) : ℝ) * (best i + b) = -Real.log (P i i) := by simp only [best]; push_cast; ring
    rw [this, Real.exp_neg, Real.exp_log (hpos i)]
    exact mul_inv_cancel₀ (hpos i).ne'
  have hiff : ∀ logStd : Fin n → ℝ, (∀ i, (Real.exp (logStd i) * Real.exp b) ^ 2 = 1 / P i i) ↔ ∀ i, P i i * (Real.exp (logStd i) * Real.exp b) ^ 2 = 1 :=
    fun logStd => forall_congr' fun i => by rw [eq_div_iff (hpos i).ne', mul_comm]
  rw [hiff]
  constructor
  · intro h
    have h1 := h θh best
    simp only [hbest, sub_self, Real.log_one, sub_zero, quad_zero] at h1
    have h2 : ∑ _i : Fin n, (1 : ℝ) ≤ ∑ i, (P i i * (Real.exp (logStd i) * Real.exp b) ^ 2 - Real.log (P i i * (Real.exp (logStd i) * Real.exp b) ^ 2)) :=
      Finset.sum_le_sum fun i _ => (half_log_le _ (hx logStd i)).1
    have h3 := hquad fun i => mean i - θh i
    have h4 : quad P (fun i => mean i - θh i) = 0 := by linarith
    have h5 : ∑ _i : Fin n, (1 : ℝ) = ∑ i, (P i i * (Real.exp (logStd i) * Real.exp b) ^ 2 - Real.log (P i i * (Real.exp (logStd i) * Real.exp b) ^ 2)) := by
      linarith
    constructor
    · by_contra hne
      have := quad_pos P hP (fun i => mean i - θh i) fun h0 => hne (funext fun i => sub_eq_zero.1 (congrFun h0 i))
      linarith
    · intro i
      have h6 := (Finset.sum_eq_sum_iff_of_le fun i _ => (half_log_le _ (hx logStd i)).1).1 h5 i (Finset.mem_univ _)
      exact (half_log_le _ (hx logStd i)).2.1 h6.symm
  · rintro ⟨rfl, h⟩ mean' logStd'
    simp only [h, sub_self, Real.log_one, sub_zero, quad_zero]
    have h2 : ∑ _i : Fin n, (1 : ℝ) ≤ ∑ i, (P i i * (Real.exp (logStd' i) * Real.exp b) ^ 2 - Real.log (P i i * (Real.exp (logStd' i) * Real.exp b) ^ 2)) :=
      Finset.sum_le_sum fun i _ => (half_log_le _ (hx logStd' i)).1
    have h3 := hquad fun i => mean' i - mean i
    linarith

/-! ### Linear regression -/

/-- **C110, Laplace on a linear regression.** The variance of a parameter in Laplace samples is at most its posterior
variance, and equal to it exactly if the parameter is independent of all others in the posterior. -/
theorem C110_laplace_narrow (plv : ℝ) (bs : List (List (RegPoint d n))) (θh : Fin n → ℝ)
    (g : RegPoint d n → GGNPoint (Fin d ⊕ Fin d) (Fin n)) (H : RegPoint d n → Fin d ⊕ Fin d → Fin d ⊕ Fin d → ℝ)
    (hjac : ∀ b ∈ bs, ∀ p ∈ b, ∀ k, (∀ j, (g p).jac (.inl j) k = p.feat j k) ∧ ∀ j, (g p).jac (.inr j) k = 0)
    (hess : ∀ b ∈ bs, ∀ p ∈ b, IsHess (regRow p.t) (Sum.elim (meanOf p θh) p.lv) (H p))
    (heig : ∀ b ∈ bs, ∀ p ∈ b, IsEig (H p) (g p)) (i : Fin n) :
    laplaceStd plv (hessLoop (bs.map fun b => b.map g) i) ^ 2 ≤
      Var[fun x => x i; multivariateGaussian (toLp 2 θh) (prec plv bs.flatten)⁻¹] ∧
    (laplaceStd plv (hessLoop (bs.map fun b => b.map g) i) ^ 2 =
      Var[fun x => x i; multivariateGaussian (toLp 2 θh) (prec plv bs.flatten)⁻¹] ↔
      ∀ j, j ≠ i → (bs.flatten.map fun p => ∑ a, Real.exp (-p.lv a) * p.feat a j * p.feat a i).sum = 0) := by
  rw [C110_laplace_std plv bs θh g H hjac hess heig i]
  obtain ⟨-, h1, h2⟩ := C110_narrow _ (prec_posDef plv bs.flatten) θh i
  refine ⟨h1, h2.trans (forall_congr' fun j => forall_congr' fun hj => ?_)⟩
  unfold prec
  rw [if_neg hj, zero_add]

/-- **C110, ADVI on a linear regression.** Variational parameters minimise the expected loss exactly if the means are the
maximum a posteriori estimate and every squared standard deviation is the one Laplace uses. -/
theorem C110_advi_regression {N : ℕ} (hN : 0 < N) (μ : Measure Ω) [IsProbabilityMeasure μ] (Z : Fin N × Fin n → Ω → ℝ)
    (hm : ∀ k, Measurable (Z k)) (hi : iIndepFun Z μ) (hl : ∀ k, μ.map (Z k) = gaussianReal 0 1) (plv : ℝ) (data : List (RegPoint d n))
    (b : ℝ) (mean logStd : Fin n → ℝ) :
    (∀ mean' logStd', expectedLoss μ Z (negLogJoint plv data) b mean logStd ≤ expectedLoss μ Z (negLogJoint plv data) b mean' logStd') ↔
    IsMAP plv data mean ∧ ∀ i, (Real.exp (logStd i) * Real.exp b) ^ 2 = 1 / prec plv data i i := by
  obtain ⟨⟨θh, hmap, huniq⟩, hq⟩ := C110_quadratic plv data
  have e : negLogJoint plv data = fun θ => negLogJoint plv data θh + 1 / 2 * quad (prec plv data) fun i => θ i - θh i :=
    funext fun θ => hq θh hmap θ
  have h := C110_advi_optimum hN μ Z hm hi hl (prec plv data) (prec_posDef plv data) (negLogJoint plv data θh) b θh mean logStd
  rw [← e] at h
  rw [h]
  exact and_congr_left fun _ => ⟨fun h => h ▸ hmap, fun h => huniq _ h⟩

/-! ### Examples and a counterexample -/

/-- One observation 0 of the sum of two parameters, with noise of variance 1. -/
def exReg : RegPoint 1 2 := ⟨fun _ => 0, fun _ _ => 1, fun _ => 0, fun _ => 0⟩

def exGGN (_ : RegPoint 1 2) : GGNPoint (Fin 1 ⊕ Fin 1) (Fin 2) :=
  ⟨Sum.elim (fun _ => -1) fun _ => 0, fun a b => if a = b then 1 else 0, fun a _ => Sum.elim (fun _ => 1) (fun _ => 0) a⟩

def exHess (_ : RegPoint 1 2) (a b : Fin 1 ⊕ Fin 1) : ℝ := match a, b with | .inl _, .inl _ => -1 | _, _ => 0

theorem exReg_hyps : (∀ b ∈ [[exReg]], ∀ p ∈ b, ∀ k, (∀ j, (exGGN p).jac (.inl j) k = p.feat j k) ∧ ∀ j, (exGGN p).jac (.inr j) k = 0) ∧
    (∀ b ∈ [[exReg]], ∀ p ∈ b, IsHess (regRow p.t) (Sum.elim (meanOf p 0) p.lv) (exHess p)) ∧
    (∀ b ∈ [[exReg]], ∀ p ∈ b, IsEig (exHess p) (exGGN p)) ∧ IsMAP 0 [exReg] 0 := by
  simp only [List.mem_singleton, forall_eq]
  refine ⟨fun k => ⟨fun j => rfl, fun j => rfl⟩, ?_, ?_, ?_⟩
  · have e : (Sum.elim (meanOf exReg 0) exReg.lv : Fin 1 ⊕ Fin 1 → ℝ) = fun _ => 0 := by
      funext a
      rcases a with a | a <;> simp [meanOf, exReg]
    rw [e]
    exact reg_hess_zero
  · intro a b
    rcases a with a | a <;> rcases b with b | b <;> simp [exHess, exGGN, Fin.fin_one_eq_zero]
  · intro θ
    rw [negLogJoint_eq 0 [exReg] θ]
    have h1 : ∀ i, lin [exReg] i = 0 := fun i => by simp [lin, exReg]
    have h2 : 0 ≤ quad (prec 0 [exReg]) θ := by
      by_cases h : θ = 0
      · rw [h]; exact (quad_zero _).ge
      · exact (quad_pos _ (prec_posDef 0 _) _ h).le
    simp only [h1, zero_mul, Finset.sum_const_zero, sub_zero]
    linarith

/-- **C110, exactness fails.** Even for a linear regression, where the posterior is Gaussian, the Laplace approximation and
the optimum of ADVI have a smaller variance than the posterior: here 1/2 instead of 2/3. -/
theorem C110_exact_false : laplaceStd 0 (hessLoop ([[exReg]].map fun b => b.map exGGN) 0) ^ 2 = 1 / 2 ∧
    1 / prec 0 [exReg] 0 0 = 1 / 2 ∧ Var[fun x => x 0; multivariateGaussian (toLp 2 0) (prec 0 [exReg])⁻¹] = 2 / 3 := by
  have hp : prec 0 [exReg] = !![2, 1; 1, 2] := by
    ext i k
    fin_cases i <;> fin_cases k <;> norm_num [prec, exReg]
  obtain ⟨h1, h2, h3, -⟩ := exReg_hyps
  have hstd := C110_laplace_std 0 [[exReg]] 0 exGGN exHess h1 h2 h3 0
  have hflat : [[exReg]].flatten = [exReg] := rfl
  rw [hflat] at hstd
  have h00 : prec 0 [exReg] 0 0 = 2 := by rw [hp]; rfl
  refine ⟨by rw [hstd, h00], by rw [h00], ?_⟩
  rw [variance_eval_multivariateGaussian (prec_posDef 0 [exReg]).inv.posSemidef, hp, inv_def, adjugate_fin_two]
  norm_num [det_fin_two]

/-- Independent standard normal noise exists. -/
example (κ : Type) [Fintype κ] : ∃ (Ω : Type) (_ : MeasurableSpace Ω) (μ : Measure Ω) (_ : IsProbabilityMeasure μ) (Z : κ → Ω → ℝ),
    (∀ k, Measurable (Z k)) ∧ iIndepFun Z μ ∧ ∀ k, μ.map (Z k) = gaussianReal 0 1 :=
  ⟨κ → ℝ, inferInstance, Measure.infinitePi fun _ => gaussianReal 0 1, inferInstance, fun k ω => ω k,
    fun k => measurable_pi_apply k, iIndepFun_infinitePi (X := fun _ x => x) fun _ => measurable_id,
    fun k => Measure.infinitePi_map_eval _ k⟩

/-- Two parameters with standard deviations 2 and 0 and two equal columns of deviations. -/
example : swagCov ![2, 0] (fun _ _ => 1 : Fin 2 → Fin 2 → ℝ) = !![5 / 2, 1 / 2; 1 / 2, 1 / 2] := by
  ext i k
  fin_cases i <;> fin_cases k <;> norm_num [swagCov]

/-! ### Concrete cases that meet the hypotheses of the theorems above -/

/-- Standard normal noise on the space of all noises. -/
theorem exNoise (κ : Type) : (∀ k, Measurable fun ω : κ → ℝ => ω k) ∧
    iIndepFun (fun k (ω : κ → ℝ) => ω k) (Measure.infinitePi fun _ : κ => gaussianReal 0 1) ∧
    ∀ k, (Measure.infinitePi fun _ : κ => gaussianReal 0 1).map (fun ω => ω k) = gaussianReal 0 1 :=
  ⟨fun k => measurable_pi_apply k, iIndepFun_infinitePi (X := fun _ x => x) fun _ => measurable_id, fun k => Measure.infinitePi_map_eval _ k⟩

/-- Scalar regression with one parameter: target 0 for the feature 3. -/
def exReg1 : RegPoint 1 1 := ⟨fun _ => 0, fun _ _ => 3, fun _ => 0, fun _ => 0⟩

/-- Its Jacobian and an eigendecomposition of its Hessian. -/
def exGgn : GGNPoint (Fin 1 ⊕ Fin 1) (Fin 1) :=
  ⟨fun k => if k = .inl 0 then -1 else 0, fun a k => if a = k then 1 else 0, fun a _ => if a = .inl 0 then 3 else 0⟩

theorem exReg1_hess : IsHess (regRow exReg1.t) (Sum.elim (meanOf exReg1 fun _ => 0) exReg1.lv) Verif.Props.exRegHess := by
  have : Sum.elim (meanOf exReg1 fun _ => 0) exReg1.lv = fun _ => 0 := by
    funext a
    rcases a with a | a <;> simp [meanOf, exReg1]
  rw [this]
  exact Verif.Props.exRegHess_isHess

theorem exReg1_eig : IsEig Verif.Props.exRegHess exGgn := by
  intro a b
  rcases a with a | a <;> rcases b with b | b <;> simp [Verif.Props.exRegHess, exGgn, Fin.eq_zero]

example := (C110_quadratic 0 [exReg1, exReg1]).1.exists.imp fun _ h => C110_posterior 0 [exReg1, exReg1] _ h
example := C110_laplace_std 0 [[exReg1], [exReg1]] (fun _ => 0) (fun _ => exGgn) (fun _ => Verif.Props.exRegHess)
  (by simp [exGgn, exReg1]) (by simpa using exReg1_hess) (by simpa using exReg1_eig) 0
example := C110_laplace_narrow 0 [[exReg1], [exReg1]] (fun _ => 0) (fun _ => exGgn) (fun _ => Verif.Props.exRegHess)
  (by simp [exGgn, exReg1]) (by simpa using exReg1_hess) (by simpa using exReg1_eig) 0
example := C110_narrow (prec 0 [exReg1]) (prec_posDef 0 [exReg1]) (fun _ => 1) 0
example := C110_laplace_law _ _ (exNoise (Fin 2)).1 (exNoise _).2.1 (exNoise _).2.2 1 ![0, 1] ![2, 3]
example := C110_advi_law _ _ (exNoise (Fin 2)).1 (exNoise _).2.1 (exNoise _).2.2 ![0, 1] ![2, 3] 1
example := C110_swag_functional _ _ (exNoise (Fin 2 ⊕ Fin 3)).1 (exNoise _).2.1 (exNoise _).2.2 ![0, 1] ![2, 3] (fun i j => i + j) ![1, 1]
example := C110_swag_law _ _ (exNoise (Fin 2 ⊕ Fin 3)).1 (exNoise _).2.1 (exNoise _).2.2 ![0, 1] ![2, 3] (fun i j => i + j)
example := C110_advi_expected (N := 2) (by norm_num) _ _ (exNoise (Fin 2 × Fin 2)).1 (exNoise _).2.1 (exNoise _).2.2 !![2, 1; 1, 2] 0 0 ![0, 1] ![1, 1]
  ![0, 0]
example := C110_advi_optimum (N := 2) (by norm_num) _ _ (exNoise (Fin 2 × Fin 1)).1 (exNoise _).2.1 (exNoise _).2.2 (prec 0 [exReg1])
  (prec_posDef 0 [exReg1]) 0 0 (fun _ => 1) (fun _ => 1) (fun _ => 0)
example := C110_advi_regression (N := 2) (by norm_num) _ _ (exNoise (Fin 2 × Fin 1)).1 (exNoise _).2.1 (exNoise _).2.2 0 [exReg1] 0 (fun _ => 0)
  (fun _ => 0)

end Verif.Props.GaussLaw
