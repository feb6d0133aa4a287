import Verif.Props.SGMCMC
import Mathlib.Probability.Distributions.Gaussian.Real
import Mathlib.Probability.Independence.InfinitePi
import Mathlib.Analysis.SpecificLimits.Normed
import Mathlib.MeasureTheory.Measure.LevyConvergence
import Mathlib.Tactic.LinearCombination

/-!
Property C108: the distribution of the samples of SGHMC and SGLD when the posterior is Gaussian.
-/
set_option linter.unusedSectionVars false

namespace Verif.Props.Langevin

open Verif.SGMCMC MeasureTheory ProbabilityTheory Finset Filter Topology

/-! ### The linear recursion behind a step -/

/-- One step without noise: `r` is the square root of the step size, `s` the variance of the posterior, `d` the momentum decay. -/
noncomputable def lin (r s d : ℝ) (z : ℝ × ℝ) : ℝ × ℝ :=
  let m := d * z.2 - r / s * z.1
  (z.1 + r * m, m)

/-- A quadratic form that decreases by the square of the position. -/
noncomputable def phi (r s d : ℝ) (z : ℝ × ℝ) : ℝ :=
  (((1 - d ^ 2) * (1 - d) + 2 * d * (r ^ 2 / s)) * z.1 ^ 2 + 2 * r * (d * (1 - d ^ 2 - r ^ 2 / s)) * z.1 * z.2 +
    r ^ 2 * (d ^ 2 * (1 + d)) * z.2 ^ 2) / ((r ^ 2 / s) * (1 - d) * (2 * (1 + d) - r ^ 2 / s))

theorem phi_lin (r s d : ℝ) (hs : s ≠ 0) (h : (r ^ 2 / s) * (1 - d) * (2 * (1 + d) - r ^ 2 / s) ≠ 0) (z : ℝ × ℝ) :
    phi r s d z - phi r s d (lin r s d z) = z.1 ^ 2 := by
  unfold phi lin
  rw [← sub_div, div_eq_iff h]
  field_simp
  ring

theorem phi_start (r s d : ℝ) (hs : 0 < s) (hr : r ≠ 0) (hd : d ≠ 1) (h : 2 * (1 + d) * s - r ^ 2 ≠ 0) :
    2 * (1 - d) * phi r s d (r, 1) = s ^ 2 * (1 + d) * 2 / (2 * (1 + d) * s - r ^ 2) := by
  unfold phi
  have h1 : 1 - d ≠ 0 := sub_ne_zero.2 hd.symm
  have h2 : 2 * (1 + d) - r ^ 2 / s ≠ 0 := by
    intro h'
    apply h
    field_simp at h'
    linarith
  have h3 : (2 * (1 + d) - r ^ 2 / s) = (2 * (1 + d) * s - r ^ 2) / s := by field_simp
  rw [h3]
  field_simp
  ring

theorem sum_phi (r s d : ℝ) (hs : s ≠ 0) (h : (r ^ 2 / s) * (1 - d) * (2 * (1 + d) - r ^ 2 / s) ≠ 0) (z : ℝ × ℝ) (t : ℕ) :
    ∑ k ∈ range t, ((lin r s d)^[k] z).1 ^ 2 = phi r s d z - phi r s d ((lin r s d)^[t] z) := by
  induction t with
  | zero => simp
  | succ t ih =>
    rw [sum_range_succ, ih, ← phi_lin r s d hs h, Function.iterate_succ_apply']
    ring

theorem lin_recur (r s d : ℝ) (z : ℝ × ℝ) :
    (lin r s d (lin r s d z)).1 = (1 + d - r ^ 2 / s) * (lin r s d z).1 - d * z.1 ∧
    (lin r s d (lin r s d z)).2 = (1 + d - r ^ 2 / s) * (lin r s d z).2 - d * z.2 := by
  unfold lin
  constructor <;> dsimp only <;> ring

/-- `x' = a x + u` with `|a| ≤ ρ` and `u` shrinking with `ρ`. -/
theorem one_root (ρ a : ℝ) (h0 : 0 < ρ) (h1 : ρ < 1) (ha : |a| ≤ ρ) (K : ℝ) (x u : ℕ → ℝ) (hu : ∀ t, |u t| ≤ K * ρ ^ t)
    (hx : ∀ t, x (t + 1) = a * x t + u t) : Tendsto x atTop (𝓝 0) := by
  have hb : ∀ t : ℕ, |x t| * ρ ≤ (ρ * |x 0| + t * K) * ρ ^ t := by
    intro t
    induction t with
    | zero => simp [mul_comm]
    | succ t ih =>
      have e1 : |x (t + 1)| ≤ ρ * |x t| + K * ρ ^ t := by
        rw [hx]
        refine (abs_add_le _ _).trans (add_le_add ?_ (hu t))
        rw [abs_mul]
        exact mul_le_mul_of_nonneg_right ha (abs_nonneg _)
      have e2 := mul_le_mul_of_nonneg_right e1 h0.le
      have e3 := mul_le_mul_of_nonneg_left ih h0.le
      push_cast
      calc |x (t + 1)| * ρ ≤ ρ * (|x t| * ρ) + K * ρ ^ t * ρ := by nlinarith
        _ ≤ ρ * ((ρ * |x 0| + t * K) * ρ ^ t) + K * ρ ^ t * ρ := by linarith
        _ = _ := by ring
  have hlim : Tendsto (fun t : ℕ => ((ρ * |x 0| + t * K) * ρ ^ t) / ρ) atTop (𝓝 0) := by
    have e1 := (tendsto_pow_atTop_nhds_zero_of_lt_one h0.le h1).const_mul (ρ * |x 0|)
    have e2 := (tendsto_self_mul_const_pow_of_lt_one h0.le h1).mul_const K
    have e3 := (e1.add e2).div_const ρ
    simp only [mul_zero, zero_mul, add_zero, zero_div] at e3
    refine e3.congr fun t => ?_
    ring
  refine squeeze_zero_norm (fun t => ?_) hlim
  rw [Real.norm_eq_abs, le_div_iff₀ h0]
  exact hb t

/-- A recursion of order two tends to zero if the roots of its polynomial lie in the unit disc. -/
theorem two_roots (τ d : ℝ) (hd : |d| < 1) (hτ : |τ| < 1 + d) (x : ℕ → ℝ) (hx : ∀ t, x (t + 2) = τ * x (t + 1) - d * x t) :
    Tendsto x atTop (𝓝 0) := by
  rw [abs_lt] at hd hτ
  by_cases hΔ : τ ^ 2 - 4 * d < 0
  · have hd0 : 0 < d := by nlinarith [sq_nonneg τ]
    set V : ℕ → ℝ := fun t => x (t + 1) ^ 2 - τ * x (t + 1) * x t + d * x t ^ 2 with hV
    have hVs : ∀ t, V (t + 1) = d * V t := by
      intro t
      simp only [hV, show t + 1 + 1 = t + 2 from rfl, hx t]
      ring
    have hVt : ∀ t, V t = d ^ t * V 0 := by
      intro t
      induction t with
      | zero => simp
      | succ t ih => rw [hVs, ih]; ring
    have hlow : ∀ t, (d - τ ^ 2 / 4) * x t ^ 2 ≤ V t := by
      intro t
      simp only [hV]
      nlinarith [sq_nonneg (x (t + 1) - τ / 2 * x t)]
    have hc : 0 < d - τ ^ 2 / 4 := by linarith
    have hlim : Tendsto (fun t => (d ^ t * V 0) / (d - τ ^ 2 / 4)) atTop (𝓝 0) := by
      have := ((tendsto_pow_atTop_nhds_zero_of_lt_one hd0.le hd.2).mul_const (V 0)).div_const (d - τ ^ 2 / 4)
      simpa using this
    have hsq : Tendsto (fun t => x t ^ 2) atTop (𝓝 0) := by
      refine squeeze_zero (fun t => sq_nonneg _) (fun t => ?_) hlim
      rw [le_div_iff₀ hc, ← hVt, mul_comm]
      exact hlow t
    have := hsq.sqrt
    simp only [Real.sqrt_sq_eq_abs, Real.sqrt_zero] at this
    exact (tendsto_zero_iff_abs_tendsto_zero _).2 this
  · push Not at hΔ
    set q := Real.sqrt (τ ^ 2 - 4 * d) with hq
    have hqq : q * q = τ ^ 2 - 4 * d := Real.mul_self_sqrt hΔ
    have hq0 : 0 ≤ q := Real.sqrt_nonneg _
    set a := (τ + q) / 2 with ha
    set b := (τ - q) / 2 with hb
    have hab : a + b = τ := by rw [ha, hb]; ring
    have hmul : a * b = d := by rw [ha, hb]; nlinarith
    have hle : b ≤ a := by rw [ha, hb]; linarith
    have ha1 : a < 1 := by
      by_contra hcon
      push Not at hcon
      have : (1 - a) * (1 - b) > 0 := by nlinarith
      have hb1 : 1 < b := by
        by_contra h'
        push Not at h'
        nlinarith
      nlinarith
    have hb1 : -1 < b := by
      by_contra hcon
      push Not at hcon
      have : (1 + a) * (1 + b) > 0 := by nlinarith
      have ha1 : a < -1 := by
        by_contra h'
        push Not at h'
        nlinarith
      nlinarith
    have hA : |a| < 1 := abs_lt.2 ⟨by linarith, ha1⟩
    have hB : |b| < 1 := abs_lt.2 ⟨hb1, by linarith⟩
    obtain ⟨ρ, hρ1, hρ2⟩ := exists_between (max_lt (max_lt hA hB) one_pos)
    have hρA : |a| ≤ ρ := ((le_max_left _ _).trans (le_max_left _ _)).trans hρ1.le
    have hρB : |b| ≤ ρ := ((le_max_right _ _).trans (le_max_left _ _)).trans hρ1.le
    have hρ0 : 0 < ρ := (le_max_right _ _).trans_lt hρ1
    refine one_root ρ a hρ0 hρ2 hρA |x 1 - a * x 0| x (fun t => x (t + 1) - a * x t) (fun t => ?_) fun t => by ring
    have hu : ∀ t, x (t + 1) - a * x t = b ^ t * (x 1 - a * x 0) := by
      intro t
      induction t with
      | zero => simp
      | succ t ih =>
        rw [pow_succ, mul_right_comm, ← ih, show t + 1 + 1 = t + 2 from rfl, hx t, ← hab, ← hmul]
        ring
    rw [hu, abs_mul, abs_pow, mul_comm]
    exact mul_le_mul_of_nonneg_left (pow_le_pow_left₀ (abs_nonneg _) hρB t) (abs_nonneg _)

theorem lin_tendsto (r s d : ℝ) (hs : 0 < s) (hr : r ≠ 0) (hd0 : 0 ≤ d) (hd1 : d < 1) (hstep : r ^ 2 < 2 * (1 + d) * s) (z : ℝ × ℝ) :
    Tendsto (fun t => ((lin r s d)^[t] z).1) atTop (𝓝 0) ∧ Tendsto (fun t => ((lin r s d)^[t] z).2) atTop (𝓝 0) := by
  have hd : |d| < 1 := abs_lt.2 ⟨by linarith, hd1⟩
  have hβ0 : 0 < r ^ 2 / s := by positivity
  have hβ1 : r ^ 2 / s < 2 * (1 + d) := by rw [div_lt_iff₀ hs]; exact hstep
  have hτ : |1 + d - r ^ 2 / s| < 1 + d := abs_lt.2 ⟨by linarith, by linarith⟩
  constructor
  · refine two_roots _ d hd hτ _ fun t => ?_
    simp only [Function.iterate_succ_apply']
    exact (lin_recur r s d _).1
  · refine two_roots _ d hd hτ _ fun t => ?_
    simp only [Function.iterate_succ_apply']
    exact (lin_recur r s d _).2

theorem sum_tendsto (r s d : ℝ) (hs : 0 < s) (hr : r ≠ 0) (hd0 : 0 ≤ d) (hd1 : d < 1) (hstep : r ^ 2 < 2 * (1 + d) * s) :
    Tendsto (fun t => 2 * (1 - d) * ∑ k ∈ range t, ((lin r s d)^[k] (r, 1)).1 ^ 2) atTop
      (𝓝 (s ^ 2 * (1 + d) * 2 / (2 * (1 + d) * s - r ^ 2))) := by
  have hβ0 : 0 < r ^ 2 / s := by positivity
  have hβ1 : r ^ 2 / s < 2 * (1 + d) := by rw [div_lt_iff₀ hs]; exact hstep
  have hne : (r ^ 2 / s) * (1 - d) * (2 * (1 + d) - r ^ 2 / s) ≠ 0 :=
    mul_ne_zero (mul_ne_zero hβ0.ne' (by linarith)) (by linarith)
  rw [← phi_start r s d hs hr hd1.ne (by linarith)]
  simp only [sum_phi r s d hs.ne' hne]
  have h0 : Tendsto (fun t => phi r s d ((lin r s d)^[t] (r, 1))) atTop (𝓝 0) := by
    obtain ⟨h1, h2⟩ := lin_tendsto r s d hs hr hd0 hd1 hstep (r, 1)
    unfold phi
    have := ((((h1.pow 2).const_mul ((1 - d ^ 2) * (1 - d) + 2 * d * (r ^ 2 / s))).add
      ((h1.const_mul (2 * r * (d * (1 - d ^ 2 - r ^ 2 / s)))).mul h2)).add
      ((h2.pow 2).const_mul (r ^ 2 * (d ^ 2 * (1 + d))))).div_const ((r ^ 2 / s) * (1 - d) * (2 * (1 + d) - r ^ 2 / s))
    simpa using this
  have := (h0.const_sub (phi r s d (r, 1))).const_mul (2 * (1 - d))
  simpa using this

/-! ### The samples -/

variable {ι Ω : Type} [MeasurableSpace Ω]

/-- The gradient of the logarithm of a Gaussian density with independent coordinates of means `μ` and variances `s`. -/
noncomputable def gaussGrad (μ s : ι → ℝ) (x : ι → ℝ) (i : ι) : ℝ := -(x i - μ i) / s i

/-- The sampler, with a constant step size and without preconditioning. -/
noncomputable def sampler (d h : ℝ) (μ s : ι → ℝ) (normal : Key → ι → ℝ) (key : Key) (x₀ : ι → ℝ) (t : ℕ) : ι → ℝ :=
  (sghmcRun (identityPrecond ι) d none (fun _ => h) normal (gaussGrad μ s) key x₀ t).1

/-- Position and momentum of a coordinate: what the recursion makes of the start and of the noise so far. -/
theorem run_eq (d h : ℝ) (μ s : ι → ℝ) (normal : Key → ι → ℝ) (key : Key) (x₀ : ι → ℝ) (i : ι) (t : ℕ) :
    let R := sghmcRun (identityPrecond ι) d none (fun _ => h) normal (gaussGrad μ s) key x₀ t
    let L := lin (Real.sqrt h) (s i) d
    R.2.key = Key.right^[t] key ∧
    R.1 i - μ i = (L^[t] (x₀ i - μ i, 0)).1 +
      ∑ k ∈ range t, Real.sqrt (2 * (1 - d)) * (L^[t - 1 - k] (Real.sqrt h, 1)).1 * normal (.left (Key.right^[k] key)) i ∧
    R.2.momentum i = (L^[t] (x₀ i - μ i, 0)).2 +
      ∑ k ∈ range t, Real.sqrt (2 * (1 - d)) * (L^[t - 1 - k] (Real.sqrt h, 1)).2 * normal (.left (Key.right^[k] key)) i := by
  intro R L
  induction t with
  | zero => simp [R, sghmcRun, sghmcInit]
  | succ t ih =>
    obtain ⟨hk, hp, hm⟩ := ih
    set R' := sghmcRun (identityPrecond ι) d none (fun _ => h) normal (gaussGrad μ s) key x₀ t with hR'
    have hkey : R.2.key = Key.right^[t + 1] key := by
      simp only [R, sghmcRun, sghmcUpdate]
      rw [← hR', hk, Function.iterate_succ_apply']
    have hmom : R.2.momentum i = d * R'.2.momentum i + -(R'.1 i - μ i) / s i * Real.sqrt h +
        normal (.left R'.2.key) i * Real.sqrt (2 * (1 - d)) := by
      simp only [R, sghmcRun, sghmcUpdate, identityPrecond, gaussGrad]
      rfl
    have hpos : R.1 i = R'.1 i + R.2.momentum i * Real.sqrt h := by
      simp only [R, sghmcRun, sghmcUpdate, identityPrecond]
      rfl
    have hsum : ∀ (f : ℝ × ℝ → ℝ), ∑ k ∈ range (t + 1), Real.sqrt (2 * (1 - d)) * f (L^[t + 1 - 1 - k] (Real.sqrt h, 1)) *
        normal (.left (Key.right^[k] key)) i =
        ∑ k ∈ range t, Real.sqrt (2 * (1 - d)) * f (L (L^[t - 1 - k] (Real.sqrt h, 1))) * normal (.left (Key.right^[k] key)) i +
        Real.sqrt (2 * (1 - d)) * f (Real.sqrt h, 1) * normal (.left (Key.right^[t] key)) i := by
      intro f
      rw [sum_range_succ]
      congr 1
      · refine sum_congr rfl fun k hk => ?_
        rw [mem_range] at hk
        rw [← Function.iterate_succ_apply' L, show t + 1 - 1 - k = (t - 1 - k) + 1 by omega]
      · simp
    have hmom' : R.2.momentum i = (L^[t + 1] (x₀ i - μ i, 0)).2 + ∑ k ∈ range (t + 1), Real.sqrt (2 * (1 - d)) *
        (L^[t + 1 - 1 - k] (Real.sqrt h, 1)).2 * normal (.left (Key.right^[k] key)) i := by
      rw [hsum Prod.snd, hmom, hp, hm, hk, Function.iterate_succ_apply']
      have : ∀ z, (L z).2 = d * z.2 - Real.sqrt h / s i * z.1 := fun z => rfl
      have e : ∑ k ∈ range t, Real.sqrt (2 * (1 - d)) * (L (L^[t - 1 - k] (Real.sqrt h, 1))).2 * normal (.left (Key.right^[k] key)) i =
          d * ∑ k ∈ range t, Real.sqrt (2 * (1 - d)) * (L^[t - 1 - k] (Real.sqrt h, 1)).2 * normal (.left (Key.right^[k] key)) i -
          Real.sqrt h / s i *
            ∑ k ∈ range t, Real.sqrt (2 * (1 - d)) * (L^[t - 1 - k] (Real.sqrt h, 1)).1 * normal (.left (Key.right^[k] key)) i := by
        rw [mul_sum, mul_sum, ← sum_sub_distrib]
        refine sum_congr rfl fun k _ => ?_
        rw [this]
        ring
      rw [e, this]
      ring
    refine ⟨hkey, ?_, hmom'⟩
    have hfst : ∀ z, (L z).1 = z.1 + Real.sqrt h * (L z).2 := fun z => rfl
    rw [hsum Prod.fst, hpos, Function.iterate_succ_apply', hfst, add_sub_right_comm, hp, hmom', hsum Prod.snd,
      Function.iterate_succ_apply']
    simp only [hfst, mul_add, add_mul, sum_add_distrib, mul_sum, sum_mul]
    have e1 : ∀ k, Real.sqrt (2 * (1 - d)) * (Real.sqrt h * (L (L^[t - 1 - k] (Real.sqrt h, 1))).2) *
        normal (.left (Key.right^[k] key)) i = Real.sqrt (2 * (1 - d)) * (L (L^[t - 1 - k] (Real.sqrt h, 1))).2 *
        normal (.left (Key.right^[k] key)) i * Real.sqrt h := fun k => by ring
    simp only [e1]
    ring

/-- A combination of independent standard normal variables. -/
theorem sum_gaussian (P : Measure Ω) [IsProbabilityMeasure P] {κ : Type} (Z : κ → Ω → ℝ) (hm : ∀ k, Measurable (Z k))
    (hi : iIndepFun Z P) (hl : ∀ k, P.map (Z k) = gaussianReal 0 1) (c : κ → ℝ) (K : Finset κ) :
    P.map (fun ω => ∑ k ∈ K, c k * Z k ω) = gaussianReal 0 (Real.toNNReal (∑ k ∈ K, c k ^ 2)) := by
  classical
  induction K using Finset.induction_on with
  | empty => simp
  | insert a K ha ih =>
    have hc : iIndepFun (fun k ω => c k * Z k ω) P := hi.comp (fun k x => c k * x) fun k => by fun_prop
    have hind : IndepFun (∑ k ∈ K, fun ω => c k * Z k ω) (fun ω => c a * Z a ω) P :=
      hc.indepFun_finsetSum_of_notMem (fun k => (hm k).const_mul _) ha
    have h1 : P.map (∑ k ∈ K, fun ω => c k * Z k ω) = gaussianReal 0 (Real.toNNReal (∑ k ∈ K, c k ^ 2)) := by
      rw [← ih]
      congr 1
      funext ω
      simp
    have h2 : P.map (fun ω => c a * Z a ω) = gaussianReal 0 (Real.toNNReal (c a ^ 2)) := by
      have : (fun ω => c a * Z a ω) = (fun x => c a * x) ∘ Z a := rfl
      rw [this, ← Measure.map_map (by fun_prop) (hm a), hl, gaussianReal_map_const_mul]
      congr 1
      · simp
      · ext
        simp [Real.coe_toNNReal _ (sq_nonneg (c a))]
    have h3 := gaussianReal_add_gaussianReal_of_indepFun hind h1 h2
    rw [add_zero, ← Real.toNNReal_add (sum_nonneg fun _ _ => sq_nonneg _) (sq_nonneg _)] at h3
    rw [sum_insert ha, add_comm (c a ^ 2), ← h3]
    congr 1
    funext ω
    rw [sum_insert ha]
    simp [add_comm]

/-- The variance of a sample after `t` steps. -/
noncomputable def sampleVar (d h s : ℝ) (t : ℕ) : ℝ :=
  2 * (1 - d) * ∑ k ∈ range t, ((lin (Real.sqrt h) s d)^[k] (Real.sqrt h, 1)).1 ^ 2

/-- The mean of a sample after `t` steps from `x₀`. -/
noncomputable def sampleMean (d h s μ x₀ : ℝ) (t : ℕ) : ℝ := μ + ((lin (Real.sqrt h) s d)^[t] (x₀ - μ, 0)).1

theorem keys_injective (key : Key) : Function.Injective fun t : ℕ => Key.left (Key.right^[t] key) := by
  intro a b hab
  exact right_iterate_left_inj key a b hab

/-- **C108, the law of a sample.** -/
theorem C108_law (P : Measure Ω) [IsProbabilityMeasure P] (normal : Ω → Key → ι → ℝ) (i : ι)
    (hm : ∀ k, Measurable fun ω => normal ω k i) (hi : iIndepFun (fun k ω => normal ω k i) P)
    (hl : ∀ k, P.map (fun ω => normal ω k i) = gaussianReal 0 1) (d h : ℝ) (hd1 : d ≤ 1) (μ s : ι → ℝ) (key : Key) (x₀ : ι → ℝ) (t : ℕ) :
    P.map (fun ω => sampler d h μ s (normal ω) key x₀ t i) =
      gaussianReal (sampleMean d h (s i) (μ i) (x₀ i) t) (Real.toNNReal (sampleVar d h (s i) t)) := by
  set L := lin (Real.sqrt h) (s i) d with hL
  have hrun : ∀ ω, sampler d h μ s (normal ω) key x₀ t i = sampleMean d h (s i) (μ i) (x₀ i) t + ∑ k ∈ range t,
      Real.sqrt (2 * (1 - d)) * (L^[t - 1 - k] (Real.sqrt h, 1)).1 * normal ω (.left (Key.right^[k] key)) i := by
    intro ω
    have := (run_eq d h μ s (normal ω) key x₀ i t).2.1
    unfold sampler sampleMean
    linarith
  have hsum := sum_gaussian P (fun k ω => normal ω (.left (Key.right^[k] key)) i) (fun k => hm _)
    (hi.precomp (keys_injective key)) (fun k => hl _) (fun k => Real.sqrt (2 * (1 - d)) * (L^[t - 1 - k] (Real.sqrt h, 1)).1) (range t)
  have hvar : ∑ k ∈ range t, (Real.sqrt (2 * (1 - d)) * (L^[t - 1 - k] (Real.sqrt h, 1)).1) ^ 2 = sampleVar d h (s i) t := by
    unfold sampleVar
    rw [mul_sum, ← Finset.sum_range_reflect]
    refine sum_congr rfl fun k hk => ?_
    rw [mul_pow, Real.sq_sqrt (by linarith)]
    have : t - 1 - (t - 1 - k) = k := by rw [mem_range] at hk; omega
    rw [this]
  simp only [hrun]
  rw [hvar] at hsum
  have hmeas : Measurable fun ω => ∑ k ∈ range t, Real.sqrt (2 * (1 - d)) * (L^[t - 1 - k] (Real.sqrt h, 1)).1 *
      normal ω (.left (Key.right^[k] key)) i := by
    apply Finset.measurable_sum
    intro k _
    exact (hm _).const_mul _
  have hcomp : (fun ω => sampleMean d h (s i) (μ i) (x₀ i) t + ∑ k ∈ range t, Real.sqrt (2 * (1 - d)) *
      (L^[t - 1 - k] (Real.sqrt h, 1)).1 * normal ω (.left (Key.right^[k] key)) i) = (fun y => sampleMean d h (s i) (μ i) (x₀ i) t + y) ∘
      fun ω => ∑ k ∈ range t, Real.sqrt (2 * (1 - d)) * (L^[t - 1 - k] (Real.sqrt h, 1)).1 * normal ω (.left (Key.right^[k] key)) i := rfl
  rw [hcomp, ← Measure.map_map (by fun_prop) hmeas, hsum, gaussianReal_map_const_add, zero_add]

/-- **C108, in the long run.** For a step size below `2 (1 + d) σ²` the mean tends to that of the posterior, and the variance to
`σ² / (1 - h / (2 (1 + d) σ²))`. -/
theorem C108_limit (d h s μ x₀ : ℝ) (hd0 : 0 ≤ d) (hd1 : d < 1) (hs : 0 < s) (hh : 0 < h) (hstep : h < 2 * (1 + d) * s) :
    Tendsto (sampleMean d h s μ x₀) atTop (𝓝 μ) ∧ Tendsto (sampleVar d h s) atTop (𝓝 (s / (1 - h / (2 * (1 + d) * s)))) := by
  have hr : Real.sqrt h ≠ 0 := (Real.sqrt_pos.2 hh).ne'
  have hrr : Real.sqrt h ^ 2 = h := Real.sq_sqrt hh.le
  have hpos : 0 < 2 * (1 + d) * s := by positivity
  constructor
  · have := (lin_tendsto (Real.sqrt h) s d hs hr hd0 hd1 (by rw [hrr]; exact hstep) (x₀ - μ, 0)).1.const_add μ
    rw [add_zero] at this
    exact this
  · have := sum_tendsto (Real.sqrt h) s d hs hr hd0 hd1 (by rw [hrr]; exact hstep)
    rw [hrr] at this
    have e : s ^ 2 * (1 + d) * 2 / (2 * (1 + d) * s - h) = s / (1 - h / (2 * (1 + d) * s)) := by
      have h2 : 2 * (1 + d) * s - h ≠ 0 := by linarith
      have h3 : 1 - h / (2 * (1 + d) * s) = (2 * (1 + d) * s - h) / (2 * (1 + d) * s) := by
        rw [sub_div, div_self hpos.ne']
      rw [h3, div_div_eq_mul_div]
      congr 1
      ring
    rw [← e]
    exact this

/-- The variance in the long run. -/
noncomputable def limitVar (d h s : ℝ) : ℝ := s / (1 - h / (2 * (1 + d) * s))

/-- **C108, convergence in distribution.** For a step size below `2 (1 + d) σ²` the expectation of every bounded continuous function of
a coordinate of the sample tends to that under the normal distribution of mean `μ` and variance `σ² / (1 - h / (2 (1 + d) σ²))`, from any
start. -/
theorem C108_converges (P : Measure Ω) [IsProbabilityMeasure P] (normal : Ω → Key → ι → ℝ) (i : ι)
    (hm : ∀ k, Measurable fun ω => normal ω k i) (hi : iIndepFun (fun k ω => normal ω k i) P)
    (hl : ∀ k, P.map (fun ω => normal ω k i) = gaussianReal 0 1) (d h : ℝ) (hd0 : 0 ≤ d) (hd1 : d < 1) (μ s : ι → ℝ) (hs : 0 < s i)
    (hh : 0 < h) (hstep : h < 2 * (1 + d) * s i) (key : Key) (x₀ : ι → ℝ) (f : BoundedContinuousFunction ℝ ℝ) :
    Tendsto (fun t => ∫ ω, f (sampler d h μ s (normal ω) key x₀ t i) ∂P) atTop
      (𝓝 (∫ x, f x ∂gaussianReal (μ i) (Real.toNNReal (limitVar d h (s i))))) := by
  let law : ℕ → ProbabilityMeasure ℝ := fun t =>
    ⟨gaussianReal (sampleMean d h (s i) (μ i) (x₀ i) t) (Real.toNNReal (sampleVar d h (s i) t)), inferInstance⟩
  let target : ProbabilityMeasure ℝ := ⟨gaussianReal (μ i) (Real.toNNReal (limitVar d h (s i))), inferInstance⟩
  obtain ⟨h1, h2⟩ := C108_limit d h (s i) (μ i) (x₀ i) hd0 hd1 hs hh hstep
  have hlaw : Tendsto law atTop (𝓝 target) := by
    refine ProbabilityMeasure.tendsto_of_tendsto_charFun fun u => ?_
    simp only [law, target, ProbabilityMeasure.coe_mk, charFun_gaussianReal]
    refine (Complex.continuous_exp.tendsto _).comp ?_
    have e1 := (Complex.continuous_ofReal.tendsto _).comp h1
    have e2 := (Complex.continuous_ofReal.tendsto _).comp ((NNReal.continuous_coe.tendsto _).comp ((continuous_real_toNNReal.tendsto _).comp h2))
    exact ((e1.const_mul (u : ℂ)).mul_const Complex.I).sub ((e2.mul_const ((u : ℂ) ^ 2)).div_const 2)
  have hint := ProbabilityMeasure.tendsto_iff_forall_integral_tendsto.1 hlaw f
  refine hint.congr fun t => ?_
  have hmeas : AEMeasurable (fun ω => sampler d h μ s (normal ω) key x₀ t i) P := by
    by_contra hcon
    have h3 := C108_law P normal i hm hi hl d h hd1.le μ s key x₀ t
    rw [Measure.map_of_not_aemeasurable hcon] at h3
    have := congrArg (fun M => M Set.univ) h3
    simp at this
  simp only [law, ProbabilityMeasure.coe_mk]
  rw [← C108_law P normal i hm hi hl d h hd1.le μ s key x₀ t, integral_map hmeas f.continuous.aestronglyMeasurable]

/-- **C108, smaller steps.** The variance in the long run tends to that of the posterior as the step size tends to zero. -/
theorem C108_small_steps (d s : ℝ) (hd0 : 0 ≤ d) (hs : 0 < s) : Tendsto (fun h => limitVar d h s) (𝓝[>] 0) (𝓝 s) := by
  have hc : ContinuousAt (fun h => limitVar d h s) 0 := by
    unfold limitVar
    refine ContinuousAt.div (by fun_prop) (by fun_prop) (by simp)
  have := hc.tendsto
  simp only [limitVar, zero_div, sub_zero, div_one] at this
  exact this.mono_left nhdsWithin_le_nhds

/-- **C108, not the posterior.** Whatever the constant step size, the samples settle at a distribution that is wider than the posterior: its
variance exceeds that of the posterior by the factor `1 + h / (2 (1 + d) σ² - h)`. -/
theorem C108_posterior_false (d h s : ℝ) (hd0 : 0 ≤ d) (hs : 0 < s) (hh : 0 < h) (hstep : h < 2 * (1 + d) * s) :
    s < limitVar d h s ∧ limitVar d h s = s * (1 + h / (2 * (1 + d) * s - h)) := by
  have hpos : 0 < 2 * (1 + d) * s := by positivity
  have hsub : 0 < 2 * (1 + d) * s - h := by linarith
  have e : limitVar d h s = s * (1 + h / (2 * (1 + d) * s - h)) := by
    unfold limitVar
    have h3 : 1 - h / (2 * (1 + d) * s) = (2 * (1 + d) * s - h) / (2 * (1 + d) * s) := by
      rw [sub_div, div_self hpos.ne']
    rw [h3, div_div_eq_mul_div, mul_div_assoc]
    congr 1
    rw [div_eq_iff hsub.ne', add_mul, div_mul_cancel₀ _ hsub.ne']
    ring
  refine ⟨?_, e⟩
  rw [e]
  have : 0 < h / (2 * (1 + d) * s - h) := by positivity
  nlinarith

/-- **C108, steps that are too long.** Without momentum (SGLD) and with a step size of at least twice the variance of the posterior, the
variance of the samples grows beyond any bound. -/
theorem C108_unstable (h s : ℝ) (hs : 0 < s) (hstep : 2 * s ≤ h) : Tendsto (sampleVar 0 h s) atTop atTop := by
  have hh : 0 < h := by linarith
  have hit : ∀ k : ℕ, ((lin (Real.sqrt h) s 0)^[k] (Real.sqrt h, 1)).1 = (1 - h / s) ^ k * Real.sqrt h := by
    intro k
    induction k with
    | zero => simp
    | succ k ih =>
      rw [Function.iterate_succ_apply']
      have : ∀ z, (lin (Real.sqrt h) s 0 z).1 = (1 - h / s) * z.1 := by
        intro z
        have hrr : Real.sqrt h * Real.sqrt h = h := Real.mul_self_sqrt hh.le
        simp only [lin]
        linear_combination (-(z.1 / s)) * hrr
      rw [this, ih]
      ring
  have hlow : ∀ t : ℕ, 2 * h * (t : ℝ) ≤ sampleVar 0 h s t := by
    intro t
    unfold sampleVar
    have hterm : ∀ k ∈ range t, h ≤ ((lin (Real.sqrt h) s 0)^[k] (Real.sqrt h, 1)).1 ^ 2 := by
      intro k _
      rw [hit, mul_pow, Real.sq_sqrt hh.le, ← pow_mul, mul_comm k 2, pow_mul]
      have h1 : 2 ≤ h / s := by rw [le_div_iff₀ hs]; exact hstep
      have h2 : 1 ≤ (1 - h / s) ^ 2 := by nlinarith
      have h3 := one_le_pow₀ (n := k) h2
      nlinarith
    have := Finset.card_nsmul_le_sum (range t) _ h hterm
    simp only [card_range, nsmul_eq_mul] at this
    linarith
  refine tendsto_atTop_mono hlow ?_
  exact tendsto_natCast_atTop_atTop.const_mul_atTop (by linarith)

/-- The hypotheses hold of independent standard normal draws, one for each key. -/
example : ∃ (Ω : Type) (_ : MeasurableSpace Ω) (P : Measure Ω) (_ : IsProbabilityMeasure P) (normal : Ω → Key → Unit → ℝ),
    (∀ k, Measurable fun ω => normal ω k ()) ∧ iIndepFun (fun k ω => normal ω k ()) P ∧
    ∀ k, P.map (fun ω => normal ω k ()) = gaussianReal 0 1 :=
  ⟨Key → ℝ, inferInstance, Measure.infinitePi fun _ => gaussianReal 0 1, inferInstance, fun ω k _ => ω k,
    fun k => measurable_pi_apply k, iIndepFun_infinitePi (X := fun _ x => x) fun _ => measurable_id,
    fun k => Measure.infinitePi_map_eval _ k⟩

/-- A step size equal to the variance of the posterior doubles the variance of SGLD samples. -/
example : limitVar 0 1 1 = 2 := by norm_num [limitVar]

/-- A first step from the mean: the variance is `2 h (1 - d)`. -/
example : sampleVar (1 / 2) 4 3 1 = 4 := by
  norm_num [sampleVar]

/-! ### Concrete cases that meet the hypotheses of the theorems above -/

example := C108_law (ι := Fin 2) (Measure.infinitePi fun _ : Key => gaussianReal 0 1) (fun ω k _ => ω k) 1
  (fun k => measurable_pi_apply k) (iIndepFun_infinitePi (X := fun _ x => x) fun _ => measurable_id)
  (fun k => Measure.infinitePi_map_eval _ k) (9 / 10) (1 / 10) (by norm_num) ![1, 2] ![1, 3]
example := C108_limit (9 / 10) (1 / 10) 2 5 0 (by norm_num) (by norm_num) (by norm_num) (by norm_num) (by norm_num)
example := C108_converges (ι := Fin 2) (Measure.infinitePi fun _ : Key => gaussianReal 0 1) (fun ω k _ => ω k) 1
  (fun k => measurable_pi_apply k) (iIndepFun_infinitePi (X := fun _ x => x) fun _ => measurable_id)
  (fun k => Measure.infinitePi_map_eval _ k) (9 / 10) (1 / 10) (by norm_num) (by norm_num) ![1, 2] ![1, 3] (by simp) (by norm_num)
  (by simp; norm_num)
example := C108_small_steps (9 / 10) 2 (by norm_num) (by norm_num)
example := C108_posterior_false (9 / 10) (1 / 10) 2 (by norm_num) (by norm_num) (by norm_num) (by norm_num)

end Verif.Props.Langevin
