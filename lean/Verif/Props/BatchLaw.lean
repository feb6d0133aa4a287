import Verif.Props.LangevinSchedule
import Verif.Props.Likelihood
import Mathlib.Probability.Moments.Variance

/-!
Property C121: SGLD on mini-batches, when the posterior is Gaussian.

The unknown is the mean of independent normal data with known variances, the prior is a normal distribution of mean zero.
-/
set_option linter.unusedSectionVars false

namespace Verif.Props.BatchLaw

open Verif.SGMCMC Verif.Likelihood Verif.Props Verif.Props.Langevin Verif.Props.LangevinSchedule MeasureTheory ProbabilityTheory Finset Filter Topology

/-! ## The gradient of a batch -/

/-- The log-joint probability of a coordinate `x` of the mean as estimated on a batch `ys` of `N` data, up to constants: the call of C51 with a normal likelihood of variance `v`
and a normal prior of variance `w`. -/
noncomputable def batchJoint (N : ℕ) (v w : ℝ) (ys : List ℝ) (x : ℝ) : ℝ :=
  jointOf (-(x ^ 2) / (2 * w)) N (ys.map fun y => -((y - x) ^ 2) / (2 * v))

/-- The variance of the posterior. -/
noncomputable def postVar (N : ℕ) (v w : ℝ) : ℝ := 1 / (N / v + 1 / w)

/-- The mean of the posterior if all data were like the batch. -/
noncomputable def centre (N : ℕ) (v w : ℝ) (ys : List ℝ) : ℝ := postVar N v w * (N / v) * (ys.sum / ys.length)

theorem postVar_pos (N : ℕ) (v w : ℝ) (hv : 0 < v) (hw : 0 < w) : 0 < postVar N v w := by
  unfold postVar; positivity

theorem sum_deriv (v : ℝ) (hv : v ≠ 0) (ys : List ℝ) (x : ℝ) :
    HasDerivAt (fun x => (ys.map fun y => -((y - x) ^ 2) / (2 * v)).sum) ((ys.sum - ys.length * x) / v) x := by
  induction ys with
  | nil => simpa using hasDerivAt_const x (0 : ℝ)
  | cons y t ih =>
    have h1 : HasDerivAt (fun x => -((y - x) ^ 2) / (2 * v)) ((y - x) / v) x := by
      have := ((((hasDerivAt_id x).const_sub y).pow 2).neg).div_const (2 * v)
      refine this.congr_deriv ?_
      simp only [id_eq]
      field_simp
      push_cast
      ring
    have := h1.fun_add ih
    simp only [List.map_cons, List.sum_cons]
    refine this.congr_deriv ?_
    push_cast [List.length_cons]
    ring

/-- **C121, the gradient of a batch.** The gradient estimated on a batch is that of a normal posterior with the right variance, whatever the batch, but with a mean that depends on
the batch. -/
theorem C121_gradient (N : ℕ) (v w : ℝ) (hv : 0 < v) (hw : 0 < w) (ys : List ℝ) (hy : ys ≠ []) (x : ℝ) :
    HasDerivAt (batchJoint N v w ys) (-(x - centre N v w ys) / postVar N v w) x := by
  have hl : (ys.length : ℝ) ≠ 0 := by
    have := List.length_pos_iff.2 hy
    exact_mod_cast this.ne'
  unfold batchJoint jointOf weighted
  have h1 := (sum_deriv v hv.ne' ys x).mul_const ((N : ℝ) / ((ys.map fun y => -((y - x) ^ 2) / (2 * v)).length : ℝ))
  have h2 : HasDerivAt (fun x : ℝ => -(x ^ 2) / (2 * w)) (-x / w) x := by
    have := (((hasDerivAt_id x).pow 2).neg).div_const (2 * w)
    refine this.congr_deriv ?_
    simp only [id_eq]
    field_simp
    push_cast
    ring
  have h3 := h1.fun_add h2
  simp only [List.length_map] at h3 ⊢
  refine h3.congr_deriv ?_
  have hp := (postVar_pos N v w hv hw).ne'
  have hinv : (postVar N v w)⁻¹ = N / v + 1 / w := by unfold postVar; rw [one_div, inv_inv]
  have e : -(x - centre N v w ys) / postVar N v w = N / v * (ys.sum / ys.length) - x * (postVar N v w)⁻¹ := by
    unfold centre
    generalize postVar N v w = p at hp
    field_simp
    ring
  rw [e, hinv]
  field_simp
  ring

/-- **C121, an epoch.** Over equally sized batches that make up the data the centres average to the mean of the posterior. -/
theorem C121_epoch (N : ℕ) (v w : ℝ) (batches : List (List ℝ)) (size : ℕ) (hsize : 0 < size) (hb : ∀ b ∈ batches, b.length = size) :
    (batches.map (centre N v w)).sum = batches.length * centre N v w batches.flatten := by
  have hlen : batches.flatten.length = batches.length * size := by
    induction batches with
    | nil => simp
    | cons b t ih =>
      simp only [List.flatten_cons, List.length_append, List.length_cons]
      rw [ih fun x hx => hb x (List.mem_cons_of_mem _ hx), hb b List.mem_cons_self]
      ring
  have hs : (size : ℝ) ≠ 0 := by exact_mod_cast hsize.ne'
  have hsum : (batches.map (centre N v w)).sum = postVar N v w * (N / v) * (batches.flatten.sum / size) := by
    clear hlen
    induction batches with
    | nil => simp
    | cons b t ih =>
      simp only [List.map_cons, List.sum_cons, List.flatten_cons, List.sum_append]
      rw [ih fun x hx => hb x (List.mem_cons_of_mem _ hx)]
      unfold centre
      rw [hb b List.mem_cons_self]
      ring
  rw [hsum]
  rcases Nat.eq_zero_or_pos batches.length with h0 | h0
  · rw [List.length_eq_zero_iff.1 h0]; simp
  · have : (batches.length : ℝ) ≠ 0 := by exact_mod_cast h0.ne'
    unfold centre
    rw [hlen]
    push_cast
    field_simp

/-! ## The samples for given batches -/

variable {ι Ω : Type} [MeasurableSpace Ω]

/-- SGLD with the constant step size `h` on the batches `B 0`, `B 1`, ..., whose rows have one entry for every coordinate: `grad` is the gradient of `batchJoint`. -/
noncomputable def sgldOn (resample : Option ℕ) (h : ℝ) (N : ℕ) (v w : ι → ℝ) (B : ℕ → List (ι → ℝ)) (normal : Key → ι → ℝ) (key : Key) (x₀ : ι → ℝ) (t : ℕ) : ι → ℝ :=
  (sghmcRunOn (identityPrecond ι) 0 resample (fun _ => h) normal
    (fun t x i => deriv (batchJoint N (v i) (w i) ((B t).map (· i))) (x i)) key x₀ t).1

/-- The mean of a sample: it moves towards the centre of the batch by the share `h / σ²`. -/
noncomputable def meanOn (h s : ℝ) (c : ℕ → ℝ) (x₀ : ℝ) : ℕ → ℝ
  | 0 => x₀
  | t + 1 => (1 - h / s) * meanOn h s c x₀ t + h / s * c t

theorem sgldOn_eq (resample : Option ℕ) (h : ℝ) (hh : 0 ≤ h) (N : ℕ) (v w : ι → ℝ) (B : ℕ → List (ι → ℝ)) (hB : ∀ t, B t ≠ []) (normal : Key → ι → ℝ) (key : Key)
    (x₀ : ι → ℝ) (i : ι) (hv : 0 < v i) (hw : 0 < w i) (t : ℕ) :
    let s := postVar N (v i) (w i)
    let R := sghmcRunOn (identityPrecond ι) 0 resample (fun _ => h) normal
      (fun t x i => deriv (batchJoint N (v i) (w i) ((B t).map (· i))) (x i)) key x₀ t
    R.2.key = Key.right^[t] key ∧ R.1 i = meanOn h s (fun t => centre N (v i) (w i) ((B t).map (· i))) (x₀ i) t +
      ∑ k ∈ range t, coef (fun _ => h) s t k * normal (.left (Key.right^[k] key)) i := by
  intro s R
  induction t with
  | zero => simp [R, sghmcRunOn, sghmcInit, meanOn]
  | succ t ih =>
    obtain ⟨hk, hp⟩ := ih
    set R' := sghmcRunOn (identityPrecond ι) 0 resample (fun _ => h) normal
      (fun t x i => deriv (batchJoint N (v i) (w i) ((B t).map (· i))) (x i)) key x₀ t with hR'
    refine ⟨?_, ?_⟩
    · simp only [R, sghmcRunOn, sghmcUpdate]
      rw [← hR', hk, Function.iterate_succ_apply']
    have hg : deriv (batchJoint N (v i) (w i) ((B t).map (· i))) (R'.1 i) = -(R'.1 i - centre N (v i) (w i) ((B t).map (· i))) / s :=
      (C121_gradient N (v i) (w i) hv hw _ (by simpa using hB t) _).deriv
    have hpos : R.1 i = R'.1 i + (-(R'.1 i - centre N (v i) (w i) ((B t).map (· i))) / s * Real.sqrt h + normal (.left R'.2.key) i * Real.sqrt 2) * Real.sqrt h := by
      obtain ⟨m0, hm0⟩ : ∃ m0, R.1 i = R'.1 i + (0 * m0 + deriv (batchJoint N (v i) (w i) ((B t).map (· i))) (R'.1 i) * Real.sqrt h +
          normal (.left R'.2.key) i * Real.sqrt (2 * (1 - 0))) * Real.sqrt h := ⟨_, rfl⟩
      rw [hm0, hg, zero_mul, zero_add, sub_zero, mul_one]
    rw [hpos, hk, sum_range_succ]
    have hrr : Real.sqrt h * Real.sqrt h = h := Real.mul_self_sqrt hh
    have e1 : ∑ k ∈ range t, coef (fun _ => h) s (t + 1) k * normal (.left (Key.right^[k] key)) i =
        (1 - h / s) * ∑ k ∈ range t, coef (fun _ => h) s t k * normal (.left (Key.right^[k] key)) i := by
      rw [mul_sum]
      refine sum_congr rfl fun k hk => ?_
      rw [mem_range] at hk
      simp only [coef, if_neg hk.ne]
      ring
    have e2 : coef (fun _ => h) s (t + 1) t = Real.sqrt 2 * Real.sqrt h := by simp [coef]
    rw [e1, e2, meanOn, hp]
    linear_combination (-(meanOn h s (fun t => centre N (v i) (w i) ((B t).map (· i))) (x₀ i) t + ∑ k ∈ range t, coef (fun _ => h) s t k * normal (.left (Key.right^[k] key)) i
      - centre N (v i) (w i) ((B t).map (· i))) / s) * hrr

/-- **C121, the law of a sample.** Given the batches, a coordinate of the sample is normal; its variance is the one it has without mini-batches, its mean follows the centres of the
batches. -/
theorem C121_law (P : Measure Ω) [IsProbabilityMeasure P] (normal : Ω → Key → ι → ℝ) (i : ι)
    (hm : ∀ k, Measurable fun ω => normal ω k i) (hi : iIndepFun (fun k ω => normal ω k i) P)
    (hl : ∀ k, P.map (fun ω => normal ω k i) = gaussianReal 0 1) (resample : Option ℕ) (h : ℝ) (hh : 0 ≤ h) (N : ℕ) (v w : ι → ℝ) (hv : 0 < v i) (hw : 0 < w i)
    (B : ℕ → List (ι → ℝ)) (hB : ∀ t, B t ≠ []) (key : Key) (x₀ : ι → ℝ) (t : ℕ) :
    P.map (fun ω => sgldOn resample h N v w B (normal ω) key x₀ t i) =
      gaussianReal (meanOn h (postVar N (v i) (w i)) (fun t => centre N (v i) (w i) ((B t).map (· i))) (x₀ i) t)
        (Real.toNNReal (schedVar (fun _ => h) (postVar N (v i) (w i)) t)) := by
  set s := postVar N (v i) (w i)
  set m := meanOn h s (fun t => centre N (v i) (w i) ((B t).map (· i))) (x₀ i) t with hmdef
  have hrun : ∀ ω, sgldOn resample h N v w B (normal ω) key x₀ t i = m +
      ∑ k ∈ range t, coef (fun _ => h) s t k * normal ω (.left (Key.right^[k] key)) i :=
    fun ω => (sgldOn_eq resample h hh N v w B hB (normal ω) key x₀ i hv hw t).2
  have hsum := sum_gaussian P (fun k ω => normal ω (.left (Key.right^[k] key)) i) (fun k => hm _)
    (hi.precomp (keys_injective key)) (fun k => hl _) (coef (fun _ => h) s t) (range t)
  rw [coef_sq _ (fun _ => hh)] at hsum
  simp only [hrun]
  have hmeas : Measurable fun ω => ∑ k ∈ range t, coef (fun _ => h) s t k * normal ω (.left (Key.right^[k] key)) i := by
    apply Finset.measurable_sum
    intro k _
    exact (hm _).const_mul _
  have hcomp : (fun ω => m + ∑ k ∈ range t, coef (fun _ => h) s t k * normal ω (.left (Key.right^[k] key)) i) =
      (fun y => m + y) ∘ fun ω => ∑ k ∈ range t, coef (fun _ => h) s t k * normal ω (.left (Key.right^[k] key)) i := rfl
  rw [hcomp, ← Measure.map_map (by fun_prop) hmeas, hsum, gaussianReal_map_const_add, zero_add]

/-! ## Batches in a fixed order -/

theorem meanOn_diff (h s : ℝ) (c : ℕ → ℝ) (x y : ℝ) (t : ℕ) : meanOn h s c x t - meanOn h s c y t = (1 - h / s) ^ t * (x - y) := by
  induction t with
  | zero => simp [meanOn]
  | succ t ih => simp only [meanOn]; rw [pow_succ]; linear_combination (1 - h / s) * ih

theorem factor_lt (h s : ℝ) (hs : 0 < s) (hh : 0 < h) (hstep : h < 2 * s) : |1 - h / s| < 1 := by
  have h1 : 0 < h / s := by positivity
  have h2 : h / s < 2 := by rwa [div_lt_iff₀ hs]
  rw [abs_lt]; constructor <;> linarith

/-- **C121, batches in a fixed order.** If the batches come in the same order in every epoch (a loader without shuffling) and the step size is below `2 σ²`, the mean of the samples
approaches, from any start, a cycle of the length of an epoch, whose average is that of the centres. -/
theorem C121_cycle (h s : ℝ) (hs : 0 < s) (hh : 0 < h) (hstep : h < 2 * s) (c : ℕ → ℝ) (n : ℕ) (hn : 0 < n) (hc : ∀ t, c (t + n) = c t) (x₀ : ℝ) :
    ∃ p : ℕ → ℝ, (∀ t, p (t + n) = p t) ∧ ∑ j ∈ range n, p j = ∑ j ∈ range n, c j ∧ Tendsto (fun t => meanOn h s c x₀ t - p t) atTop (𝓝 0) := by
  set a := 1 - h / s with ha
  have ha1 : |a| < 1 := factor_lt h s hs hh hstep
  have han : a ^ n ≠ 1 := fun h1 => by
    have h2 := pow_lt_one₀ (abs_nonneg a) ha1 hn.ne'
    rw [← abs_pow, h1, abs_one] at h2
    exact lt_irrefl _ h2
  set x := meanOn h s c 0 n / (1 - a ^ n) with hx
  have hfix : meanOn h s c x n = x := by
    have h1 := meanOn_diff h s c x 0 n
    have h2 : meanOn h s c 0 n = x * (1 - a ^ n) := by
      rw [hx, div_mul_cancel₀]
      exact sub_ne_zero.2 han.symm
    rw [h2, ← ha] at h1
    linarith
  have hper : ∀ t, meanOn h s c x (t + n) = meanOn h s c x t := by
    intro t
    induction t with
    | zero => rw [Nat.zero_add, hfix]; rfl
    | succ t ih =>
      rw [show t + 1 + n = (t + n) + 1 by omega]
      simp only [meanOn]
      rw [ih, hc]
  refine ⟨meanOn h s c x, hper, ?_, ?_⟩
  · have h1 : ∑ j ∈ range n, meanOn h s c x (j + 1) = ∑ j ∈ range n, meanOn h s c x j := by
      have e := sum_range_succ' (fun j => meanOn h s c x j) n
      rw [sum_range_succ] at e
      have h0 : meanOn h s c x n = meanOn h s c x 0 := by rw [hfix]; rfl
      linarith
    simp only [meanOn, sum_add_distrib, ← mul_sum] at h1
    have h2 : h / s ≠ 0 := by positivity
    have h3 : h / s * (∑ j ∈ range n, c j - ∑ j ∈ range n, meanOn h s c x j) = 0 := by linarith
    rcases mul_eq_zero.1 h3 with h4 | h4
    · exact absurd h4 h2
    · linarith
  · simp only [meanOn_diff]
    have := (tendsto_pow_atTop_nhds_zero_of_abs_lt_one ha1).mul_const (x₀ - x)
    rwa [zero_mul] at this

/-- **C121, the variance in the long run** does not depend on the batches. -/
theorem C121_variance (h s : ℝ) (hs : 0 < s) (hh : 0 < h) (hstep : h < 2 * s) :
    Tendsto (schedVar (fun _ => h) s) atTop (𝓝 (s / (1 - h / (2 * s)))) := by
  have hsub : 2 * s - h ≠ 0 := by intro h0; linarith
  have e : ∀ t, schedVar (fun _ => h) s t = s / (1 - h / (2 * s)) - (s / (1 - h / (2 * s))) * ((1 - h / s) ^ 2) ^ t := by
    have hden : 1 - h / (2 * s) ≠ 0 := by
      have : 1 - h / (2 * s) = (2 * s - h) / (2 * s) := by field_simp
      rw [this]; exact div_ne_zero hsub (by positivity)
    intro t
    induction t with
    | zero => simp [schedVar]
    | succ t ih =>
      simp only [schedVar]
      rw [ih, pow_succ]
      have key : (1 - h / s) ^ 2 * (s / (1 - h / (2 * s))) + 2 * h = s / (1 - h / (2 * s)) := by
        have : 1 - h / (2 * s) = (2 * s - h) / (2 * s) := by field_simp
        rw [this]
        obtain ⟨D, hD⟩ : ∃ D, D = 2 * s - h := ⟨_, rfl⟩
        rw [← hD] at hsub ⊢
        rw [show h = 2 * s - D by linarith]
        field_simp
        ring
      linear_combination key
  have hsq : (1 - h / s) ^ 2 < 1 := by
    have := factor_lt h s hs hh hstep
    rw [← sq_abs]
    exact pow_lt_one₀ (abs_nonneg _) this (by norm_num)
  have := ((tendsto_pow_atTop_nhds_zero_of_lt_one (sq_nonneg (1 - h / s)) hsq).const_mul (s / (1 - h / (2 * s)))).const_sub (s / (1 - h / (2 * s)))
  rw [mul_zero, sub_zero] at this
  exact this.congr fun t => (e t).symm

/-- **C121, refuted: one sample per epoch.** With two batches in a fixed order and one sample per epoch, the mean of the samples tends to a value that differs from the mean of the
posterior, unless the centres of the batches agree: the last batch of the epoch counts more. -/
theorem C121_thinning_false (h s : ℝ) (hs : 0 < s) (hh : 0 < h) (hstep : h < 2 * s) (c : ℕ → ℝ) (hc : ∀ t, c (t + 2) = c t) (x₀ : ℝ) :
    Tendsto (fun n => meanOn h s c x₀ (2 * n)) atTop (𝓝 ((c 0 + c 1) / 2 + h / (2 * s - h) * ((c 1 - c 0) / 2))) ∧
    (c 0 ≠ c 1 → (c 0 + c 1) / 2 + h / (2 * s - h) * ((c 1 - c 0) / 2) ≠ (c 0 + c 1) / 2) := by
  have hsub : 0 < 2 * s - h := by linarith
  set L := (c 0 + c 1) / 2 + h / (2 * s - h) * ((c 1 - c 0) / 2) with hL
  have hc2 : ∀ n, c (2 * n) = c 0 ∧ c (2 * n + 1) = c 1 := by
    intro n
    induction n with
    | zero => simp
    | succ n ih =>
      rw [show 2 * (n + 1) = 2 * n + 2 by ring, show 2 * n + 2 + 1 = (2 * n + 1) + 2 by ring, hc, hc]
      exact ih
  have e : ∀ n, meanOn h s c x₀ (2 * n) - L = ((1 - h / s) ^ 2) ^ n * (x₀ - L) := by
    intro n
    induction n with
    | zero => simp [meanOn]
    | succ n ih =>
      rw [show 2 * (n + 1) = 2 * n + 1 + 1 by ring]
      simp only [meanOn]
      rw [(hc2 n).1, (hc2 n).2]
      have key : (1 - h / s) * (h / s * c 0) + h / s * c 1 = L - (1 - h / s) ^ 2 * L := by
        rw [hL]
        obtain ⟨D, hD⟩ : ∃ D, D = 2 * s - h := ⟨_, rfl⟩
        have hD0 : D ≠ 0 := by rw [hD]; exact hsub.ne'
        rw [← hD, show h = 2 * s - D by linarith]
        field_simp
        ring
      rw [pow_succ]
      linear_combination (1 - h / s) ^ 2 * ih + key
  refine ⟨?_, fun hne heq => ?_⟩
  · have hsq : (1 - h / s) ^ 2 < 1 := by
      have := factor_lt h s hs hh hstep
      rw [← sq_abs]
      exact pow_lt_one₀ (abs_nonneg _) this (by norm_num)
    have := ((tendsto_pow_atTop_nhds_zero_of_lt_one (sq_nonneg (1 - h / s)) hsq).mul_const (x₀ - L)).add_const L
    rw [zero_mul, zero_add] at this
    refine this.congr fun n => ?_
    rw [← e n, sub_add_cancel]
  · have h1 : h / (2 * s - h) * ((c 1 - c 0) / 2) = 0 := by linarith
    have h2 : h / (2 * s - h) ≠ 0 := by positivity
    rcases mul_eq_zero.1 h1 with h3 | h3
    · exact h2 h3
    · exact hne (by linarith)

/-! ## Batches drawn at random -/

/-- The sample when the centres `C k` of the batches and the noise `Z k` are random. -/
noncomputable def chain (h s x₀ : ℝ) (C Z : ℕ → Ω → ℝ) : ℕ → Ω → ℝ
  | 0, _ => x₀
  | t + 1, ω => (1 - h / s) * chain h s x₀ C Z t ω + h / s * C t ω + Real.sqrt (2 * h) * Z t ω

/-- The chain is the sampler: the batches may depend on `ω`. -/
theorem chain_eq (resample : Option ℕ) (h : ℝ) (hh : 0 ≤ h) (N : ℕ) (v w : ι → ℝ) (B : Ω → ℕ → List (ι → ℝ)) (hB : ∀ ω t, B ω t ≠ []) (normal : Ω → Key → ι → ℝ) (key : Key)
    (x₀ : ι → ℝ) (i : ι) (hv : 0 < v i) (hw : 0 < w i) (t : ℕ) (ω : Ω) :
    sgldOn resample h N v w (B ω) (normal ω) key x₀ t i =
      chain h (postVar N (v i) (w i)) (x₀ i) (fun t ω => centre N (v i) (w i) ((B ω t).map (· i))) (fun t ω => normal ω (.left (Key.right^[t] key)) i) t ω := by
  have h1 : ∀ t, sgldOn resample h N v w (B ω) (normal ω) key x₀ t i = _ := fun t => (sgldOn_eq resample h hh N v w (B ω) (hB ω) (normal ω) key x₀ i hv hw t).2
  rw [h1 t]
  clear h1
  induction t with
  | zero => simp [meanOn, chain]
  | succ t ih =>
    simp only [chain]
    rw [← ih, sum_range_succ, meanOn]
    have e1 : ∑ k ∈ range t, coef (fun _ => h) (postVar N (v i) (w i)) (t + 1) k * normal ω (.left (Key.right^[k] key)) i =
        (1 - h / postVar N (v i) (w i)) * ∑ k ∈ range t, coef (fun _ => h) (postVar N (v i) (w i)) t k * normal ω (.left (Key.right^[k] key)) i := by
      rw [mul_sum]
      refine sum_congr rfl fun k hk => ?_
      rw [mem_range] at hk
      simp only [coef, if_neg hk.ne]
      ring
    have e2 : coef (fun _ => h) (postVar N (v i) (w i)) (t + 1) t = Real.sqrt 2 * Real.sqrt h := by simp [coef]
    rw [e1, e2, Real.sqrt_mul (by norm_num)]
    ring

/-- The sample as a sum of independent terms. -/
theorem chain_sum (h s x₀ : ℝ) (C Z : ℕ → Ω → ℝ) (t : ℕ) (ω : Ω) :
    chain h s x₀ C Z t ω = (1 - h / s) ^ t * x₀ + ∑ k ∈ range t, (1 - h / s) ^ (t - 1 - k) * (h / s * C k ω + Real.sqrt (2 * h) * Z k ω) := by
  induction t with
  | zero => simp [chain]
  | succ t ih =>
    simp only [chain]
    rw [ih, sum_range_succ, show t + 1 - 1 - t = 0 by omega, pow_zero, one_mul, pow_succ, mul_add, mul_sum]
    have : ∑ k ∈ range t, (1 - h / s) * ((1 - h / s) ^ (t - 1 - k) * (h / s * C k ω + Real.sqrt (2 * h) * Z k ω)) =
        ∑ k ∈ range t, (1 - h / s) ^ (t + 1 - 1 - k) * (h / s * C k ω + Real.sqrt (2 * h) * Z k ω) := by
      refine sum_congr rfl fun k hk => ?_
      rw [mem_range] at hk
      rw [← mul_assoc, ← pow_succ', show t - 1 - k + 1 = t + 1 - 1 - k by omega]
    rw [this]
    ring

/-- **C121, random batches.** If the batches are drawn independently, with centres of mean `μ` and variance `V`, the sample has, in the long run, the mean `μ` and a variance larger by
the factor `1 + h V / (2 σ⁴)` than without mini-batches. -/
theorem C121_random (P : Measure Ω) [IsProbabilityMeasure P] (C Z : ℕ → Ω → ℝ) (hC : ∀ k, MemLp (C k) 2 P) (hZ : ∀ k, MemLp (Z k) 2 P)
    (hind : iIndepFun (fun k ω => (C k ω, Z k ω)) P) (hpair : ∀ k, IndepFun (C k) (Z k) P) (μ V : ℝ)
    (hCm : ∀ k, ∫ ω, C k ω ∂P = μ) (hCv : ∀ k, ProbabilityTheory.variance (C k) P = V) (hZm : ∀ k, ∫ ω, Z k ω ∂P = 0) (hZv : ∀ k, ProbabilityTheory.variance (Z k) P = 1)
    (h s x₀ : ℝ) (hs : 0 < s) (hh : 0 < h) (hstep : h < 2 * s) :
    Tendsto (fun t => ∫ ω, chain h s x₀ C Z t ω ∂P) atTop (𝓝 μ) ∧
    Tendsto (fun t => ProbabilityTheory.variance (chain h s x₀ C Z t) P) atTop (𝓝 (s / (1 - h / (2 * s)) * (1 + h * V / (2 * s ^ 2)))) := by
  set a := 1 - h / s with ha
  have ha1 : |a| < 1 := factor_lt h s hs hh hstep
  set U : ℕ → Ω → ℝ := fun k ω => h / s * C k ω + Real.sqrt (2 * h) * Z k ω with hU
  have hUL : ∀ k, MemLp (U k) 2 P := fun k => ((hC k).const_mul _).add ((hZ k).const_mul _)
  have hUi : iIndepFun U P := hind.comp (fun _ (p : ℝ × ℝ) => h / s * p.1 + Real.sqrt (2 * h) * p.2) fun _ => by fun_prop
  have hUm : ∀ k, ∫ ω, U k ω ∂P = h / s * μ := fun k => by
    simp only [hU]
    rw [integral_add (((hC k).integrable one_le_two).const_mul _) (((hZ k).integrable one_le_two).const_mul _), integral_const_mul, integral_const_mul, hCm, hZm]
    ring
  have hUv : ∀ k, ProbabilityTheory.variance (U k) P = (h / s) ^ 2 * V + 2 * h := fun k => by
    have e : U k = (fun ω => h / s * C k ω) + fun ω => Real.sqrt (2 * h) * Z k ω := rfl
    have hi : IndepFun (fun ω => h / s * C k ω) (fun ω => Real.sqrt (2 * h) * Z k ω) P :=
      (hpair k).comp (φ := fun x => h / s * x) (ψ := fun x => Real.sqrt (2 * h) * x) (by fun_prop) (by fun_prop)
    rw [e, hi.variance_add ((hC k).const_mul _) ((hZ k).const_mul _), variance_const_mul, variance_const_mul, hCv, hZv, Real.sq_sqrt (by positivity), mul_one]
  have hmean : ∀ t, ∫ ω, chain h s x₀ C Z t ω ∂P = a ^ t * (x₀ - μ) + μ := by
    intro t
    induction t with
    | zero => simp [chain]
    | succ t ih =>
      have hcL : Integrable (chain h s x₀ C Z t) P := by
        have : chain h s x₀ C Z t = fun ω => a ^ t * x₀ + ∑ k ∈ range t, a ^ (t - 1 - k) * U k ω := funext fun ω => chain_sum h s x₀ C Z t ω
        rw [this]
        exact (integrable_const _).add (integrable_finsetSum _ fun k _ => ((hUL k).integrable one_le_two).const_mul _)
      have e : chain h s x₀ C Z (t + 1) = fun ω => a * chain h s x₀ C Z t ω + U t ω := by
        funext ω
        simp only [chain, hU]
        ring
      rw [e, integral_add (hcL.const_mul _) ((hUL t).integrable one_le_two), integral_const_mul, ih, hUm, pow_succ, ha]
      ring
  have hvar : ∀ t, ProbabilityTheory.variance (chain h s x₀ C Z t) P = ((h / s) ^ 2 * V + 2 * h) * ∑ k ∈ range t, (a ^ 2) ^ k := by
    intro t
    have e : chain h s x₀ C Z t = fun ω => a ^ t * x₀ + (∑ k ∈ range t, fun ω => a ^ (t - 1 - k) * U k ω) ω := by
      funext ω
      rw [chain_sum, Finset.sum_apply]
    have hm : MemLp (∑ k ∈ range t, fun ω => a ^ (t - 1 - k) * U k ω) 2 P := memLp_finsetSum' _ fun k _ => (hUL k).const_mul _
    rw [e, variance_const_add hm.aestronglyMeasurable, IndepFun.variance_sum (fun k _ => (hUL k).const_mul _)]
    · simp only [variance_const_mul, hUv]
      rw [mul_sum, ← sum_range_reflect]
      refine sum_congr rfl fun k hk => ?_
      rw [mem_range] at hk
      rw [show t - 1 - (t - 1 - k) = k by omega, ← pow_mul, ← pow_mul, mul_comm 2 k, mul_comm]
    · intro j _ k _ hjk
      exact (hUi.indepFun hjk).comp (φ := fun x => a ^ (t - 1 - j) * x) (ψ := fun x => a ^ (t - 1 - k) * x) (by fun_prop) (by fun_prop)
  constructor
  · simp only [hmean]
    have := ((tendsto_pow_atTop_nhds_zero_of_abs_lt_one ha1).mul_const (x₀ - μ)).add_const μ
    rwa [zero_mul, zero_add] at this
  · simp only [hvar]
    have hsq : a ^ 2 < 1 := by
      rw [← sq_abs]
      exact pow_lt_one₀ (abs_nonneg _) ha1 (by norm_num)
    have := ((hasSum_geometric_of_lt_one (sq_nonneg a) hsq).tendsto_sum_nat).const_mul ((h / s) ^ 2 * V + 2 * h)
    have hsub : 2 * s - h ≠ 0 := by intro h0; linarith
    have e : ((h / s) ^ 2 * V + 2 * h) * (1 - a ^ 2)⁻¹ = s / (1 - h / (2 * s)) * (1 + h * V / (2 * s ^ 2)) := by
      have e1 : 1 - a ^ 2 = h * (2 * s - h) / s ^ 2 := by rw [ha]; field_simp; ring
      have e2 : 1 - h / (2 * s) = (2 * s - h) / (2 * s) := by field_simp
      rw [e1, e2]
      field_simp
      ring
    rwa [e] at this

/-- **C121, refuted: mini-batches leave the distribution alone.** The long-run variance with random batches exceeds the one without, and exceeds that of the posterior, as soon as
the batches differ. -/
theorem C121_random_false (h s V : ℝ) (hs : 0 < s) (hh : 0 < h) (hstep : h < 2 * s) (hV : 0 < V) :
    s < s / (1 - h / (2 * s)) ∧ s / (1 - h / (2 * s)) < s / (1 - h / (2 * s)) * (1 + h * V / (2 * s ^ 2)) := by
  have h1 : 0 < 1 - h / (2 * s) := by
    rw [sub_pos, div_lt_one (by positivity)]; exact hstep
  have h2 : 1 - h / (2 * s) < 1 := by
    have : 0 < h / (2 * s) := by positivity
    linarith
  have h3 : 0 < h * V / (2 * s ^ 2) := by positivity
  have h4 : 0 < s / (1 - h / (2 * s)) := by positivity
  refine ⟨?_, by nlinarith⟩
  rw [lt_div_iff₀ h1]
  nlinarith

/-! ## Examples -/

/-- Random centres and noise as `C121_random` has them exist. -/
theorem ex_random : ∃ (Ω : Type) (_ : MeasurableSpace Ω) (P : Measure Ω) (_ : IsProbabilityMeasure P) (C Z : ℕ → Ω → ℝ),
    (∀ k, MemLp (C k) 2 P) ∧ (∀ k, MemLp (Z k) 2 P) ∧ iIndepFun (fun k ω => (C k ω, Z k ω)) P ∧ (∀ k, IndepFun (C k) (Z k) P) ∧
    (∀ k, ∫ ω, C k ω ∂P = 0) ∧ (∀ k, ProbabilityTheory.variance (C k) P = 1) ∧ (∀ k, ∫ ω, Z k ω ∂P = 0) ∧ (∀ k, ProbabilityTheory.variance (Z k) P = 1) := by
  let G := gaussianReal 0 1
  let P : Measure (ℕ → ℝ × ℝ) := Measure.infinitePi fun _ => G.prod G
  have heval : ∀ k, P.map (fun ω => ω k) = G.prod G := fun k => Measure.infinitePi_map_eval _ k
  have h1 : ∀ k, P.map (fun ω => (ω k).1) = G := fun k => by
    have : (fun ω : ℕ → ℝ × ℝ => (ω k).1) = Prod.fst ∘ fun ω => ω k := rfl
    rw [this, ← Measure.map_map measurable_fst (measurable_pi_apply k), heval, Measure.map_fst_prod, measure_univ, one_smul]
  have h2 : ∀ k, P.map (fun ω => (ω k).2) = G := fun k => by
    have : (fun ω : ℕ → ℝ × ℝ => (ω k).2) = Prod.snd ∘ fun ω => ω k := rfl
    rw [this, ← Measure.map_map measurable_snd (measurable_pi_apply k), heval, Measure.map_snd_prod, measure_univ, one_smul]
  have m1 : ∀ k, Measurable fun ω : ℕ → ℝ × ℝ => (ω k).1 := fun k => by fun_prop
  have m2 : ∀ k, Measurable fun ω : ℕ → ℝ × ℝ => (ω k).2 := fun k => by fun_prop
  have hL : ∀ f : (ℕ → ℝ × ℝ) → ℝ, Measurable f → P.map f = G → MemLp f 2 P ∧ ∫ ω, f ω ∂P = 0 ∧ ProbabilityTheory.variance f P = 1 := fun f hf hfl => by
    refine ⟨?_, ?_, ?_⟩
    · have : MemLp id 2 (P.map f) := by rw [hfl]; exact memLp_id_gaussianReal 2
      exact (memLp_map_measure_iff aestronglyMeasurable_id hf.aemeasurable).1 this
    · have := integral_map (μ := P) hf.aemeasurable (f := fun x : ℝ => x) aestronglyMeasurable_id
      rw [← this, hfl, integral_id_gaussianReal]
    · have := variance_map (μ := P) (X := fun x : ℝ => x) (Y := f) aemeasurable_id hf.aemeasurable
      rw [hfl, variance_fun_id_gaussianReal] at this
      simpa [Function.comp_def] using this.symm
  refine ⟨ℕ → ℝ × ℝ, inferInstance, P, inferInstance, fun k ω => (ω k).1, fun k ω => (ω k).2, fun k => (hL _ (m1 k) (h1 k)).1, fun k => (hL _ (m2 k) (h2 k)).1, ?_, fun k => ?_,
    fun k => (hL _ (m1 k) (h1 k)).2.1, fun k => (hL _ (m1 k) (h1 k)).2.2, fun k => (hL _ (m2 k) (h2 k)).2.1, fun k => (hL _ (m2 k) (h2 k)).2.2⟩
  · exact iIndepFun_infinitePi (P := fun _ : ℕ => G.prod G) (X := fun _ x => x) fun _ => measurable_id
  · rw [indepFun_iff_map_prod_eq_prod_map_map (m1 k).aemeasurable (m2 k).aemeasurable, h1, h2]
    exact heval k

/-- Data -1 and 1 in two batches: the centres average to the mean of the posterior, zero. -/
example : centre 2 1 1 [-1] = -(2 / 3) ∧ centre 2 1 1 [1] = 2 / 3 ∧ postVar 2 1 1 = 1 / 3 := by
  unfold centre postVar
  norm_num

/-- With the step size 1/6 and one sample per epoch the mean tends to 2/9. -/
example : Tendsto (fun n => meanOn (1 / 6) (1 / 3) (fun t => if t % 2 = 0 then -(2 / 3) else 2 / 3) 0 (2 * n)) atTop (𝓝 (2 / 9)) := by
  have := (C121_thinning_false (1 / 6) (1 / 3) (by norm_num) (by norm_num) (by norm_num) (fun t => if t % 2 = 0 then -(2 / 3) else 2 / 3)
    (fun t => by simp [Nat.add_mod]) 0).1
  norm_num at this
  norm_num
  exact this

/-! ### Concrete cases that meet the hypotheses of the theorems above -/

example := C121_gradient 10 2 3 (by norm_num) (by norm_num) [1, 4] (by simp) 5
example := C121_epoch 4 2 3 [[1, 4], [0, 7]] 2 (by decide) (by simp)
example := C121_law (ι := Fin 2) (Measure.infinitePi fun _ : Key => gaussianReal 0 1) (fun ω k _ => ω k) 1
  (fun k => measurable_pi_apply k) (iIndepFun_infinitePi (X := fun _ x => x) fun _ => measurable_id)
  (fun k => Measure.infinitePi_map_eval _ k) (some 10) (1 / 10) (by norm_num) 4 ![1, 2] ![3, 4] (by simp) (by simp)
  (fun t => [![t, 1], ![2, 3]]) (by simp)
example := C121_cycle (1 / 6) (1 / 3) (by norm_num) (by norm_num) (by norm_num) (fun t => if t % 2 = 0 then -(2 / 3) else 2 / 3) 2 (by decide)
  (fun t => by simp) 0
example := C121_variance (1 / 6) (1 / 3) (by norm_num) (by norm_num) (by norm_num)
example : ∃ (Ω : Type) (_ : MeasurableSpace Ω) (P : Measure Ω) (_ : IsProbabilityMeasure P) (C Z : ℕ → Ω → ℝ),
    Tendsto (fun t => ∫ ω, chain (1 / 6) (1 / 3) 5 C Z t ω ∂P) atTop (𝓝 0) := by
  obtain ⟨Ω, i, P, j, C, Z, h1, h2, h3, h4, h5, h6, h7, h8⟩ := ex_random
  exact ⟨Ω, i, P, j, C, Z, (C121_random P C Z h1 h2 h3 h4 0 1 h5 h6 h7 h8 (1 / 6) (1 / 3) 5 (by norm_num) (by norm_num) (by norm_num)).1⟩

end Verif.Props.BatchLaw
