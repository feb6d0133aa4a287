import Verif.Props.Calibration
import Mathlib.Probability.Distributions.Gaussian.Real
import Mathlib.Topology.Algebra.Order.Field
import Mathlib.Topology.Algebra.Monoid

/-!
Property C53: the default kernel, and what kernel regression does for small and large bandwidths.
-/
set_option linter.unusedSectionVars false

namespace Verif.Props.KernelLimits

open Verif.Calibration Verif.Props ProbabilityTheory Filter Topology

/-- **C53, the default kernel.** The scaled default kernel at `x - a` with a positive bandwidth `b` is the density at `x` of a normal distribution
with mean `a` and standard deviation `b`. -/
theorem C53_density (a b x : ℝ) (hb : 0 < b) : gaussianKernel ((x - a) / b) / b = gaussianPDFReal a (Real.toNNReal (b ^ 2)) x := by
  unfold gaussianKernel gaussianPDFReal
  have h1 : Real.sqrt (2 * Real.pi * (Real.toNNReal (b ^ 2) : ℝ)) = Real.sqrt (2 * Real.pi) * b := by
    rw [Real.coe_toNNReal _ (sq_nonneg b), Real.sqrt_mul (by positivity), Real.sqrt_sq hb.le]
  have h2 : -(1 / 2) * ((x - a) / b) ^ 2 = -(x - a) ^ 2 / (2 * (Real.toNNReal (b ^ 2) : ℝ)) := by
    rw [Real.coe_toNNReal _ (sq_nonneg b), div_pow]
    field_simp
  rw [h1, h2, mul_inv]
  field_simp

/-- The prediction, as a ratio of weighted sums whose weights are relative to a distance `d`. -/
theorem ratio_eq (xs ys : List ℝ) (b x d : ℝ) (hb : 0 < b) :
    (List.zipWith (fun a y => gaussianKernel ((x - a) / b) * y) xs ys).sum / (xs.map fun a => gaussianKernel ((x - a) / b)).sum =
    (List.zipWith (fun a y => Real.exp ((d ^ 2 - (x - a) ^ 2) / (2 * b ^ 2)) * y) xs ys).sum /
      (xs.map fun a => Real.exp ((d ^ 2 - (x - a) ^ 2) / (2 * b ^ 2))).sum := by
  set c : ℝ := Real.exp (-(d ^ 2 / (2 * b ^ 2))) / Real.sqrt (2 * Real.pi) with hc
  have hc0 : c ≠ 0 := by
    have : 0 < Real.sqrt (2 * Real.pi) := Real.sqrt_pos.mpr (by positivity)
    rw [hc]; positivity
  have hk : ∀ a, gaussianKernel ((x - a) / b) = c * Real.exp ((d ^ 2 - (x - a) ^ 2) / (2 * b ^ 2)) := by
    intro a
    unfold gaussianKernel
    rw [hc, div_mul_eq_mul_div, ← Real.exp_add]
    congr 2
    field_simp
    ring
  have h1 : (List.zipWith (fun a y => gaussianKernel ((x - a) / b) * y) xs ys).sum =
      c * (List.zipWith (fun a y => Real.exp ((d ^ 2 - (x - a) ^ 2) / (2 * b ^ 2)) * y) xs ys).sum := by
    simp only [hk]
    induction xs generalizing ys with
    | nil => simp
    | cons a t ih =>
      cases ys with
      | nil => simp
      | cons y u => rw [List.zipWith_cons_cons, List.sum_cons, ih, List.zipWith_cons_cons, List.sum_cons]; ring
  have h2 : (xs.map fun a => gaussianKernel ((x - a) / b)).sum = c * (xs.map fun a => Real.exp ((d ^ 2 - (x - a) ^ 2) / (2 * b ^ 2))).sum := by
    simp only [hk, List.sum_map_mul_left]
  rw [h1, h2, mul_div_mul_left _ _ hc0]

theorem tendsto_zip {l : Filter ℝ} (f : ℝ → ℝ → ℝ) (g : ℝ → ℝ) (xs ys : List ℝ) (h : ∀ a ∈ xs, Tendsto (fun b => f b a) l (𝓝 (g a))) :
    Tendsto (fun b => (List.zipWith (fun a y => f b a * y) xs ys).sum) l (𝓝 (List.zipWith (fun a y => g a * y) xs ys).sum) ∧
    Tendsto (fun b => (xs.map fun a => f b a).sum) l (𝓝 (xs.map g).sum) := by
  induction xs generalizing ys with
  | nil => exact ⟨by simpa using tendsto_const_nhds, by simpa using tendsto_const_nhds⟩
  | cons a t ih =>
    have ht := fun ys => ih ys fun a ha => h a (List.mem_cons_of_mem _ ha)
    have ha := h a List.mem_cons_self
    cases ys with
    | nil => exact ⟨by simpa using tendsto_const_nhds, by simpa using ha.add (ht []).2⟩
    | cons y u =>
      simp only [List.zipWith_cons_cons, List.sum_cons, List.map_cons]
      exact ⟨(ha.mul_const y).add (ht u).1, ha.add (ht u).2⟩

/-- **C53, small bandwidths.** As the bandwidth goes to zero, the predictions with the default kernel tend to the average target of the nearest training inputs. -/
theorem C53_narrow (xs ys : List ℝ) (x d : ℝ) (v : ℝ → ℝ) (hv : ∀ b, 0 < b → nwPredict gaussianKernel xs ys b x = .ok (some (v b)))
    (hd : ∀ a ∈ xs, d ≤ |x - a|) (hd0 : 0 ≤ d) (hmem : ∃ a ∈ xs, |x - a| = d) :
    Tendsto v (𝓝[>] 0) (𝓝 ((List.zipWith (fun a y => if |x - a| = d then y else 0) xs ys).sum / (xs.countP fun a => |x - a| = d))) := by
  have hlim : ∀ a ∈ xs, Tendsto (fun b : ℝ => Real.exp ((d ^ 2 - (x - a) ^ 2) / (2 * b ^ 2))) (𝓝[>] 0) (𝓝 (if |x - a| = d then 1 else 0)) := by
    intro a ha
    by_cases h : |x - a| = d
    · rw [if_pos h, ← sq_abs (x - a), h]
      simp
    · rw [if_neg h]
      have hlt : d ^ 2 - (x - a) ^ 2 < 0 := by
        have h1 : d < |x - a| := lt_of_le_of_ne (hd a ha) (Ne.symm h)
        have h2 : d ^ 2 < |x - a| ^ 2 := by nlinarith
        rw [sq_abs] at h2
        linarith
      refine Real.tendsto_exp_atBot.comp ?_
      have h1 : Tendsto (fun b : ℝ => 2 * b ^ 2) (𝓝[>] 0) (𝓝[>] 0) := by
        refine tendsto_nhdsWithin_iff.2 ⟨?_, ?_⟩
        · have : Tendsto (fun b : ℝ => 2 * b ^ 2) (𝓝 0) (𝓝 (2 * 0 ^ 2)) := (Continuous.tendsto (by fun_prop) 0)
          simpa using this.mono_left nhdsWithin_le_nhds
        · filter_upwards [self_mem_nhdsWithin] with b hb
          have : (0 : ℝ) < b := hb
          exact Set.mem_Ioi.2 (by positivity)
      have h2 := (tendsto_inv_nhdsGT_zero (𝕜 := ℝ)).comp h1
      have h3 := h2.const_mul_atTop_of_neg hlt
      refine h3.congr fun b => ?_
      simp only [Function.comp, div_eq_mul_inv]
  obtain ⟨h1, h2⟩ := tendsto_zip (fun b a => Real.exp ((d ^ 2 - (x - a) ^ 2) / (2 * b ^ 2))) (fun a => if |x - a| = d then 1 else 0) xs ys hlim
  have hcount : (xs.map fun a => if |x - a| = d then (1 : ℝ) else 0).sum = (xs.countP fun a => |x - a| = d) := by
    clear hlim h1 h2 hv hd hmem
    induction xs with
    | nil => simp
    | cons a t ih =>
      rw [List.map_cons, List.sum_cons, ih, List.countP_cons]
      by_cases h : |x - a| = d <;> simp [h, add_comm]
  have hne : (xs.map fun a => if |x - a| = d then (1 : ℝ) else 0).sum ≠ 0 := by
    rw [hcount]
    have : 0 < xs.countP fun a => |x - a| = d := by
      obtain ⟨a, ha, h⟩ := hmem
      exact List.countP_pos_iff.2 ⟨a, ha, by simpa using h⟩
    exact_mod_cast this.ne'
  have h3 := h1.div h2 hne
  rw [hcount] at h3
  have e : (List.zipWith (fun a y => (if |x - a| = d then (1 : ℝ) else 0) * y) xs ys) = List.zipWith (fun a y => if |x - a| = d then y else 0) xs ys := by
    congr 1
    funext a y
    split_ifs <;> simp
  rw [e] at h3
  refine h3.congr' ?_
  filter_upwards [self_mem_nhdsWithin] with b hb
  have hb' : (0 : ℝ) < b := hb
  have := C53_mean gaussianKernel xs ys b x (v b) hb'.ne' (hv b hb')
  rw [this, ratio_eq xs ys b x d hb']
  rfl

/-- **C53, large bandwidths.** As the bandwidth grows, the predictions with the default kernel tend to the average of all targets. -/
theorem C53_wide (xs ys : List ℝ) (hl : xs.length = ys.length) (hne : xs ≠ []) (x : ℝ) (v : ℝ → ℝ)
    (hv : ∀ b, 0 < b → nwPredict gaussianKernel xs ys b x = .ok (some (v b))) : Tendsto v atTop (𝓝 (ys.sum / ys.length)) := by
  have hlim : ∀ a ∈ xs, Tendsto (fun b : ℝ => Real.exp ((0 ^ 2 - (x - a) ^ 2) / (2 * b ^ 2))) atTop (𝓝 1) := by
    intro a _
    have h1 : Tendsto (fun b : ℝ => 2 * b ^ 2) atTop atTop := (tendsto_pow_atTop (by norm_num)).const_mul_atTop (by norm_num)
    have h2 : Tendsto (fun b : ℝ => (0 ^ 2 - (x - a) ^ 2) / (2 * b ^ 2)) atTop (𝓝 0) := h1.const_div_atTop _
    have := (Real.continuous_exp.tendsto 0).comp h2
    simpa [Function.comp_def] using this
  obtain ⟨h1, h2⟩ := tendsto_zip (fun b a => Real.exp ((0 ^ 2 - (x - a) ^ 2) / (2 * b ^ 2))) (fun _ => 1) xs ys hlim
  have hlen : (xs.map fun _ => (1 : ℝ)).sum = xs.length := by simp
  have hne' : (xs.map fun _ => (1 : ℝ)).sum ≠ 0 := by
    rw [hlen]
    exact_mod_cast (List.length_pos_iff.2 hne).ne'
  have h3 := h1.div h2 hne'
  have e : (List.zipWith (fun _ y => (1 : ℝ) * y) xs ys).sum = ys.sum := by
    clear h1 h2 h3 hlim hne' hlen hv hne
    induction xs generalizing ys with
    | nil =>
      have : ys = [] := List.length_eq_zero_iff.mp (by simpa using hl.symm)
      simp [this]
    | cons a t ih =>
      cases ys with
      | nil => simp at hl
      | cons y u => rw [List.zipWith_cons_cons, List.sum_cons, ih u (by simpa using hl), List.sum_cons, one_mul]
  rw [e, hlen, hl] at h3
  refine h3.congr' ?_
  filter_upwards [eventually_gt_atTop 0] with b hb
  have := C53_mean gaussianKernel xs ys b x (v b) hb.ne' (hv b hb)
  rw [this, ratio_eq xs ys b x 0 hb]
  rfl

/-- Three training points: predictions at 0 tend to the target at 1, and to the mean of all targets. -/
example : ∃ v : ℝ → ℝ, (∀ b, 0 < b → nwPredict gaussianKernel [1, 2, 3] [5, 7, 9] b 0 = .ok (some (v b))) ∧
    Tendsto v (𝓝[>] 0) (𝓝 5) ∧ Tendsto v atTop (𝓝 7) := by
  have h : ∀ b : ℝ, ∃ v, 0 < b → nwPredict gaussianKernel [1, 2, 3] [5, 7, 9] b 0 = .ok (some v) := by
    intro b
    by_cases hb : 0 < b
    · obtain ⟨v, hv⟩ := (C53_defined [1, 2, 3] [5, 7, 9] rfl (by simp) b 0 hb).2 (by
        intro h
        have := h 5 (by simp) 7 (by simp)
        norm_num at this)
      exact ⟨v, fun _ => hv⟩
    · exact ⟨0, fun h => absurd h hb⟩
  choose v hv using h
  refine ⟨v, hv, ?_, ?_⟩
  · have := C53_narrow [1, 2, 3] [5, 7, 9] 0 1 v hv (by simp) zero_le_one ⟨1, by simp, by norm_num⟩
    norm_num [List.countP_cons] at this
    exact this
  · have := C53_wide [1, 2, 3] [5, 7, 9] rfl (by simp) 0 v hv
    norm_num at this
    exact this

/-! ### Concrete cases that meet the hypotheses of the theorems above -/

example := C53_density 1 2 3 (by norm_num)

end Verif.Props.KernelLimits
