import Verif.Props.LangevinLaw
import Verif.Props.LangevinSchedule
import Mathlib.Analysis.Calculus.Deriv.Mul
import Mathlib.Analysis.Calculus.Deriv.Pow
import Mathlib.Analysis.Calculus.Deriv.Slope

/-!
Property C138: the distribution of the samples of cyclical SGLD when the posterior is Gaussian.
-/
set_option linter.unusedSectionVars false

namespace Verif.Props.Cyclical

open Verif.SGMCMC Verif.Props.Langevin MeasureTheory ProbabilityTheory Finset Filter Topology
open Verif.Props.LangevinSchedule (schedMean)

/-! ### An affine recursion with periodic coefficients -/

/-- `u ↦ A u + B`, step by step, from `u₀`. -/
def aff (A B : ℕ → ℝ) (u₀ : ℝ) : ℕ → ℝ
  | 0 => u₀
  | t + 1 => A t * aff A B u₀ t + B t

theorem aff_add (A B : ℕ → ℝ) (u₀ : ℝ) (t n : ℕ) :
    aff A B u₀ (t + n) = (∏ k ∈ range n, A (t + k)) * aff A B u₀ t + aff (fun k => A (t + k)) (fun k => B (t + k)) 0 n := by
  induction n with
  | zero => simp [aff]
  | succ n ih =>
    rw [← add_assoc, aff, ih, prod_range_succ, aff]
    ring

/-- If the coefficients repeat with period `L` and contract over a period, the values at one position of the period converge. -/
theorem aff_periodic (A B : ℕ → ℝ) (u₀ : ℝ) (L p : ℕ) (hA : ∀ k, A (p + k + L) = A (p + k)) (hB : ∀ k, B (p + k + L) = B (p + k))
    (hlt : |∏ k ∈ range L, A (p + k)| < 1) :
    Tendsto (fun j => aff A B u₀ (p + j * L)) atTop
      (𝓝 (aff (fun k => A (p + k)) (fun k => B (p + k)) 0 L / (1 - ∏ k ∈ range L, A (p + k)))) := by
  set a := ∏ k ∈ range L, A (p + k) with ha
  set q := aff (fun k => A (p + k)) (fun k => B (p + k)) 0 L with hq
  have hshift : ∀ (F : ℕ → ℝ), (∀ k, F (p + k + L) = F (p + k)) → ∀ j k, F (p + j * L + k) = F (p + k) := by
    intro F hF j
    induction j with
    | zero => simp
    | succ j ih =>
      intro k
      rw [show p + (j + 1) * L + k = p + (j * L + k) + L by ring, hF, ← add_assoc, ih]
  have hstep : ∀ j, aff A B u₀ (p + (j + 1) * L) = a * aff A B u₀ (p + j * L) + q := by
    intro j
    rw [show p + (j + 1) * L = (p + j * L) + L by ring, aff_add]
    simp only [hshift A hA j, hshift B hB j, ← ha, ← hq]
  have h1 : (1 : ℝ) - a ≠ 0 := by
    intro h
    rw [show a = 1 by linarith] at hlt
    simp at hlt
  have hclosed : ∀ j, aff A B u₀ (p + j * L) = q / (1 - a) + a ^ j * (aff A B u₀ p - q / (1 - a)) := by
    intro j
    induction j with
    | zero => simp
    | succ j ih =>
      rw [hstep, ih]
      have h2 : q = (1 - a) * (q / (1 - a)) := by field_simp
      linear_combination h2
  simp only [hclosed]
  have := ((tendsto_pow_atTop_nhds_zero_of_abs_lt_one hlt).mul_const (aff A B u₀ p - q / (1 - a))).const_add (q / (1 - a))
  simpa using this

/-! ### Small steps -/

/-- The derivative at zero of the contraction over some steps of sizes `ε c`. -/
theorem deriv_prod (c : ℕ → ℝ) (s : ℝ) (n : ℕ) :
    HasDerivAt (fun ε => ∏ k ∈ range n, (1 - ε * c k / s) ^ 2) (-(2 / s) * ∑ k ∈ range n, c k) 0 := by
  induction n with
  | zero => simpa using hasDerivAt_const (0 : ℝ) (1 : ℝ)
  | succ n ih =>
    simp only [prod_range_succ, sum_range_succ]
    have h1 : HasDerivAt (fun ε : ℝ => 1 - ε * c n / s) (-(1 * c n / s)) 0 := (((hasDerivAt_id (0 : ℝ)).mul_const (c n)).div_const s).const_sub 1
    have h2 := ih.mul (h1.pow 2)
    refine h2.congr_deriv ?_
    simp
    ring

/-- The derivative at zero of the noise collected in some steps of sizes `ε c`. -/
theorem deriv_aff (b : ℕ → Bool) (c : ℕ → ℝ) (s : ℝ) (n : ℕ) :
    HasDerivAt (fun ε => aff (fun k => (1 - ε * c k / s) ^ 2) (fun k => if b k then 2 * (ε * c k) else 0) 0 n)
      (∑ k ∈ range n, if b k then 2 * c k else 0) 0 ∧
    aff (fun k => (1 - 0 * c k / s) ^ 2) (fun k => if b k then 2 * (0 * c k) else 0) 0 n = 0 := by
  induction n with
  | zero => exact ⟨by simpa [aff] using hasDerivAt_const (0 : ℝ) (0 : ℝ), rfl⟩
  | succ n ih =>
    obtain ⟨h, h0⟩ := ih
    refine ⟨?_, by rw [aff, h0]; simp⟩
    simp only [aff, sum_range_succ]
    have h1 : HasDerivAt (fun ε : ℝ => 1 - ε * c n / s) (-(1 * c n / s)) 0 := (((hasDerivAt_id (0 : ℝ)).mul_const (c n)).div_const s).const_sub 1
    have h2 : HasDerivAt (fun ε : ℝ => if b n then 2 * (ε * c n) else 0) (if b n then 2 * c n else 0) 0 := by
      cases b n
      · simpa using hasDerivAt_const (0 : ℝ) (0 : ℝ)
      · simpa using ((hasDerivAt_id (0 : ℝ)).mul_const (c n)).const_mul 2
    have h3 := ((h1.pow 2).mul h).add h2
    refine h3.congr_deriv ?_
    rw [h0]
    simp

/-- A sum over a period does not depend on where it begins. -/
theorem sum_period (F : ℕ → ℝ) (L : ℕ) (hF : ∀ k, F (1 + k + L) = F (1 + k)) (p : ℕ) :
    ∑ k ∈ range L, F (p + 1 + k) = ∑ k ∈ range L, F (1 + k) := by
  induction p with
  | zero => simp
  | succ p ih =>
    rw [← ih]
    have h1 := sum_range_succ (fun k => F (p + 1 + k)) L
    have h2 := sum_range_succ' (fun k => F (p + 1 + k)) L
    have h3 := hF p
    rw [show 1 + p + L = p + 1 + L by ring, show 1 + p = p + 1 by ring] at h3
    simp only [add_zero] at h2
    have h4 : ∑ k ∈ range L, F (p + 1 + 1 + k) = ∑ k ∈ range L, F (p + 1 + (k + 1)) :=
      sum_congr rfl fun k _ => by rw [show p + 1 + 1 + k = p + 1 + (k + 1) by ring]
    linarith

/-! ### The samples -/

variable {ι Ω : Type} [MeasurableSpace Ω]

/-- How many noisy steps there were. -/
def draws (b : ℕ → Bool) : ℕ → ℕ
  | 0 => 0
  | t + 1 => if b t then draws b t + 1 else draws b t

/-- The share of the `j`-th draw in the sample after `t` steps. -/
noncomputable def share (b : ℕ → Bool) (h : ℕ → ℝ) (s : ℝ) : ℕ → ℕ → ℝ
  | 0, _ => 0
  | t + 1, j => if b t ∧ j = draws b t then Real.sqrt 2 * Real.sqrt (h t) else (1 - h t / s) * share b h s t j

/-- The variance after `t` steps: only the noisy steps add to it. -/
noncomputable def cycVar (b : ℕ → Bool) (h : ℕ → ℝ) (s : ℝ) (t : ℕ) : ℝ :=
  aff (fun k => (1 - h k / s) ^ 2) (fun k => if b k then 2 * h k else 0) 0 t

theorem run_eq (L : ℕ) (ratio : ℚ) (h : ℕ → ℝ) (hh : ∀ t, 0 ≤ h t) (μ s : ι → ℝ) (normal : Key → ι → ℝ) (key : Key) (x₀ : ι → ℝ)
    (i : ι) (t : ℕ) :
    let R := cyclicalRun (identityPrecond ι) L ratio h normal (gaussGrad μ s) key x₀ t
    R.2.count = t ∧ R.2.key = Key.right^[draws (isSgld L ratio) t] key ∧ R.1 i = schedMean h (s i) (μ i) (x₀ i) t +
      ∑ j ∈ range (draws (isSgld L ratio) t), share (isSgld L ratio) h (s i) t j * normal (.left (Key.right^[j] key)) i := by
  intro R
  set b := isSgld L ratio with hb
  induction t with
  | zero => simp [R, cyclicalRun, sghmcInit, schedMean, draws]
  | succ t ih =>
    obtain ⟨hc, hk, hp⟩ := ih
    set R' := cyclicalRun (identityPrecond ι) L ratio h normal (gaussGrad μ s) key x₀ t with hR'
    have hRR : R = (fun i => R'.1 i + (cyclicalUpdate (identityPrecond ι) L ratio h normal (gaussGrad μ s R'.1) R'.2).1 i,
      (cyclicalUpdate (identityPrecond ι) L ratio h normal (gaussGrad μ s R'.1) R'.2).2) := rfl
    have e3 : schedMean h (s i) (μ i) (x₀ i) (t + 1) = μ i + (1 - h t / s i) * (schedMean h (s i) (μ i) (x₀ i) t - μ i) := by
      unfold schedMean
      rw [prod_range_succ]
      ring
    have hrr : Real.sqrt (h t) * Real.sqrt (h t) = h t := Real.mul_self_sqrt (hh t)
    unfold cyclicalUpdate at hRR
    rw [hc, ← hb] at hRR
    cases hbt : b t with
    | true =>
      rw [hbt, if_pos rfl] at hRR
      have hd : draws b (t + 1) = draws b t + 1 := by simp [draws, hbt]
      refine ⟨by rw [hRR]; simp only [sghmcUpdate, hc], ?_, ?_⟩
      · rw [hRR]
        simp only [sghmcUpdate]
        rw [hk, hd, Function.iterate_succ_apply']
      have hpos : R.1 i = R'.1 i + (-(R'.1 i - μ i) / s i * Real.sqrt (h t) + normal (.left R'.2.key) i * Real.sqrt 2) * Real.sqrt (h t) := by
        obtain ⟨m0, hm0⟩ : ∃ m0, R.1 i = R'.1 i + (0 * m0 + -(R'.1 i - μ i) / s i * Real.sqrt (h R'.2.count) +
            normal (.left R'.2.key) i * Real.sqrt (2 * (1 - 0))) * Real.sqrt (h R'.2.count) := ⟨_, by rw [hRR]; rfl⟩
        rw [hm0, hc, zero_mul, zero_add, sub_zero, mul_one]
      rw [hpos, hk, hd, sum_range_succ]
      have e1 : ∑ j ∈ range (draws b t), share b h (s i) (t + 1) j * normal (.left (Key.right^[j] key)) i =
          (1 - h t / s i) * ∑ j ∈ range (draws b t), share b h (s i) t j * normal (.left (Key.right^[j] key)) i := by
        rw [mul_sum]
        refine sum_congr rfl fun j hj => ?_
        rw [mem_range] at hj
        simp only [share, hbt, true_and, if_neg hj.ne]
        ring
      have e2 : share b h (s i) (t + 1) (draws b t) = Real.sqrt 2 * Real.sqrt (h t) := by simp [share, hbt]
      rw [e1, e2, e3, hp]
      linear_combination (-(schedMean h (s i) (μ i) (x₀ i) t + ∑ j ∈ range (draws b t), share b h (s i) t j * normal (.left (Key.right^[j] key)) i - μ i) / s i) * hrr
    | false =>
      rw [hbt, if_neg (by simp)] at hRR
      have hd : draws b (t + 1) = draws b t := by simp [draws, hbt]
      refine ⟨by rw [hRR], by rw [hRR]; exact hd ▸ hk, ?_⟩
      have hpos : R.1 i = R'.1 i + -(-1.0 * h t * (-(R'.1 i - μ i) / s i)) := by
        rw [hRR]
        rfl
      have e1 : ∑ j ∈ range (draws b t), share b h (s i) (t + 1) j * normal (.left (Key.right^[j] key)) i =
          (1 - h t / s i) * ∑ j ∈ range (draws b t), share b h (s i) t j * normal (.left (Key.right^[j] key)) i := by
        rw [mul_sum]
        refine sum_congr rfl fun j _ => ?_
        simp only [share, hbt]
        simp
        ring
      rw [hpos, hd, e1, e3, hp]
      norm_num
      ring

theorem share_sq (b : ℕ → Bool) (h : ℕ → ℝ) (hh : ∀ t, 0 ≤ h t) (s : ℝ) (t : ℕ) :
    ∑ j ∈ range (draws b t), share b h s t j ^ 2 = cycVar b h s t := by
  induction t with
  | zero => simp [draws, cycVar, aff]
  | succ t ih =>
    unfold cycVar at ih ⊢
    rw [aff, ← ih, mul_sum]
    cases hbt : b t with
    | true =>
      have hd : draws b (t + 1) = draws b t + 1 := by simp [draws, hbt]
      rw [hd, sum_range_succ]
      congr 1
      · refine sum_congr rfl fun j hj => ?_
        rw [mem_range] at hj
        simp only [share, hbt, true_and, if_neg hj.ne]
        ring
      · simp only [share, hbt, true_and, if_true]
        rw [mul_pow, Real.sq_sqrt (by norm_num), Real.sq_sqrt (hh t)]
    | false =>
      have hd : draws b (t + 1) = draws b t := by simp [draws, hbt]
      rw [hd]
      simp only [Bool.false_eq_true, if_false, add_zero]
      refine sum_congr rfl fun j _ => ?_
      simp only [share, hbt]
      simp
      ring

/-- Cyclical SGLD without preconditioning on a Gaussian posterior with independent coordinates. -/
noncomputable def sampler (L : ℕ) (ratio : ℚ) (h : ℕ → ℝ) (μ s : ι → ℝ) (normal : Key → ι → ℝ) (key : Key) (x₀ : ι → ℝ) (t : ℕ) : ι → ℝ :=
  (cyclicalRun (identityPrecond ι) L ratio h normal (gaussGrad μ s) key x₀ t).1

/-- **C138, the law of a sample.** After any number of steps a coordinate is normally distributed. -/
theorem C138_law (P : Measure Ω) [IsProbabilityMeasure P] (normal : Ω → Key → ι → ℝ) (i : ι)
    (hm : ∀ k, Measurable fun ω => normal ω k i) (hi : iIndepFun (fun k ω => normal ω k i) P)
    (hl : ∀ k, P.map (fun ω => normal ω k i) = gaussianReal 0 1) (L : ℕ) (ratio : ℚ) (h : ℕ → ℝ) (hh : ∀ t, 0 ≤ h t) (μ s : ι → ℝ)
    (key : Key) (x₀ : ι → ℝ) (t : ℕ) :
    P.map (fun ω => sampler L ratio h μ s (normal ω) key x₀ t i) =
      gaussianReal (schedMean h (s i) (μ i) (x₀ i) t) (Real.toNNReal (cycVar (isSgld L ratio) h (s i) t)) := by
  set b := isSgld L ratio with hb
  have hrun : ∀ ω, sampler L ratio h μ s (normal ω) key x₀ t i = schedMean h (s i) (μ i) (x₀ i) t +
      ∑ j ∈ range (draws b t), share b h (s i) t j * normal ω (.left (Key.right^[j] key)) i :=
    fun ω => (run_eq L ratio h hh μ s (normal ω) key x₀ i t).2.2
  have hsum := sum_gaussian P (fun k ω => normal ω (.left (Key.right^[k] key)) i) (fun k => hm _)
    (hi.precomp (keys_injective key)) (fun k => hl _) (share b h (s i) t) (range (draws b t))
  rw [share_sq b h hh] at hsum
  simp only [hrun]
  have hmeas : Measurable fun ω => ∑ j ∈ range (draws b t), share b h (s i) t j * normal ω (.left (Key.right^[j] key)) i := by
    apply Finset.measurable_sum
    intro k _
    exact (hm _).const_mul _
  have hcomp : (fun ω => schedMean h (s i) (μ i) (x₀ i) t + ∑ j ∈ range (draws b t), share b h (s i) t j * normal ω (.left (Key.right^[j] key)) i) =
      (fun y => schedMean h (s i) (μ i) (x₀ i) t + y) ∘
      fun ω => ∑ j ∈ range (draws b t), share b h (s i) t j * normal ω (.left (Key.right^[j] key)) i := rfl
  rw [hcomp, ← Measure.map_map (by fun_prop) hmeas, hsum, gaussianReal_map_const_add, zero_add]

/-! ### The step sizes -/

/-- The step sizes of a cycle for an initial step size of one. -/
noncomputable def unit (L t : ℕ) : ℝ := 0.5 * (1 + Real.cos ((((t - 1) % L : ℕ) : ℝ) / (L : ℝ) * Real.pi))

/-- **C138, step sizes.** The step sizes that `cyclical_sgld_integrator` uses. -/
theorem C138_schedule (init : ℝ) (hi : 0 ≤ init) (L : ℕ) (hL : 0 < L) :
    ∃ g, cyclicalSchedule init 0 L = some g ∧ ∀ t, g t = some (init * unit L t) := by
  unfold cyclicalSchedule
  rw [if_neg (by simpa using hi)]
  refine ⟨_, rfl, fun t => ?_⟩
  simp only [if_neg hL.ne', Nat.sub_zero, unit]
  congr 1
  ring

theorem unit_pos (L : ℕ) (hL : 0 < L) (t : ℕ) : 0 < unit L t ∧ unit L t ≤ 1 := by
  have hlt := Nat.mod_lt (t - 1) hL
  have hLR : (0 : ℝ) < L := by exact_mod_cast hL
  set x : ℝ := (((t - 1) % L : ℕ) : ℝ) / (L : ℝ) * Real.pi with hx
  have h0 : 0 ≤ x := by positivity
  have h1 : x < Real.pi := by
    have : (((t - 1) % L : ℕ) : ℝ) / (L : ℝ) < 1 := by
      rw [div_lt_one hLR]
      exact_mod_cast hlt
    calc x < 1 * Real.pi := mul_lt_mul_of_pos_right this Real.pi_pos
      _ = Real.pi := one_mul _
  have h2 : -1 < Real.cos x := by
    have := Real.strictAntiOn_cos ⟨h0, h1.le⟩ ⟨Real.pi_pos.le, le_rfl⟩ h1
    rwa [Real.cos_pi] at this
  have h3 := Real.cos_le_one x
  unfold unit
  rw [← hx]
  constructor <;> norm_num <;> linarith

theorem unit_period (L k : ℕ) : unit L (1 + k + L) = unit L (1 + k) := by
  unfold unit
  rw [show 1 + k + L - 1 = k + L by omega, show 1 + k - 1 = k by omega, Nat.add_mod_right]

theorem isSgld_period (L : ℕ) (ratio : ℚ) (t : ℕ) : isSgld L ratio (t + L) = isSgld L ratio t := by
  unfold isSgld
  rw [Nat.add_mod_right]

/-- The variance in the long run at position `p` of a cycle. -/
noncomputable def limitVar (L : ℕ) (ratio : ℚ) (s : ℝ) (p : ℕ) (init : ℝ) : ℝ :=
  aff (fun k => (1 - init * unit L (p + 1 + k) / s) ^ 2) (fun k => if isSgld L ratio (p + 1 + k) then 2 * (init * unit L (p + 1 + k)) else 0) 0 L /
    (1 - ∏ k ∈ range L, (1 - init * unit L (p + 1 + k) / s) ^ 2)

theorem contracts (s init : ℝ) (hs : 0 < s) (h0 : 0 < init) (hlt : init < 2 * s) (L : ℕ) (hL : 0 < L) (t : ℕ) :
    |1 - init * unit L t / s| < 1 := by
  obtain ⟨h1, h2⟩ := unit_pos L hL t
  have h3 : 0 < init * unit L t / s := by positivity
  have h4 : init * unit L t / s < 2 := by
    rw [div_lt_iff₀ hs]
    nlinarith
  rw [abs_lt]
  constructor <;> linarith

theorem prod_contracts (s init : ℝ) (hs : 0 < s) (h0 : 0 < init) (hlt : init < 2 * s) (L : ℕ) (hL : 0 < L) (p : ℕ) :
    |∏ k ∈ range L, (1 - init * unit L (p + 1 + k) / s) ^ 2| < 1 := by
  rw [Finset.abs_prod]
  obtain ⟨n, rfl⟩ : ∃ n, L = n + 1 := ⟨L - 1, by omega⟩
  rw [prod_range_succ]
  have h1 : ∀ t, |(1 - init * unit (n + 1) t / s) ^ 2| < 1 := by
    intro t
    rw [abs_pow]
    exact pow_lt_one₀ (abs_nonneg _) (contracts s init hs h0 hlt (n + 1) hL t) (by norm_num)
  have h2 : ∏ k ∈ range n, |(1 - init * unit (n + 1) (p + 1 + k) / s) ^ 2| ≤ 1 :=
    Finset.prod_le_one (fun _ _ => abs_nonneg _) fun k _ => (h1 _).le
  calc _ ≤ 1 * |(1 - init * unit (n + 1) (p + 1 + n) / s) ^ 2| := mul_le_mul_of_nonneg_right h2 (abs_nonneg _)
    _ < 1 := by rw [one_mul]; exact h1 _

/-- **C138, in the long run.** With an initial step size below `2 σ²` the means tend to that of the posterior, and the variance at every
position of the cycle converges. -/
theorem C138_limit (L : ℕ) (hL : 0 < L) (ratio : ℚ) (s init μ x₀ : ℝ) (hs : 0 < s) (h0 : 0 < init) (hlt : init < 2 * s) (p : ℕ) :
    Tendsto (fun j => schedMean (fun t => init * unit L t) s μ x₀ (p + 1 + j * L)) atTop (𝓝 μ) ∧
    Tendsto (fun j => cycVar (isSgld L ratio) (fun t => init * unit L t) s (p + 1 + j * L)) atTop (𝓝 (limitVar L ratio s p init)) := by
  have hper : ∀ k, unit L (p + 1 + k + L) = unit L (p + 1 + k) := by
    intro k
    have := unit_period L (p + k)
    rwa [show 1 + (p + k) = p + 1 + k by ring] at this
  constructor
  · have hmean : ∀ t, schedMean (fun t => init * unit L t) s μ x₀ t - μ = aff (fun k => 1 - init * unit L k / s) (fun _ => 0) (x₀ - μ) t := by
      intro t
      induction t with
      | zero => simp [schedMean, aff]
      | succ t ih =>
        rw [aff, ← ih]
        unfold schedMean
        rw [prod_range_succ]
        ring
    have hlt' : |∏ k ∈ range L, (1 - init * unit L (p + 1 + k) / s)| < 1 := by
      have := prod_contracts s init hs h0 hlt L hL p
      rw [prod_pow, abs_pow] at this
      exact (pow_lt_one_iff_of_nonneg (abs_nonneg _) (by norm_num)).1 this
    have h := aff_periodic (fun k => 1 - init * unit L k / s) (fun _ => 0) (x₀ - μ) L (p + 1) (fun k => by rw [hper]) (fun _ => rfl) hlt'
    have hz : ∀ n, aff (fun k => 1 - init * unit L (p + 1 + k) / s) (fun _ => 0) 0 n = 0 := by
      intro n
      induction n with
      | zero => rfl
      | succ n ih => simp [aff, ih]
    rw [hz, zero_div] at h
    have h' := h.add_const μ
    rw [zero_add] at h'
    refine h'.congr fun j => ?_
    rw [← hmean]
    ring
  · exact aff_periodic (fun k => (1 - init * unit L k / s) ^ 2) (fun k => if isSgld L ratio k then 2 * (init * unit L k) else 0) 0 L (p + 1)
      (fun k => by rw [hper]) (fun k => by rw [hper, isSgld_period]) (prod_contracts s init hs h0 hlt L hL p)

/-- The share of the sampling phase in the step sizes of a cycle. -/
noncomputable def samplingShare (L : ℕ) (ratio : ℚ) : ℝ :=
  (∑ k ∈ range L, if isSgld L ratio (1 + k) then unit L (1 + k) else 0) / ∑ k ∈ range L, unit L (1 + k)

/-- **C138, small steps.** As the initial step size tends to zero, the variance in the long run tends, at every position of the cycle, to
that of the posterior times the share of the sampling phase in the step sizes of a cycle. -/
theorem C138_small_steps (L : ℕ) (hL : 0 < L) (ratio : ℚ) (s : ℝ) (hs : 0 < s) (p : ℕ) :
    Tendsto (limitVar L ratio s p) (𝓝[>] 0) (𝓝 (s * samplingShare L ratio)) := by
  set c : ℕ → ℝ := fun k => unit L (p + 1 + k) with hc
  set b : ℕ → Bool := fun k => isSgld L ratio (p + 1 + k) with hb
  have hd1 := deriv_prod c s L
  obtain ⟨hd2, hz⟩ := deriv_aff b c s L
  have hC : ∑ k ∈ range L, c k = ∑ k ∈ range L, unit L (1 + k) := sum_period (unit L) L (unit_period L) p
  have hS : (∑ k ∈ range L, if b k then 2 * c k else 0) = 2 * ∑ k ∈ range L, if isSgld L ratio (1 + k) then unit L (1 + k) else 0 := by
    rw [← sum_period (fun t => if isSgld L ratio t then unit L t else 0) L (fun k => by rw [unit_period, isSgld_period]) p, mul_sum]
    refine sum_congr rfl fun k _ => ?_
    simp only [hb, hc]
    split_ifs <;> simp
  have hpos : 0 < ∑ k ∈ range L, unit L (1 + k) :=
    sum_pos (fun k _ => (unit_pos L hL _).1) ⟨0, mem_range.2 hL⟩
  rw [hC] at hd1
  rw [hS] at hd2
  have t1 := (hasDerivAt_iff_tendsto_slope.1 hd1).mono_left (nhdsWithin_mono (0 : ℝ) (fun x hx => ne_of_gt hx : Set.Ioi (0 : ℝ) ⊆ {0}ᶜ))
  have t2 := (hasDerivAt_iff_tendsto_slope.1 hd2).mono_left (nhdsWithin_mono (0 : ℝ) (fun x hx => ne_of_gt hx : Set.Ioi (0 : ℝ) ⊆ {0}ᶜ))
  have hne : -(2 / s) * ∑ k ∈ range L, unit L (1 + k) ≠ 0 := by
    have : 0 < 2 / s := by positivity
    nlinarith
  have t3 := (t2.div t1 hne).neg
  have hval : -((2 * ∑ k ∈ range L, if isSgld L ratio (1 + k) then unit L (1 + k) else 0) / (-(2 / s) * ∑ k ∈ range L, unit L (1 + k))) =
      s * samplingShare L ratio := by
    unfold samplingShare
    field_simp
  rw [hval] at t3
  refine t3.congr' ?_
  filter_upwards [self_mem_nhdsWithin] with ε hε
  have hε' : ε ≠ 0 := ne_of_gt hε
  simp only [Pi.div_apply, slope_def_field, hz, sub_zero]
  unfold limitVar
  have h1 : (∏ k ∈ range L, (1 - 0 * c k / s) ^ 2) = 1 := by simp
  rw [h1, div_div_div_cancel_right₀ hε', ← div_neg, neg_sub]

/-- **C138.** False of the code: that the samples of cyclical SGLD follow the posterior when its steps are small. With any exploration phase
the limit of the variance is below that of the posterior. -/
theorem C138_posterior_false (L : ℕ) (hL : 0 < L) (ratio : ℚ) (hr : 0 < ratio) (s : ℝ) (hs : 0 < s) (p : ℕ) :
    ∃ v, v < s ∧ Tendsto (limitVar L ratio s p) (𝓝[>] 0) (𝓝 v) := by
  refine ⟨_, ?_, C138_small_steps L hL ratio s hs p⟩
  have hpos : 0 < ∑ k ∈ range L, unit L (1 + k) :=
    sum_pos (fun k _ => (unit_pos L hL _).1) ⟨0, mem_range.2 hL⟩
  have hlt : (∑ k ∈ range L, if isSgld L ratio (1 + k) then unit L (1 + k) else 0) < ∑ k ∈ range L, unit L (1 + k) := by
    refine sum_lt_sum (fun k _ => ?_) ⟨L - 1, mem_range.2 (by omega), ?_⟩
    · split_ifs
      · exact le_rfl
      · exact (unit_pos L hL _).1.le
    · have : isSgld L ratio (1 + (L - 1)) = false := by
        rw [show 1 + (L - 1) = L by omega]
        simp [isSgld, hr]
      rw [this]
      simpa using (unit_pos L hL (1 + (L - 1))).1
  have h1 : samplingShare L ratio < 1 := by
    unfold samplingShare
    rwa [div_lt_one hpos]
  nlinarith

/-- **C138, convergence in distribution** of the samples at one position of the cycle. -/
theorem C138_converges (P : Measure Ω) [IsProbabilityMeasure P] (normal : Ω → Key → ι → ℝ) (i : ι)
    (hm : ∀ k, Measurable fun ω => normal ω k i) (hi : iIndepFun (fun k ω => normal ω k i) P)
    (hl : ∀ k, P.map (fun ω => normal ω k i) = gaussianReal 0 1) (L : ℕ) (hL : 0 < L) (ratio : ℚ) (init : ℝ) (μ s : ι → ℝ) (hs : 0 < s i)
    (h0 : 0 < init) (hlt : init < 2 * s i) (key : Key) (x₀ : ι → ℝ) (p : ℕ) (f : BoundedContinuousFunction ℝ ℝ) :
    Tendsto (fun j => ∫ ω, f (sampler L ratio (fun t => init * unit L t) μ s (normal ω) key x₀ (p + 1 + j * L) i) ∂P) atTop
      (𝓝 (∫ x, f x ∂gaussianReal (μ i) (Real.toNNReal (limitVar L ratio (s i) p init)))) := by
  set h : ℕ → ℝ := fun t => init * unit L t with hh
  have hnn : ∀ t, 0 ≤ h t := fun t => mul_nonneg h0.le (unit_pos L hL t).1.le
  let law : ℕ → ProbabilityMeasure ℝ := fun j =>
    ⟨gaussianReal (schedMean h (s i) (μ i) (x₀ i) (p + 1 + j * L)) (Real.toNNReal (cycVar (isSgld L ratio) h (s i) (p + 1 + j * L))), inferInstance⟩
  let target : ProbabilityMeasure ℝ := ⟨gaussianReal (μ i) (Real.toNNReal (limitVar L ratio (s i) p init)), inferInstance⟩
  obtain ⟨h1, h2⟩ := C138_limit L hL ratio (s i) init (μ i) (x₀ i) hs h0 hlt p
  have hlaw : Tendsto law atTop (𝓝 target) := by
    refine ProbabilityMeasure.tendsto_of_tendsto_charFun fun u => ?_
    simp only [law, target, ProbabilityMeasure.coe_mk, charFun_gaussianReal]
    refine (Complex.continuous_exp.tendsto _).comp ?_
    have e1 := (Complex.continuous_ofReal.tendsto _).comp h1
    have e2 := (Complex.continuous_ofReal.tendsto _).comp ((NNReal.continuous_coe.tendsto _).comp ((continuous_real_toNNReal.tendsto _).comp h2))
    exact ((e1.const_mul (u : ℂ)).mul_const Complex.I).sub ((e2.mul_const ((u : ℂ) ^ 2)).div_const 2)
  have hint := ProbabilityMeasure.tendsto_iff_forall_integral_tendsto.1 hlaw f
  refine hint.congr fun j => ?_
  have hl' := C138_law P normal i hm hi hl L ratio h hnn μ s key x₀ (p + 1 + j * L)
  have hmeas : AEMeasurable (fun ω => sampler L ratio h μ s (normal ω) key x₀ (p + 1 + j * L) i) P := by
    by_contra hcon
    rw [Measure.map_of_not_aemeasurable hcon] at hl'
    have := congrArg (fun M => M Set.univ) hl'
    simp at this
  simp only [law, ProbabilityMeasure.coe_mk]
  rw [← hl', integral_map hmeas f.continuous.aestronglyMeasurable]

/-! ### How large the share is -/

/-- The step size at position `k` after the largest one, for an initial step size of one. -/
theorem unit_succ (L k : ℕ) (hk : k < L) : unit L (1 + k) = 0.5 * (1 + Real.cos (k * (Real.pi / L))) := by
  unfold unit
  rw [show 1 + k - 1 = k by omega, Nat.mod_eq_of_lt hk]
  congr 3
  ring

theorem sum_cos (θ : ℝ) (hθ : Real.sin (θ / 2) ≠ 0) (n : ℕ) :
    ∑ k ∈ range n, Real.cos (k * θ) = 1 / 2 + Real.sin ((n - 1 / 2) * θ) / (2 * Real.sin (θ / 2)) := by
  induction n with
  | zero =>
    rw [range_zero, sum_empty, show ((0 : ℕ) - 1 / 2 : ℝ) * θ = -(θ / 2) by push_cast; ring, Real.sin_neg]
    field_simp
    ring
  | succ n ih =>
    rw [sum_range_succ, ih]
    have h1 : Real.sin (((n + 1 : ℕ) - 1 / 2 : ℝ) * θ) = Real.sin (n * θ + θ / 2) := by push_cast; ring_nf
    have h2 : Real.sin ((n - 1 / 2 : ℝ) * θ) = Real.sin (n * θ - θ / 2) := by ring_nf
    rw [h1, h2, Real.sin_add, Real.sin_sub]
    field_simp
    ring

theorem sin_half_pos (L : ℕ) (hL : 0 < L) : 0 < Real.sin (Real.pi / L / 2) := by
  have hLR : (1 : ℝ) ≤ L := by exact_mod_cast hL
  have h1 : Real.pi / L ≤ Real.pi := div_le_self Real.pi_pos.le hLR
  have h2 : 0 < Real.pi / L := by positivity
  exact Real.sin_pos_of_pos_of_lt_pi (by linarith) (by linarith [Real.pi_pos])

/-- The step sizes of a cycle add up to half of its length plus one half. -/
theorem sum_unit (L : ℕ) (hL : 0 < L) : ∑ k ∈ range L, unit L (1 + k) = (L + 1) / 2 := by
  have hs := sin_half_pos L hL
  have hLR : (L : ℝ) ≠ 0 := by exact_mod_cast hL.ne'
  rw [sum_congr rfl fun k hk => unit_succ L k (mem_range.1 hk), ← mul_sum, sum_add_distrib, sum_cos _ hs.ne']
  have h1 : ((L : ℝ) - 1 / 2) * (Real.pi / L) = Real.pi - Real.pi / L / 2 := by field_simp
  have h2 : Real.sin (Real.pi / L / 2) / (2 * Real.sin (Real.pi / L / 2)) = 1 / 2 := by
    rw [mul_comm, ← div_div, div_self hs.ne']
  rw [h1, Real.sin_pi_sub, h2]
  simp only [sum_const, card_range, nsmul_eq_mul, mul_one]
  ring

/-- Exploration takes `⌈ratio * L⌉` steps of every cycle. -/
theorem isSgld_iff (L : ℕ) (hL : 0 < L) (ratio : ℚ) (t : ℕ) : isSgld L ratio t = false ↔ t % L < ⌈ratio * L⌉₊ := by
  have hLQ : (0 : ℚ) < L := by exact_mod_cast hL
  unfold isSgld
  rw [Nat.lt_ceil, ← div_lt_iff₀ hLQ]
  simp

/-- **C138, the share of a cycle.** With `m = ⌈ratio * L⌉` exploration steps in a cycle of `L` steps. -/
theorem C138_share (L : ℕ) (hL : 0 < L) (ratio : ℚ) (hr : 0 < ratio) (hr1 : ratio ≤ 1) :
    samplingShare L ratio = 1 - (((⌈ratio * L⌉₊ : ℝ) + 1 / 2 - Real.cos (Real.pi / L)) +
      Real.sin ((⌈ratio * L⌉₊ - 3 / 2) * (Real.pi / L)) / (2 * Real.sin (Real.pi / L / 2))) / (L + 1) := by
  have hs := sin_half_pos L hL
  have hLQ : (0 : ℚ) < L := by exact_mod_cast hL
  have hLR : (0 : ℝ) < L := by exact_mod_cast hL
  obtain ⟨m, hm⟩ : ∃ m, ⌈ratio * L⌉₊ = m + 1 := ⟨⌈ratio * L⌉₊ - 1, by have := Nat.ceil_pos.2 (mul_pos hr hLQ); omega⟩
  have hmL : m + 1 ≤ L := by
    rw [← hm]
    exact Nat.ceil_le.2 (by nlinarith)
  have hE : ∑ k ∈ range L, (if isSgld L ratio (1 + k) then 0 else unit L (1 + k)) =
      (∑ k ∈ range m, unit L (1 + k)) + 0.5 * (1 - Real.cos (Real.pi / L)) := by
    obtain ⟨n, rfl⟩ : ∃ n, L = n + 1 := ⟨L - 1, by omega⟩
    rw [sum_range_succ]
    congr 1
    · have h1 : ∑ k ∈ range n, (if isSgld (n + 1) ratio (1 + k) then 0 else unit (n + 1) (1 + k)) =
          ∑ k ∈ range n, if k < m then unit (n + 1) (1 + k) else 0 := by
        refine sum_congr rfl fun k hk => ?_
        rw [mem_range] at hk
        have h2 := isSgld_iff (n + 1) hL ratio (1 + k)
        rw [hm, Nat.mod_eq_of_lt (by omega)] at h2
        by_cases h3 : k < m
        · rw [if_pos h3, h2.2 (by omega)]
          rfl
        · rw [if_neg h3, if_pos]
          by_contra h4
          exact h3 (by have := h2.1 (by simpa using h4); omega)
      rw [h1, ← sum_filter]
      refine sum_congr ?_ fun _ _ => rfl
      ext k
      simp only [mem_filter, mem_range]
      omega
    · have h2 : isSgld (n + 1) ratio (1 + n) = false := by
        rw [isSgld_iff (n + 1) hL, hm, show 1 + n = n + 1 by ring, Nat.mod_self]
        omega
      rw [h2, unit_succ (n + 1) n (by omega)]
      have h3 : (n : ℝ) * (Real.pi / (n + 1 : ℕ)) = Real.pi - Real.pi / (n + 1 : ℕ) := by
        push_cast
        field_simp
        ring
      rw [h3, Real.cos_pi_sub]
      simp [sub_eq_add_neg]
  have hsum : (∑ k ∈ range L, if isSgld L ratio (1 + k) then unit L (1 + k) else 0) =
      (∑ k ∈ range L, unit L (1 + k)) - ∑ k ∈ range L, (if isSgld L ratio (1 + k) then 0 else unit L (1 + k)) := by
    rw [← sum_sub_distrib]
    refine sum_congr rfl fun k _ => ?_
    split_ifs <;> simp
  have hM : ∑ k ∈ range m, unit L (1 + k) = 0.5 * (m + (1 / 2 + Real.sin ((m - 1 / 2) * (Real.pi / L)) / (2 * Real.sin (Real.pi / L / 2)))) := by
    rw [sum_congr rfl fun k hk => unit_succ L k (by have := mem_range.1 hk; omega), ← mul_sum, sum_add_distrib, sum_cos _ hs.ne']
    simp
  unfold samplingShare
  rw [hsum, hE, hM, sum_unit L hL, hm]
  have h5 : (((m + 1 : ℕ) : ℝ) - 3 / 2) * (Real.pi / L) = (m - 1 / 2) * (Real.pi / L) := by push_cast; ring
  rw [h5]
  generalize Real.sin ((m - 1 / 2) * (Real.pi / L)) / (2 * Real.sin (Real.pi / L / 2)) = w
  push_cast
  field_simp
  norm_num
  ring

/-- **C138, long cycles.** With long cycles and then small steps, the variance of the samples is that of the posterior times
`1 - r - sin (π r) / π`, for the exploration ratio `r`. -/
theorem C138_long_cycles (ratio : ℚ) (hr : 0 < ratio) (hr1 : ratio ≤ 1) :
    Tendsto (fun L => samplingShare L ratio) atTop (𝓝 (1 - ratio - Real.sin (Real.pi * ratio) / Real.pi)) := by
  set m : ℕ → ℝ := fun L => (⌈ratio * L⌉₊ : ℝ) with hm
  have hL1 : Tendsto (fun L : ℕ => (1 : ℝ) / L) atTop (𝓝 0) := tendsto_const_div_atTop_nhds_zero_nat 1
  have hmL : Tendsto (fun L : ℕ => m L / L) atTop (𝓝 ratio) := by
    have hlow : ∀ᶠ L : ℕ in atTop, (ratio : ℝ) ≤ m L / L := by
      filter_upwards [eventually_gt_atTop 0] with L hL
      have hLR : (0 : ℝ) < L := by exact_mod_cast hL
      rw [le_div_iff₀ hLR]
      have := (Rat.cast_le (K := ℝ)).2 (Nat.le_ceil (ratio * (L : ℚ)))
      push_cast at this
      exact this
    have hup : ∀ᶠ L : ℕ in atTop, m L / L ≤ ratio + 1 / (L : ℝ) := by
      filter_upwards [eventually_gt_atTop 0] with L hL
      have hLR : (0 : ℝ) < L := by exact_mod_cast hL
      rw [div_le_iff₀ hLR, add_mul, div_mul_cancel₀ _ hLR.ne']
      have := (Nat.ceil_lt_add_one (a := ratio * (L : ℚ)) (by positivity)).le
      have h2 := (Rat.cast_le (K := ℝ)).2 this
      push_cast at h2
      exact h2
    refine tendsto_of_tendsto_of_tendsto_of_le_of_le' tendsto_const_nhds ?_ hlow hup
    simpa using hL1.const_add (ratio : ℝ)
  have hθ : Tendsto (fun L : ℕ => Real.pi / (L : ℝ)) atTop (𝓝 0) := tendsto_const_div_atTop_nhds_zero_nat _
  have hcos : Tendsto (fun L : ℕ => Real.cos (Real.pi / L)) atTop (𝓝 1) := by
    have := (Real.continuous_cos.tendsto 0).comp hθ
    rwa [Real.cos_zero] at this
  have hsin : Tendsto (fun L : ℕ => Real.sin ((m L - 3 / 2) * (Real.pi / L))) atTop (𝓝 (Real.sin (Real.pi * ratio))) := by
    refine (Real.continuous_sin.tendsto _).comp ?_
    have h1 := (hmL.sub (hL1.const_mul (3 / 2))).const_mul Real.pi
    rw [mul_zero, sub_zero] at h1
    refine h1.congr fun L => ?_
    ring
  have hden : Tendsto (fun L : ℕ => 2 * Real.sin (Real.pi / L / 2) * (L : ℝ)) atTop (𝓝 Real.pi) := by
    have hd : HasDerivAt Real.sin 1 0 := by simpa using Real.hasDerivAt_sin 0
    have hs := hasDerivAt_iff_tendsto_slope.1 hd
    have hx : Tendsto (fun L : ℕ => Real.pi / (L : ℝ) / 2) atTop (𝓝[≠] 0) := by
      refine tendsto_nhdsWithin_iff.2 ⟨by simpa using hθ.div_const 2, ?_⟩
      filter_upwards [eventually_gt_atTop 0] with L hL
      have hLR : (0 : ℝ) < L := by exact_mod_cast hL
      have : 0 < Real.pi / L / 2 := by positivity
      exact this.ne'
    have h1 := (hs.comp hx).const_mul Real.pi
    rw [mul_one] at h1
    refine h1.congr' ?_
    filter_upwards [eventually_gt_atTop 0] with L hL
    have hLR : (L : ℝ) ≠ 0 := by exact_mod_cast hL.ne'
    simp only [Function.comp, slope_def_field, Real.sin_zero, sub_zero]
    field_simp
  have hfrac := hsin.div hden Real.pi_ne_zero
  have hscale : Tendsto (fun L : ℕ => (L : ℝ) / (L + 1)) atTop (𝓝 1) := tendsto_natCast_div_add_atTop 1
  have hmain := ((((hmL.add ((hcos.const_sub (1 / 2)).mul hL1)).add hfrac).mul hscale).const_sub 1)
  have hval : 1 - ((ratio : ℝ) + (1 / 2 - 1) * 0 + Real.sin (Real.pi * ratio) / Real.pi) * 1 = 1 - ratio - Real.sin (Real.pi * ratio) / Real.pi := by ring
  rw [hval] at hmain
  refine hmain.congr' ?_
  filter_upwards [eventually_gt_atTop 0] with L hL
  rw [C138_share L hL ratio hr hr1]
  have hLR : (L : ℝ) ≠ 0 := by exact_mod_cast hL.ne'
  have hLR1 : (L : ℝ) + 1 ≠ 0 := by positivity
  have hs := (sin_half_pos L hL).ne'
  simp only [Pi.div_apply]
  change _ = 1 - ((m L + 1 / 2 - Real.cos (Real.pi / L)) + Real.sin ((m L - 3 / 2) * (Real.pi / L)) / (2 * Real.sin (Real.pi / L / 2))) / (L + 1)
  field_simp
  ring

/-- Sources of independent normal draws exist. -/
example : ∃ (Ω : Type) (_ : MeasurableSpace Ω) (P : Measure Ω) (_ : IsProbabilityMeasure P) (normal : Ω → Key → Unit → ℝ),
    (∀ k, Measurable fun ω => normal ω k ()) ∧ iIndepFun (fun k ω => normal ω k ()) P ∧
    ∀ k, P.map (fun ω => normal ω k ()) = gaussianReal 0 1 :=
  ⟨Key → ℝ, inferInstance, Measure.infinitePi fun _ => gaussianReal 0 1, inferInstance, fun ω k _ => ω k,
    fun k => measurable_pi_apply k, iIndepFun_infinitePi (X := fun _ x => x) fun _ => measurable_id,
    fun k => Measure.infinitePi_map_eval _ k⟩

/-- With the default exploration ratio of one quarter, long cycles and small steps, the variance is less than three fifths of that of the
posterior. -/
example : 1 - ((1 / 4 : ℚ) : ℝ) - Real.sin (Real.pi * ((1 / 4 : ℚ) : ℝ)) / Real.pi < 3 / 5 := by
  have h1 : Real.pi * ((1 / 4 : ℚ) : ℝ) = Real.pi / 4 := by push_cast; ring
  rw [h1, Real.sin_pi_div_four]
  have h2 : (7 / 5 : ℝ) < Real.sqrt 2 := by
    rw [Real.lt_sqrt (by norm_num)]
    norm_num
  have h3 : (3 / 20 : ℝ) < Real.sqrt 2 / 2 / Real.pi := by
    rw [lt_div_iff₀ Real.pi_pos]
    nlinarith [Real.pi_le_four]
  push_cast
  linarith

/-- In a cycle of four steps of which the first is for exploration, the second step has the initial size and draws noise. -/
example : isSgld 4 (1 / 4) 0 = false ∧ isSgld 4 (1 / 4) 1 = true ∧ unit 4 1 = 1 ∧ draws (isSgld 4 (1 / 4)) 4 = 3 := by
  refine ⟨by decide +kernel, by decide +kernel, ?_, by decide +kernel⟩
  norm_num [unit]

/-- One noisy step of a half on a standard normal posterior, then an exploring one. -/
example : cycVar (fun t => t == 0) (fun _ => 1 / 2) 1 1 = 1 ∧ cycVar (fun t => t == 0) (fun _ => 1 / 2) 1 2 = 1 / 4 := by
  constructor <;> norm_num [cycVar, aff]

/-! ### Concrete cases that meet the hypotheses of the theorems above -/

example := C138_law (ι := Fin 2) (Measure.infinitePi fun _ : Key => gaussianReal 0 1) (fun ω k _ => ω k) 1
  (fun k => measurable_pi_apply k) (iIndepFun_infinitePi (X := fun _ x => x) fun _ => measurable_id)
  (fun k => Measure.infinitePi_map_eval _ k) 10 (1 / 4) (fun t => 1 / (t + 1)) (fun t => by positivity) ![1, 2] ![1, 3]
example := C138_schedule (1 / 10) (by norm_num) 10 (by decide)
example := C138_limit 10 (by decide) (1 / 4) 2 1 5 0 (by norm_num) (by norm_num) (by norm_num) 3
example := C138_small_steps 10 (by decide) (1 / 4) 2 (by norm_num) 3
example := C138_posterior_false 10 (by decide) (1 / 4) (by norm_num) 2 (by norm_num) 3
example := C138_converges (ι := Fin 2) (Measure.infinitePi fun _ : Key => gaussianReal 0 1) (fun ω k _ => ω k) 1
  (fun k => measurable_pi_apply k) (iIndepFun_infinitePi (X := fun _ x => x) fun _ => measurable_id)
  (fun k => Measure.infinitePi_map_eval _ k) 10 (by decide) (1 / 4) 1 ![1, 2] ![1, 3] (by simp) (by norm_num) (by simp; norm_num)
example := C138_share 10 (by decide) (1 / 4) (by norm_num) (by norm_num)

end Verif.Props.Cyclical
