import Verif.Props.LangevinSchedule

/-!
Property C145: SGLD with the RMSprop preconditioner.
-/
set_option linter.unusedSectionVars false

namespace Verif.Props.Rmsprop

open Verif.SGMCMC Verif.Props Verif.Props.Langevin MeasureTheory ProbabilityTheory Finset Filter Topology

variable {ι : Type}

/-! ### The chain, step by step -/

/-- SGLD with the RMSprop preconditioner: `ρ` is its `running_average_factor`, `h t` the step sizes, `G t` the gradient of the log-joint on the
batch of step `t`. -/
noncomputable def chain (ρ eps : ℝ) (resample : Option ℕ) (h : ℕ → ℝ) (G : ℕ → (ι → ℝ) → ι → ℝ) (normal : Key → ι → ℝ) (key : Key)
    (x₀ : ι → ℝ) (t : ℕ) : ι → ℝ :=
  (sghmcRunOn (rmsprop ι ρ eps) 0 resample h normal G key x₀ t).1

/-- The gradients that the chain has seen in its first `t` steps, oldest first. -/
noncomputable def seen (ρ eps : ℝ) (resample : Option ℕ) (h : ℕ → ℝ) (G : ℕ → (ι → ℝ) → ι → ℝ) (normal : Key → ι → ℝ) (key : Key)
    (x₀ : ι → ℝ) (t : ℕ) : List (ι → ℝ) :=
  (List.range t).map fun k => G k (chain ρ eps resample h G normal key x₀ k)

theorem run_state (ρ eps : ℝ) (resample : Option ℕ) (h : ℕ → ℝ) (G : ℕ → (ι → ℝ) → ι → ℝ) (normal : Key → ι → ℝ) (key : Key)
    (x₀ : ι → ℝ) (t : ℕ) :
    let R := sghmcRunOn (rmsprop ι ρ eps) 0 resample h normal G key x₀ t
    R.2.count = t ∧ R.2.key = Key.right^[t] key ∧ R.2.pre = moments ρ eps (seen ρ eps resample h G normal key x₀ t) := by
  induction t with
  | zero => exact ⟨rfl, rfl, rfl⟩
  | succ t ih =>
    obtain ⟨h1, h2, h3⟩ := ih
    refine ⟨?_, ?_, ?_⟩
    · simp only [sghmcRunOn, sghmcUpdate]
      rw [h1]
    · simp only [sghmcRunOn, sghmcUpdate]
      rw [h2, Function.iterate_succ_apply']
    · simp only [sghmcRunOn, sghmcUpdate]
      rw [h3]
      unfold seen
      rw [List.range_succ, List.map_append, List.map_cons, List.map_nil]
      unfold moments
      rw [List.foldl_append, List.foldl_cons, List.foldl_nil]
      rfl

/-- **C145, one step.** The drift is the step size times the gradient over `eps + √e`, the noise has the variance `2 h / (eps + √e)`, where `e`
is the exponentially weighted average of the squared gradients, including that of the step. -/
theorem C145_step (ρ eps : ℝ) (he : 0 < eps) (resample : Option ℕ) (h : ℕ → ℝ) (hh : ∀ t, 0 ≤ h t) (G : ℕ → (ι → ℝ) → ι → ℝ)
    (normal : Key → ι → ℝ) (key : Key) (x₀ : ι → ℝ) (t : ℕ) (i : ι) :
    let x := chain ρ eps resample h G normal key x₀
    let e := moments ρ eps (seen ρ eps resample h G normal key x₀ (t + 1)) i
    x (t + 1) i = x t i + h t * (G t (x t) i / (eps + Real.sqrt e)) +
      Real.sqrt (2 * h t) * (normal (.left (Key.right^[t] key)) i / Real.sqrt (eps + Real.sqrt e)) := by
  intro x e
  obtain ⟨h1, h2, h3⟩ := run_state ρ eps resample h G normal key x₀ t
  have hstep := C39_sgld_rmsprop ρ eps he resample h normal (G t (x t)) (sghmcRunOn (rmsprop ι ρ eps) 0 resample h normal G key x₀ t).2
    (hh _) i
  dsimp only at hstep
  rw [h1, h2, h3] at hstep
  have hx : x (t + 1) i = x t i + (sghmcUpdate (rmsprop ι ρ eps) 0 resample h normal (G t (x t))
      (sghmcRunOn (rmsprop ι ρ eps) 0 resample h normal G key x₀ t).2).1 i := rfl
  have hpre : (rmsprop ι ρ eps).update (G t (x t)) (moments ρ eps (seen ρ eps resample h G normal key x₀ t)) =
      moments ρ eps (seen ρ eps resample h G normal key x₀ (t + 1)) := by
    unfold seen
    rw [List.range_succ, List.map_append, List.map_cons, List.map_nil]
    unfold moments
    rw [List.foldl_append, List.foldl_cons, List.foldl_nil]
  rw [hx, hstep, hpre, add_assoc]
  rfl

theorem moments_ge (ρ eps : ℝ) (h0 : 0 ≤ ρ) (h1 : ρ ≤ 1) (gs : List (ι → ℝ)) (g : ι → ℝ) (i : ι) :
    (1 - ρ) * g i ^ 2 ≤ moments ρ eps (gs ++ [g]) i := by
  have hn : 0 ≤ moments ρ eps gs i := by
    rw [C38_moments]
    refine mul_nonneg (by linarith) (List.sum_nonneg fun x hx => ?_)
    obtain ⟨gk, -, rfl⟩ := List.mem_map.1 hx
    positivity
  rw [moments_concat]
  nlinarith [mul_nonneg hn h0]

/-- The drift is bounded, whatever the gradient. -/
theorem drift_le (ρ eps e g : ℝ) (he : 0 < eps) (h1 : ρ < 1) (hg : (1 - ρ) * g ^ 2 ≤ e) :
    |g / (eps + Real.sqrt e)| ≤ 1 / Real.sqrt (1 - ρ) := by
  have hp : 0 < Real.sqrt (1 - ρ) := Real.sqrt_pos.2 (by linarith)
  have hW : 0 < eps + Real.sqrt e := by have := Real.sqrt_nonneg e; linarith
  rw [abs_div, abs_of_pos hW, div_le_div_iff₀ hW hp]
  have h2 : |g| * Real.sqrt (1 - ρ) ≤ Real.sqrt e := by
    refine Real.le_sqrt_of_sq_le ?_
    rw [mul_pow, sq_abs, Real.sq_sqrt (by linarith)]
    linarith
  linarith

theorem noise_le (eps e n h : ℝ) (he : 0 < eps) (hh : 0 ≤ h) :
    |Real.sqrt (2 * h) * (n / Real.sqrt (eps + Real.sqrt e))| ≤ Real.sqrt (2 * h / eps) * |n| := by
  have hW : Real.sqrt eps ≤ Real.sqrt (eps + Real.sqrt e) := Real.sqrt_le_sqrt (by have := Real.sqrt_nonneg e; linarith)
  have h0 : 0 < Real.sqrt eps := Real.sqrt_pos.2 he
  rw [abs_mul, abs_div, abs_of_nonneg (Real.sqrt_nonneg _), abs_of_nonneg (Real.sqrt_nonneg _), Real.sqrt_div (by linarith)]
  rw [div_mul_eq_mul_div, mul_div_assoc]
  exact mul_le_mul_of_nonneg_left (div_le_div_of_nonneg_left (abs_nonneg _) h0 hW) (Real.sqrt_nonneg _)

/-- **C145, no explosion.** Whatever the gradients, the batches and the step sizes, a coordinate is after `t` steps at most
`Σ (h_k / √(1-ρ) + √(2 h_k / eps) |n_k|)` away from its start. -/
theorem C145_bounded (ρ eps : ℝ) (he : 0 < eps) (h0 : 0 ≤ ρ) (h1 : ρ < 1) (resample : Option ℕ) (h : ℕ → ℝ) (hh : ∀ t, 0 ≤ h t)
    (G : ℕ → (ι → ℝ) → ι → ℝ) (normal : Key → ι → ℝ) (key : Key) (x₀ : ι → ℝ) (t : ℕ) (i : ι) :
    |chain ρ eps resample h G normal key x₀ t i - x₀ i| ≤
      ∑ k ∈ range t, (h k / Real.sqrt (1 - ρ) + Real.sqrt (2 * h k / eps) * |normal (.left (Key.right^[k] key)) i|) := by
  induction t with
  | zero => simp [chain, sghmcRunOn]
  | succ t ih =>
    have hs := C145_step ρ eps he resample h hh G normal key x₀ t i
    dsimp only at hs
    have hm := moments_ge ρ eps h0 h1.le (seen ρ eps resample h G normal key x₀ t) (G t (chain ρ eps resample h G normal key x₀ t)) i
    have hcat : seen ρ eps resample h G normal key x₀ t ++ [G t (chain ρ eps resample h G normal key x₀ t)] =
        seen ρ eps resample h G normal key x₀ (t + 1) := by
      unfold seen
      rw [List.range_succ, List.map_append, List.map_cons, List.map_nil]
    rw [hcat] at hm
    have hd := drift_le ρ eps _ _ he h1 hm
    have hn := noise_le eps (moments ρ eps (seen ρ eps resample h G normal key x₀ (t + 1)) i) (normal (.left (Key.right^[t] key)) i) (h t) he (hh t)
    have hd' : |h t * (G t (chain ρ eps resample h G normal key x₀ t) i /
        (eps + Real.sqrt (moments ρ eps (seen ρ eps resample h G normal key x₀ (t + 1)) i)))| ≤ h t / Real.sqrt (1 - ρ) := by
      rw [abs_mul, abs_of_nonneg (hh t)]
      refine (mul_le_mul_of_nonneg_left hd (hh t)).trans_eq ?_
      ring
    rw [sum_range_succ, hs]
    rw [abs_le] at *
    constructor <;> linarith [ih.1, ih.2, hd'.1, hd'.2, hn.1, hn.2]

/-! ### Expectations -/

variable {Ω : Type} [MeasurableSpace Ω]

theorem std_moments (P : Measure Ω) [IsProbabilityMeasure P] (Z : Ω → ℝ) (hm : Measurable Z) (hl : P.map Z = gaussianReal 0 1) :
    MemLp Z 2 P ∧ ∫ ω, Z ω ∂P = 0 ∧ ∫ ω, Z ω ^ 2 ∂P = 1 := by
  have hL2 : MemLp Z 2 P := by
    have := memLp_id_gaussianReal' (μ := 0) (v := 1) 2 (by norm_num)
    rw [← hl] at this
    exact this.comp_of_map hm.aemeasurable
  have hv : ProbabilityTheory.variance Z P = 1 := by
    have := variance_id_gaussianReal (μ := 0) (v := 1)
    rw [← hl, variance_map (by fun_prop) hm.aemeasurable] at this
    simpa using this
  have hz : ∫ ω, Z ω ∂P = 0 := by
    have := integral_id_gaussianReal (μ := 0) (v := 1)
    rw [← hl, integral_map hm.aemeasurable (by fun_prop)] at this
    exact this
  refine ⟨hL2, hz, ?_⟩
  rw [variance_eq_sub hL2, hz] at hv
  simpa using hv

theorem abs_mean_le (P : Measure Ω) [IsProbabilityMeasure P] (Z : Ω → ℝ) (hm : Measurable Z) (hl : P.map Z = gaussianReal 0 1) :
    ∫⁻ ω, ENNReal.ofReal |Z ω| ∂P ≤ 1 := by
  obtain ⟨hL2, hz, hsq⟩ := std_moments P Z hm hl
  have hint : Integrable (fun ω => Z ω ^ 2) P := hL2.integrable_sq
  have hb : ∫⁻ ω, ENNReal.ofReal |Z ω| ∂P ≤ ∫⁻ ω, ENNReal.ofReal ((1 + Z ω ^ 2) / 2) ∂P :=
    lintegral_mono fun ω => ENNReal.ofReal_le_ofReal (by nlinarith [sq_nonneg (|Z ω| - 1), sq_abs (Z ω)])
  refine hb.trans ?_
  have hint' : Integrable (fun ω => (1 + Z ω ^ 2) / 2) P := ((integrable_const 1).add hint).div_const 2
  rw [← ofReal_integral_eq_lintegral_ofReal hint' (ae_of_all _ fun ω => by positivity)]
  rw [integral_div, integral_add (integrable_const _) hint, hsq]
  simp

/-- **C145, no explosion on average.** With standard normal noise the mean distance from the start is at most
`Σ (h_k / √(1-ρ) + √(2 h_k / eps))`: it grows at most linearly under a constant step size, however large that is. -/
theorem C145_mean_distance (P : Measure Ω) [IsProbabilityMeasure P] (normal : Ω → Key → ι → ℝ) (i : ι)
    (hm : ∀ k, Measurable fun ω => normal ω k i) (hl : ∀ k, P.map (fun ω => normal ω k i) = gaussianReal 0 1)
    (ρ eps : ℝ) (he : 0 < eps) (h0 : 0 ≤ ρ) (h1 : ρ < 1) (resample : Option ℕ) (h : ℕ → ℝ) (hh : ∀ t, 0 ≤ h t)
    (G : ℕ → (ι → ℝ) → ι → ℝ) (key : Key) (x₀ : ι → ℝ) (t : ℕ) :
    ∫⁻ ω, ENNReal.ofReal |chain ρ eps resample h G (normal ω) key x₀ t i - x₀ i| ∂P ≤
      ENNReal.ofReal (∑ k ∈ range t, (h k / Real.sqrt (1 - ρ) + Real.sqrt (2 * h k / eps))) := by
  have hc : ∀ k, 0 ≤ h k / Real.sqrt (1 - ρ) := fun k => div_nonneg (hh k) (Real.sqrt_nonneg _)
  have hb := lintegral_mono (μ := P) fun ω =>
    ENNReal.ofReal_le_ofReal (C145_bounded ρ eps he h0 h1 resample h hh G (normal ω) key x₀ t i)
  refine hb.trans ?_
  have e1 : ∀ ω, ENNReal.ofReal (∑ k ∈ range t, (h k / Real.sqrt (1 - ρ) + Real.sqrt (2 * h k / eps) *
      |normal ω (.left (Key.right^[k] key)) i|)) =
      ∑ k ∈ range t, (ENNReal.ofReal (h k / Real.sqrt (1 - ρ)) + ENNReal.ofReal (Real.sqrt (2 * h k / eps)) *
        ENNReal.ofReal |normal ω (.left (Key.right^[k] key)) i|) := by
    intro ω
    rw [ENNReal.ofReal_sum_of_nonneg fun k _ => add_nonneg (hc k) (mul_nonneg (Real.sqrt_nonneg _) (abs_nonneg _))]
    refine sum_congr rfl fun k _ => ?_
    rw [ENNReal.ofReal_add (hc k) (mul_nonneg (Real.sqrt_nonneg _) (abs_nonneg _)), ENNReal.ofReal_mul (Real.sqrt_nonneg _)]
  simp only [e1]
  have hmeas : ∀ k, Measurable fun ω => ENNReal.ofReal |normal ω (.left (Key.right^[k] key)) i| := fun k =>
    ENNReal.measurable_ofReal.comp ((hm _).abs)
  have hmeas' : ∀ k ∈ range t, Measurable fun ω => ENNReal.ofReal (h k / Real.sqrt (1 - ρ)) + ENNReal.ofReal (Real.sqrt (2 * h k / eps)) *
      ENNReal.ofReal |normal ω (.left (Key.right^[k] key)) i| := fun k _ => measurable_const.add ((hmeas k).const_mul _)
  rw [lintegral_finsetSum _ hmeas',
    ENNReal.ofReal_sum_of_nonneg fun k _ => add_nonneg (hc k) (Real.sqrt_nonneg _)]
  refine sum_le_sum fun k _ => ?_
  rw [lintegral_add_left measurable_const, lintegral_const, measure_univ, mul_one, lintegral_const_mul _ (hmeas k),
    ENNReal.ofReal_add (hc k) (Real.sqrt_nonneg _)]
  refine add_le_add_right ?_ _
  calc _ ≤ ENNReal.ofReal (Real.sqrt (2 * h k / eps)) * 1 := by
        exact mul_le_mul_right (abs_mean_le P _ (hm _) (hl _)) _
    _ = _ := mul_one _

/-! ### Parameters without gradient -/

theorem moments_zero (ρ eps : ℝ) (gs : List (ι → ℝ)) (i : ι) (hg : ∀ g ∈ gs, g i = 0) : moments ρ eps gs i = 0 := by
  rw [C38_moments, List.sum_eq_zero, mul_zero]
  intro x hx
  obtain ⟨⟨g, k⟩, hk, rfl⟩ := List.mem_map.1 hx
  have := hg g (List.fst_mem_of_mem_zipIdx hk)
  dsimp only
  rw [this]
  simp

/-- **C145, no gradient.** A coordinate in which the log-joint has had no gradient in the first `t` steps has made a random walk with steps of variance
`2 h / eps`. -/
theorem C145_flat (ρ eps : ℝ) (he : 0 < eps) (resample : Option ℕ) (h : ℕ → ℝ) (hh : ∀ t, 0 ≤ h t) (G : ℕ → (ι → ℝ) → ι → ℝ)
    (normal : Key → ι → ℝ) (key : Key) (x₀ : ι → ℝ) (i : ι) (t : ℕ)
    (hG : ∀ k < t, G k (chain ρ eps resample h G normal key x₀ k) i = 0) :
    chain ρ eps resample h G normal key x₀ t i = x₀ i +
      ∑ k ∈ range t, Real.sqrt (2 * h k / eps) * normal (.left (Key.right^[k] key)) i := by
  induction t with
  | zero => simp [chain, sghmcRunOn]
  | succ t ih =>
    have hs := C145_step ρ eps he resample h hh G normal key x₀ t i
    dsimp only at hs
    have hz : moments ρ eps (seen ρ eps resample h G normal key x₀ (t + 1)) i = 0 := by
      refine moments_zero ρ eps _ i fun g hg => ?_
      obtain ⟨k, hk, rfl⟩ := List.mem_map.1 hg
      exact hG k (List.mem_range.1 hk)
    rw [hs, hz, hG t (Nat.lt_succ_self t), ih fun k hk => hG k (by omega), sum_range_succ, Real.sqrt_zero, add_zero,
      Real.sqrt_div (by have := hh t; linarith)]
    ring

/-- **C145, negative: leaving the mode.** Started where the log-joint has no gradient in a coordinate (at the mode), this coordinate is after one step
normal with the variance `2 h / eps`, whatever the posterior: with the default `eps = 1e-7` ten million times the variance without preconditioner. -/
theorem C145_mode_false (P : Measure Ω) [IsProbabilityMeasure P] (normal : Ω → Key → ι → ℝ) (i : ι)
    (hm : ∀ k, Measurable fun ω => normal ω k i) (hi : iIndepFun (fun k ω => normal ω k i) P)
    (hl : ∀ k, P.map (fun ω => normal ω k i) = gaussianReal 0 1)
    (ρ eps : ℝ) (he : 0 < eps) (resample : Option ℕ) (h : ℕ → ℝ) (hh : ∀ t, 0 ≤ h t) (G : ℕ → (ι → ℝ) → ι → ℝ) (key : Key)
    (x₀ : ι → ℝ) (hG : G 0 x₀ i = 0) :
    P.map (fun ω => chain ρ eps resample h G (normal ω) key x₀ 1 i) = gaussianReal (x₀ i) (Real.toNNReal (2 * h 0 / eps)) := by
  have hrun : ∀ ω, chain ρ eps resample h G (normal ω) key x₀ 1 i = x₀ i +
      ∑ k ∈ range 1, Real.sqrt (2 * h k / eps) * normal ω (.left (Key.right^[k] key)) i := fun ω =>
    C145_flat ρ eps he resample h hh G (normal ω) key x₀ i 1 fun k hk => by
      obtain rfl : k = 0 := by omega
      exact hG
  have hsum := sum_gaussian P (fun k ω => normal ω (.left (Key.right^[k] key)) i) (fun k => hm _)
    (hi.precomp (keys_injective key)) (fun k => hl _) (fun k => Real.sqrt (2 * h k / eps)) (range 1)
  simp only [hrun]
  have hmS : Measurable fun ω => ∑ k ∈ range 1, Real.sqrt (2 * h k / eps) * normal ω (.left (Key.right^[k] key)) i :=
    Finset.measurable_fun_sum _ fun k _ => (hm _).const_mul _
  have hcomp : (fun ω => x₀ i + ∑ k ∈ range 1, Real.sqrt (2 * h k / eps) * normal ω (.left (Key.right^[k] key)) i) =
      (fun y => x₀ i + y) ∘ fun ω => ∑ k ∈ range 1, Real.sqrt (2 * h k / eps) * normal ω (.left (Key.right^[k] key)) i := rfl
  rw [hcomp, ← Measure.map_map (by fun_prop) hmS, hsum, gaussianReal_map_const_add, zero_add, sum_range_one,
    Real.sq_sqrt (div_nonneg (by have := hh 0; linarith) he.le)]

/-! ### One step from the posterior itself -/

/-- What the RMSprop preconditioner divides a gradient `g` by when its moment estimate was `e` before the step. -/
noncomputable def mass (ρ eps e g : ℝ) : ℝ := eps + Real.sqrt (e * ρ + g ^ 2 * (1 - ρ))

theorem mass_ge (ρ eps e g : ℝ) : eps ≤ mass ρ eps e g := by
  unfold mass
  have := Real.sqrt_nonneg (e * ρ + g ^ 2 * (1 - ρ))
  linarith

theorem mass_continuous (ρ eps e : ℝ) : Continuous (mass ρ eps e) := by
  unfold mass
  fun_prop

/-- A step with independent noise adds the variance of the noise. -/
theorem second_moment (P : Measure Ω) [IsProbabilityMeasure P] (Y N : Ω → ℝ) (hY : Measurable Y) (hN : Measurable N) (hi : IndepFun Y N P)
    (hl : P.map N = gaussianReal 0 1) (f k : ℝ → ℝ) (hf : Measurable f) (hk : Measurable k)
    (hf2 : MemLp (fun ω => f (Y ω)) 2 P) (hk2 : MemLp (fun ω => k (Y ω)) 2 P) :
    ∫ ω, (f (Y ω) + k (Y ω) * N ω) ^ 2 ∂P = ∫ ω, f (Y ω) ^ 2 ∂P + ∫ ω, k (Y ω) ^ 2 ∂P := by
  obtain ⟨hL2, hz, hsq⟩ := std_moments P N hN hl
  have hi1 : IndepFun (fun ω => f (Y ω) * k (Y ω)) N P := hi.comp (φ := fun y => f y * k y) (ψ := id) (hf.mul hk) measurable_id
  have hi2 : IndepFun (fun ω => k (Y ω) ^ 2) (fun ω => N ω ^ 2) P :=
    hi.comp (φ := fun y => k y ^ 2) (ψ := fun y => y ^ 2) (hk.pow_const 2) (by fun_prop)
  have j1 : Integrable (fun ω => f (Y ω) * k (Y ω)) P := hf2.integrable_mul hk2
  have j2 : Integrable (fun ω => k (Y ω) ^ 2) P := hk2.integrable_sq
  have j3 : Integrable (fun ω => f (Y ω) ^ 2) P := hf2.integrable_sq
  have jN : Integrable N P := hL2.integrable (by norm_num)
  have jN2 : Integrable (fun ω => N ω ^ 2) P := hL2.integrable_sq
  have i1 : Integrable (fun ω => (f (Y ω) * k (Y ω)) * N ω) P := hi1.integrable_mul j1 jN
  have i2 : Integrable (fun ω => k (Y ω) ^ 2 * N ω ^ 2) P := hi2.integrable_mul j2 jN2
  have e1 : ∫ ω, (f (Y ω) * k (Y ω)) * N ω ∂P = 0 := by
    rw [hi1.integral_fun_mul_eq_mul_integral j1.aestronglyMeasurable jN.aestronglyMeasurable, hz, mul_zero]
  have e2 : ∫ ω, k (Y ω) ^ 2 * N ω ^ 2 ∂P = ∫ ω, k (Y ω) ^ 2 ∂P := by
    rw [hi2.integral_fun_mul_eq_mul_integral j2.aestronglyMeasurable jN2.aestronglyMeasurable, hsq, mul_one]
  have hex : ∀ ω, (f (Y ω) + k (Y ω) * N ω) ^ 2 = f (Y ω) ^ 2 + (2 * ((f (Y ω) * k (Y ω)) * N ω) + k (Y ω) ^ 2 * N ω ^ 2) := fun ω => by ring
  simp only [hex]
  have i3 : Integrable (fun ω => 2 * ((f (Y ω) * k (Y ω)) * N ω) + k (Y ω) ^ 2 * N ω ^ 2) P := (i1.const_mul 2).add i2
  rw [integral_add j3 i3, integral_add (i1.const_mul 2) i2, integral_const_mul, e1, e2]
  ring

/-- The parameters after one step of SGLD with the RMSprop preconditioner from `x`, the integrator being in the state `s`. -/
noncomputable def next (ρ eps : ℝ) (resample : Option ℕ) (sch : ℕ → ℝ) (normal : Key → ι → ℝ) (μ v : ι → ℝ) (s : HMCState ι (ι → ℝ)) (x : ι → ℝ)
    (i : ι) : ℝ :=
  x i + (sghmcUpdate (rmsprop ι ρ eps) 0 resample sch normal (fun i => -(x i - μ i) / v i) s).1 i

/-- **C145, second moment.** Let the posterior be Gaussian with independent coordinates of means `μ` and variances `v`, let the sample `X` before the
step have any distribution with a second moment, independent of the noise. Then one step changes its mean squared distance from the mean of the posterior by
`2 h E[(1 - (X - μ)² / v) / W] + h² E[((X - μ) / (v W))²]`, where `W = eps + √(ρ e + (1-ρ) g²)`. -/
theorem C145_second_moment (P : Measure Ω) [IsProbabilityMeasure P] (normal : Ω → Key → ι → ℝ) (i : ι) (s : HMCState ι (ι → ℝ))
    (X : Ω → ι → ℝ) (hX : Measurable fun ω => X ω i) (hN : Measurable fun ω => normal ω (.left s.key) i)
    (hi : IndepFun (fun ω => X ω i) (fun ω => normal ω (.left s.key) i) P) (hl : P.map (fun ω => normal ω (.left s.key) i) = gaussianReal 0 1)
    (hX2 : MemLp (fun ω => X ω i) 2 P) (ρ eps : ℝ) (he : 0 < eps) (resample : Option ℕ) (sch : ℕ → ℝ) (hh : 0 ≤ sch s.count) (μ v : ι → ℝ)
    (hv : 0 < v i) :
    let W := fun ω => mass ρ eps (s.pre i) ((X ω i - μ i) / v i)
    ∫ ω, (next ρ eps resample sch (normal ω) μ v s (X ω) i - μ i) ^ 2 ∂P = ∫ ω, (X ω i - μ i) ^ 2 ∂P +
      2 * sch s.count * ∫ ω, (1 - (X ω i - μ i) ^ 2 / v i) / W ω ∂P + sch s.count ^ 2 * ∫ ω, ((X ω i - μ i) / (v i * W ω)) ^ 2 ∂P := by
  intro W
  set h := sch s.count with hh'
  set w : ℝ → ℝ := fun y => mass ρ eps (s.pre i) (y / v i) with hw
  have hwpos : ∀ y, 0 < w y := fun y => lt_of_lt_of_le he (mass_ge _ _ _ _)
  have hwc : Continuous w := (mass_continuous ρ eps (s.pre i)).comp (continuous_id.div_const _)
  have hwi : Continuous fun y => (w y)⁻¹ := hwc.inv₀ fun y => (hwpos y).ne'
  set f : ℝ → ℝ := fun y => y - h / v i * (y * (w y)⁻¹) with hf
  set k : ℝ → ℝ := fun y => Real.sqrt (2 * h) * Real.sqrt (w y)⁻¹ with hk
  have hfc : Continuous f := by fun_prop
  have hkc : Continuous k := by fun_prop
  have hstep : ∀ ω, next ρ eps resample sch (normal ω) μ v s (X ω) i - μ i =
      f (X ω i - μ i) + k (X ω i - μ i) * normal ω (.left s.key) i := by
    intro ω
    have hs := C39_sgld_rmsprop ρ eps he resample sch (normal ω) (fun i => -(X ω i - μ i) / v i) s hh i
    dsimp only at hs
    have hp : eps + Real.sqrt ((rmsprop ι ρ eps).update (fun i => -(X ω i - μ i) / v i) s.pre i) = w (X ω i - μ i) := by
      simp only [hw, mass, rmsprop]
      rw [neg_div, neg_sq]
    unfold next
    rw [hs]
    show X ω i + (h * (-(X ω i - μ i) / v i / (eps + Real.sqrt ((rmsprop ι ρ eps).update (fun i => -(X ω i - μ i) / v i) s.pre i))) +
      Real.sqrt (2 * h) * (normal ω (.left s.key) i / Real.sqrt (eps + Real.sqrt ((rmsprop ι ρ eps).update (fun i => -(X ω i - μ i) / v i) s.pre i)))) -
        μ i = _
    rw [hp]
    simp only [hf, hk]
    rw [Real.sqrt_inv]
    ring
  have hY : Measurable fun ω => X ω i - μ i := hX.sub_const _
  have hY2 : MemLp (fun ω => X ω i - μ i) 2 P := hX2.sub (memLp_const _)
  have hiY : IndepFun (fun ω => X ω i - μ i) (fun ω => normal ω (.left s.key) i) P :=
    hi.comp (φ := fun y => y - μ i) (ψ := id) (by fun_prop) measurable_id
  have hinv : ∀ y, |(w y)⁻¹| ≤ eps⁻¹ := fun y => by
    rw [abs_of_pos (inv_pos.2 (hwpos y))]
    exact inv_anti₀ he (mass_ge _ _ _ _)
  have hyw : MemLp (fun ω => (X ω i - μ i) * (w (X ω i - μ i))⁻¹) 2 P := by
    refine MemLp.of_le (hY2.mul_const eps⁻¹) (((by fun_prop : Continuous fun y => y * (w y)⁻¹).measurable.comp hY).aestronglyMeasurable)
      (ae_of_all _ fun ω => ?_)
    rw [norm_mul, norm_mul]
    refine mul_le_mul_of_nonneg_left ?_ (norm_nonneg _)
    rw [Real.norm_eq_abs, Real.norm_eq_abs, abs_of_pos (inv_pos.2 he)]
    exact hinv _
  have hf2 : MemLp (fun ω => f (X ω i - μ i)) 2 P := hY2.sub (hyw.const_mul (h / v i))
  have hk2 : MemLp (fun ω => k (X ω i - μ i)) 2 P := by
    refine MemLp.of_bound (hkc.measurable.comp hY).aestronglyMeasurable (Real.sqrt (2 * h) * Real.sqrt eps⁻¹) (ae_of_all _ fun ω => ?_)
    rw [Real.norm_eq_abs, abs_of_nonneg (mul_nonneg (Real.sqrt_nonneg _) (Real.sqrt_nonneg _))]
    exact mul_le_mul_of_nonneg_left (Real.sqrt_le_sqrt ((le_abs_self _).trans (hinv _))) (Real.sqrt_nonneg _)
  have hmain := second_moment P _ _ hY hN hiY hl f k hfc.measurable hkc.measurable hf2 hk2
  have j1 : Integrable (fun ω => (X ω i - μ i) ^ 2) P := hY2.integrable_sq
  have j2 : Integrable (fun ω => ((X ω i - μ i) * (w (X ω i - μ i))⁻¹) ^ 2) P := hyw.integrable_sq
  have j3 : Integrable (fun ω => (X ω i - μ i) * ((X ω i - μ i) * (w (X ω i - μ i))⁻¹)) P := hY2.integrable_mul hyw
  have j4 : Integrable (fun ω => (w (X ω i - μ i))⁻¹) P :=
    Integrable.of_bound (hwi.measurable.comp hY).aestronglyMeasurable eps⁻¹ (ae_of_all _ fun ω => hinv _)
  have e1 : ∫ ω, f (X ω i - μ i) ^ 2 ∂P = ∫ ω, (X ω i - μ i) ^ 2 ∂P - 2 * h / v i * ∫ ω, (X ω i - μ i) * ((X ω i - μ i) * (w (X ω i - μ i))⁻¹) ∂P +
      (h / v i) ^ 2 * ∫ ω, ((X ω i - μ i) * (w (X ω i - μ i))⁻¹) ^ 2 ∂P := by
    have j5 : Integrable (fun ω => (X ω i - μ i) ^ 2 - 2 * h / v i * ((X ω i - μ i) * ((X ω i - μ i) * (w (X ω i - μ i))⁻¹))) P :=
      j1.sub (j3.const_mul _)
    rw [← integral_const_mul, ← integral_const_mul, ← integral_sub j1 (j3.const_mul _), ← integral_add j5 (j2.const_mul _)]
    refine integral_congr_ae (ae_of_all _ fun ω => ?_)
    simp only [hf]
    ring
  have e2 : ∫ ω, k (X ω i - μ i) ^ 2 ∂P = 2 * h * ∫ ω, (w (X ω i - μ i))⁻¹ ∂P := by
    rw [← integral_const_mul]
    refine integral_congr_ae (ae_of_all _ fun ω => ?_)
    simp only [hk]
    rw [mul_pow, Real.sq_sqrt (by linarith), Real.sq_sqrt (inv_pos.2 (hwpos _)).le]
  have e3 : ∫ ω, (1 - (X ω i - μ i) ^ 2 / v i) / W ω ∂P = ∫ ω, (w (X ω i - μ i))⁻¹ ∂P -
      (v i)⁻¹ * ∫ ω, (X ω i - μ i) * ((X ω i - μ i) * (w (X ω i - μ i))⁻¹) ∂P := by
    rw [← integral_const_mul, ← integral_sub j4 (j3.const_mul _)]
    refine integral_congr_ae (ae_of_all _ fun ω => ?_)
    show (1 - (X ω i - μ i) ^ 2 / v i) / w (X ω i - μ i) = _
    ring
  have e4 : ∫ ω, ((X ω i - μ i) / (v i * W ω)) ^ 2 ∂P = (v i)⁻¹ ^ 2 * ∫ ω, ((X ω i - μ i) * (w (X ω i - μ i))⁻¹) ^ 2 ∂P := by
    rw [← integral_const_mul]
    refine integral_congr_ae (ae_of_all _ fun ω => ?_)
    show ((X ω i - μ i) / (v i * w (X ω i - μ i))) ^ 2 = _
    have := (hwpos (X ω i - μ i)).ne'
    field_simp
  simp only [hstep]
  rw [hmain, e1, e2, e3, e4]
  ring

/-- Under the posterior the first-order change is positive. -/
theorem bias_pos (ρ eps e m v : ℝ) (he : 0 < eps) (h0 : 0 ≤ ρ) (h1 : ρ < 1) (hee : 0 ≤ e) (hv : 0 < v) :
    0 < ∫ x, (1 - (x - m) ^ 2 / v) / mass ρ eps e ((x - m) / v) ∂gaussianReal m (Real.toNNReal v) := by
  set P := gaussianReal m (Real.toNNReal v) with hP
  have hvn : Real.toNNReal v ≠ 0 := by rw [ne_eq, Real.toNNReal_eq_zero]; linarith
  have hna : NullSingletonClass P := nullSingletonClass_gaussianReal hvn
  set w : ℝ → ℝ := fun x => mass ρ eps e ((x - m) / v) with hw
  have hwpos : ∀ x, 0 < w x := fun x => lt_of_lt_of_le he (mass_ge _ _ _ _)
  have hwc : Continuous w := (mass_continuous ρ eps e).comp (by fun_prop)
  set w1 : ℝ := eps + Real.sqrt (e * ρ + v⁻¹ * (1 - ρ)) with hw1
  have hw1pos : 0 < w1 := by have := Real.sqrt_nonneg (e * ρ + v⁻¹ * (1 - ρ)); linarith
  have hlt : ∀ x, (x - m) ^ 2 < v → w x < w1 := by
    intro x hx
    have h2 : ((x - m) / v) ^ 2 < v⁻¹ := by
      rw [div_pow, div_lt_iff₀ (by positivity)]
      calc (x - m) ^ 2 < v := hx
        _ = v⁻¹ * v ^ 2 := by field_simp
    simp only [hw, hw1, mass]
    have : Real.sqrt (e * ρ + ((x - m) / v) ^ 2 * (1 - ρ)) < Real.sqrt (e * ρ + v⁻¹ * (1 - ρ)) := by
      refine Real.sqrt_lt_sqrt (by have : 0 ≤ 1 - ρ := by linarith
                                   positivity) ?_
      have := mul_lt_mul_of_pos_right h2 (by linarith : 0 < 1 - ρ)
      linarith
    linarith
  have hgt : ∀ x, v < (x - m) ^ 2 → w1 < w x := by
    intro x hx
    have h2 : v⁻¹ < ((x - m) / v) ^ 2 := by
      rw [div_pow, lt_div_iff₀ (by positivity)]
      calc v⁻¹ * v ^ 2 = v := by field_simp
        _ < (x - m) ^ 2 := hx
    simp only [hw, hw1, mass]
    have : Real.sqrt (e * ρ + v⁻¹ * (1 - ρ)) < Real.sqrt (e * ρ + ((x - m) / v) ^ 2 * (1 - ρ)) := by
      refine Real.sqrt_lt_sqrt (by have : 0 ≤ 1 - ρ := by linarith
                                   positivity) ?_
      have := mul_lt_mul_of_pos_right h2 (by linarith : 0 < 1 - ρ)
      linarith
    linarith
  have hL2 : MemLp (fun x : ℝ => x) 2 P := memLp_id_gaussianReal' 2 (by norm_num)
  have hc2 : MemLp (fun x : ℝ => x - m) 2 P := hL2.sub (memLp_const _)
  have hint0 : Integrable (fun x : ℝ => 1 - (x - m) ^ 2 / v) P := (integrable_const _).sub (hc2.integrable_sq.div_const _)
  have hzero : ∫ x, (1 - (x - m) ^ 2 / v) ∂P = 0 := by
    have hvar : ProbabilityTheory.variance id P = v := by
      rw [hP, variance_id_gaussianReal]
      exact Real.coe_toNNReal _ hv.le
    rw [variance_eq_integral (by fun_prop)] at hvar
    simp only [id] at hvar
    have hmean : ∫ x, x ∂P = m := integral_id_gaussianReal
    rw [hmean] at hvar
    rw [integral_sub (integrable_const _) (hc2.integrable_sq.div_const _), integral_div, hvar]
    simp [hv.ne']
  have hint : Integrable (fun x => (1 - (x - m) ^ 2 / v) / w x) P := by
    refine Integrable.mono' (hint0.norm.mul_const eps⁻¹) ?_ (ae_of_all _ fun x => ?_)
    · exact ((by fun_prop : Continuous fun x : ℝ => 1 - (x - m) ^ 2 / v).div hwc fun x => (hwpos x).ne').aestronglyMeasurable
    · rw [norm_div, div_eq_mul_inv]
      refine mul_le_mul_of_nonneg_left ?_ (norm_nonneg _)
      rw [Real.norm_eq_abs, abs_of_pos (hwpos x)]
      exact inv_anti₀ he (mass_ge _ _ _ _)
  set F : ℝ → ℝ := fun x => (1 - (x - m) ^ 2 / v) / w x - (1 - (x - m) ^ 2 / v) / w1 with hF
  have hFint : Integrable F P := hint.sub (hint0.div_const _)
  have hFe : ∫ x, F x ∂P = ∫ x, (1 - (x - m) ^ 2 / v) / w x ∂P := by
    rw [hF, integral_sub hint (hint0.div_const _), integral_div, hzero]
    simp
  have hFpos : ∀ x, (x - m) ^ 2 ≠ v → 0 < F x := by
    intro x hx
    simp only [hF]
    rw [div_sub_div _ _ (hwpos x).ne' hw1pos.ne', show ∀ a b c : ℝ, a * c - b * a = a * (c - b) from fun a b c => by ring]
    refine div_pos ?_ (mul_pos (hwpos x) hw1pos)
    rcases lt_or_gt_of_ne hx with h | h
    · refine mul_pos ?_ (by have := hlt x h; linarith)
      rw [sub_pos, div_lt_one hv]
      exact h
    · refine mul_pos_of_neg_of_neg ?_ (by have := hgt x h; linarith)
      rw [sub_neg, one_lt_div hv]
      exact h
  have hFnn : 0 ≤ F := by
    intro x
    by_cases hx : (x - m) ^ 2 = v
    · simp [hF, hx, hv.ne']
    · exact (hFpos x hx).le
  show 0 < ∫ x, (1 - (x - m) ^ 2 / v) / w x ∂P
  rw [← hFe, integral_pos_iff_support_of_nonneg hFnn hFint]
  have hsub : ({m + Real.sqrt v, m - Real.sqrt v} : Set ℝ)ᶜ ⊆ Function.support F := by
    intro x hx
    refine (hFpos x fun hc => hx ?_).ne'
    have h3 : (x - m) ^ 2 = Real.sqrt v ^ 2 := by rw [Real.sq_sqrt hv.le, hc]
    rcases sq_eq_sq_iff_eq_or_eq_neg.1 h3 with h | h
    · left; linarith
    · right
      rw [Set.mem_singleton_iff]
      linarith
  refine lt_of_lt_of_le ?_ (measure_mono hsub)
  have hfin : ({m + Real.sqrt v, m - Real.sqrt v} : Set ℝ).Finite := Set.toFinite _
  rw [measure_compl hfin.measurableSet (measure_ne_top _ _), hfin.measure_zero P]
  simp

theorem gaussian_moments (P : Measure Ω) [IsProbabilityMeasure P] (X : Ω → ℝ) (hX : Measurable X) (m v : ℝ) (hv : 0 < v)
    (hXl : P.map X = gaussianReal m (Real.toNNReal v)) : MemLp X 2 P ∧ ∫ ω, (X ω - m) ^ 2 ∂P = v := by
  have hX2 : MemLp X 2 P := by
    have := memLp_id_gaussianReal' (μ := m) (v := Real.toNNReal v) 2 (by norm_num)
    rw [← hXl] at this
    exact this.comp_of_map hX.aemeasurable
  have hvar : ProbabilityTheory.variance X P = v := by
    have := variance_id_gaussianReal (μ := m) (v := Real.toNNReal v)
    rw [← hXl, variance_map (by fun_prop) hX.aemeasurable, Real.coe_toNNReal _ hv.le] at this
    exact this
  have hmean : ∫ ω, X ω ∂P = m := by
    have := integral_id_gaussianReal (μ := m) (v := Real.toNNReal v)
    rw [← hXl, integral_map hX.aemeasurable (by fun_prop)] at this
    exact this
  rw [variance_eq_integral hX.aemeasurable, hmean] at hvar
  exact ⟨hX2, hvar⟩

/-- **C145, without preconditioner.** From the posterior itself, one step of size `h` changes the mean squared distance from the posterior mean by `h² / v` only. -/
theorem C145_identity (P : Measure Ω) [IsProbabilityMeasure P] (normal : Ω → Key → ι → ℝ) (i : ι) (s : HMCState ι Unit)
    (X : Ω → ι → ℝ) (hX : Measurable fun ω => X ω i) (hN : Measurable fun ω => normal ω (.left s.key) i)
    (hi : IndepFun (fun ω => X ω i) (fun ω => normal ω (.left s.key) i) P) (hl : P.map (fun ω => normal ω (.left s.key) i) = gaussianReal 0 1)
    (resample : Option ℕ) (sch : ℕ → ℝ) (hh : 0 ≤ sch s.count) (μ v : ι → ℝ)
    (hv : 0 < v i) (hXl : P.map (fun ω => X ω i) = gaussianReal (μ i) (Real.toNNReal (v i))) :
    ∫ ω, (X ω i + (sghmcUpdate (identityPrecond ι) 0 resample sch (normal ω) (fun i => -(X ω i - μ i) / v i) s).1 i - μ i) ^ 2 ∂P =
      v i + sch s.count ^ 2 / v i := by
  obtain ⟨hX2, hm⟩ := gaussian_moments P _ hX (μ i) (v i) hv hXl
  have hY2 : MemLp (fun ω => X ω i - μ i) 2 P := hX2.sub (memLp_const _)
  have hiY : IndepFun (fun ω => X ω i - μ i) (fun ω => normal ω (.left s.key) i) P :=
    hi.comp (φ := fun y => y - μ i) (ψ := id) (by fun_prop) measurable_id
  have hmain := second_moment P _ _ (hX.sub_const _) hN hiY hl (fun y => (1 - sch s.count / v i) * y) (fun _ => Real.sqrt (2 * sch s.count))
    (by fun_prop) (by fun_prop) (hY2.const_mul _) (memLp_const _)
  have hstep : ∀ ω, X ω i + (sghmcUpdate (identityPrecond ι) 0 resample sch (normal ω) (fun i => -(X ω i - μ i) / v i) s).1 i - μ i =
      (1 - sch s.count / v i) * (X ω i - μ i) + Real.sqrt (2 * sch s.count) * normal ω (.left s.key) i := by
    intro ω
    rw [C39_sgld_identity resample sch (normal ω) _ s hh i]
    ring
  simp only [hstep]
  rw [hmain]
  simp only [mul_pow]
  rw [integral_const_mul, hm, integral_const, Real.sq_sqrt (by linarith)]
  simp only [probReal_univ, one_smul]
  field_simp
  ring

/-- **C145, negative: the posterior is not kept, to first order.** Let the sample before the step be distributed like the (Gaussian) posterior, whatever the
moment estimate. After one step its mean squared distance from the posterior mean is at least `v + 2 h c` with a positive constant `c` that does not depend on
the step size. (Without preconditioner it is `v + h² / v`, see `C145_identity`.) -/
theorem C145_posterior_false (P : Measure Ω) [IsProbabilityMeasure P] (normal : Ω → Key → ι → ℝ) (i : ι) (s : HMCState ι (ι → ℝ)) (hs : 0 ≤ s.pre i)
    (X : Ω → ι → ℝ) (hX : Measurable fun ω => X ω i) (hN : Measurable fun ω => normal ω (.left s.key) i)
    (hi : IndepFun (fun ω => X ω i) (fun ω => normal ω (.left s.key) i) P) (hl : P.map (fun ω => normal ω (.left s.key) i) = gaussianReal 0 1)
    (ρ eps : ℝ) (he : 0 < eps) (h0 : 0 ≤ ρ) (h1 : ρ < 1) (resample : Option ℕ) (sch : ℕ → ℝ) (hh : 0 ≤ sch s.count) (μ v : ι → ℝ)
    (hv : 0 < v i) (hXl : P.map (fun ω => X ω i) = gaussianReal (μ i) (Real.toNNReal (v i))) :
    let c := ∫ x, (1 - (x - μ i) ^ 2 / v i) / mass ρ eps (s.pre i) ((x - μ i) / v i) ∂gaussianReal (μ i) (Real.toNNReal (v i))
    0 < c ∧ v i + 2 * sch s.count * c ≤ ∫ ω, (next ρ eps resample sch (normal ω) μ v s (X ω) i - μ i) ^ 2 ∂P := by
  intro c
  refine ⟨bias_pos ρ eps (s.pre i) (μ i) (v i) he h0 h1 hs hv, ?_⟩
  obtain ⟨hX2, e2⟩ := gaussian_moments P _ hX (μ i) (v i) hv hXl
  have h2 := C145_second_moment P normal i s X hX hN hi hl hX2 ρ eps he resample sch hh μ v hv
  dsimp only at h2
  rw [h2]
  have hwpos : ∀ x, 0 < mass ρ eps (s.pre i) x := fun x => lt_of_lt_of_le he (mass_ge _ _ _ _)
  have hcm : Continuous fun x : ℝ => (1 - (x - μ i) ^ 2 / v i) / mass ρ eps (s.pre i) ((x - μ i) / v i) :=
    (by fun_prop : Continuous fun x : ℝ => 1 - (x - μ i) ^ 2 / v i).div ((mass_continuous ρ eps (s.pre i)).comp (by fun_prop)) fun x => (hwpos _).ne'
  have e1 : ∫ ω, (1 - (X ω i - μ i) ^ 2 / v i) / mass ρ eps (s.pre i) ((X ω i - μ i) / v i) ∂P = c := by
    simp only [c]
    rw [← hXl, integral_map hX.aemeasurable hcm.aestronglyMeasurable]
  rw [e1, e2]
  have h3 : 0 ≤ ∫ ω, ((X ω i - μ i) / (v i * mass ρ eps (s.pre i) ((X ω i - μ i) / v i))) ^ 2 ∂P := integral_nonneg fun ω => sq_nonneg _
  nlinarith [mul_nonneg (sq_nonneg (sch s.count)) h3]

/-- **C145, negative: what is kept is not the posterior.** With `running_average_factor = 0`, let a distribution with a second moment be kept by the step of size
`h > 0`. Then its expectation of `(1 - (x - μ)² / v) / (eps + |x - μ| / v)` lies between `-h / 2` and zero, whereas that under the posterior is positive: the
distributions that the sampler keeps do not come close to the posterior, however small the steps. -/
theorem C145_stationary_false (P : Measure Ω) [IsProbabilityMeasure P] (normal : Ω → Key → ι → ℝ) (i : ι) (s : HMCState ι (ι → ℝ))
    (X : Ω → ι → ℝ) (hX : Measurable fun ω => X ω i) (hN : Measurable fun ω => normal ω (.left s.key) i)
    (hi : IndepFun (fun ω => X ω i) (fun ω => normal ω (.left s.key) i) P) (hl : P.map (fun ω => normal ω (.left s.key) i) = gaussianReal 0 1)
    (hX2 : MemLp (fun ω => X ω i) 2 P) (eps : ℝ) (he : 0 < eps) (resample : Option ℕ) (sch : ℕ → ℝ) (hh : 0 < sch s.count) (μ v : ι → ℝ)
    (hv : 0 < v i)
    (hn : Measurable fun ω => next 0 eps resample sch (normal ω) μ v s (X ω) i)
    (hkept : P.map (fun ω => next 0 eps resample sch (normal ω) μ v s (X ω) i) = P.map (fun ω => X ω i)) :
    let ψ := fun x : ℝ => (1 - (x - μ i) ^ 2 / v i) / (eps + |x - μ i| / v i)
    ∫ ω, ψ (X ω i) ∂P ≤ 0 ∧ -(sch s.count / 2) ≤ ∫ ω, ψ (X ω i) ∂P ∧ 0 < ∫ x, ψ x ∂gaussianReal (μ i) (Real.toNNReal (v i)) := by
  intro ψ
  have hmass : ∀ e x : ℝ, mass 0 eps e ((x - μ i) / v i) = eps + |x - μ i| / v i := by
    intro e x
    unfold mass
    rw [mul_zero, zero_add, sub_zero, mul_one, Real.sqrt_sq_eq_abs, abs_div, abs_of_pos hv]
  have h2 := C145_second_moment P normal i s X hX hN hi hl hX2 0 eps he resample sch hh.le μ v hv
  dsimp only at h2
  simp only [hmass] at h2
  have hsame : ∫ ω, (next 0 eps resample sch (normal ω) μ v s (X ω) i - μ i) ^ 2 ∂P = ∫ ω, (X ω i - μ i) ^ 2 ∂P := by
    have e1 := integral_map (μ := P) (φ := fun ω => X ω i) hX.aemeasurable (f := fun x => (x - μ i) ^ 2) (by fun_prop)
    have e2 := integral_map (μ := P) (φ := fun ω => next 0 eps resample sch (normal ω) μ v s (X ω) i) hn.aemeasurable
      (f := fun x => (x - μ i) ^ 2) (by fun_prop)
    rw [← e1, ← e2, hkept]
  rw [hsame] at h2
  have hwpos : ∀ ω, 0 < eps + |X ω i - μ i| / v i := fun ω => by positivity
  have h3 : 0 ≤ ∫ ω, ((X ω i - μ i) / (v i * (eps + |X ω i - μ i| / v i))) ^ 2 ∂P := integral_nonneg fun ω => sq_nonneg _
  have hle : ∀ ω, ((X ω i - μ i) / (v i * (eps + |X ω i - μ i| / v i))) ^ 2 ≤ 1 := by
    intro ω
    rw [sq_le_one_iff_abs_le_one, abs_div, abs_of_pos (mul_pos hv (hwpos ω)), div_le_one (mul_pos hv (hwpos ω)), mul_add, mul_div_cancel₀ _ hv.ne']
    nlinarith
  have h4 : ∫ ω, ((X ω i - μ i) / (v i * (eps + |X ω i - μ i| / v i))) ^ 2 ∂P ≤ 1 := by
    have := integral_mono_of_nonneg (μ := P) (ae_of_all _ fun ω => sq_nonneg ((X ω i - μ i) / (v i * (eps + |X ω i - μ i| / v i))))
      (integrable_const (1 : ℝ)) (ae_of_all _ hle)
    simpa using this
  have h5 : 2 * ∫ ω, ψ (X ω i) ∂P = -(sch s.count * ∫ ω, ((X ω i - μ i) / (v i * (eps + |X ω i - μ i| / v i))) ^ 2 ∂P) := by
    have : sch s.count * (2 * ∫ ω, ψ (X ω i) ∂P) = sch s.count * -(sch s.count * ∫ ω, ((X ω i - μ i) / (v i * (eps + |X ω i - μ i| / v i))) ^ 2 ∂P) := by
      simp only [ψ]
      linarith
    exact mul_left_cancel₀ hh.ne' this
  refine ⟨?_, ?_, ?_⟩
  · nlinarith [mul_nonneg hh.le h3]
  · nlinarith [mul_le_mul_of_nonneg_left h4 hh.le]
  · have := bias_pos 0 eps 0 (μ i) (v i) he le_rfl zero_lt_one le_rfl hv
    simp only [hmass] at this
    exact this

/-! ### Examples -/

/-- With step size `1e-5` and the default `eps = 1e-7`, a chain started at the mode zero of a standard normal posterior has the variance 200 after one step. -/
example : (Measure.infinitePi fun _ : Key => gaussianReal 0 1).map (fun ω => chain 0.99 1e-7 none (fun _ => 1e-5) (fun _ x i => -x i) (fun k (_ : Unit) => ω k)
    (.seed 0) (fun _ => 0) 1 ()) = gaussianReal 0 (Real.toNNReal 200) := by
  have := C145_mode_false (Measure.infinitePi fun _ : Key => gaussianReal 0 1) (fun ω k (_ : Unit) => ω k) () (fun k => measurable_pi_apply k)
    (iIndepFun_infinitePi (X := fun _ x => x) fun _ => measurable_id) (fun k => Measure.infinitePi_map_eval _ k) 0.99 1e-7 (by norm_num) none
    (fun _ => 1e-5) (fun _ => by norm_num) (fun _ x i => -x i) (.seed 0) (fun _ => 0) (by simp)
  rw [this]
  norm_num

/-- A sample distributed like the standard normal posterior has a mean square of more than one after a step. -/
example : ∃ c : ℝ, 0 < c ∧ ∀ h : ℝ, 0 ≤ h → 1 + 2 * h * c ≤ ∫ ω, (next 0.99 1e-7 none (fun _ => h) (fun k (_ : Unit) => ω k) (fun _ => 0) (fun _ => 1)
    ⟨0, .seed 0, fun _ => 0, fun _ => 0⟩ (fun _ => ω (.seed 7)) () - 0) ^ 2 ∂(Measure.infinitePi fun _ : Key => gaussianReal 0 1) := by
  have key : ∀ h : ℝ, 0 ≤ h → _ := fun h hh => C145_posterior_false (Measure.infinitePi fun _ : Key => gaussianReal 0 1) (fun ω k (_ : Unit) => ω k) ()
    ⟨0, .seed 0, fun _ => 0, fun _ => 0⟩ le_rfl (fun ω _ => ω (.seed 7)) (measurable_pi_apply _) (measurable_pi_apply _)
    ((iIndepFun_infinitePi (P := fun _ : Key => gaussianReal 0 1) (X := fun _ x => x) fun _ => measurable_id).indepFun (by simp))
    (Measure.infinitePi_map_eval _ _) 0.99 1e-7 (by norm_num) (by norm_num) (by norm_num) none (fun _ => h) hh (fun _ => 0) (fun _ => 1) one_pos
    (by rw [Real.toNNReal_one]; exact Measure.infinitePi_map_eval _ _)
  exact ⟨_, (key 0 le_rfl).1, fun h hh => (key h hh).2⟩

/-- A gradient of a million moves a parameter by less than `10 h` when the average is over ten steps. -/
example : |(1000000 : ℝ) / (1 + Real.sqrt 100000000000)| ≤ 1 / Real.sqrt (1 - 0.9) := drift_le 0.9 1 _ _ (by norm_num) (by norm_num) (by norm_num)

/-! ### Concrete cases that meet the hypotheses of the theorems above -/

example := C145_step (ι := Fin 2) 0.99 1e-7 (by norm_num) (some 10) (fun _ => 1e-5) (fun _ => by norm_num) (fun _ x i => -x i)
example := C145_bounded (ι := Fin 2) 0.99 1e-7 (by norm_num) (by norm_num) (by norm_num) (some 10) (fun _ => 1e-5) (fun _ => by norm_num)
  (fun _ x i => -x i)
example := C145_mean_distance (ι := Fin 2) (Measure.infinitePi fun _ : Key => gaussianReal 0 1) (fun ω k _ => ω k) 1
  (fun k => measurable_pi_apply k) (fun k => Measure.infinitePi_map_eval _ k) 0.99 1e-7 (by norm_num) (by norm_num) (by norm_num) none
  (fun _ => 1e-5) (fun _ => by norm_num) (fun _ x i => -x i)
example := C145_flat (ι := Fin 2) 0.99 1e-7 (by norm_num) (some 10) (fun _ => 1e-5) (fun _ => by norm_num) (fun _ x _ => x 0 - x 0)
  (fun _ => ![1, 2]) (.seed 0) ![3, 4] 1 5 (by simp)
example := C145_second_moment (Measure.infinitePi fun _ : Key => gaussianReal 0 1) (fun ω k (_ : Unit) => ω k) ()
  ⟨0, .seed 0, fun _ => 0, fun _ => 0⟩ (fun _ _ => 3) measurable_const (measurable_pi_apply _) (indepFun_const_left _ _)
  (Measure.infinitePi_map_eval _ _) (memLp_const _) 0.99 1e-7 (by norm_num) none (fun _ => 1e-5) (by norm_num) (fun _ => 0) (fun _ => 1) one_pos
example := C145_identity (Measure.infinitePi fun _ : Key => gaussianReal 0 1) (fun ω k (_ : Unit) => ω k) ()
  ⟨0, .seed 0, fun _ => 0, ()⟩ (fun ω _ => ω (.seed 7)) (measurable_pi_apply _) (measurable_pi_apply _)
  ((iIndepFun_infinitePi (P := fun _ : Key => gaussianReal 0 1) (X := fun _ x => x) fun _ => measurable_id).indepFun (by simp))
  (Measure.infinitePi_map_eval _ _) none (fun _ => 1e-5) (by norm_num) (fun _ => 0) (fun _ => 1) one_pos
  (by rw [Real.toNNReal_one]; exact Measure.infinitePi_map_eval _ _)

end Verif.Props.Rmsprop
