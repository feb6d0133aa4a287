import Verif.Props.MapLaw
import Verif.Props.LangevinSchedule

/-!
Property C140: SGLD on strongly log-concave posteriors.
-/
set_option linter.unusedSectionVars false

namespace Verif.Props.LogConcave

open Verif.SGMCMC Verif.Props Verif.Props.MapLaw Verif.Props.Langevin MeasureTheory ProbabilityTheory Finset Filter Topology

variable {ι : Type} [Fintype ι]

/-! ### Two chains with the same noise -/

/-- SGLD (no momentum, no preconditioning) with the step sizes `h`, where `G t` is the gradient of the log-joint on the batch of step `t`. -/
noncomputable def chain (resample : Option ℕ) (h : ℕ → ℝ) (G : ℕ → (ι → ℝ) → ι → ℝ) (normal : Key → ι → ℝ) (key : Key) (x₀ : ι → ℝ)
    (t : ℕ) : ι → ℝ :=
  (sghmcRunOn (identityPrecond ι) 0 resample h normal G key x₀ t).1

/-- Cyclical SGLD (no preconditioning), with the gradient `G` of the log-joint. -/
noncomputable def cyclic (cycle : ℕ) (ratio : ℚ) (h : ℕ → ℝ) (G : (ι → ℝ) → ι → ℝ) (normal : Key → ι → ℝ) (key : Key) (x₀ : ι → ℝ)
    (t : ℕ) : ι → ℝ :=
  (cyclicalRun (identityPrecond ι) cycle ratio h normal G key x₀ t).1

theorem chain_step (resample : Option ℕ) (h : ℕ → ℝ) (hh : ∀ t, 0 ≤ h t) (G : ℕ → (ι → ℝ) → ι → ℝ) (normal : Key → ι → ℝ) (key : Key)
    (x₀ : ι → ℝ) (t : ℕ) :
    chain resample h G normal key x₀ (t + 1) = chain resample h G normal key x₀ t + h t • G t (chain resample h G normal key x₀ t) +
      Real.sqrt (2 * h t) • normal (.left (Key.right^[t] key)) := by
  have hs : ∀ t, (sghmcRunOn (identityPrecond ι) 0 resample h normal G key x₀ t).2.count = t ∧
      (sghmcRunOn (identityPrecond ι) 0 resample h normal G key x₀ t).2.key = Key.right^[t] key := by
    intro t
    induction t with
    | zero => exact ⟨rfl, rfl⟩
    | succ t ih =>
      obtain ⟨h1, h2⟩ := ih
      simp only [sghmcRunOn, sghmcUpdate]
      rw [h1, h2, Function.iterate_succ_apply']
      exact ⟨rfl, rfl⟩
  obtain ⟨hc, hk⟩ := hs t
  funext i
  unfold chain
  set R := sghmcRunOn (identityPrecond ι) 0 resample h normal G key x₀ t with hR
  obtain ⟨m0, hm0⟩ : ∃ m0, (sghmcRunOn (identityPrecond ι) 0 resample h normal G key x₀ (t + 1)).1 i =
      R.1 i + (0 * m0 + G t R.1 i * Real.sqrt (h R.2.count) + normal (.left R.2.key) i * Real.sqrt (2 * (1 - 0))) * Real.sqrt (h R.2.count) :=
    ⟨_, rfl⟩
  rw [hm0, hc, hk, sub_zero, mul_one, Real.sqrt_mul (by norm_num : (0 : ℝ) ≤ 2)]
  have hrr : Real.sqrt (h t) * Real.sqrt (h t) = h t := Real.mul_self_sqrt (hh t)
  simp only [Pi.add_apply, Pi.smul_apply, smul_eq_mul]
  linear_combination G t R.1 i * hrr

theorem cyclic_step (cycle : ℕ) (ratio : ℚ) (h : ℕ → ℝ) (hh : ∀ t, 0 ≤ h t) (G : (ι → ℝ) → ι → ℝ) (normal : Key → ι → ℝ) (key : Key)
    (t : ℕ) : ∃ e : ι → ℝ, ∀ x₀, cyclic cycle ratio h G normal key x₀ (t + 1) =
      cyclic cycle ratio h G normal key x₀ t + h t • G (cyclic cycle ratio h G normal key x₀ t) + e := by
  have hs : ∀ t, ∃ k, ∀ x₀, (cyclicalRun (identityPrecond ι) cycle ratio h normal G key x₀ t).2.count = t ∧
      (cyclicalRun (identityPrecond ι) cycle ratio h normal G key x₀ t).2.key = k := by
    intro t
    induction t with
    | zero => exact ⟨key, fun _ => ⟨rfl, rfl⟩⟩
    | succ t ih =>
      obtain ⟨k, hk⟩ := ih
      refine ⟨if isSgld cycle ratio t then .right k else k, fun x₀ => ?_⟩
      obtain ⟨h1, h2⟩ := hk x₀
      simp only [cyclicalRun, cyclicalUpdate]
      rw [h1]
      split_ifs
      · simp only [sghmcUpdate]
        rw [h1, h2]
        exact ⟨rfl, rfl⟩
      · exact ⟨by simp only [h1], h2⟩
  obtain ⟨k, hk⟩ := hs t
  refine ⟨if isSgld cycle ratio t then Real.sqrt (2 * h t) • normal (.left k) else 0, fun x₀ => ?_⟩
  obtain ⟨h1, h2⟩ := hk x₀
  funext i
  unfold cyclic
  have e : cyclicalRun (identityPrecond ι) cycle ratio h normal G key x₀ (t + 1) =
      (fun i => (cyclicalRun (identityPrecond ι) cycle ratio h normal G key x₀ t).1 i + (cyclicalUpdate (identityPrecond ι) cycle ratio h normal
        (G (cyclicalRun (identityPrecond ι) cycle ratio h normal G key x₀ t).1) (cyclicalRun (identityPrecond ι) cycle ratio h normal G key x₀ t).2).1 i,
        (cyclicalUpdate (identityPrecond ι) cycle ratio h normal (G (cyclicalRun (identityPrecond ι) cycle ratio h normal G key x₀ t).1)
          (cyclicalRun (identityPrecond ι) cycle ratio h normal G key x₀ t).2).2) := rfl
  rw [e]
  set R := cyclicalRun (identityPrecond ι) cycle ratio h normal G key x₀ t
  simp only [cyclicalUpdate, h1, Pi.add_apply, Pi.smul_apply, smul_eq_mul]
  split_ifs with hb
  · obtain ⟨m0, hm0⟩ : ∃ m0, (sghmcUpdate (identityPrecond ι) 0 none h normal (G R.1) R.2).1 i =
        (0 * m0 + G R.1 i * Real.sqrt (h R.2.count) + normal (.left R.2.key) i * Real.sqrt (2 * (1 - 0))) * Real.sqrt (h R.2.count) := ⟨_, rfl⟩
    rw [hm0, h1, h2, sub_zero, mul_one, Pi.smul_apply, smul_eq_mul, Real.sqrt_mul (by norm_num : (0 : ℝ) ≤ 2)]
    have hrr : Real.sqrt (h t) * Real.sqrt (h t) = h t := Real.mul_self_sqrt (hh t)
    linear_combination G R.1 i * hrr
  · simp only [identityPrecond, Pi.zero_apply]
    norm_num

theorem contract {G : (ι → ℝ) → ι → ℝ} {m L : ℝ} (hG : Concave G m L) (h : ℝ) (h0 : 0 ≤ h) (x y e : ι → ℝ) :
    sumSq ((x + h • G x + e) - (y + h • G y + e)) ≤ rate h m L * sumSq (x - y) := by
  rw [add_sub_add_right_eq_sub]
  exact step_contracts hG h h0 x y

/-- **C140, same noise.** Two chains of SGLD with the same noise and batches approach each other, whatever the noise. -/
theorem C140_same_noise (resample : Option ℕ) (h : ℕ → ℝ) (hh : ∀ t, 0 ≤ h t) (G : ℕ → (ι → ℝ) → ι → ℝ) (m L : ℝ)
    (hG : ∀ t, Concave (G t) m L) (normal : Key → ι → ℝ) (key : Key) (x₀ y₀ : ι → ℝ) (t : ℕ) :
    sumSq (chain resample h G normal key x₀ t - chain resample h G normal key y₀ t) ≤ (∏ k ∈ range t, rate (h k) m L) * sumSq (x₀ - y₀) := by
  induction t with
  | zero => simp [chain, sghmcRunOn]
  | succ t ih =>
    rw [chain_step resample h hh, chain_step resample h hh, prod_range_succ, mul_comm (∏ k ∈ range t, _), mul_assoc]
    exact (contract (hG t) (h t) (hh t) _ _ _).trans (mul_le_mul_of_nonneg_left ih (rate_nonneg _ _ _ (hG t).pos (hG t).le))

/-- **C140, same noise, cyclical SGLD.** -/
theorem C140_cyclical (cycle : ℕ) (ratio : ℚ) (h : ℕ → ℝ) (hh : ∀ t, 0 ≤ h t) (G : (ι → ℝ) → ι → ℝ) (m L : ℝ) (hG : Concave G m L)
    (normal : Key → ι → ℝ) (key : Key) (x₀ y₀ : ι → ℝ) (t : ℕ) :
    sumSq (cyclic cycle ratio h G normal key x₀ t - cyclic cycle ratio h G normal key y₀ t) ≤ (∏ k ∈ range t, rate (h k) m L) * sumSq (x₀ - y₀) := by
  induction t with
  | zero => simp [cyclic, cyclicalRun]
  | succ t ih =>
    obtain ⟨e, he⟩ := cyclic_step cycle ratio h hh G normal key t
    rw [he, he, prod_range_succ, mul_comm (∏ k ∈ range t, _), mul_assoc]
    exact (contract hG (h t) (hh t) _ _ _).trans (mul_le_mul_of_nonneg_left ih (rate_nonneg _ _ _ hG.pos hG.le))

/-- The bound tends to zero if the steps do and sum to infinity. -/
theorem prod_rate_tendsto (h : ℕ → ℝ) (hh : ∀ t, 0 ≤ h t) (m L : ℝ) (hm : 0 < m) (hL : m ≤ L) (hlim : Tendsto h atTop (𝓝 0))
    (hsum : Tendsto (fun t => ∑ k ∈ range t, h k) atTop atTop) : Tendsto (fun t => ∏ k ∈ range t, rate (h k) m L) atTop (𝓝 0) := by
  have hLpos : 0 < L := lt_of_lt_of_le hm hL
  have hsmall : ∀ᶠ t in atTop, h t * L ^ 2 < m := by
    have := (hlim.mul_const (L ^ 2))
    rw [zero_mul] at this
    exact this.eventually_lt_const hm
  obtain ⟨T, hT⟩ := eventually_atTop.1 hsmall
  have h0 : ∀ t, 0 ≤ rate (h t) m L := fun t => rate_nonneg _ _ _ hm hL
  have hb : ∀ n, ∏ k ∈ range (T + n), rate (h k) m L ≤ (∏ k ∈ range T, rate (h k) m L) * Real.exp (-(m * ∑ k ∈ range n, h (T + k))) := by
    intro n
    induction n with
    | zero => simp
    | succ n ih =>
      rw [← add_assoc, prod_range_succ, sum_range_succ, mul_add, neg_add, Real.exp_add, ← mul_assoc]
      refine mul_le_mul ih ?_ (h0 _) (mul_nonneg (prod_nonneg fun k _ => h0 k) (Real.exp_pos _).le)
      have h1 := hT (T + n) (by omega)
      have h2 := Real.add_one_le_exp (-(m * h (T + n)))
      have h3 : rate (h (T + n)) m L ≤ -(m * h (T + n)) + 1 := by
        unfold rate
        nlinarith [hh (T + n)]
      exact h3.trans h2
  have hS : Tendsto (fun n => ∑ k ∈ range n, h (T + k)) atTop atTop := by
    have hshift : Tendsto (fun n => ∑ k ∈ range (T + n), h k) atTop atTop :=
      hsum.comp (tendsto_atTop_mono (fun n => Nat.le_add_left n T) tendsto_id)
    have := tendsto_atTop_add_const_left atTop (-∑ k ∈ range T, h k) hshift
    refine this.congr fun n => ?_
    rw [sum_range_add]
    ring
  have hlim2 : Tendsto (fun n => (∏ k ∈ range T, rate (h k) m L) * Real.exp (-(m * ∑ k ∈ range n, h (T + k)))) atTop (𝓝 0) := by
    have := (Real.tendsto_exp_neg_atTop_nhds_zero.comp (hS.const_mul_atTop hm)).const_mul (∏ k ∈ range T, rate (h k) m L)
    rw [mul_zero] at this
    exact this
  have h4 := squeeze_zero (fun n => prod_nonneg fun k _ => h0 k) hb hlim2
  rw [← tendsto_add_atTop_iff_nat T]
  exact h4.congr fun n => by rw [add_comm]

/-- **C140, the start is forgotten.** With steps that tend to zero and sum to infinity, or of a constant size below `2 m / L²`, chains of SGLD from different
starts with the same noise meet in the limit. -/
theorem C140_forgets (resample : Option ℕ) (h : ℕ → ℝ) (hh : ∀ t, 0 ≤ h t) (G : ℕ → (ι → ℝ) → ι → ℝ) (m L : ℝ)
    (hG : ∀ t, Concave (G t) m L)
    (hstep : (Tendsto h atTop (𝓝 0) ∧ Tendsto (fun t => ∑ k ∈ range t, h k) atTop atTop) ∨ ∃ η, 0 < η ∧ η * L ^ 2 < 2 * m ∧ ∀ t, h t = η)
    (normal : Key → ι → ℝ) (key : Key) (x₀ y₀ : ι → ℝ) :
    Tendsto (fun t => gnorm (chain resample h G normal key x₀ t - chain resample h G normal key y₀ t)) atTop (𝓝 0) := by
  have hp : Tendsto (fun t => ∏ k ∈ range t, rate (h k) m L) atTop (𝓝 0) := by
    rcases hstep with ⟨h1, h2⟩ | ⟨η, h1, h2, h3⟩
    · exact prod_rate_tendsto h hh m L (hG 0).pos (hG 0).le h1 h2
    · simp only [h3, prod_const, card_range]
      exact tendsto_pow_atTop_nhds_zero_of_lt_one (rate_nonneg _ _ _ (hG 0).pos (hG 0).le) (rate_lt_one _ _ _ h1 h2)
  have h1 := hp.mul_const (sumSq (x₀ - y₀))
  rw [zero_mul] at h1
  have h2 := squeeze_zero (fun t => sq_nonneg' _) (fun t => C140_same_noise resample h hh G m L hG normal key x₀ y₀ t) h1
  have h3 := (Real.continuous_sqrt.tendsto 0).comp h2
  rw [Real.sqrt_zero] at h3
  exact h3

/-! ### How far samples are from the mode -/

section
variable {Ω : Type} [MeasurableSpace Ω]

theorem lip_continuous (G : (ι → ℝ) → ι → ℝ) (L : ℝ) (hL : ∀ x y, sumSq (G x - G y) ≤ L ^ 2 * sumSq (x - y)) : Continuous G := by
  rw [continuous_iff_continuousAt]
  intro x
  rw [ContinuousAt, tendsto_pi_nhds]
  intro i
  have h1 : ∀ y, |G y i - G x i| ≤ |L| * gnorm (y - x) := by
    intro y
    have h2 : (G y i - G x i) ^ 2 ≤ sumSq (G y - G x) := by
      unfold sumSq
      exact single_le_sum (f := fun j => (G y - G x) j ^ 2) (fun j _ => sq_nonneg _) (mem_univ i)
    rw [← Real.sqrt_sq_eq_abs, ← Real.sqrt_sq_eq_abs, gnorm_eq, ← Real.sqrt_mul (sq_nonneg L)]
    exact Real.sqrt_le_sqrt (h2.trans (hL y x))
  have h3 : Tendsto (fun y : ι → ℝ => |L| * gnorm (y - x)) (𝓝 x) (𝓝 0) := by
    have : Continuous fun y : ι → ℝ => |L| * gnorm (y - x) := by
      unfold gnorm
      fun_prop
    have h4 := this.tendsto x
    simpa [gnorm] using h4
  rw [tendsto_iff_norm_sub_tendsto_zero]
  exact squeeze_zero (fun y => norm_nonneg _) (fun y => by rw [Real.norm_eq_abs]; exact h1 y) h3

/-- One step, as a function of state and noise. -/
theorem step_measurable {Ω' : Type} (mΩ : MeasurableSpace Ω') (G : (ι → ℝ) → ι → ℝ) (hG : Continuous G) (h c : ℝ) (X Z : Ω' → ι → ℝ)
    (hX : Measurable X) (hZ : Measurable Z) : Measurable fun ω => X ω + h • G (X ω) + c • Z ω := by
  have : Measurable fun ω => G (X ω) := hG.measurable.comp hX
  fun_prop

theorem coord_le_gnorm (x : ι → ℝ) (i : ι) : |x i| ≤ gnorm x := by
  rw [← Real.sqrt_sq_eq_abs]
  exact Real.sqrt_le_sqrt (single_le_sum (f := fun j => x j ^ 2) (fun j _ => sq_nonneg _) (mem_univ i))

theorem gnorm_le_sum (x : ι → ℝ) : gnorm x ≤ ∑ i, |x i| := by
  unfold gnorm
  rw [Real.sqrt_le_left (sum_nonneg fun i _ => abs_nonneg _)]
  have : ∑ i, x i ^ 2 = ∑ i, |x i| ^ 2 := sum_congr rfl fun i _ => (sq_abs _).symm
  rw [this]
  exact sum_sq_le_sq_sum_of_nonneg fun i _ => abs_nonneg _

/-- A chain with independent noise. -/
theorem moment_step (P : Measure Ω) [IsProbabilityMeasure P] (Z : ℕ → Ω → ι → ℝ) (hm : ∀ k, Measurable (Z k)) (hi : iIndepFun Z P)
    (hl : ∀ k i, P.map (fun ω => Z k ω i) = gaussianReal 0 1) (h : ℕ → ℝ) (hh : ∀ t, 0 ≤ h t) (G : (ι → ℝ) → ι → ℝ) (m L : ℝ)
    (hG : Concave G m L) (x : ι → ℝ) (hx : G x = 0) (X : ℕ → Ω → ι → ℝ) (x₀ : ι → ℝ) (hX0 : ∀ ω, X 0 ω = x₀)
    (hX : ∀ t ω, X (t + 1) ω = X t ω + h t • G (X t ω) + Real.sqrt (2 * h t) • Z t ω) (t : ℕ) :
    (∀ i, MemLp (fun ω => X t ω i - x i) 2 P) ∧
      ∫ ω, sumSq (X (t + 1) ω - x) ∂P ≤ rate (h t) m L * ∫ ω, sumSq (X t ω - x) ∂P + 2 * h t * Fintype.card ι := by
  have hcont : Continuous G := lip_continuous G L hG.lip
  have hZ2 : ∀ k i, MemLp (fun ω => Z k ω i) 2 P := by
    intro k i
    have h1 : AEMeasurable (fun ω => Z k ω i) P := ((measurable_pi_apply i).comp (hm k)).aemeasurable
    have h2 := memLp_id_gaussianReal' (μ := 0) (v := 1) 2 (by simp)
    rw [← hl k i, memLp_map_measure_iff (by fun_prop) h1] at h2
    exact h2
  -- what the state depends on
  have hpast : ∀ t, Measurable[⨆ k ∈ Set.Iio t, MeasurableSpace.comap (Z k) inferInstance] (X t) := by
    intro t
    induction t with
    | zero =>
      have : X 0 = fun _ => x₀ := funext hX0
      rw [this]
      exact measurable_const
    | succ t ih =>
      have e : X (t + 1) = fun ω => X t ω + h t • G (X t ω) + Real.sqrt (2 * h t) • Z t ω := funext (hX t)
      rw [e]
      refine step_measurable _ G hcont _ _ _ _ ?_ ?_
      · refine ih.mono ?_ le_rfl
        exact biSup_mono fun k hk => lt_trans hk (Nat.lt_succ_self t)
      · refine (comap_measurable (Z t)).mono ?_ le_rfl
        exact le_biSup (fun k => MeasurableSpace.comap (Z k) inferInstance) (Nat.lt_succ_self t)
  have hle : ∀ k, MeasurableSpace.comap (Z k) inferInstance ≤ (inferInstance : MeasurableSpace Ω) := fun k => (hm k).comap_le
  have hXm : ∀ t, Measurable (X t) := fun t => (hpast t).mono (iSup₂_le fun k _ => hle k) le_rfl
  have hind : ∀ t, IndepFun (X t) (Z t) P := by
    intro t
    have h1 := indep_iSup_of_disjoint hle hi.iIndep (S := Set.Iio t) (T := {t}) (by simp)
    rw [IndepFun_iff_Indep]
    refine indep_of_indep_of_le_left (indep_of_indep_of_le_right h1 ?_) (hpast t).comap_le
    exact le_biSup (fun k => MeasurableSpace.comap (Z k) inferInstance) (Set.mem_singleton t)
  -- the noiseless step
  let A : ℕ → (ι → ℝ) → ι → ℝ := fun t y => (y + h t • G y) - x
  have hA : ∀ t y, A t y = (y + h t • G y) - (x + h t • G x) := by
    intro t y
    rw [hx, smul_zero, add_zero]
  have hAle : ∀ t y, sumSq (A t y) ≤ rate (h t) m L * sumSq (y - x) := fun t y => by
    rw [hA]
    exact step_contracts hG (h t) (hh t) y x
  have hAcont : ∀ t, Continuous (A t) := fun t => by fun_prop
  have hA2 : ∀ t, (∀ i, MemLp (fun ω => X t ω i - x i) 2 P) → ∀ i, MemLp (fun ω => A t (X t ω) i) 2 P := by
    intro t hmem i
    have hs : MemLp (fun ω => ∑ j, |X t ω j - x j|) 2 P := memLp_finsetSum _ fun j _ => (hmem j).abs
    refine MemLp.of_le_mul (c := Real.sqrt (rate (h t) m L)) hs
      ((measurable_pi_apply i).comp ((hAcont t).measurable.comp (hXm t))).aestronglyMeasurable (ae_of_all _ fun ω => ?_)
    have habs : ‖∑ j, |X t ω j - x j|‖ = ∑ j, |X t ω j - x j| := Real.norm_of_nonneg (sum_nonneg fun j _ => abs_nonneg _)
    rw [habs, Real.norm_eq_abs]
    refine (coord_le_gnorm _ i).trans ?_
    rw [hA]
    exact (step_norm hG (h t) (hh t) _ x).trans (mul_le_mul_of_nonneg_left (gnorm_le_sum _) (Real.sqrt_nonneg _))
  have hnext : ∀ t ω i, X (t + 1) ω i - x i = A t (X t ω) i + Real.sqrt (2 * h t) * Z t ω i := by
    intro t ω i
    rw [hX]
    simp only [A, Pi.add_apply, Pi.sub_apply, Pi.smul_apply, smul_eq_mul]
    ring
  have hmem : ∀ t i, MemLp (fun ω => X t ω i - x i) 2 P := by
    intro t
    induction t with
    | zero =>
      intro i
      simp only [hX0]
      exact memLp_const _
    | succ t ih =>
      intro i
      simp only [hnext]
      exact (hA2 t ih i).add ((hZ2 t i).const_mul _)
  refine ⟨hmem t, ?_⟩
  have hAt := hA2 t (hmem t)
  have hX2 : ∀ i, Integrable (fun ω => (X t ω i - x i) ^ 2) P := fun i => (hmem t i).integrable_sq
  have hA2' : ∀ i, Integrable (fun ω => A t (X t ω) i ^ 2) P := fun i => (hAt i).integrable_sq
  have hZ2' : ∀ i, Integrable (fun ω => Z t ω i ^ 2) P := fun i => (hZ2 t i).integrable_sq
  have hAZ : ∀ i, Integrable (fun ω => A t (X t ω) i * Z t ω i) P := fun i => (hAt i).integrable_mul (hZ2 t i)
  have hcross : ∀ i, ∫ ω, A t (X t ω) i * Z t ω i ∂P = 0 := by
    intro i
    have h1 : IndepFun (fun ω => A t (X t ω) i) (fun ω => Z t ω i) P :=
      (hind t).comp (φ := fun y => A t y i) (ψ := fun z : ι → ℝ => z i) ((measurable_pi_apply i).comp (hAcont t).measurable)
        (measurable_pi_apply i)
    rw [h1.integral_fun_mul_eq_mul_integral (hAt i).aestronglyMeasurable (hZ2 t i).aestronglyMeasurable]
    have h2 : ∫ ω, Z t ω i ∂P = 0 := by
      have h3 : AEMeasurable (fun ω => Z t ω i) P := ((measurable_pi_apply i).comp (hm t)).aemeasurable
      have h4 := integral_map h3 (f := fun y : ℝ => y) (by fun_prop)
      rw [hl, integral_id_gaussianReal] at h4
      exact h4.symm
    rw [h2, mul_zero]
  have hZvar : ∀ i, ∫ ω, Z t ω i ^ 2 ∂P = 1 := by
    intro i
    have h3 : AEMeasurable (fun ω => Z t ω i) P := ((measurable_pi_apply i).comp (hm t)).aemeasurable
    have h4 := integral_map h3 (f := fun y : ℝ => y ^ 2) (by fun_prop)
    rw [hl] at h4
    rw [← h4]
    have h5 := variance_fun_id_gaussianReal (μ := 0) (v := 1)
    rw [variance_eq_integral measurable_id'.aemeasurable] at h5
    simpa [integral_id_gaussianReal] using h5
  have hsq : Real.sqrt (2 * h t) ^ 2 = 2 * h t := Real.sq_sqrt (by linarith [hh t])
  have e1 : ∫ ω, sumSq (X (t + 1) ω - x) ∂P = ∑ i, (∫ ω, A t (X t ω) i ^ 2 ∂P + 2 * h t) := by
    unfold sumSq
    rw [integral_finsetSum _ fun i _ => ?_]
    · refine sum_congr rfl fun i _ => ?_
      have : ∀ ω, (X (t + 1) ω - x) i ^ 2 =
          A t (X t ω) i ^ 2 + (2 * Real.sqrt (2 * h t) * (A t (X t ω) i * Z t ω i) + 2 * h t * Z t ω i ^ 2) := by
        intro ω
        rw [Pi.sub_apply, hnext]
        linear_combination Z t ω i ^ 2 * hsq
      simp only [this]
      have hB : Integrable (fun ω => 2 * Real.sqrt (2 * h t) * (A t (X t ω) i * Z t ω i) + 2 * h t * Z t ω i ^ 2) P :=
        ((hAZ i).const_mul _).add ((hZ2' i).const_mul _)
      rw [integral_add (hA2' i) hB,
        integral_add ((hAZ i).const_mul _) ((hZ2' i).const_mul _), integral_const_mul, integral_const_mul, hcross, hZvar]
      ring
    · exact (hmem (t + 1) i).integrable_sq
  have e2 : ∑ i, ∫ ω, A t (X t ω) i ^ 2 ∂P = ∫ ω, sumSq (A t (X t ω)) ∂P := by
    unfold sumSq
    rw [integral_finsetSum _ fun i _ => hA2' i]
  have e3 : ∫ ω, sumSq (A t (X t ω)) ∂P ≤ rate (h t) m L * ∫ ω, sumSq (X t ω - x) ∂P := by
    rw [← integral_const_mul]
    refine integral_mono (integrable_finsetSum _ fun i _ => hA2' i) ((integrable_finsetSum _ fun i _ => hX2 i).const_mul _) fun ω => hAle t _
  rw [e1, sum_add_distrib, e2, sum_const, card_univ, nsmul_eq_mul]
  linarith

/-- **C140, distance from the mode.** The mean squared distance of the samples of SGLD from the mode, for any step sizes. -/
theorem C140_distance (P : Measure Ω) [IsProbabilityMeasure P] (normal : Ω → Key → ι → ℝ) (hm : ∀ k, Measurable fun ω => normal ω k)
    (hi : iIndepFun (fun k ω => normal ω k) P) (hl : ∀ k i, P.map (fun ω => normal ω k i) = gaussianReal 0 1) (resample : Option ℕ)
    (h : ℕ → ℝ) (hh : ∀ t, 0 ≤ h t) (G : (ι → ℝ) → ι → ℝ) (m L : ℝ) (hG : Concave G m L) (x : ι → ℝ) (hx : G x = 0) (key : Key)
    (x₀ : ι → ℝ) (t : ℕ) :
    let E := fun t => ∫ ω, sumSq (chain resample h (fun _ => G) (normal ω) key x₀ t - x) ∂P
    E 0 = sumSq (x₀ - x) ∧ E (t + 1) ≤ rate (h t) m L * E t + 2 * h t * Fintype.card ι := by
  intro E
  refine ⟨by simp [E, chain, sghmcRunOn], ?_⟩
  exact (moment_step P (fun k ω => normal ω (.left (Key.right^[k] key))) (fun k => hm _) (hi.precomp (keys_injective key))
    (fun k i => hl _ i) h hh G m L hG x hx (fun t ω => chain resample h (fun _ => G) (normal ω) key x₀ t) x₀ (fun _ => rfl)
    (fun t ω => chain_step resample h hh (fun _ => G) (normal ω) key x₀ t) t).2

/-- **C140, constant steps.** The mean squared distance from the mode is at most that at the start times `ρ ^ t`, plus `2 d / (2 m - h L²)` for `d` parameters. -/
theorem C140_constant (P : Measure Ω) [IsProbabilityMeasure P] (normal : Ω → Key → ι → ℝ) (hm : ∀ k, Measurable fun ω => normal ω k)
    (hi : iIndepFun (fun k ω => normal ω k) P) (hl : ∀ k i, P.map (fun ω => normal ω k i) = gaussianReal 0 1) (resample : Option ℕ)
    (h : ℝ) (h0 : 0 < h) (G : (ι → ℝ) → ι → ℝ) (m L : ℝ) (hG : Concave G m L) (hlt : h * L ^ 2 < 2 * m) (x : ι → ℝ) (hx : G x = 0)
    (key : Key) (x₀ : ι → ℝ) (t : ℕ) :
    ∫ ω, sumSq (chain resample (fun _ => h) (fun _ => G) (normal ω) key x₀ t - x) ∂P ≤
      rate h m L ^ t * sumSq (x₀ - x) + 2 * Fintype.card ι / (2 * m - h * L ^ 2) := by
  have hd := C140_distance P normal hm hi hl resample (fun _ => h) (fun _ => h0.le) G m L hG x hx key x₀
  dsimp only at hd
  have hr0 := rate_nonneg h m L hG.pos hG.le
  have hgap : 0 < 2 * m - h * L ^ 2 := by linarith
  set q : ℝ := 2 * Fintype.card ι / (2 * m - h * L ^ 2) with hq
  have hq0 : 0 ≤ q := by positivity
  have hfix : rate h m L * q + 2 * h * Fintype.card ι = q := by
    rw [hq]
    unfold rate
    field_simp
    ring
  induction t with
  | zero =>
    rw [(hd 0).1, pow_zero, one_mul]
    linarith
  | succ t ih =>
    refine (hd t).2.trans ?_
    have := mul_le_mul_of_nonneg_left ih hr0
    rw [pow_succ]
    linarith

end

/-! ### Where it fails -/

/-- **C140, negation.** For a posterior that is flat the start is never forgotten. -/
theorem C140_flat_false (resample : Option ℕ) (h : ℕ → ℝ) (hh : ∀ t, 0 ≤ h t) (normal : Key → ι → ℝ) (key : Key) (x₀ y₀ : ι → ℝ) (t : ℕ) :
    chain resample h (fun _ _ => 0) normal key x₀ t - chain resample h (fun _ _ => 0) normal key y₀ t = x₀ - y₀ := by
  induction t with
  | zero => rfl
  | succ t ih =>
    rw [chain_step resample h hh, chain_step resample h hh, smul_zero, add_zero, add_zero, add_sub_add_right_eq_sub, ih]

/-- **C140, sharpness.** For a Gaussian posterior with variances `1 / m` the bound of `C140_constant` is the variance that the samples have in the long run. -/
theorem C140_sharp (h m : ℝ) (hm : 0 < m) : limitVar 0 h (1 / m) = 2 * 1 / (2 * m - h * m ^ 2) := by
  unfold limitVar
  by_cases h2 : 2 * m - h * m ^ 2 = 0
  · have h3 : 1 - h / (2 * (1 + 0) * (1 / m)) = 0 := by
      have : h * m = 2 := by
        have : m * (2 - h * m) = 0 := by linear_combination h2
        rcases mul_eq_zero.1 this with h | h
        · exact absurd h hm.ne'
        · linarith
      field_simp
      linarith
    rw [h2, h3, div_zero, div_zero]
  · have h3 : 1 - h / (2 * (1 + 0) * (1 / m)) = (2 * m - h * m ^ 2) / (2 * m) := by
      field_simp
      ring
    rw [h3]
    field_simp

/-! ### Examples -/

/-- Independent standard normal vectors of any dimension. -/
theorem noise_exists : ∃ (Ω : Type) (_ : MeasurableSpace Ω) (P : Measure Ω) (_ : IsProbabilityMeasure P) (normal : Ω → Key → ι → ℝ),
    (∀ k, Measurable fun ω => normal ω k) ∧ iIndepFun (fun k ω => normal ω k) P ∧ ∀ k i, P.map (fun ω => normal ω k i) = gaussianReal 0 1 := by
  let Q : Measure (ι → ℝ) := Measure.pi fun _ => gaussianReal 0 1
  refine ⟨Key → ι → ℝ, inferInstance, Measure.infinitePi fun _ => Q, inferInstance, fun ω k => ω k, fun k => measurable_pi_apply k,
    iIndepFun_infinitePi (P := fun _ : Key => Q) (X := fun _ x => x) fun _ => measurable_id, fun k i => ?_⟩
  have h1 : (Measure.infinitePi fun _ : Key => Q).map (fun ω => ω k) = Q := Measure.infinitePi_map_eval _ k
  have h2 : (fun ω : Key → ι → ℝ => ω k i) = (fun y : ι → ℝ => y i) ∘ fun ω => ω k := rfl
  rw [h2, ← Measure.map_map (measurable_pi_apply i) (measurable_pi_apply k), h1]
  exact (measurePreserving_eval _ i).map_eq

-- the linear classifier of `MapLaw.twoRows` with steps of size 1/9: the samples are, in the long run, within a mean squared distance of 4 of the mode
example : ∃ (x : Unit × Fin 2 → ℝ) (Ω : Type) (_ : MeasurableSpace Ω) (P : Measure Ω) (normal : Ω → Key → Unit × Fin 2 → ℝ),
    (∀ y : Unit × Fin 2 → ℝ, logPost 2 0 twoRows y ≤ logPost 2 0 twoRows x) ∧
      ∀ key x₀ t, ∫ ω, sumSq (chain none (fun _ => 1 / 9) (fun _ => gradPost 2 0 twoRows) (normal ω) key x₀ t - x) ∂P ≤
        (8 / 9) ^ t * sumSq (x₀ - x) + 4 := by
  have hc := C139_classifier (c := 2) (by norm_num) 2 0 twoRows
  have e1 : Real.exp (-0) = 1 := by simp
  have e2 : curvature 2 0 twoRows = 3 := by
    unfold curvature sumSq twoRows
    norm_num
  rw [e1, e2] at hc
  obtain ⟨x, hx, -⟩ := C139_mode hc
  obtain ⟨Ω, mΩ, P, hP, normal, hm, hi, hl⟩ := noise_exists (ι := Unit × Fin 2)
  refine ⟨x, Ω, mΩ, P, normal, fun y => ?_, fun key x₀ t => ?_⟩
  · have h1 := C139_maximum hc (C139_gradient (by norm_num) 2 0 twoRows) x hx y
    have h2 := sq_nonneg' (y - x)
    linarith
  · have h1 := C140_constant P normal hm hi hl none (1 / 9) (by norm_num) (gradPost 2 0 twoRows) 1 3 hc (by norm_num) x hx key x₀ t
    have h3 : rate (1 / 9) 1 3 = 8 / 9 := by norm_num [rate]
    rw [h3] at h1
    norm_num at h1 ⊢
    exact h1

/-! ### Concrete cases that meet the hypotheses of the theorems above -/

/-- The gradient for a standard normal posterior. -/
theorem exConcave : Concave (fun (x : Fin 2 → ℝ) i => -x i) 1 1 := by
  constructor
  · norm_num
  · norm_num
  · intro x y
    simp only [Verif.Props.MapLaw.dot, sumSq, Fin.sum_univ_two, Pi.sub_apply]
    nlinarith
  · intro x y
    simp only [sumSq, Fin.sum_univ_two, Pi.sub_apply]
    nlinarith

example := C140_same_noise (ι := Fin 2) (some 10) (fun t => 1 / (t + 1)) (fun t => by positivity) (fun _ x i => -x i) 1 1 (fun _ => exConcave)
example := C140_cyclical (ι := Fin 2) 10 (1 / 4) (fun t => 1 / (t + 1)) (fun t => by positivity) (fun x i => -x i) 1 1 exConcave
example := C140_forgets (ι := Fin 2) (some 10) (fun _ => 1 / 2) (fun t => by positivity) (fun _ x i => -x i) 1 1 (fun _ => exConcave)
  (.inr ⟨1 / 2, by norm_num, by norm_num, fun _ => rfl⟩)
example := C140_distance (ι := Unit) (Measure.infinitePi fun _ : Key => gaussianReal 0 1) (fun ω k _ => ω k)
  (fun k => measurable_pi_lambda _ fun _ => measurable_pi_apply k)
  ((iIndepFun_infinitePi (P := fun _ : Key => gaussianReal 0 1) (X := fun _ x => x) fun _ => measurable_id).comp (fun _ x (_ : Unit) => x)
    fun _ => measurable_pi_lambda _ fun _ => measurable_id)
  (fun k _ => Measure.infinitePi_map_eval _ k) none (fun t => 1 / (t + 1)) (fun t => by positivity) (fun x i => -x i) 1 1
  ⟨by norm_num, le_rfl, fun x y => by simp only [Verif.Props.MapLaw.dot, sumSq, Finset.univ_unique, Finset.sum_singleton, Pi.sub_apply]; nlinarith,
    fun x y => by simp only [sumSq, Finset.univ_unique, Finset.sum_singleton, Pi.sub_apply]; nlinarith⟩ 0 (by ext; simp)
example := C140_flat_false (ι := Fin 2) (some 10) (fun t => 1 / (t + 1)) (fun t => by positivity)

end Verif.Props.LogConcave
