import Verif.Props.ConditionalCoverage
import Verif.Props.TempFit

/-!
Property C134: what the binary temperature scalers, fitted on a calibration set, do on new data, when calibration and new rows are independent
draws of one law.
-/
set_option linter.unusedSectionVars false

namespace Verif.Props.ScalingLaw

open Verif.Props.MonteCarlo Verif.Props.MetricLaw Verif.ArrayOps Verif.Calibration Verif.TempFit Verif.Props.TempFit MeasureTheory ProbabilityTheory
open Verif.Props.ConditionalCoverage (frequency_tail avg_indicator exists_quantile draws_pi)

variable {Ω 𝒳 : Type} [MeasurableSpace Ω] [MeasurableSpace 𝒳] {n : ℕ}

/-- The scaled probability of one new row. -/
noncomputable def proba (T p : ℝ) : ℝ := (binProba T [p]).getD 0 0

theorem proba_eq (T p : ℝ) : proba T p = min (max (p / T) 0) 1 := rfl

theorem mean_rowsOf (X : Fin n → Ω → 𝒳) (f : 𝒳 → ℝ) (ω : Ω) : mean (MetricLaw.rowsOf X f ω) = avg X f id ω := by
  have := mean_rows X f (fun x => x) ω
  simpa using this

theorem zipWith_rowsOf {R S U : Type} (X : Fin n → Ω → 𝒳) (f : 𝒳 → R) (g : 𝒳 → S) (h : R → S → U) (ω : Ω) :
    List.zipWith h (MetricLaw.rowsOf X f ω) (MetricLaw.rowsOf X g ω) = MetricLaw.rowsOf X (fun x => h (f x) (g x)) ω := by
  unfold MetricLaw.rowsOf
  apply List.ext_getElem
  · simp
  · intro i h1 h2
    simp

section law
variable {X : Fin n → Ω → 𝒳} {Q : Measure 𝒳} {μ : Measure Ω} [IsProbabilityMeasure μ] (D : Draws X Q μ)
include D

/-- Two averages at once. -/
theorem two_averages (hn : 0 < n) (g h : 𝒳 → ℝ) (hg : Measurable g) (hh : Measurable h) (hg1 : ∀ x, g x ∈ Set.Icc (0 : ℝ) 1)
    (hh1 : ∀ x, h x ∈ Set.Icc (0 : ℝ) 1) (ε : ℝ) (hε : 0 ≤ ε) (E : Set Ω)
    (hE : ∀ ω ∈ E, ¬ (|avg X g id ω - ∫ x, g x ∂Q| < ε ∧ |avg X h id ω - ∫ x, h x ∂Q| < ε)) :
    μ.real E ≤ 4 * Real.exp (-2 * n * ε ^ 2) := by
  have h1 := hoeffding D hn g hg 0 1 one_pos hg1 ε hε
  have h2 := hoeffding D hn h hh 0 1 one_pos hh1 ε hε
  rw [sub_zero, one_pow, div_one] at h1 h2
  have hsub : E ⊆ {ω | ε ≤ |avg X g id ω - ∫ x, g x ∂Q|} ∪ {ω | ε ≤ |avg X h id ω - ∫ x, h x ∂Q|} := by
    intro ω hω
    have := hE ω hω
    rw [not_and_or, not_lt, not_lt] at this
    exact this
  refine (measureReal_mono hsub (measure_ne_top _ _)).trans ((measureReal_union_le _ _).trans ?_)
  linarith

/-- **C134, bias.** Except with probability `4 exp (-2 n ε²)`, the temperature `T` that `BiasBinaryClassificationTemperatureScaling` fits makes
the mean of `p / T` over new data equal to the mean target up to `ε (1 + 1 / T)`, and the mean of the probabilities which `predict_proba`
returns does not exceed the mean target by more. -/
theorem C134_bias (hn : 0 < n) (p y : 𝒳 → ℝ) (hp : Measurable p) (hy : Measurable y) (hp1 : ∀ x, p x ∈ Set.Icc (0 : ℝ) 1)
    (hy1 : ∀ x, y x ∈ Set.Icc (0 : ℝ) 1) (ε : ℝ) (hε : 0 ≤ ε) :
    μ.real {ω | ∃ T, biasFit (MetricLaw.rowsOf X p ω) (MetricLaw.rowsOf X y ω) = some T ∧ 0 < T ∧
      ¬ (|∫ x, p x / T ∂Q - ∫ x, y x ∂Q| ≤ ε * (1 + 1 / T) ∧ ∫ x, proba T (p x) ∂Q ≤ ∫ x, y x ∂Q + ε * (1 + 1 / T))} ≤
      4 * Real.exp (-2 * n * ε ^ 2) := by
  have : Nonempty (Fin n) := ⟨⟨0, hn⟩⟩
  have hQ : IsProbabilityMeasure Q := prob_law D
  apply two_averages D hn p y hp hy hp1 hy1 ε hε
  rintro ω ⟨T, hfit, hT, hbad⟩ ⟨h1, h2⟩
  apply hbad
  unfold biasFit at hfit
  rw [mean_rowsOf, mean_rowsOf] at hfit
  split at hfit
  · cases hfit
  next hne =>
  have hTe := Option.some.inj hfit
  have hpi : Integrable p Q := Integrable.of_mem_Icc 0 1 hp.aemeasurable (Filter.Eventually.of_forall hp1)
  have key : |∫ x, p x / T ∂Q - ∫ x, y x ∂Q| ≤ ε * (1 + 1 / T) := by
    rw [integral_div]
    have hpT : avg X p id ω / T = avg X y id ω := by
      rw [← hTe]
      have hpne : avg X p id ω ≠ 0 := by
        intro h0
        rw [h0, zero_div] at hTe
        exact hT.ne hTe
      field_simp
    have e1 : (∫ x, p x ∂Q) / T - ∫ x, y x ∂Q =
        -((avg X p id ω - ∫ x, p x ∂Q) / T) + (avg X y id ω - ∫ x, y x ∂Q) := by
      rw [sub_div, hpT]
      ring
    rw [e1]
    refine (abs_add_le _ _).trans ?_
    rw [abs_neg, abs_div, abs_of_pos hT]
    have : |avg X p id ω - ∫ x, p x ∂Q| / T ≤ ε / T := div_le_div_of_nonneg_right h1.le hT.le
    have e2 : ε * (1 + 1 / T) = ε / T + ε := by ring
    rw [e2]
    linarith
  refine ⟨key, ?_⟩
  have hle : ∫ x, proba T (p x) ∂Q ≤ ∫ x, p x / T ∂Q := by
    apply integral_mono_of_nonneg
    · filter_upwards with x
      rw [proba_eq]
      exact le_min (le_max_right _ _) zero_le_one
    · exact hpi.div_const T
    · filter_upwards with x
      rw [proba_eq, max_eq_left (div_nonneg (hp1 x).1 hT.le)]
      exact min_le_left _ _
  have := (abs_le.1 key).2
  linarith

/-- **C134, Brier.** Except with probability `4 exp (-2 n ε²)`, the probabilities with the temperature `T`, which
`BrierBinaryClassificationTemperatureScaling` fits, have on new data a mean squared error that is at most that of `p / T'` plus
`ε (1/T² + 2/T + 1/T'² + 2/T')`, for all temperatures `T'` at once. -/
theorem C134_brier (hn : 0 < n) (p y : 𝒳 → ℝ) (hp : Measurable p) (hy : Measurable y) (hp1 : ∀ x, p x ∈ Set.Icc (0 : ℝ) 1)
    (hy1 : ∀ x, y x ∈ Set.Icc (0 : ℝ) 1) (ε : ℝ) (hε : 0 ≤ ε) :
    μ.real {ω | ∃ T, brierFit (MetricLaw.rowsOf X p ω) (MetricLaw.rowsOf X y ω) = some T ∧ 0 < T ∧ ∃ T', 0 < T' ∧
      ∫ x, (p x / T' - y x) ^ 2 ∂Q + ε * ((1 / T) ^ 2 + 2 * (1 / T) + (1 / T') ^ 2 + 2 * (1 / T')) < ∫ x, (proba T (p x) - y x) ^ 2 ∂Q} ≤
      4 * Real.exp (-2 * n * ε ^ 2) := by
  have : Nonempty (Fin n) := ⟨⟨0, hn⟩⟩
  have hQ : IsProbabilityMeasure Q := prob_law D
  have hpp1 : ∀ x, p x ^ 2 ∈ Set.Icc (0 : ℝ) 1 := fun x => ⟨sq_nonneg _, pow_le_one₀ (hp1 x).1 (hp1 x).2⟩
  have hpy1 : ∀ x, p x * y x ∈ Set.Icc (0 : ℝ) 1 := fun x =>
    ⟨mul_nonneg (hp1 x).1 (hy1 x).1, mul_le_one₀ (hp1 x).2 (hy1 x).1 (hy1 x).2⟩
  have hyy1 : ∀ x, y x ^ 2 ∈ Set.Icc (0 : ℝ) 1 := fun x => ⟨sq_nonneg _, pow_le_one₀ (hy1 x).1 (hy1 x).2⟩
  have hppi : Integrable (fun x => p x ^ 2) Q :=
    Integrable.of_mem_Icc 0 1 (hp.pow_const 2).aemeasurable (Filter.Eventually.of_forall hpp1)
  have hpyi : Integrable (fun x => p x * y x) Q :=
    Integrable.of_mem_Icc 0 1 (hp.mul hy).aemeasurable (Filter.Eventually.of_forall hpy1)
  have hyyi : Integrable (fun x => y x ^ 2) Q :=
    Integrable.of_mem_Icc 0 1 (hy.pow_const 2).aemeasurable (Filter.Eventually.of_forall hyy1)
  apply two_averages D hn (fun x => p x ^ 2) (fun x => p x * y x) (hp.pow_const 2) (hp.mul hy) hpp1 hpy1 ε hε
  rintro ω ⟨T, hfit, hT, T', hT', hbad⟩ ⟨h1, h2⟩
  unfold brierFit at hfit
  dsimp only at hfit
  rw [mean_rows X p (fun v => v ^ 2), zipWith_rowsOf, mean_rowsOf] at hfit
  set A := avg X (fun x => p x ^ 2) id ω with hA
  set B := avg X (fun x => p x * y x) id ω with hB
  set a := ∫ x, p x ^ 2 ∂Q with ha
  set b := ∫ x, p x * y x ∂Q with hb
  have hR : ∀ S : ℝ, ∫ x, (p x / S - y x) ^ 2 ∂Q = (1 / S) ^ 2 * a - 2 * (1 / S) * b + ∫ x, y x ^ 2 ∂Q := by
    intro S
    have : (fun x => (p x / S - y x) ^ 2) = fun x => (1 / S) ^ 2 * p x ^ 2 - 2 * (1 / S) * (p x * y x) + y x ^ 2 := by
      funext x
      ring
    have hi : Integrable (fun x => (1 / S) ^ 2 * p x ^ 2 - 2 * (1 / S) * (p x * y x)) Q := (hppi.const_mul _).sub (hpyi.const_mul _)
    rw [this, integral_add hi hyyi, integral_sub (hppi.const_mul _) (hpyi.const_mul _),
      integral_const_mul, integral_const_mul]
  have hclip : ∫ x, (proba T (p x) - y x) ^ 2 ∂Q ≤ ∫ x, (p x / T - y x) ^ 2 ∂Q := by
    apply integral_mono_of_nonneg
    · exact Filter.Eventually.of_forall fun x => sq_nonneg _
    · have : (fun x => (p x / T - y x) ^ 2) = fun x => (1 / T) ^ 2 * p x ^ 2 - 2 * (1 / T) * (p x * y x) + y x ^ 2 := by
        funext x
        ring
      rw [this]
      exact ((hppi.const_mul _).sub (hpyi.const_mul _)).add hyyi
    · filter_upwards with x
      rw [proba_eq, max_eq_left (div_nonneg (hp1 x).1 hT.le)]
      rcases le_total (p x / T) 1 with h | h
      · rw [min_eq_left h]
      · rw [min_eq_right h]
        have := (hy1 x).2
        nlinarith
  split at hfit
  · cases hfit
  next hne =>
  have hTe := Option.some.inj hfit
  set u := 1 / T with hu
  set v := 1 / T' with hv
  have hu0 : 0 < u := by rw [hu]; positivity
  have hv0 : 0 < v := by rw [hv]; positivity
  -- the empirical error is smallest at `u`
  have hApos : 0 < A := by
    have : 0 ≤ A := by
      rw [hA]
      unfold avg
      exact div_nonneg (Finset.sum_nonneg fun i _ => sq_nonneg _) (by positivity)
    refine lt_of_le_of_ne this fun h0 => ?_
    rw [← h0, zero_div] at hTe
    exact hT.ne hTe
  have huA : u * A = B := by
    rw [hu, ← hTe]
    field_simp
  have hmin : u ^ 2 * A - 2 * u * B ≤ v ^ 2 * A - 2 * v * B := by
    rw [← huA]
    nlinarith [mul_nonneg hApos.le (sq_nonneg (u - v))]
  rw [hR T'] at hbad
  rw [hR T] at hclip
  have hA' := abs_lt.1 h1
  have hB' := abs_lt.1 h2
  have e1 : u ^ 2 * a ≤ u ^ 2 * (A + ε) := mul_le_mul_of_nonneg_left (by linarith) (sq_nonneg u)
  have e2 : u * (B - ε) ≤ u * b := mul_le_mul_of_nonneg_left (by linarith) hu0.le
  have e3 : v ^ 2 * (A - ε) ≤ v ^ 2 * a := mul_le_mul_of_nonneg_left (by linarith) (sq_nonneg v)
  have e4 : v * b ≤ v * (B + ε) := mul_le_mul_of_nonneg_left (by linarith) hv0.le
  nlinarith

/-! ### All thresholds at once -/

/-- If every set of a family lies in one of `k` brackets, the frequencies of all of its sets are close to their probabilities. -/
theorem brackets (hn : 0 < n) {k : ℕ} (L U : Fin k → 𝒳 → Prop) [∀ j, DecidablePred (L j)] [∀ j, DecidablePred (U j)]
    (hL : ∀ j, MeasurableSet {x | L j x}) (hU : ∀ j, MeasurableSet {x | U j x}) (w : ℝ)
    (hw : ∀ j, Q.real {x | U j x} ≤ Q.real {x | L j x} + w) (ε : ℝ) (hε : 0 ≤ ε) (E : Set Ω)
    (hE : ∀ ω ∈ E, ∃ S : Set 𝒳, (∃ j, {x | L j x} ⊆ S ∧ S ⊆ {x | U j x}) ∧ ε + w < |avg X (S.indicator 1) id ω - Q.real S|) :
    μ.real E ≤ 2 * k * Real.exp (-2 * n * ε ^ 2) := by
  have : Nonempty (Fin n) := ⟨⟨0, hn⟩⟩
  have hQ : IsProbabilityMeasure Q := prob_law D
  have hn' : (0 : ℝ) < n := by exact_mod_cast hn
  have havg : ∀ {S S' : Set 𝒳}, S ⊆ S' → ∀ ω, avg X (S.indicator 1) id ω ≤ avg X (S'.indicator 1) id ω := by
    intro S S' hS ω
    unfold avg
    apply div_le_div_of_nonneg_right _ hn'.le
    apply Finset.sum_le_sum
    intro i _
    exact Set.indicator_le_indicator_of_subset hS (fun _ => zero_le_one) _
  have hsub : E ⊆ ⋃ j : Fin k, ({ω | ε ≤ avg X (Set.indicator {x | U j x} 1) id ω - ∫ x, Set.indicator {x | U j x} 1 x ∂Q} ∪
      {ω | ε ≤ avg X (Set.indicator {x | L j x}ᶜ 1) id ω - ∫ x, Set.indicator {x | L j x}ᶜ 1 x ∂Q}) := by
    intro ω hω
    obtain ⟨S, ⟨j, h1, h2⟩, h3⟩ := hE ω hω
    simp only [Set.mem_iUnion, Set.mem_union, Set.mem_ofPred_eq]
    refine ⟨j, ?_⟩
    rw [integral_indicator_one (hU j), integral_indicator_one (hL j).compl, probReal_compl_eq_one_sub (hL j)]
    have hcompl : avg X (Set.indicator {x | L j x}ᶜ 1) id ω = 1 - avg X (Set.indicator {x | L j x} 1) id ω := by
      unfold avg
      rw [eq_sub_iff_add_eq, ← add_div, ← Finset.sum_add_distrib]
      have : ∀ i : Fin n, Set.indicator {x | L j x}ᶜ (1 : 𝒳 → ℝ) (X (id i) ω) + Set.indicator {x | L j x} 1 (X (id i) ω) = 1 := by
        intro i
        by_cases h : L j (X i ω) <;> simp [h]
      rw [Finset.sum_congr rfl fun i _ => this i]
      simp [hn'.ne']
    rw [hcompl]
    have hm1 := havg h1 ω
    have hm2 := havg h2 ω
    have hq1 : Q.real {x | L j x} ≤ Q.real S := measureReal_mono h1 (measure_ne_top _ _)
    have hq2 : Q.real S ≤ Q.real {x | U j x} := measureReal_mono h2 (measure_ne_top _ _)
    have hw' := hw j
    rcases lt_abs.1 h3 with h | h
    · left; linarith
    · right; linarith
  have hU' : ∀ j, μ.real {ω | ε ≤ avg X (Set.indicator {x | U j x} 1) id ω - ∫ x, Set.indicator {x | U j x} 1 x ∂Q} ≤
      Real.exp (-2 * n * ε ^ 2) := by
    intro j
    have := PrecisionLaw.upper_tail D hn (Set.indicator {x | U j x} 1) (measurable_one.indicator (hU j)) 0 1 one_pos (fun x => by
      by_cases h : U j x <;> simp [Set.indicator_apply, h]) ε hε
    rwa [sub_zero, one_pow, div_one] at this
  have hL' : ∀ j, μ.real {ω | ε ≤ avg X (Set.indicator {x | L j x}ᶜ 1) id ω - ∫ x, Set.indicator {x | L j x}ᶜ 1 x ∂Q} ≤
      Real.exp (-2 * n * ε ^ 2) := by
    intro j
    have := PrecisionLaw.upper_tail D hn (Set.indicator {x | L j x}ᶜ 1) (measurable_one.indicator (hL j).compl) 0 1 one_pos (fun x => by
      by_cases h : L j x <;> simp [Set.indicator_apply, h]) ε hε
    rwa [sub_zero, one_pow, div_one] at this
  refine (measureReal_mono hsub (measure_ne_top _ _)).trans ((measureReal_iUnion_fintype_le _).trans ?_)
  refine (Finset.sum_le_sum fun j _ => (measureReal_union_le _ _).trans (add_le_add (hU' j) (hL' j))).trans (le_of_eq ?_)
  simp
  ring

/-- The frequencies of all sets `{x ∈ Y | s ≤ g x}` at once, with `k` brackets. -/
theorem all_thresholds (hn : 0 < n) (g : 𝒳 → ℝ) (hg : Measurable g) (Y : Set 𝒳) (hY : MeasurableSet Y) (k : ℕ) (hk : 0 < k) (ε : ℝ) (hε : 0 ≤ ε) :
    μ.real {ω | ∃ s, ε + 1 / k < |avg X ((Y ∩ {x | s ≤ g x}).indicator 1) id ω - Q.real (Y ∩ {x | s ≤ g x})|} ≤
      2 * k * Real.exp (-2 * n * ε ^ 2) := by
  classical
  have : Nonempty (Fin n) := ⟨⟨0, hn⟩⟩
  have hQ : IsProbabilityMeasure Q := prob_law D
  have hk' : (0 : ℝ) < k := by exact_mod_cast hk
  -- quantiles at 1/k, ..., (k-1)/k
  have hx : ∀ j : ℕ, ∃ x, 0 < j → j < k → (j : ℝ) / k ≤ Q.real {z | g z ≤ x} ∧ Q.real {z | g z < x} ≤ (j : ℝ) / k := by
    intro j
    by_cases hj : 0 < j ∧ j < k
    · obtain ⟨x, h⟩ := exists_quantile Q g hg ((j : ℝ) / k) (div_pos (by exact_mod_cast hj.1) hk')
        (by rw [div_lt_one hk']; exact_mod_cast hj.2)
      exact ⟨x, fun _ _ => h⟩
    · exact ⟨0, fun h1 h2 => absurd ⟨h1, h2⟩ hj⟩
  choose x hx using hx
  -- bracket `j` has thresholds between the quantiles at `j/k` and `(j+1)/k`
  set low : ℕ → 𝒳 → Prop := fun j z => j < k ∧ x j ≤ g z with hlow
  set upp : ℕ → 𝒳 → Prop := fun j z => j = 0 ∨ x j < g z with hupp
  have hlowm : ∀ j, MeasurableSet {z | low j z} := by
    intro j
    by_cases hj : j < k
    · simpa [hlow, hj] using measurableSet_le measurable_const hg
    · simp [hlow, hj]
  have huppm : ∀ j, MeasurableSet {z | upp j z} := by
    intro j
    by_cases hj : j = 0
    · simp [hupp, hj]
    · simpa [hupp, hj] using measurableSet_lt measurable_const hg
  have hupp1 : ∀ j, j < k → Q.real {z | ¬ upp j z} ≥ (j : ℝ) / k := by
    intro j hj
    rcases Nat.eq_zero_or_pos j with rfl | h0
    · simp [hupp]
    · have := (hx j h0 hj).1
      refine this.trans (measureReal_mono (fun z hz => ?_) (measure_ne_top _ _))
      simp only [Set.mem_ofPred_eq, hupp, not_or, not_lt] at hz ⊢
      exact ⟨h0.ne', hz⟩
  have hlow1 : ∀ j, 0 < j → j ≤ k → Q.real {z | ¬ low j z} ≤ (j : ℝ) / k := by
    intro j h0 hj
    rcases hj.eq_or_lt with rfl | hlt
    · rw [div_self hk'.ne']
      exact measureReal_le_one
    · refine le_trans (measureReal_mono (fun z hz => ?_) (measure_ne_top _ _)) (hx j h0 hlt).2
      simp only [Set.mem_ofPred_eq, hlow, not_and, not_le] at hz ⊢
      exact hz hlt
  refine brackets D hn (k := k) (fun j z => z ∈ Y ∧ low (j + 1) z ∧ upp j z) (fun j z => z ∈ Y ∧ upp j z)
    (fun j => hY.inter ((hlowm _).inter (huppm _))) (fun j => hY.inter (huppm _)) (1 / k) (fun j => ?_) ε hε _ fun ω hω => ?_
  · -- the difference lies above `x j` and below `x (j+1)`
    have hcover : {z | z ∈ Y ∧ upp j z} ⊆ {z | z ∈ Y ∧ low (j + 1) z ∧ upp j z} ∪ ({z | ¬ low (j + 1) z} ∩ {z | upp j z}) := by
      rintro z ⟨h1, h2⟩
      by_cases h3 : low (j + 1) z
      · exact Or.inl ⟨h1, h3, h2⟩
      · exact Or.inr ⟨h3, h2⟩
    refine (measureReal_mono hcover (measure_ne_top _ _)).trans ((measureReal_union_le _ _).trans ?_)
    apply add_le_add le_rfl
    have h4 := hlow1 (j + 1) (by omega) j.isLt
    have h5 := hupp1 j j.isLt
    have h6 : Q.real {z | ¬ low (j + 1) z} =
        Q.real ({z | ¬ low (j + 1) z} ∩ {z | upp j z}) + Q.real ({z | ¬ low (j + 1) z} \ {z | upp j z}) :=
      (measureReal_inter_add_diff (huppm j)).symm
    by_cases hsub : {z | ¬ upp j z} ⊆ {z | ¬ low (j + 1) z}
    · have h7 : {z | ¬ low ((j : ℕ) + 1) z} \ {z | upp j z} = {z | ¬ upp j z} := by
        ext z
        constructor
        · exact fun h => h.2
        · exact fun h => ⟨hsub h, h⟩
      rw [h7] at h6
      have h8 : (((j : ℕ) + 1 : ℕ) : ℝ) / k = (j : ℝ) / k + 1 / k := by
        push_cast
        ring
      linarith
    · -- then `x (j+1) ≤ x j` and the difference is empty
      obtain ⟨z, hz1, hz2⟩ := Set.not_subset.1 hsub
      have hz2 : low (j + 1) z := not_not.1 hz2
      have hz1 : ¬ upp j z := hz1
      rw [hupp] at hz1
      simp only [not_or, not_lt] at hz1
      have hle : x (j + 1) ≤ x j := hz2.2.trans hz1.2
      have : {z | ¬ low ((j : ℕ) + 1) z} ∩ {z | upp j z} = ∅ := by
        ext z'
        simp only [Set.mem_inter_iff, Set.mem_ofPred_eq, Set.mem_empty_iff_false, iff_false, not_and]
        intro h1 h2
        apply h1
        rcases h2 with h2 | h2
        · exact absurd h2 hz1.1
        · exact ⟨hz2.1, hle.trans h2.le⟩
      rw [this, measureReal_empty]
      positivity
  · obtain ⟨s, hs⟩ := hω
    refine ⟨Y ∩ {x | s ≤ g x}, ?_, hs⟩
    -- the last quantile below `s`
    have hfind : ∃ j : ℕ, j < k ∧ (j = 0 ∨ x j < s) ∧ (j + 1 < k → s ≤ x (j + 1)) := by
      have hex : ∃ m : ℕ, m < k ∧ (m + 1 < k → s ≤ x (m + 1)) := ⟨k - 1, by omega, by omega⟩
      have hsp := Nat.find_spec hex
      refine ⟨Nat.find hex, hsp.1, ?_, hsp.2⟩
      by_cases h0 : Nat.find hex = 0
      · exact Or.inl h0
      · right
        have hmin := Nat.find_min hex (m := Nat.find hex - 1) (by omega)
        simp only [not_and, not_forall, not_le] at hmin
        obtain ⟨h1, h2⟩ := hmin (by omega)
        rwa [Nat.sub_add_cancel (by omega)] at h2
    obtain ⟨j, hj, h1, h2⟩ := hfind
    refine ⟨⟨j, hj⟩, ?_, ?_⟩
    · rintro z ⟨hz1, hz2, hz3⟩
      exact ⟨hz1, (h2 hz2.1).trans hz2.2⟩
    · rintro z ⟨hz1, hz2⟩
      refine ⟨hz1, ?_⟩
      rcases h1 with h1 | h1
      · exact Or.inl h1
      · exact Or.inr (lt_of_lt_of_le h1 hz2)

end law

/-! ### The F1 scaler -/

/-- The F1 score of a classifier over new data with law `Q` and labels 1 on `Y`. -/
noncomputable def newF1 (Q : Measure 𝒳) (Y : Set 𝒳) (predict : 𝒳 → ℕ) : ℝ :=
  2 * Q.real (Y ∩ {x | predict x = 1}) / (Q.real {x | predict x = 1} + Q.real Y)

/-- What the F1 scaler with temperature `T` predicts for a new row with probability `p`. -/
noncomputable def predictNew (T threshold p : ℝ) : ℕ := (f1Predict T threshold [p]).getD 0 0

theorem predictNew_eq (T threshold : ℝ) (hT : 0 < T) (h0 : 0 < threshold) (h1 : threshold ≤ 1) (p : ℝ) :
    predictNew T threshold p = if threshold * T ≤ p then 1 else 0 := by
  unfold predictNew f1Predict
  rw [if_neg hT.ne', Verif.Props.C52_decision T threshold hT h0 h1]
  rfl

theorem predictNew_one (T threshold : ℝ) (hT : 0 < T) (h0 : 0 < threshold) (h1 : threshold ≤ 1) (p : ℝ) :
    predictNew T threshold p = 1 ↔ threshold * T ≤ p := by
  rw [predictNew_eq T threshold hT h0 h1]
  split_ifs with h <;> simp [h]

theorem sum_rowsOf (X : Fin n → Ω → 𝒳) (hn : 0 < n) (q : 𝒳 → ℕ) (S : Set 𝒳) (hq : ∀ x, (q x : ℝ) = S.indicator 1 x) (ω : Ω) :
    (((MetricLaw.rowsOf X q ω).sum : ℕ) : ℝ) = n * avg X (S.indicator 1) id ω := by
  have hn' : (n : ℝ) ≠ 0 := by exact_mod_cast hn.ne'
  unfold MetricLaw.rowsOf avg
  rw [List.sum_ofFn, mul_div_cancel₀ _ hn']
  push_cast
  exact Finset.sum_congr rfl fun i _ => hq _

/-- The F1 score on the calibration data, from frequencies. -/
theorem f1_rows (X : Fin n → Ω → 𝒳) (hn : 0 < n) (p : 𝒳 → ℝ) (Y : Set 𝒳) (y : 𝒳 → ℕ) (hy : ∀ x, (y x : ℝ) = Y.indicator 1 x) (threshold T : ℝ)
    (ω : Ω) :
    (F1 (MetricLaw.rowsOf X y ω) (f1Preds (MetricLaw.rowsOf X p ω) threshold T) : ℝ) =
      2 * avg X ((Y ∩ {x | threshold * T ≤ p x}).indicator 1) id ω /
        (avg X ((Set.univ ∩ {x | threshold * T ≤ p x}).indicator 1) id ω + avg X (Y.indicator 1) id ω) := by
  have hn' : (n : ℝ) ≠ 0 := by exact_mod_cast hn.ne'
  have hpred : f1Preds (MetricLaw.rowsOf X p ω) threshold T = MetricLaw.rowsOf X (fun x => if threshold * T ≤ p x then 1 else 0) ω := by
    unfold f1Preds MetricLaw.rowsOf
    rw [List.map_ofFn]
    rfl
  unfold F1
  rw [hpred, zipWith_rowsOf, Nat.cast_add]
  rw [sum_rowsOf X hn _ (Y ∩ {x | threshold * T ≤ p x}) (fun x => by
      push_cast
      rw [hy]
      by_cases h1 : x ∈ Y <;> by_cases h2 : threshold * T ≤ p x <;> simp [h1, h2]) ω,
    sum_rowsOf X hn (fun x => if threshold * T ≤ p x then 1 else 0) (Set.univ ∩ {x | threshold * T ≤ p x}) (fun x => by
      by_cases h2 : threshold * T ≤ p x <;> simp [h2]) ω, sum_rowsOf X hn y Y hy ω]
  rw [← mul_add, mul_left_comm, mul_div_mul_left _ _ hn']

/-- Ratios with close numerators and denominators. -/
theorem f1_close {a b c a' b' c' δ : ℝ} (hab : a ≤ b) (hac : a ≤ c) (ha0 : 0 ≤ a) (hb' : 0 ≤ b') (hc' : 0 < c') (hc : 0 < c) (h1 : |a - a'| ≤ δ)
    (h2 : |b - b'| ≤ δ) (h3 : |c - c'| ≤ δ) : |2 * a / (b + c) - 2 * a' / (b' + c')| ≤ 4 * δ / c' := by
  have hd : 0 < b + c := by linarith
  have hd' : 0 < b' + c' := by linarith
  have hδ : 0 ≤ δ := (abs_nonneg _).trans h1
  set F := 2 * a / (b + c) with hF
  have hF0 : 0 ≤ F := by rw [hF]; positivity
  have hF1 : F ≤ 1 := by
    rw [hF, div_le_one hd]
    linarith
  have e : F - 2 * a' / (b' + c') = (2 * (a - a') - F * ((b - b') + (c - c'))) / (b' + c') := by
    have : F * (b + c) = 2 * a := by rw [hF]; field_simp
    field_simp
    linarith
  rw [e, abs_div, abs_of_pos hd', div_le_div_iff₀ hd' hc']
  have hnum : |2 * (a - a') - F * ((b - b') + (c - c'))| ≤ 4 * δ := by
    have t1 : |2 * (a - a')| ≤ 2 * δ := by
      rw [abs_mul, abs_two]
      linarith
    have t2 : |F * ((b - b') + (c - c'))| ≤ 2 * δ := by
      rw [abs_mul, abs_of_nonneg hF0]
      have : |(b - b') + (c - c')| ≤ 2 * δ := (abs_add_le _ _).trans (by linarith)
      calc F * |(b - b') + (c - c')| ≤ 1 * |(b - b') + (c - c')| := mul_le_mul_of_nonneg_right hF1 (abs_nonneg _)
        _ ≤ 2 * δ := by linarith
    exact (abs_sub _ _).trans (by linarith)
  nlinarith [abs_nonneg (2 * (a - a') - F * ((b - b') + (c - c')))]

section law
variable {X : Fin n → Ω → 𝒳} {Q : Measure 𝒳} {μ : Measure Ω} [IsProbabilityMeasure μ] (D : Draws X Q μ)
include D

/-- **C134, F1.** Let labels 1 have probability `π > 0`. Except with probability `4 k exp (-2 n ε²)`, and with `δ = ε + 1 / k`: if
`F1BinaryClassificationTemperatureScaling` fits a temperature, it is positive, the F1 score it reaches on the calibration data differs from the
F1 score of its predictions for new data by `4 δ / π` or less, and no temperature of the grid would give an F1 score on new data which is larger by
more than `8 δ / π`; nor would predicting 1 everywhere. -/
theorem C134_f1 (hn : 0 < n) (polish : (ℝ → ℝ) → ℝ → ℝ) (hpol : Strict polish) (p : 𝒳 → ℝ) (hp : Measurable p) (hp1 : ∀ x, 0 < p x ∧ p x ≤ 1)
    (Y : Set 𝒳) (hY : MeasurableSet Y) (hY0 : 0 < Q.real Y) (y : 𝒳 → ℕ) (hy : ∀ x, (y x : ℝ) = Y.indicator 1 x) (threshold : ℝ)
    (h0 : 0 < threshold) (h1 : threshold ≤ 1) (k : ℕ) (hk : 0 < k) (ε : ℝ) (hε : 0 ≤ ε) :
    μ.real {ω | ∃ T lo, f1Fit polish (MetricLaw.rowsOf X p ω) (MetricLaw.rowsOf X y ω) threshold = some T ∧
      (MetricLaw.rowsOf X p ω).min? = some lo ∧
      ¬ (0 < T ∧
        |F1 (MetricLaw.rowsOf X y ω) (f1Predict T threshold (MetricLaw.rowsOf X p ω)) - newF1 Q Y fun x => predictNew T threshold (p x)| ≤
          4 * (ε + 1 / k) / Q.real Y ∧
        (∀ i : ℕ, i < 1000 →
          newF1 Q Y (fun x => predictNew (lo + i * ((1 / threshold - lo) / ((1000 - 1 : ℕ) : ℝ))) threshold (p x)) - 8 * (ε + 1 / k) / Q.real Y ≤
            newF1 Q Y fun x => predictNew T threshold (p x)) ∧
        newF1 Q Y (fun _ => 1) - 8 * (ε + 1 / k) / Q.real Y ≤ newF1 Q Y fun x => predictNew T threshold (p x))} ≤
      4 * k * Real.exp (-2 * n * ε ^ 2) := by
  have : Nonempty (Fin n) := ⟨⟨0, hn⟩⟩
  have hQ : IsProbabilityMeasure Q := prob_law D
  have hn' : (0 : ℝ) < n := by exact_mod_cast hn
  have e1 := all_thresholds D hn p hp Y hY k hk ε hε
  have e2 := all_thresholds D hn p hp Set.univ MeasurableSet.univ k hk ε hε
  rw [show 4 * (k : ℝ) * Real.exp (-2 * n * ε ^ 2) = 2 * k * Real.exp (-2 * n * ε ^ 2) + 2 * k * Real.exp (-2 * n * ε ^ 2) by ring]
  refine le_trans (measureReal_mono ?_ (measure_ne_top _ _)) ((measureReal_union_le _ _).trans (add_le_add e1 e2))
  rintro ω ⟨T, lo, hfit, hlo, hbad⟩
  by_contra hgood
  simp only [Set.mem_union, Set.mem_ofPred_eq, not_or, not_exists, not_lt] at hgood
  obtain ⟨g1, g2⟩ := hgood
  apply hbad
  set probs := MetricLaw.rowsOf X p ω with hprobs
  set targets := MetricLaw.rowsOf X y ω with htargets
  have hy1 : ∀ x, y x ≤ 1 := by
    intro x
    have := hy x
    by_cases h : x ∈ Y
    · rw [Set.indicator_of_mem h, Pi.one_apply] at this
      have : y x = 1 := by exact_mod_cast this
      omega
    · rw [Set.indicator_of_notMem h] at this
      have : y x = 0 := by exact_mod_cast this
      omega
  have hpos : targets.sum ≠ 0 := by
    intro h
    unfold f1Fit at hfit
    rw [hlo] at hfit
    simp [h] at hfit
  have hmemp : ∀ v ∈ probs, 0 < v ∧ v ≤ 1 := by
    intro v hv
    obtain ⟨i, rfl⟩ := (List.mem_ofFn' _ _).1 hv
    exact hp1 _
  obtain ⟨lo', T', hlo', hfit', hT, hgrid, hall⟩ := C52_f1_fit polish hpol probs targets threshold (by simp [probs, targets, MetricLaw.rowsOf]) hmemp
    (by
      intro t ht
      obtain ⟨i, rfl⟩ := (List.mem_ofFn' _ _).1 ht
      exact hy1 _) hpos h0 h1
  rw [hlo] at hlo'
  rw [hfit] at hfit'
  obtain rfl := Option.some.inj hlo'
  obtain rfl := Option.some.inj hfit'
  have hpred : f1Predict T threshold probs = f1Preds probs threshold T := by
    unfold f1Predict
    rw [if_neg hT.ne']
    exact Verif.Props.C52_decision T threshold hT h0 h1 probs
  -- scores on calibration and new data are close, for every temperature
  have hYavg : (0 : ℝ) < avg X (Y.indicator 1) id ω := by
    have := sum_rowsOf X hn y Y hy ω
    have h2 : (0 : ℝ) < ((targets.sum : ℕ) : ℝ) := by exact_mod_cast Nat.pos_of_ne_zero hpos
    rw [htargets, this] at h2
    exact pos_of_mul_pos_right h2 hn'.le
  have hYclose : |avg X (Y.indicator 1) id ω - Q.real Y| ≤ ε + 1 / k := by
    have := g1 0
    rwa [show Y ∩ {x | 0 ≤ p x} = Y from Set.inter_eq_left.2 fun x _ => (hp1 x).1.le] at this
  have havg : ∀ {S S' : Set 𝒳}, S ⊆ S' → avg X (S.indicator 1) id ω ≤ avg X (S'.indicator 1) id ω := by
    intro S S' hS
    unfold avg
    apply div_le_div_of_nonneg_right _ hn'.le
    apply Finset.sum_le_sum
    intro i _
    exact Set.indicator_le_indicator_of_subset hS (fun _ => zero_le_one) _
  have havg0 : ∀ S : Set 𝒳, 0 ≤ avg X (S.indicator 1) id ω := by
    intro S
    unfold avg
    exact div_nonneg (Finset.sum_nonneg fun i _ => Set.indicator_nonneg (fun _ _ => zero_le_one) _) hn'.le
  have hclose : ∀ τ, 0 < τ → |F1 targets (f1Preds probs threshold τ) - newF1 Q Y fun x => predictNew τ threshold (p x)| ≤
      4 * (ε + 1 / k) / Q.real Y := by
    intro τ hτ
    have hset : {x | predictNew τ threshold (p x) = 1} = {x | threshold * τ ≤ p x} :=
      Set.ext fun x => predictNew_one τ threshold hτ h0 h1 (p x)
    rw [hprobs, htargets, f1_rows X hn p Y y hy threshold τ ω]
    unfold newF1
    rw [hset]
    have g2' := g2 (threshold * τ)
    rw [show Q.real (Set.univ ∩ {x | threshold * τ ≤ p x}) = Q.real {x | threshold * τ ≤ p x} by rw [Set.univ_inter]] at g2'
    exact f1_close (havg (Set.inter_subset_inter_left _ (Set.subset_univ _))) (havg Set.inter_subset_left) (havg0 _) measureReal_nonneg hY0
      hYavg (g1 (threshold * τ)) g2' hYclose
  have hTc := abs_le.1 (hclose T hT)
  have hlo0 : 0 < lo := (hmemp lo (min?_spec probs lo hlo).1).1
  have hlo1 : lo ≤ 1 / threshold := (hmemp lo (min?_spec probs lo hlo).1).2.trans (by rw [le_div_iff₀ h0, one_mul]; exact h1)
  have e8 : 8 * (ε + 1 / k) / Q.real Y = 4 * (ε + 1 / k) / Q.real Y + 4 * (ε + 1 / k) / Q.real Y := by ring
  refine ⟨hT, ?_, ?_, ?_⟩
  · rw [hpred]
    exact hclose T hT
  · intro i hi
    have hg := hgrid i hi
    rw [hpred] at hg
    have hτ : 0 < lo + i * ((1 / threshold - lo) / ((1000 - 1 : ℕ) : ℝ)) := by
      have : 0 ≤ (i : ℝ) * ((1 / threshold - lo) / ((1000 - 1 : ℕ) : ℝ)) :=
        mul_nonneg (Nat.cast_nonneg _) (div_nonneg (by linarith) (Nat.cast_nonneg _))
      linarith
    have hic := abs_le.1 (hclose _ hτ)
    rw [e8]
    linarith [hTc.1, hTc.2, hic.1, hic.2]
  · rw [hpred] at hall
    have hlen : probs.length = n := by simp [hprobs, MetricLaw.rowsOf]
    have hone : |2 * (targets.sum : ℝ) / (probs.length + targets.sum) - newF1 Q Y fun _ => 1| ≤ 4 * (ε + 1 / k) / Q.real Y := by
      unfold newF1
      rw [htargets, sum_rowsOf X hn y Y hy ω, hlen]
      simp only [Set.ofPred_true, Set.inter_univ, probReal_univ]
      have h3 : 2 * ((n : ℝ) * avg X (Y.indicator 1) id ω) / (n + n * avg X (Y.indicator 1) id ω) =
          2 * avg X (Y.indicator 1) id ω / (1 + avg X (Y.indicator 1) id ω) := by
        rw [mul_left_comm, ← mul_one_add, mul_div_mul_left _ _ hn'.ne']
      rw [h3]
      have h4 : avg X (Y.indicator 1) id ω ≤ 1 := by
        have := havg (Set.subset_univ Y)
        refine this.trans (le_of_eq ?_)
        unfold avg
        simp [hn'.ne']
      have hδ : 0 ≤ ε + 1 / (k : ℝ) := by positivity
      exact f1_close h4 le_rfl (havg0 _) zero_le_one hY0 hYavg hYclose (by simpa using hδ) hYclose
    have hoc := abs_le.1 hone
    rw [e8]
    linarith [hTc.1, hTc.2, hoc.1, hoc.2]

end law

/-- **C134 is false of clipped probabilities of the bias scaler.** Let all targets be 1 and probabilities 1 or 1/10, equally likely. However many
rows there are, the mean of the scaled probabilities over new data stays 3/8 below the mean target, except with probability
`exp (-9 n / 200)`. -/
theorem C134_clipped_false {X : Fin n → Ω → Bool} {Q : Measure Bool} {μ : Measure Ω} [IsProbabilityMeasure μ] (D : Draws X Q μ) (hn : 0 < n)
    (hQ : Q.real {true} = 1 / 2) :
    1 - Real.exp (-2 * n * (3 / 20) ^ 2) ≤ μ.real {ω | ∃ T,
      biasFit (MetricLaw.rowsOf X (fun b => if b then (1 : ℝ) else 1 / 10) ω) (MetricLaw.rowsOf X (fun _ => 1) ω) = some T ∧
      ∫ b, proba T (if b then (1 : ℝ) else 1 / 10) ∂Q ≤ ∫ _, (1 : ℝ) ∂Q - 3 / 8} := by
  have : Nonempty (Fin n) := ⟨⟨0, hn⟩⟩
  have hQp : IsProbabilityMeasure Q := prob_law D
  have hn' : (0 : ℝ) < n := by exact_mod_cast hn
  have hQf : Q.real {false} = 1 / 2 := by
    have := probReal_compl_eq_one_sub (μ := Q) (measurableSet_singleton true)
    rw [hQ, show ({true} : Set Bool)ᶜ = {false} by ext b; cases b <;> simp] at this
    rw [this]
    norm_num
  have hint : ∀ h : Bool → ℝ, ∫ b, h b ∂Q = (h true + h false) / 2 := by
    intro h
    rw [integral_fintype Integrable.of_finite, Fintype.sum_bool, hQ, hQf]
    simp only [smul_eq_mul]
    ring
  set p : Bool → ℝ := fun b => if b then (1 : ℝ) else 1 / 10 with hp
  have htail := PrecisionLaw.upper_tail D hn (fun b => 1 - p b) (measurable_of_finite _) 0 1 one_pos (fun b => by
    cases b <;> norm_num [hp]) (3 / 20) (by norm_num)
  rw [sub_zero, one_pow, div_one, hint] at htail
  have hmeas : MeasurableSet {ω | (3 : ℝ) / 20 ≤ avg X (fun b => 1 - p b) id ω - ((1 - p true) + (1 - p false)) / 2} := by
    apply measurableSet_le measurable_const
    apply Measurable.sub_const
    unfold avg
    apply Measurable.div_const
    exact Finset.measurable_sum _ fun i _ => (measurable_of_finite (fun b => 1 - p b)).comp (D.meas i)
  have hcompl := probReal_compl_eq_one_sub (μ := μ) hmeas
  refine le_trans ?_ (le_trans (le_of_eq hcompl.symm) (measureReal_mono ?_ (measure_ne_top _ _)))
  · linarith
  · intro ω hω
    simp only [Set.mem_compl_iff, Set.mem_ofPred_eq, not_le] at hω
    have hsum : avg X (fun b => 1 - p b) id ω = 1 - avg X p id ω := by
      unfold avg
      rw [Finset.sum_sub_distrib, sub_div]
      simp [hn'.ne']
    have h1avg : avg X (fun _ : Bool => (1 : ℝ)) id ω = 1 := by
      unfold avg
      simp [hn'.ne']
    refine ⟨avg X p id ω, ?_, ?_⟩
    · unfold biasFit
      rw [mean_rowsOf, mean_rowsOf, h1avg, if_neg one_ne_zero, div_one]
    · rw [hsum] at hω
      have hpt : p true = 1 := by simp [hp]
      have hpf : p false = 1 / 10 := by simp [hp]
      rw [hpt, hpf] at hω
      have hT : 2 / 5 < avg X p id ω := by linarith
      rw [hint, hint, proba_eq, proba_eq]
      simp only [if_true, Bool.false_eq_true, if_false]
      have h2 : min (max ((1 / 10 : ℝ) / avg X p id ω) 0) 1 ≤ 1 / 4 := by
        refine (min_le_left _ _).trans (max_le ?_ (by norm_num))
        rw [div_le_iff₀ (by linarith)]
        linarith
      have h3 : min (max ((1 : ℝ) / avg X p id ω) 0) 1 ≤ 1 := min_le_right _ _
      linarith

-- 2000 rows of any law: the bias scaler's mean error is at most (1 + 1 / T) / 20, except with probability 4 exp (-10)
example (ν : Measure (ℝ × Bool)) [IsProbabilityMeasure ν] :
    (Measure.pi fun _ : Fin 2000 => ν).real {ω | ∃ T,
      biasFit (MetricLaw.rowsOf (fun i ω => ω i) (fun z : ℝ × Bool => max 0 (min z.1 1)) ω)
        (MetricLaw.rowsOf (fun i ω => ω i) (fun z : ℝ × Bool => if z.2 then (1 : ℝ) else 0) ω) = some T ∧ 0 < T ∧
      ¬ (|∫ z, max 0 (min z.1 1) / T ∂ν - ∫ z, (if z.2 then (1 : ℝ) else 0) ∂ν| ≤ 1 / 20 * (1 + 1 / T) ∧
        ∫ z, proba T (max 0 (min z.1 1)) ∂ν ≤ ∫ z, (if z.2 then (1 : ℝ) else 0) ∂ν + 1 / 20 * (1 + 1 / T))} ≤ 4 * Real.exp (-10) := by
  have hb : Measurable fun b : Bool => if b then (1 : ℝ) else 0 := measurable_of_finite _
  have := C134_bias (draws_pi (ℝ × Bool) ν 2000) (by norm_num) (fun z => max 0 (min z.1 1)) (fun z => if z.2 then (1 : ℝ) else 0)
    (measurable_const.max (measurable_fst.min measurable_const)) (hb.comp measurable_snd)
    (fun z => ⟨le_max_left _ _, max_le zero_le_one (min_le_right _ _)⟩) (fun z => by cases z.2 <;> simp) (1 / 20) (by norm_num)
  refine this.trans (le_of_eq ?_)
  norm_num

-- the hypotheses of the F1 theorem: probabilities in (0, 1] and labels given by a flag
example (ν : Measure (Bool × Bool)) [IsProbabilityMeasure ν] (hpos : 0 < ν.real {z | z.2 = true}) :
    (Measure.pi fun _ : Fin 20000 => ν).real {ω | ∃ T lo,
      f1Fit (fun _ x => x) (MetricLaw.rowsOf (fun i ω => ω i) (fun z : Bool × Bool => if z.1 then (3 / 4 : ℝ) else 1 / 4) ω)
        (MetricLaw.rowsOf (fun i ω => ω i) (fun z : Bool × Bool => if z.2 then 1 else 0) ω) (1 / 2) = some T ∧
      (MetricLaw.rowsOf (fun i ω => ω i) (fun z : Bool × Bool => if z.1 then (3 / 4 : ℝ) else 1 / 4) ω).min? = some lo ∧ ¬ 0 < T} ≤
      4 * (10 : ℕ) * Real.exp (-2 * (20000 : ℕ) * (1 / 50) ^ 2) := by
  have := C134_f1 (draws_pi (Bool × Bool) ν 20000) (by norm_num) (fun _ x => x) (fun _ _ => Or.inl rfl)
    (fun z : Bool × Bool => if z.1 then (3 / 4 : ℝ) else 1 / 4) (measurable_of_finite _) (fun z => by cases z.1 <;> norm_num)
    {z | z.2 = true} (Set.toFinite _).measurableSet hpos (fun z => if z.2 then 1 else 0)
    (fun z => by cases h : z.2 <;> simp [h]) (1 / 2) (by norm_num) (by norm_num) 10 (by norm_num) (1 / 50) (by norm_num)
  refine le_trans (measureReal_mono ?_ (measure_ne_top _ _)) this
  rintro ω ⟨T, lo, h1, h2, h3⟩
  exact ⟨T, lo, h1, h2, fun h => h3 h.1⟩

/-! ### Concrete cases that meet the hypotheses of the theorems above -/

example (ν : Measure (ℝ × Bool)) [IsProbabilityMeasure ν] := C134_brier (draws_pi (ℝ × Bool) ν 2000) (by norm_num) (fun z => max 0 (min z.1 1)) (fun z => if z.2 then 1 else 0)
  (by fun_prop) ((measurable_of_finite fun b : Bool => if b then (1 : ℝ) else 0).comp measurable_snd) (fun z => ⟨le_max_left _ _, max_le zero_le_one (min_le_right _ _)⟩)
  (by rintro ⟨_, b⟩; cases b <;> simp) (1 / 20) (by norm_num)

end Verif.Props.ScalingLaw
