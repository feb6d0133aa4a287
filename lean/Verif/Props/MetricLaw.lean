import Verif.Props.MonteCarlo
import Verif.Props.Metrics
import Verif.Props.ProperScores
import Mathlib.Probability.Moments.SubGaussian

/-!
Property C113: what the metrics estimate, when the rows of the test data are independent draws.
-/
set_option linter.unusedSectionVars false

namespace Verif.Props.MetricLaw

open Verif.Props Verif.Props.MonteCarlo Verif.ArrayOps Verif.Metrics MeasureTheory ProbabilityTheory Finset

variable {Ω 𝒳 : Type} [MeasurableSpace Ω] [MeasurableSpace 𝒳] {n : ℕ}

/-- The rows `f (X 0), …, f (X (n - 1))` of the test data. -/
def rowsOf {R : Type} (X : Fin n → Ω → 𝒳) (f : 𝒳 → R) (ω : Ω) : List R := List.ofFn fun i => f (X i ω)

theorem mean_rows {R : Type} (X : Fin n → Ω → 𝒳) (f : 𝒳 → R) (g : R → ℝ) (ω : Ω) :
    mean ((rowsOf X f ω).map g) = avg X (fun x => g (f x)) id ω := by
  unfold mean rowsOf avg
  rw [List.map_ofFn, List.sum_ofFn, List.length_ofFn]
  rfl

section general
variable {X : Fin n → Ω → 𝒳} {Q : Measure 𝒳} {μ : Measure Ω} [IsProbabilityMeasure μ] (D : Draws X Q μ)
include D

/-- Hoeffding's inequality for an average over the rows. -/
theorem hoeffding (hn : 0 < n) (g : 𝒳 → ℝ) (hg : Measurable g) (a b : ℝ) (hab : a < b) (hb : ∀ x, g x ∈ Set.Icc a b) (ε : ℝ) (hε : 0 ≤ ε) :
    μ.real {ω | ε ≤ |avg X g id ω - ∫ x, g x ∂Q|} ≤ 2 * Real.exp (-2 * n * ε ^ 2 / (b - a) ^ 2) := by
  have : Nonempty (Fin n) := ⟨⟨0, hn⟩⟩
  have hQ : IsProbabilityMeasure Q := prob_law D
  have hn' : (0 : ℝ) < n := by exact_mod_cast hn
  have hgi : Integrable g Q := Integrable.of_mem_Icc a b hg.aemeasurable (Filter.Eventually.of_forall hb)
  set m := ∫ x, g x ∂Q with hm
  have hsub : ∀ i, HasSubgaussianMGF (fun ω => g (X i ω) - m) ((‖b - a‖₊ / 2) ^ 2) μ := by
    intro i
    have := hasSubgaussianMGF_of_mem_Icc (μ := μ) (X := fun ω => g (X i ω)) (hg.comp (D.meas i)).aemeasurable
      (Filter.Eventually.of_forall fun ω => hb (X i ω))
    rw [integral_draw D i hgi.1] at this
    exact this
  have hind : iIndepFun (fun i ω => g (X i ω) - m) μ := D.indep.comp (fun _ x => g x - m) fun _ => hg.sub_const m
  have hind' : iIndepFun (fun i ω => -(g (X i ω) - m)) μ := D.indep.comp (fun _ x => -(g x - m)) fun _ => (hg.sub_const m).neg
  have h1 := HasSubgaussianMGF.measure_sum_ge_le_of_iIndepFun hind (s := univ) (fun i _ => hsub i) (ε := n * ε) (by positivity)
  have h2 := HasSubgaussianMGF.measure_sum_ge_le_of_iIndepFun hind' (s := univ) (fun i _ => (hsub i).neg) (ε := n * ε) (by positivity)
  have hexp : -(n * ε) ^ 2 / (2 * ∑ _i : Fin n, (((‖b - a‖₊ / 2) ^ 2 : NNReal) : ℝ)) = -2 * n * ε ^ 2 / (b - a) ^ 2 := by
    have e : (((‖b - a‖₊ / 2) ^ 2 : NNReal) : ℝ) = (b - a) ^ 2 / 4 := by
      push_cast
      rw [Real.norm_eq_abs, div_pow, sq_abs]
      norm_num
    have hba : (b - a) ^ 2 ≠ 0 := pow_ne_zero 2 (by linarith)
    rw [e]
    simp only [sum_const, card_univ, Fintype.card_fin, nsmul_eq_mul]
    field_simp
    ring
  simp only [NNReal.coe_sum] at h1 h2
  rw [hexp] at h1 h2
  have hsum : ∀ ω, ∑ i, (g (X i ω) - m) = n * (avg X g id ω - m) := by
    intro ω
    unfold avg
    rw [sum_sub_distrib, mul_sub, mul_div_cancel₀ _ hn'.ne']
    simp
  have hsub' : {ω | ε ≤ |avg X g id ω - m|} ⊆ {ω | n * ε ≤ ∑ i, (g (X i ω) - m)} ∪ {ω | n * ε ≤ ∑ i, -(g (X i ω) - m)} := by
    intro ω hω
    simp only [Set.mem_union, Set.mem_setOf_eq, sum_neg_distrib, hsum] at hω ⊢
    rcases le_abs.1 hω with h | h
    · left; exact mul_le_mul_of_nonneg_left h hn'.le
    · right; nlinarith
  calc μ.real {ω | ε ≤ |avg X g id ω - m|} ≤ _ := measureReal_mono hsub'
    _ ≤ _ := measureReal_union_le _ _
    _ ≤ _ := by linarith

theorem avg_unbiased (hn : 0 < n) (g : 𝒳 → ℝ) (hg : Integrable g Q) : ∫ ω, avg X g id ω ∂μ = ∫ x, g x ∂Q :=
  integral_avg D hn id hg

/-- **C113, accuracy.** On average over the test data the accuracy is the probability of a correct prediction, and it differs from it by `ε` or
more with probability at most `2 exp (-2 n ε²)`. -/
theorem C113_accuracy (hn : 0 < n) (f : 𝒳 → Point ℝ) (hf : MeasurableSet {x | (f x).pred = (f x).target}) :
    ∫ ω, accuracy (rowsOf X f ω) ∂μ = Q.real {x | (f x).pred = (f x).target} ∧
    ∀ ε, 0 ≤ ε → μ.real {ω | ε ≤ |accuracy (rowsOf X f ω) - Q.real {x | (f x).pred = (f x).target}|} ≤ 2 * Real.exp (-2 * n * ε ^ 2) := by
  have : Nonempty (Fin n) := ⟨⟨0, hn⟩⟩
  have hQ : IsProbabilityMeasure Q := prob_law D
  set g : 𝒳 → ℝ := fun x => if (f x).pred = (f x).target then 1 else 0 with hg
  have hgi : g = {x | (f x).pred = (f x).target}.indicator 1 := by
    funext x
    simp only [hg, Set.indicator_apply, Set.mem_setOf_eq, Pi.one_apply]
  have hgm : Measurable g := by rw [hgi]; exact measurable_one.indicator hf
  have hgb : ∀ x, g x ∈ Set.Icc (0 : ℝ) 1 := by intro x; simp only [hg]; split_ifs <;> simp
  have he : ∫ x, g x ∂Q = Q.real {x | (f x).pred = (f x).target} := by
    rw [hgi, integral_indicator_one hf]
  have hacc : ∀ ω, accuracy (rowsOf X f ω) = avg X g id ω := fun ω => mean_rows X f _ ω
  simp only [hacc]
  rw [← he]
  refine ⟨avg_unbiased D hn g (Integrable.of_mem_Icc 0 1 hgm.aemeasurable (Filter.Eventually.of_forall hgb)), fun ε hε => ?_⟩
  have := hoeffding D hn g hgm 0 1 one_pos hgb ε hε
  simpa using this

/-- **C113, coverage of intervals.** On average over the test data the coverage metric is the probability that the interval holds the target, and it
differs from it by `ε` or more with probability at most `2 exp (-2 n ε²)`. -/
theorem C113_picp (hn : 0 < n) (f : 𝒳 → Interval ℝ) (hf : MeasurableSet {x | (f x).lower ≤ (f x).target ∧ (f x).target ≤ (f x).upper}) :
    ∫ ω, picp (rowsOf X f ω) ∂μ = Q.real {x | (f x).lower ≤ (f x).target ∧ (f x).target ≤ (f x).upper} ∧
    ∀ ε, 0 ≤ ε → μ.real {ω | ε ≤ |picp (rowsOf X f ω) - Q.real {x | (f x).lower ≤ (f x).target ∧ (f x).target ≤ (f x).upper}|} ≤
      2 * Real.exp (-2 * n * ε ^ 2) := by
  have : Nonempty (Fin n) := ⟨⟨0, hn⟩⟩
  have hQ : IsProbabilityMeasure Q := prob_law D
  set g : 𝒳 → ℝ := fun x => (if (f x).target ≥ (f x).lower then 1 else 0) * (if (f x).target ≤ (f x).upper then 1 else 0) with hg
  have hgi : g = {x | (f x).lower ≤ (f x).target ∧ (f x).target ≤ (f x).upper}.indicator 1 := by
    funext x
    simp only [hg, Set.indicator_apply, Set.mem_setOf_eq, Pi.one_apply, ge_iff_le]
    by_cases h1 : (f x).lower ≤ (f x).target <;> by_cases h2 : (f x).target ≤ (f x).upper <;> simp [h1, h2]
  have hgm : Measurable g := by rw [hgi]; exact measurable_one.indicator hf
  have hgb : ∀ x, g x ∈ Set.Icc (0 : ℝ) 1 := by intro x; simp only [hg]; split_ifs <;> simp
  have he : ∫ x, g x ∂Q = Q.real {x | (f x).lower ≤ (f x).target ∧ (f x).target ≤ (f x).upper} := by
    rw [hgi, integral_indicator_one hf]
  have hacc : ∀ ω, picp (rowsOf X f ω) = avg X g id ω := fun ω => mean_rows X f _ ω
  simp only [hacc]
  rw [← he]
  refine ⟨avg_unbiased D hn g (Integrable.of_mem_Icc 0 1 hgm.aemeasurable (Filter.Eventually.of_forall hgb)), fun ε hε => ?_⟩
  have := hoeffding D hn g hgm 0 1 one_pos hgb ε hε
  simpa using this

/-- **C113, Brier score.** On average over the test data it is the expected Brier score of a row, and it differs from it by `ε` or more with
probability at most `2 exp (- n ε² / 2)`. -/
theorem C113_brier (hn : 0 < n) {c : ℕ} (p : 𝒳 → Fin c → ℝ) (hp : ∀ k, Measurable fun x => p x k) (h0 : ∀ x k, 0 ≤ p x k)
    (h1 : ∀ x, ∑ k, p x k = 1) (y : 𝒳 → Fin c) (hy : Measurable y) :
    ∫ ω, brier (rowsOf X (fun x => (List.ofFn (p x), ((y x : ℕ) : ℤ))) ω) ∂μ = ∫ x, ∑ k, (p x k - if k = y x then 1 else 0) ^ 2 ∂Q ∧
    ∀ ε, 0 ≤ ε → μ.real {ω | ε ≤ |brier (rowsOf X (fun x => (List.ofFn (p x), ((y x : ℕ) : ℤ))) ω) -
      ∫ x, ∑ k, (p x k - if k = y x then 1 else 0) ^ 2 ∂Q|} ≤ 2 * Real.exp (-n * ε ^ 2 / 2) := by
  have : Nonempty (Fin n) := ⟨⟨0, hn⟩⟩
  have hQ : IsProbabilityMeasure Q := prob_law D
  set g : 𝒳 → ℝ := fun x => ∑ k, (p x k - if k = y x then 1 else 0) ^ 2 with hg
  have hgm : Measurable g := by
    refine Finset.measurable_sum _ fun k _ => ?_
    refine ((hp k).sub ?_).pow_const 2
    exact Measurable.ite (hy (measurableSet_singleton k) |> fun h => by
      have e : {x | k = y x} = y ⁻¹' {k} := by ext x; simp [eq_comm]
      rw [e]; exact h) measurable_const measurable_const
  have hgb : ∀ x, g x ∈ Set.Icc (0 : ℝ) 2 := by
    intro x
    refine ⟨sum_nonneg fun k _ => sq_nonneg _, ?_⟩
    have hle : ∀ k, p x k ≤ 1 := fun k => by
      rw [← h1 x]; exact single_le_sum (fun j _ => h0 x j) (mem_univ k)
    have : ∀ k ∈ univ, (p x k - if k = y x then 1 else 0) ^ 2 ≤ p x k + if k = y x then 1 else 0 := by
      intro k _
      have a := h0 x k
      have b := hle k
      by_cases h : k = y x
      · rw [if_pos h]; nlinarith
      · rw [if_neg h]; nlinarith
    refine (sum_le_sum this).trans ?_
    rw [sum_add_distrib, h1, sum_ite_eq' univ (y x) fun _ => (1 : ℝ)]
    simp only [mem_univ, if_true]
    norm_num
  have hacc : ∀ ω, brier (rowsOf X (fun x => (List.ofFn (p x), ((y x : ℕ) : ℤ))) ω) = avg X g id ω := by
    intro ω
    unfold brier
    rw [mean_rows X (fun x => (List.ofFn (p x), ((y x : ℕ) : ℤ))) (fun r => brierRow r.1 r.2) ω]
    simp only [ProperScores.brierRow_ofFn]
    rfl
  simp only [hacc]
  refine ⟨avg_unbiased D hn g (Integrable.of_mem_Icc 0 2 hgm.aemeasurable (Filter.Eventually.of_forall hgb)), fun ε hε => ?_⟩
  have := hoeffding D hn g hgm 0 2 two_pos hgb ε hε
  have e : -2 * (n : ℝ) * ε ^ 2 / (2 - 0) ^ 2 = -n * ε ^ 2 / 2 := by ring
  rw [e] at this
  exact this

/-- **C113, squared error.** On average over the test data the mean squared error is the expected squared error of a row; its square root is too
small on average, or just right. -/
theorem C113_rmse (hn : 0 < n) (f : 𝒳 → List ℝ × List ℝ)
    (hi : Integrable (fun x => (List.zipWith (fun a b => (a - b) ^ 2) (f x).1 (f x).2).sum) Q) :
    ∫ ω, mse (rowsOf X f ω) ∂μ = ∫ x, (List.zipWith (fun a b => (a - b) ^ 2) (f x).1 (f x).2).sum ∂Q ∧
    ∫ ω, rmse (rowsOf X f ω) ∂μ ≤ Real.sqrt (∫ x, (List.zipWith (fun a b => (a - b) ^ 2) (f x).1 (f x).2).sum ∂Q) := by
  set g : 𝒳 → ℝ := fun x => (List.zipWith (fun a b => (a - b) ^ 2) (f x).1 (f x).2).sum with hg
  have hg0 : ∀ x, 0 ≤ g x := by
    intro x
    refine List.sum_nonneg fun z hz => ?_
    obtain ⟨i, h, rfl⟩ := List.getElem_of_mem hz
    rw [List.getElem_zipWith]
    exact sq_nonneg _
  have hm : ∀ ω, mse (rowsOf X f ω) = avg X g id ω := fun ω => mean_rows X f _ ω
  have hr : ∀ ω, rmse (rowsOf X f ω) = Real.sqrt (avg X g id ω) := fun ω => by
    rw [← hm]; rfl
  simp only [hm, hr]
  have hE := avg_unbiased D hn g hi
  refine ⟨hE, ?_⟩
  have hI := integrable_avg D id hi
  have hpos : ∀ ω, 0 ≤ avg X g id ω := fun ω => div_nonneg (sum_nonneg fun i _ => hg0 _) (Nat.cast_nonneg n)
  have hsq : MemLp (fun ω => Real.sqrt (avg X g id ω)) 2 μ := by
    rw [memLp_two_iff_integrable_sq (Real.continuous_sqrt.comp_aestronglyMeasurable hI.1)]
    refine hI.congr (Filter.Eventually.of_forall fun ω => ?_)
    simp only [Real.sq_sqrt (hpos ω)]
  refine Real.le_sqrt_of_sq_le ?_
  have hv := variance_nonneg (fun ω => Real.sqrt (avg X g id ω)) μ
  rw [variance_eq_sub hsq] at hv
  have e : ∫ ω, ((fun ω => Real.sqrt (avg X g id ω)) ^ 2) ω ∂μ = ∫ ω, avg X g id ω ∂μ := by
    refine integral_congr_ae (Filter.Eventually.of_forall fun ω => ?_)
    simp only [Pi.pow_apply, Real.sq_sqrt (hpos ω)]
  rw [e, hE] at hv
  linarith

end general

/-! ### Expected calibration error -/

/-- The upper edges of the ten bins for `n` test points. -/
noncomputable def edge (n i : ℕ) : ℝ := 1 / n + i * ((1 - 1 / n) / 9)

/-- The bins for `n` test points. -/
noncomputable def binSet (n i : ℕ) : Set ℝ := if i = 0 then Set.Iic (edge n 0) else Set.Ioc (edge n (i - 1)) (edge n i)

/-- The calibration error of the population over these bins: how much the probability of a correct prediction in a bin differs from the
expectation of the confidence there, in total. -/
noncomputable def calErr (n : ℕ) (Q : Measure 𝒳) (f : 𝒳 → Point ℝ) : ℝ :=
  ∑ i ∈ range 10, |Q.real {x | (f x).prob ∈ binSet n i ∧ (f x).pred = (f x).target} - ∫ x in {x | (f x).prob ∈ binSet n i}, (f x).prob ∂Q|

/-- The part of a row in a bin. -/
noncomputable def gap (n i : ℕ) (f : 𝒳 → Point ℝ) (x : 𝒳) : ℝ :=
  {x | (f x).prob ∈ binSet n i ∧ (f x).pred = (f x).target}.indicator 1 x - {x | (f x).prob ∈ binSet n i}.indicator (fun x => (f x).prob) x

theorem measurable_binSet (n i : ℕ) : MeasurableSet (binSet n i) := by
  unfold binSet
  split_ifs
  · exact measurableSet_Iic
  · exact measurableSet_Ioc

theorem bin_eq (n i : ℕ) (hi : i < 10) (rows : List (Point ℝ)) : ∃ P : Point ℝ → Bool,
    bin (thresholds n) i rows = rows.filter P ∧ ∀ r, P r = true ↔ r.prob ∈ binSet n i := by
  unfold bin binSet
  by_cases h : i = 0
  · rw [if_pos h, if_pos h]
    refine ⟨_, rfl, fun r => ?_⟩
    rw [decide_eq_true_iff, thresholds_get n 0 (by omega)]
    rfl
  · rw [if_neg h, if_neg h]
    refine ⟨_, rfl, fun r => ?_⟩
    rw [Bool.and_eq_true, decide_eq_true_iff, decide_eq_true_iff, thresholds_get n i hi, thresholds_get n (i - 1) (by omega)]
    exact and_comm

theorem sum_filter_map {R : Type} (P : R → Bool) (g : R → ℝ) (l : List R) : ((l.filter P).map g).sum = (l.map fun r => if P r then g r else 0).sum := by
  induction l with
  | nil => simp
  | cons a l ih =>
    by_cases h : P a <;> simp [List.filter_cons, h, ih]

theorem ece_eq (hn : 0 < n) (X : Fin n → Ω → 𝒳) (f : 𝒳 → Point ℝ) (ω : Ω) :
    ece (rowsOf X f ω) = ∑ i ∈ range 10, |avg X (gap n i f) id ω| := by
  have hn' : (0 : ℝ) < n := by exact_mod_cast hn
  have hlen : (rowsOf X f ω).length = n := by simp [rowsOf]
  rw [C42_meaning, hlen]
  have h : ∀ i ∈ List.range 10, |((bin (thresholds n) i (rowsOf X f ω)).map fun r => (if r.pred = r.target then (1 : ℝ) else 0) - r.prob).sum| =
      n * |avg X (gap n i f) id ω| := by
    intro i hi
    obtain ⟨P, h1, h2⟩ := bin_eq n i (List.mem_range.1 hi) (rowsOf X f ω)
    rw [h1, sum_filter_map, rowsOf, List.map_ofFn, List.sum_ofFn]
    unfold avg
    rw [abs_div, abs_of_pos hn', mul_div_cancel₀ _ hn'.ne']
    congr 1
    refine sum_congr rfl fun j _ => ?_
    unfold gap
    simp only [Function.comp, id]
    by_cases hP : P (f (X j ω)) = true
    · have hb := (h2 _).1 hP
      rw [if_pos hP, Set.indicator_of_mem (s := {x | (f x).prob ∈ binSet n i}) (by exact hb)]
      by_cases hc : (f (X j ω)).pred = (f (X j ω)).target
      · rw [if_pos hc, Set.indicator_of_mem (by exact ⟨hb, hc⟩)]; rfl
      · rw [if_neg hc, Set.indicator_of_notMem (by exact fun h => hc h.2)]
    · have hb : (f (X j ω)).prob ∉ binSet n i := fun h => hP ((h2 _).2 h)
      rw [if_neg hP, Set.indicator_of_notMem (s := {x | (f x).prob ∈ binSet n i}) (by exact hb),
        Set.indicator_of_notMem (by exact fun h => hb h.1), sub_zero]
  have hfin : ((List.range 10).map fun i => (n : ℝ) * |avg X (gap n i f) id ω|).sum = ∑ i ∈ range 10, (n : ℝ) * |avg X (gap n i f) id ω| := by
    simp [Finset.sum, Finset.range, Multiset.range]
  rw [List.map_congr_left h, hfin, ← mul_sum, mul_div_cancel_left₀ _ hn'.ne']

section ece
variable {X : Fin n → Ω → 𝒳} {Q : Measure 𝒳} {μ : Measure Ω} [IsProbabilityMeasure μ] (D : Draws X Q μ)
include D

theorem gap_props [IsProbabilityMeasure Q] (i : ℕ) (f : 𝒳 → Point ℝ) (hp : Measurable fun x => (f x).prob)
    (h01 : ∀ x, 0 ≤ (f x).prob ∧ (f x).prob ≤ 1) (hf : MeasurableSet {x | (f x).pred = (f x).target}) :
    Measurable (gap n i f) ∧ (∀ x, gap n i f x ∈ Set.Icc (-1 : ℝ) 1) ∧
    ∫ x, gap n i f x ∂Q = Q.real {x | (f x).prob ∈ binSet n i ∧ (f x).pred = (f x).target} - ∫ x in {x | (f x).prob ∈ binSet n i}, (f x).prob ∂Q ∧
    ∫ x, gap n i f x ^ 2 ∂Q ≤ Q.real {x | (f x).prob ∈ binSet n i} := by
  have hB : MeasurableSet {x | (f x).prob ∈ binSet n i} := hp (measurable_binSet n i)
  have hBc : MeasurableSet {x | (f x).prob ∈ binSet n i ∧ (f x).pred = (f x).target} := hB.inter hf
  have hm : Measurable (gap n i f) := (measurable_one.indicator hBc).sub (hp.indicator hB)
  have hrange : ∀ x, |gap n i f x| ≤ {x | (f x).prob ∈ binSet n i}.indicator (1 : 𝒳 → ℝ) x := by
    intro x
    unfold gap
    by_cases hb : (f x).prob ∈ binSet n i
    · rw [Set.indicator_of_mem (s := {x | (f x).prob ∈ binSet n i}) (by exact hb), Set.indicator_of_mem (s := {x | (f x).prob ∈ binSet n i}) (by exact hb)]
      obtain ⟨a, b⟩ := h01 x
      rw [abs_le]
      by_cases hc : (f x).pred = (f x).target
      · rw [Set.indicator_of_mem (by exact ⟨hb, hc⟩)]
        simp only [Pi.one_apply]
        constructor <;> linarith
      · rw [Set.indicator_of_notMem (by exact fun h => hc h.2)]
        simp only [Pi.one_apply]
        constructor <;> linarith
    · rw [Set.indicator_of_notMem (s := {x | (f x).prob ∈ binSet n i}) (by exact hb), Set.indicator_of_notMem (by exact fun h => hb h.1),
        Set.indicator_of_notMem (s := {x | (f x).prob ∈ binSet n i}) (by exact hb)]
      simp
  have hind : ∀ x, {x | (f x).prob ∈ binSet n i}.indicator (1 : 𝒳 → ℝ) x ≤ 1 := fun x => Set.indicator_le_self' (fun _ _ => zero_le_one) x
  have hb : ∀ x, gap n i f x ∈ Set.Icc (-1 : ℝ) 1 := fun x => abs_le.1 ((hrange x).trans (hind x))
  refine ⟨hm, hb, ?_, ?_⟩
  · unfold gap
    have hpi : Integrable (fun x => (f x).prob) Q := Integrable.of_mem_Icc 0 1 hp.aemeasurable (Filter.Eventually.of_forall h01)
    have i1 : Integrable (fun x => {x | (f x).prob ∈ binSet n i ∧ (f x).pred = (f x).target}.indicator (1 : 𝒳 → ℝ) x) Q :=
      (integrable_indicator_iff hBc).2 (integrable_const (1 : ℝ)).integrableOn
    have i2 : Integrable (fun x => {x | (f x).prob ∈ binSet n i}.indicator (fun x => (f x).prob) x) Q := hpi.indicator hB
    rw [integral_sub i1 i2, integral_indicator_one hBc, integral_indicator hB]
  · rw [← integral_indicator_one hB]
    refine integral_mono (Integrable.of_mem_Icc 0 1 (hm.pow_const 2).aemeasurable (Filter.Eventually.of_forall fun x => ?_))
      ((integrable_indicator_iff hB).2 (integrable_const (1 : ℝ)).integrableOn) fun x => ?_
    · obtain ⟨a, b⟩ := hb x
      exact ⟨sq_nonneg _, by nlinarith⟩
    · have h1 := hrange x
      have h2 := hind x
      have h3 := abs_nonneg (gap n i f x)
      rw [← sq_abs]
      nlinarith

theorem disjoint_bins {i j : ℕ} (hn : 0 < n) (hij : i < j) : Disjoint (binSet n i) (binSet n j) := by
  rw [Set.disjoint_left]
  intro p h1 h2
  have hmono : ∀ a b : ℕ, a ≤ b → edge n a ≤ edge n b := by
    intro a b hab
    unfold edge
    have h3 : (0 : ℝ) ≤ (1 - 1 / n) / 9 := by
      have : (1 : ℝ) / n ≤ 1 := by
        rw [div_le_one (by exact_mod_cast hn)]
        exact_mod_cast hn
      linarith [div_nonneg (by linarith : (0 : ℝ) ≤ 1 - 1 / n) (by norm_num : (0 : ℝ) ≤ 9)]
    have h4 : (a : ℝ) ≤ b := by exact_mod_cast hab
    nlinarith
  have hle : p ≤ edge n i := by
    unfold binSet at h1
    by_cases h : i = 0
    · rw [if_pos h] at h1
      rw [h]
      exact h1
    · rw [if_neg h] at h1
      exact h1.2
  have hgt : edge n (j - 1) < p := by
    unfold binSet at h2
    rw [if_neg (by omega)] at h2
    exact h2.1
  linarith [hmono i (j - 1) (by omega)]

/-- **C113, expected calibration error.** On average over the test data the metric is at least the calibration error of the population over
its bins, and at most `√(10 / n)` larger. -/
theorem C113_ece (hn : 0 < n) (f : 𝒳 → Point ℝ) (hp : Measurable fun x => (f x).prob)
    (h01 : ∀ x, 0 ≤ (f x).prob ∧ (f x).prob ≤ 1) (hf : MeasurableSet {x | (f x).pred = (f x).target}) :
    calErr n Q f ≤ ∫ ω, ece (rowsOf X f ω) ∂μ ∧ ∫ ω, ece (rowsOf X f ω) ∂μ ≤ calErr n Q f + Real.sqrt (10 / n) := by
  have : Nonempty (Fin n) := ⟨⟨0, hn⟩⟩
  have hQ : IsProbabilityMeasure Q := prob_law D
  have hn' : (0 : ℝ) < n := by exact_mod_cast hn
  have G := fun i => gap_props D i f hp h01 hf
  have hgi : ∀ i, Integrable (gap n i f) Q := fun i =>
    Integrable.of_mem_Icc (-1) 1 (G i).1.aemeasurable (Filter.Eventually.of_forall (G i).2.1)
  have hg2 : ∀ i, MemLp (gap n i f) 2 Q := fun i =>
    (memLp_two_iff_integrable_sq (hgi i).1).2 (Integrable.of_mem_Icc 0 1 ((G i).1.pow_const 2).aemeasurable
      (Filter.Eventually.of_forall fun x => by obtain ⟨a, b⟩ := (G i).2.1 x; exact ⟨sq_nonneg _, by nlinarith⟩))
  have hai : ∀ i, Integrable (avg X (gap n i f) id) μ := fun i => integrable_avg D id (hgi i)
  have hint : ∫ ω, ece (rowsOf X f ω) ∂μ = ∑ i ∈ range 10, ∫ ω, |avg X (gap n i f) id ω| ∂μ := by
    simp only [ece_eq hn]
    exact integral_finsetSum _ fun i _ => (hai i).abs
  have hcal : calErr n Q f = ∑ i ∈ range 10, |∫ x, gap n i f x ∂Q| := by
    unfold calErr
    exact sum_congr rfl fun i _ => by rw [(G i).2.2.1]
  have hE : ∀ i, ∫ ω, avg X (gap n i f) id ω ∂μ = ∫ x, gap n i f x ∂Q := fun i => avg_unbiased D hn _ (hgi i)
  rw [hint, hcal]
  constructor
  · refine sum_le_sum fun i _ => ?_
    rw [← hE]
    exact abs_integral_le_integral_abs
  · set q := fun i => Q.real {x | (f x).prob ∈ binSet n i} with hq
    have hdev : ∀ i ∈ range 10, ∫ ω, |avg X (gap n i f) id ω| ∂μ ≤ |∫ x, gap n i f x ∂Q| + Real.sqrt (q i / n) := by
      intro i _
      set m := ∫ x, gap n i f x ∂Q with hm
      have hW : MemLp (fun ω => |avg X (gap n i f) id ω - m|) 2 μ := ((memLp_avg D id (hg2 i)).sub (memLp_const m)).abs
      have h1 : ∫ ω, |avg X (gap n i f) id ω| ∂μ ≤ |m| + ∫ ω, |avg X (gap n i f) id ω - m| ∂μ := by
        have hW1 := hW.integrable one_le_two
        have : ∫ ω, (|m| + |avg X (gap n i f) id ω - m|) ∂μ = |m| + ∫ ω, |avg X (gap n i f) id ω - m| ∂μ := by
          rw [integral_add (integrable_const _) hW1]
          simp
        rw [← this]
        refine integral_mono (hai i).abs ((integrable_const _).add hW1) fun ω => ?_
        have := abs_add_le m (avg X (gap n i f) id ω - m)
        rw [add_sub_cancel] at this
        exact this
      have h2 : ∫ ω, |avg X (gap n i f) id ω - m| ∂μ ≤ Real.sqrt (q i / n) := by
        refine Real.le_sqrt_of_sq_le ?_
        have hv := variance_nonneg (fun ω => |avg X (gap n i f) id ω - m|) μ
        rw [variance_eq_sub hW] at hv
        have e : ∫ ω, ((fun ω => |avg X (gap n i f) id ω - m|) ^ 2) ω ∂μ = ProbabilityTheory.variance (avg X (gap n i f) id) μ := by
          rw [variance_eq_integral (hai i).1.aemeasurable, hE]
          refine integral_congr_ae (Filter.Eventually.of_forall fun ω => ?_)
          simp only [Pi.pow_apply, sq_abs, hm]
        rw [e, variance_avg D hn id Function.injective_id (G i).1 (hg2 i)] at hv
        have hvar : ProbabilityTheory.variance (gap n i f) Q ≤ q i := by
          have h3 := variance_eq_sub (hg2 i)
          have h4 := (G i).2.2.2
          have h5 : ∫ x, (gap n i f ^ 2) x ∂Q = ∫ x, gap n i f x ^ 2 ∂Q := rfl
          rw [h5] at h3
          nlinarith [sq_nonneg (∫ x, gap n i f x ∂Q)]
        have := div_le_div_of_nonneg_right hvar hn'.le
        linarith
      linarith
    refine (sum_le_sum hdev).trans ?_
    rw [sum_add_distrib]
    have hq1 : ∑ i ∈ range 10, q i ≤ 1 := by
      have hdis : Set.PairwiseDisjoint (↑(range 10)) fun i => {x | (f x).prob ∈ binSet n i} := by
        intro i _ j _ hij
        have key : ∀ a b : ℕ, a < b → Disjoint {x | (f x).prob ∈ binSet n a} {x | (f x).prob ∈ binSet n b} := fun a b hab =>
          (disjoint_bins D hn hab).preimage fun x => (f x).prob
        rcases lt_or_gt_of_ne hij with h | h
        · exact key i j h
        · exact (key j i h).symm
      rw [← measureReal_biUnion_finset hdis fun i _ => hp (measurable_binSet n i)]
      exact measureReal_le_one
    have hcs := Real.sum_sqrt_mul_sqrt_le (range 10) (f := fun i => q i / n) (g := fun _ => 1)
      (fun i => div_nonneg measureReal_nonneg hn'.le) (fun _ => zero_le_one)
    simp only [Real.sqrt_one, mul_one, sum_const, card_range, nsmul_eq_mul] at hcs
    rw [← Real.sqrt_mul (sum_nonneg fun i _ => div_nonneg measureReal_nonneg hn'.le)] at hcs
    have hfin : Real.sqrt ((∑ i ∈ range 10, q i / n) * ((10 : ℕ) : ℝ)) ≤ Real.sqrt (10 / n) := by
      refine Real.sqrt_le_sqrt ?_
      rw [← sum_div, div_mul_eq_mul_div]
      refine div_le_div_of_nonneg_right ?_ hn'.le
      push_cast
      linarith
    linarith [hcs.trans hfin]

/-- **C113, calibrated confidences.** If among the inputs with confidence in any set the predictions are correct as often as the confidence
says, the metric is at most `√(10 / n)` on average. -/
theorem C113_ece_calibrated (hn : 0 < n) (f : 𝒳 → Point ℝ) (hp : Measurable fun x => (f x).prob)
    (h01 : ∀ x, 0 ≤ (f x).prob ∧ (f x).prob ≤ 1) (hf : MeasurableSet {x | (f x).pred = (f x).target})
    (hcal : ∀ B, MeasurableSet B → Q.real {x | (f x).prob ∈ B ∧ (f x).pred = (f x).target} = ∫ x in {x | (f x).prob ∈ B}, (f x).prob ∂Q) :
    ∫ ω, ece (rowsOf X f ω) ∂μ ≤ Real.sqrt (10 / n) := by
  have h := (C113_ece D hn f hp h01 hf).2
  have h0 : calErr n Q f = 0 := by
    unfold calErr
    refine sum_eq_zero fun i _ => ?_
    rw [hcal _ (measurable_binSet n i), sub_self, abs_zero]
  linarith

end ece

/-- **C113, calibrated confidences do not give a metric of zero.** With the confidence one half on an odd number of test points the metric is
at least `1 / (2 n)` whatever the labels, also when half of the predictions are correct in the long run. -/
theorem C113_ece_zero_false (rows : List (Point ℝ)) (hodd : Odd rows.length) (h : ∀ r ∈ rows, r.prob = 1 / 2) :
    1 / (2 * rows.length) ≤ ece rows := by
  have hne : rows ≠ [] := by
    intro h0
    rw [h0] at hodd
    simp at hodd
  have hpos : (0 : ℝ) < rows.length := by exact_mod_cast List.length_pos_iff.mpr hne
  have h1 := C42_large rows hne fun r hr => by rw [h r hr]; norm_num
  refine le_trans ?_ h1
  have hmean : mean (rows.map (·.prob)) = 1 / 2 := by
    have : rows.map (·.prob) = List.replicate rows.length (1 / 2) := by
      rw [List.eq_replicate_iff]
      refine ⟨by simp, fun b hb => ?_⟩
      obtain ⟨r, hr, rfl⟩ := List.mem_map.1 hb
      exact h r hr
    rw [this]
    unfold mean
    rw [List.sum_replicate, List.length_replicate, nsmul_eq_mul, mul_div_cancel_left₀ _ hpos.ne']
  rw [hmean, (C44_accuracy rows hne).1]
  set k := rows.countP fun r => r.pred == r.target
  obtain ⟨j, hj⟩ := hodd
  have e : (k : ℝ) / rows.length - 1 / 2 = (2 * k - rows.length) / (2 * rows.length) := by field_simp
  rw [e, abs_div, abs_of_pos (by positivity : (0 : ℝ) < 2 * rows.length)]
  refine div_le_div_of_nonneg_right ?_ (by positivity)
  have hz : (1 : ℤ) ≤ |2 * (k : ℤ) - rows.length| := by
    refine Int.one_le_abs ?_
    rw [hj]
    push_cast
    omega
  exact_mod_cast hz

/-- Independent draws, as the theorems suppose. -/
example : ∃ (Ω : Type) (_ : MeasurableSpace Ω) (μ : Measure Ω) (_ : IsProbabilityMeasure μ) (X : Fin 2 → Ω → ℝ) (Q : Measure ℝ),
    Draws X Q μ := by
  refine ⟨Fin 2 → ℝ, inferInstance, Measure.infinitePi fun _ => gaussianReal 0 1, inferInstance, fun i ω => ω i, gaussianReal 0 1,
    fun i => measurable_pi_apply i, iIndepFun_infinitePi (X := fun _ x => x) fun _ => measurable_id, fun i => Measure.infinitePi_map_eval _ i⟩

/-- One coin toss with confidence one half: the metric is one half, whichever side shows. -/
example : ece [(⟨0, 1 / 2, 0⟩ : Point ℚ)] = 1 / 2 ∧ ece [(⟨0, 1 / 2, 1⟩ : Point ℚ)] = 1 / 2 := by decide +kernel

/-! ### Concrete cases that meet the hypotheses of the theorems above -/

/-- Three independent tosses of a coin. -/
theorem exTosses : Draws (fun (i : Fin 3) (ω : Fin 3 → Bool) => ω i) coin (Measure.infinitePi fun _ : Fin 3 => coin) :=
  ⟨fun i => measurable_pi_apply i, iIndepFun_infinitePi (X := fun _ x => x) fun _ => measurable_id, fun i => Measure.infinitePi_map_eval _ i⟩

example := C113_accuracy exTosses (by decide) (fun b => ⟨if b then 1 else 0, 1 / 2, 1⟩) (Set.toFinite _).measurableSet
example := C113_picp exTosses (by decide) (fun b => ⟨0, 1, if b then 2 else 1⟩) (Set.toFinite _).measurableSet
example := C113_brier exTosses (by decide) (c := 2) (fun _ => ![1 / 4, 3 / 4]) (fun _ => measurable_const)
  (by intro _ k; fin_cases k <;> norm_num) (by intro _; simp; norm_num) (fun b => if b then 1 else 0) (measurable_of_finite _)
example := C113_rmse exTosses (by decide) (fun b => ([if b then 1 else 0], [1 / 2])) Integrable.of_finite
example := C113_ece exTosses (by decide) (fun b => ⟨if b then 1 else 0, if b then 1 / 2 else 3 / 4, 1⟩) (measurable_of_finite _)
  (by intro b; cases b <;> norm_num) (Set.toFinite _).measurableSet

theorem coin_heads : coin.real {true} = 1 / 2 := by
  simp [coin, Measure.real]

/-- A prediction that is right in half of the cases, with confidence one half. -/
example := C113_ece_calibrated exTosses (by decide) (fun b => ⟨if b then 1 else 0, 1 / 2, 1⟩) measurable_const
  (by intro b; norm_num) (Set.toFinite _).measurableSet (by
    intro B _
    by_cases h : (1 / 2 : ℝ) ∈ B
    · have e : {b : Bool | (1 / 2 : ℝ) ∈ B ∧ (if b then (1 : ℤ) else 0) = 1} = {true} := by ext b; cases b <;> simp_all
      have u : {b : Bool | (1 / 2 : ℝ) ∈ B} = Set.univ := by ext b; simp_all
      simp only [e, u, coin_heads, Measure.restrict_univ, integral_const, probReal_univ]
      norm_num
    · have e : {b : Bool | (1 / 2 : ℝ) ∈ B ∧ (if b then (1 : ℤ) else 0) = 1} = ∅ := by ext b; cases b <;> simp_all
      have u : {b : Bool | (1 / 2 : ℝ) ∈ B} = ∅ := by ext b; simp_all
      simp only [e, u, measureReal_empty, setIntegral_empty])

end Verif.Props.MetricLaw
