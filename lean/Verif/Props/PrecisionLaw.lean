import Verif.Props.MetricLaw
import Verif.Props.MaxCoverage

/-!
Property C124: what the precision and the coverage, which the max-coverage fixed-precision calibrator reaches on its calibration data, say
about new data, when calibration and new rows are independent draws of one law.
-/
set_option linter.unusedSectionVars false

namespace Verif.Props.PrecisionLaw

open Verif.Props.MonteCarlo Verif.Props.MetricLaw Verif.ArrayOps Verif.MaxCoverage MeasureTheory ProbabilityTheory
open Verif.Multivalid (probB maskedMean)

variable {Ω 𝒳 : Type} [MeasurableSpace Ω] [MeasurableSpace 𝒳] {n : ℕ}

/-- The calibrated probability of a new row with probability `p`. -/
noncomputable def calibrated (t : Patches ℝ) (p : ℝ) : ℝ := (applyPatches (some t) [p]).getD 0 0

theorem apply_rows (t : Patches ℝ) (ps : List ℝ) : applyPatches (some t) ps = ps.map (calibrated t) := by
  unfold calibrated applyPatches
  simp

/-- Which scales a successful calibration can return. -/
theorem calibrate_mem {targets probs : List ℝ} {tp tn margin : ℝ} {nTaus : ℕ} {t : Patches ℝ}
    (h : calibrate targets probs tp tn nTaus margin = .ok t) :
    1 / 2 < tp ∧ 1 / 2 < tn ∧ t.tauPos ∈ tausPos tp nTaus ∧ t.tauNeg ∈ tausNeg tn nTaus := by
  unfold calibrate at h
  split at h
  · cases h
  next hthr =>
  split at h
  · cases h
  next hn =>
  push Not at hthr
  injection h with h
  subst h
  have hget : ∀ (l : List ℝ) (v : ℝ → ℝ), l ≠ [] → l.getD (argmax (l.map v)) 0 ∈ l := by
    intro l v hl
    have hlt := argmax_lt (l.map v) (by simpa using hl)
    rw [List.length_map] at hlt
    rw [List.getD_eq_getElem?_getD, List.getElem?_eq_getElem hlt]
    exact List.getElem_mem hlt
  refine ⟨hthr.2, hthr.1, hget _ _ ?_, hget _ _ ?_⟩
  · intro h0
    have := congrArg List.length h0
    simp [tausPos, linspace] at this
    omega
  · intro h0
    have := congrArg List.length h0
    simp [tausNeg, linspace] at this
    omega

section law
variable {X : Fin n → Ω → 𝒳} {Q : Measure 𝒳} {μ : Measure Ω} [IsProbabilityMeasure μ] (D : Draws X Q μ)
include D

/-- Hoeffding's inequality, upper tail. -/
theorem upper_tail (hn : 0 < n) (g : 𝒳 → ℝ) (hg : Measurable g) (a b : ℝ) (hab : a < b) (hb : ∀ x, g x ∈ Set.Icc a b) (ε : ℝ)
    (hε : 0 ≤ ε) : μ.real {ω | ε ≤ avg X g id ω - ∫ x, g x ∂Q} ≤ Real.exp (-2 * n * ε ^ 2 / (b - a) ^ 2) := by
  have : Nonempty (Fin n) := ⟨⟨0, hn⟩⟩
  have hQ : IsProbabilityMeasure Q := prob_law D
  have hn' : (0 : ℝ) < n := by exact_mod_cast hn
  have hgi : Integrable g Q := Integrable.of_mem_Icc a b hg.aemeasurable (Filter.Eventually.of_forall hb)
  set m := ∫ x, g x ∂Q with hm
  have hsub : ∀ i, HasSubgaussianMGF (fun ω => g (X i ω) - m) ((‖b - a‖₊ / 2) ^ 2) μ := by
    intro i
    have := hasSubgaussianMGF_of_mem_Icc (μ := μ) (X := fun ω => g (X i ω)) (hg.comp (D.meas i)).aemeasurable
      (Filter.Eventually.of_forall fun ω => hb (X i ω))
    rw [integral_draw D i hgi.1] at this
    exact this
  have hind : iIndepFun (fun i ω => g (X i ω) - m) μ := D.indep.comp (fun _ x => g x - m) fun _ => hg.sub_const m
  have h1 := HasSubgaussianMGF.measure_sum_ge_le_of_iIndepFun hind (s := Finset.univ) (fun i _ => hsub i) (ε := n * ε) (by positivity)
  have hexp : -(n * ε) ^ 2 / (2 * ∑ _i : Fin n, (((‖b - a‖₊ / 2) ^ 2 : NNReal) : ℝ)) = -2 * n * ε ^ 2 / (b - a) ^ 2 := by
    have e : (((‖b - a‖₊ / 2) ^ 2 : NNReal) : ℝ) = (b - a) ^ 2 / 4 := by
      push_cast
      rw [Real.norm_eq_abs, div_pow, sq_abs]
      norm_num
    have hba : (b - a) ^ 2 ≠ 0 := pow_ne_zero 2 (by linarith)
    rw [e]
    simp only [Finset.sum_const, Finset.card_univ, Fintype.card_fin, nsmul_eq_mul]
    field_simp
    ring
  simp only [NNReal.coe_sum] at h1
  rw [hexp] at h1
  refine le_trans (measureReal_mono ?_) h1
  intro ω hω
  simp only [Set.mem_setOf_eq] at hω ⊢
  unfold avg at hω
  rw [Finset.sum_sub_distrib]
  simp only [Finset.sum_const, Finset.card_univ, Fintype.card_fin, nsmul_eq_mul, id] at hω ⊢
  have := mul_le_mul_of_nonneg_left hω hn'.le
  rwa [mul_sub, mul_div_cancel₀ _ hn'.ne'] at this

/-- A selection out of a finite list that looks precise enough on the calibration data. -/
theorem select_precise (hn : 0 < n) (grid : List ℝ) (S : ℝ → Set 𝒳) (hS : ∀ τ, MeasurableSet (S τ)) (Y : Set 𝒳) (hY : MeasurableSet Y)
    (L : ℝ) (h0 : 0 ≤ L) (h1 : L ≤ 1) (ε : ℝ) (hε : 0 ≤ ε) :
    μ.real {ω | ∃ τ ∈ grid, L * avg X ((S τ).indicator 1) id ω ≤ avg X ((Y ∩ S τ).indicator 1) id ω ∧
      Q.real (Y ∩ S τ) ≤ L * Q.real (S τ) - ε} ≤ grid.length * Real.exp (-2 * n * ε ^ 2) := by
  have : Nonempty (Fin n) := ⟨⟨0, hn⟩⟩
  have hQ : IsProbabilityMeasure Q := prob_law D
  have hn' : (0 : ℝ) < n := by exact_mod_cast hn
  set g : ℝ → 𝒳 → ℝ := fun τ x => (Y ∩ S τ).indicator 1 x - L * (S τ).indicator 1 x with hg
  have hgm : ∀ τ, Measurable (g τ) := fun τ =>
    (measurable_one.indicator (hY.inter (hS τ))).sub ((measurable_one.indicator (hS τ)).const_mul L)
  have hgb : ∀ τ x, g τ x ∈ Set.Icc (-L) (1 - L) := by
    intro τ x
    simp only [hg]
    by_cases hs : x ∈ S τ <;> by_cases hy : x ∈ Y <;> simp [hs, hy] <;> constructor <;> linarith
  have hint : ∀ τ, ∫ x, g τ x ∂Q = Q.real (Y ∩ S τ) - L * Q.real (S τ) := by
    intro τ
    simp only [hg]
    have i1 : Integrable ((Y ∩ S τ).indicator (1 : 𝒳 → ℝ)) Q := (integrable_const (1 : ℝ)).indicator (hY.inter (hS τ))
    have i2 : Integrable ((S τ).indicator (1 : 𝒳 → ℝ)) Q := (integrable_const (1 : ℝ)).indicator (hS τ)
    rw [integral_sub i1 (i2.const_mul L), integral_const_mul, integral_indicator_one (hY.inter (hS τ)), integral_indicator_one (hS τ)]
  have havg : ∀ τ ω, avg X (g τ) id ω = avg X ((Y ∩ S τ).indicator 1) id ω - L * avg X ((S τ).indicator 1) id ω := by
    intro τ ω
    simp only [avg, hg, Finset.sum_sub_distrib, ← Finset.mul_sum]
    ring
  have htail : ∀ τ, μ.real {ω | ε ≤ avg X (g τ) id ω - ∫ x, g τ x ∂Q} ≤ Real.exp (-2 * n * ε ^ 2) := by
    intro τ
    have := upper_tail D hn (g τ) (hgm τ) (-L) (1 - L) (by linarith) (hgb τ) ε hε
    rwa [show (1 - L - -L) = 1 by ring, one_pow, div_one] at this
  have hsub : {ω | ∃ τ ∈ grid, L * avg X ((S τ).indicator 1) id ω ≤ avg X ((Y ∩ S τ).indicator 1) id ω ∧
      Q.real (Y ∩ S τ) ≤ L * Q.real (S τ) - ε} ⊆ ⋃ τ ∈ grid.toFinset, {ω | ε ≤ avg X (g τ) id ω - ∫ x, g τ x ∂Q} := by
    rintro ω ⟨τ, hτ, ha, hb⟩
    refine Set.mem_iUnion₂.2 ⟨τ, List.mem_toFinset.2 hτ, ?_⟩
    simp only [Set.mem_setOf_eq]
    rw [havg, hint]
    linarith
  calc _ ≤ _ := measureReal_mono hsub (measure_ne_top _ _)
    _ ≤ ∑ τ ∈ grid.toFinset, μ.real {ω | ε ≤ avg X (g τ) id ω - ∫ x, g τ x ∂Q} := measureReal_biUnion_finset_le _ _
    _ ≤ ∑ _τ ∈ grid.toFinset, Real.exp (-2 * n * ε ^ 2) := Finset.sum_le_sum fun τ _ => htail τ
    _ ≤ _ := by
      rw [Finset.sum_const, nsmul_eq_mul]
      exact mul_le_mul_of_nonneg_right (by exact_mod_cast List.toFinset_card_le grid) (Real.exp_pos _).le

/-- A selection out of a finite list that covers as much of the calibration data as any selection that looks precise enough there: on new data
it covers nearly as much as any selection that is precise enough there. -/
theorem select_best (hn : 0 < n) (grid : List ℝ) (S : ℝ → Set 𝒳) (hS : ∀ τ, MeasurableSet (S τ)) (Y : Set 𝒳) (hY : MeasurableSet Y)
    (L : ℝ) (h0 : 0 ≤ L) (h1 : L ≤ 1) (ε : ℝ) (hε : 0 < ε) :
    μ.real {ω | ∃ c ∈ grid, (∀ τ ∈ grid, 0 < avg X ((S τ).indicator 1) id ω →
        L * avg X ((S τ).indicator 1) id ω ≤ avg X ((Y ∩ S τ).indicator 1) id ω →
        avg X ((S τ).indicator 1) id ω ≤ avg X ((S c).indicator 1) id ω) ∧
      ∃ τ ∈ grid, L * Q.real (S τ) + ε ≤ Q.real (Y ∩ S τ) ∧ Q.real (S c) ≤ Q.real (S τ) - 2 * ε} ≤
      grid.length * (3 * Real.exp (-2 * n * ε ^ 2)) := by
  have : Nonempty (Fin n) := ⟨⟨0, hn⟩⟩
  have hQ : IsProbabilityMeasure Q := prob_law D
  set g : ℝ → 𝒳 → ℝ := fun τ x => L * (S τ).indicator 1 x - (Y ∩ S τ).indicator 1 x with hg
  have hgm : ∀ τ, Measurable (g τ) := fun τ =>
    ((measurable_one.indicator (hS τ)).const_mul L).sub (measurable_one.indicator (hY.inter (hS τ)))
  have hgb : ∀ τ x, g τ x ∈ Set.Icc (L - 1) L := by
    intro τ x
    simp only [hg]
    by_cases hs : x ∈ S τ <;> by_cases hy : x ∈ Y <;> simp [hs, hy] <;> try constructor
    all_goals linarith
  have i2 : ∀ τ, Integrable ((S τ).indicator (1 : 𝒳 → ℝ)) Q := fun τ => (integrable_const (1 : ℝ)).indicator (hS τ)
  have hint : ∀ τ, ∫ x, g τ x ∂Q = L * Q.real (S τ) - Q.real (Y ∩ S τ) := by
    intro τ
    simp only [hg]
    have i1 : Integrable ((Y ∩ S τ).indicator (1 : 𝒳 → ℝ)) Q := (integrable_const (1 : ℝ)).indicator (hY.inter (hS τ))
    rw [integral_sub ((i2 τ).const_mul L) i1, integral_const_mul, integral_indicator_one (hY.inter (hS τ)), integral_indicator_one (hS τ)]
  have havg : ∀ τ ω, avg X (g τ) id ω = L * avg X ((S τ).indicator 1) id ω - avg X ((Y ∩ S τ).indicator 1) id ω := by
    intro τ ω
    simp only [avg, hg, Finset.sum_sub_distrib, ← Finset.mul_sum]
    ring
  set E : ℝ → Set Ω := fun τ => {ω | ε ≤ avg X (g τ) id ω - ∫ x, g τ x ∂Q} ∪
    {ω | ε ≤ |avg X ((S τ).indicator 1) id ω - Q.real (S τ)|} with hE
  have hone : ∀ τ, μ.real (E τ) ≤ 3 * Real.exp (-2 * n * ε ^ 2) := by
    intro τ
    have a := upper_tail D hn (g τ) (hgm τ) (L - 1) L (by linarith) (hgb τ) ε hε.le
    rw [show L - (L - 1) = 1 by ring, one_pow, div_one] at a
    have b := hoeffding D hn ((S τ).indicator 1) (measurable_one.indicator (hS τ)) 0 1 one_pos
      (fun x => by by_cases hx : x ∈ S τ <;> simp [hx]) ε hε.le
    rw [sub_zero, one_pow, div_one, integral_indicator_one (hS τ)] at b
    have := measureReal_union_le (μ := μ) {ω | ε ≤ avg X (g τ) id ω - ∫ x, g τ x ∂Q} {ω | ε ≤ |avg X ((S τ).indicator 1) id ω - Q.real (S τ)|}
    simp only [hE]
    linarith
  have hsub : {ω | ∃ c ∈ grid, (∀ τ ∈ grid, 0 < avg X ((S τ).indicator 1) id ω →
        L * avg X ((S τ).indicator 1) id ω ≤ avg X ((Y ∩ S τ).indicator 1) id ω →
        avg X ((S τ).indicator 1) id ω ≤ avg X ((S c).indicator 1) id ω) ∧
      ∃ τ ∈ grid, L * Q.real (S τ) + ε ≤ Q.real (Y ∩ S τ) ∧ Q.real (S c) ≤ Q.real (S τ) - 2 * ε} ⊆ ⋃ τ ∈ grid.toFinset, E τ := by
    rintro ω ⟨c, hc, hopt, τ, hτ, hprec, hcov⟩
    by_contra hcon
    simp only [Set.mem_iUnion, List.mem_toFinset, not_exists] at hcon
    have ec := hcon c hc
    have eτ := hcon τ hτ
    simp only [hE, Set.mem_union, Set.mem_setOf_eq, not_or, not_le] at ec eτ
    have a := (abs_lt.1 ec.2).2
    have b := (abs_lt.1 eτ.2).1
    have d := eτ.1
    rw [havg, hint] at d
    have hle : Q.real (Y ∩ S τ) ≤ Q.real (S τ) := measureReal_mono Set.inter_subset_right
    have hp : 0 ≤ L * Q.real (S τ) := mul_nonneg h0 measureReal_nonneg
    have := hopt τ hτ (by linarith) (by linarith)
    linarith
  calc _ ≤ _ := measureReal_mono hsub (measure_ne_top _ _)
    _ ≤ ∑ τ ∈ grid.toFinset, μ.real (E τ) := measureReal_biUnion_finset_le _ _
    _ ≤ ∑ _τ ∈ grid.toFinset, 3 * Real.exp (-2 * n * ε ^ 2) := Finset.sum_le_sum fun τ _ => hone τ
    _ ≤ _ := by
      rw [Finset.sum_const, nsmul_eq_mul]
      exact mul_le_mul_of_nonneg_right (by exact_mod_cast List.toFinset_card_le grid) (by positivity)

end law

/-- What the choice of a scale by `calibrate` maximises. -/
theorem chosen_best (grid : List ℝ) (hne : grid ≠ []) (B : ℝ → List Bool) (targets : List ℝ) (L : ℝ) (s y : ℝ → ℝ) (hs : ∀ τ ∈ grid, probB (B τ) = s τ)
    (hs0 : ∀ τ, 0 ≤ s τ) (hy : ∀ τ ∈ grid, maskedMean (B τ) targets = y τ) (τ : ℝ) (hτ : τ ∈ grid) (hpos : 0 < s τ) (hq : L * s τ ≤ y τ) :
    s τ ≤ s (grid.getD (argmax (grid.map fun τ => objective (B τ) targets L)) 0) := by
  set vals := grid.map fun τ => objective (B τ) targets L with hvals
  have hne' : vals ≠ [] := by rw [hvals]; simpa using hne
  obtain ⟨M, hM, hmax, -⟩ := argmax_spec vals hne'
  have hlt' : argmax vals < grid.length := by simpa [hvals] using argmax_lt vals hne'
  set best := grid.getD (argmax vals) 0 with hbest
  have hb : grid[argmax vals]? = some best := by
    rw [hbest, List.getD_eq_getElem?_getD, List.getElem?_eq_getElem hlt']; rfl
  have hmem : best ∈ grid := List.mem_of_getElem? hb
  have hMb : objective (B best) targets L = M := by
    rw [hvals, List.getElem?_map, hb] at hM; simpa using hM
  have h1 := hmax _ (List.mem_map_of_mem (f := fun τ => objective (B τ) targets L) hτ)
  have h2 : objective (B τ) targets L = s τ := by
    unfold objective
    dsimp only
    rw [hs τ hτ, hy τ hτ, if_pos ⟨hpos.ne', by rwa [le_div_iff₀ hpos]⟩]
  have h3 : M ≤ s best := by
    rw [← hMb]
    unfold objective
    dsimp only
    rw [hs best hmem]
    split
    · exact le_rfl
    · exact hs0 _
  rw [h2] at h1
  exact h1.trans h3

/-- The fraction of selected rows. -/
theorem probB_rows (X : Fin n → Ω → 𝒳) (s : 𝒳 → Bool) (S : Set 𝒳) (hs : ∀ x, s x = true ↔ x ∈ S) (ω : Ω) :
    probB (K := ℝ) (MetricLaw.rowsOf X s ω) = avg X (S.indicator 1) id ω := by
  unfold probB MetricLaw.rowsOf avg
  rw [List.length_ofFn]
  congr 1
  have : ∀ l : List 𝒳, (((l.map s).count true : ℕ) : ℝ) = (l.map (S.indicator (1 : 𝒳 → ℝ))).sum := by
    intro l
    induction l with
    | nil => simp
    | cons a l ih =>
      rw [List.map_cons, List.count_cons, List.map_cons, List.sum_cons, ← ih]
      by_cases h : a ∈ S
      · have := (hs a).2 h
        simp [h, this, add_comm]
      · have : s a = false := by rw [Bool.eq_false_iff]; exact fun hh => h ((hs a).1 hh)
        simp [h, this]
  have h2 := this (List.ofFn fun i => X i ω)
  rw [List.map_ofFn, List.map_ofFn, List.sum_ofFn] at h2
  exact h2

/-- The fraction of selected rows, weighted with 0/1 targets. -/
theorem maskedMean_rows (X : Fin n → Ω → 𝒳) (s : 𝒳 → Bool) (S Y : Set 𝒳) (hs : ∀ x, s x = true ↔ x ∈ S) (y : 𝒳 → ℝ)
    (hy : ∀ x, y x = Y.indicator 1 x) (ω : Ω) :
    maskedMean (MetricLaw.rowsOf X s ω) (MetricLaw.rowsOf X y ω) = avg X ((Y ∩ S).indicator 1) id ω := by
  unfold maskedMean MetricLaw.rowsOf avg
  rw [List.length_ofFn]
  congr 1
  have : ∀ l : List 𝒳, (List.zipWith (fun t y => if t then y else 0) (l.map s) (l.map y)).sum =
      (l.map ((Y ∩ S).indicator (1 : 𝒳 → ℝ))).sum := by
    intro l
    induction l with
    | nil => simp
    | cons a l ih =>
      simp only [List.map_cons, List.zipWith_cons_cons, List.sum_cons, ih]
      congr 1
      rw [hy]
      by_cases h : a ∈ S
      · have := (hs a).2 h
        by_cases h' : a ∈ Y <;> simp [h, h', this]
      · have : s a = false := by rw [Bool.eq_false_iff]; exact fun hh => h ((hs a).1 hh)
        simp [h, this]
  have h2 := this (List.ofFn fun i => X i ω)
  rw [List.map_ofFn, List.map_ofFn, List.map_ofFn, List.sum_ofFn] at h2
  exact h2

/-- A new row counts as positive: depends on the scale of the positives only. -/
theorem positive_iff {t : Patches ℝ} {tp : ℝ} (htp : 1 / 2 < tp) (h1 : 1 ≤ t.tauPos) (h3 : t.tauNeg ≤ 1) (p : ℝ) (hp : 0 ≤ p ∧ p ≤ 1) :
    tp ≤ calibrated t p ↔ tp ≤ if 1 / 2 < p then min (t.tauPos * p) 1 else p := by
  have := apply_pos_covered tp htp t h1 h3 [p] (by simpa using hp)
  rw [apply_rows] at this
  simpa [scalePos] using this

theorem negative_iff {t : Patches ℝ} {tn : ℝ} (htn : 1 / 2 < tn) (h1 : 1 ≤ t.tauPos) (p : ℝ) (hp : 0 ≤ p ∧ p ≤ 1) :
    calibrated t p ≤ 1 - tn ↔ (if p < 1 / 2 then t.tauNeg * p else p) ≤ 1 - tn := by
  have := apply_neg_covered tn htn t h1 [p] (by simpa using hp)
  rw [apply_rows] at this
  simpa [scaleNeg] using this

section results
variable {X : Fin n → Ω → 𝒳} {Q : Measure 𝒳} {μ : Measure Ω} [IsProbabilityMeasure μ] (D : Draws X Q μ)
include D

/-- **C124, positives.** Let the calibration rows be independent draws of the law `Q`, with probabilities `f` and labels 1 on `Y`. The
probability that the calibrated positives reach the precision threshold + margin on the calibration data, while on new data
`P(label 1, positive)` is `(threshold + margin) P(positive) - ε` or less, is at most `n_taus exp (-2 n ε²)`. -/
theorem C124_positive (hn : 0 < n) (f : 𝒳 → ℝ) (hf : Measurable f) (hf1 : ∀ x, 0 ≤ f x ∧ f x ≤ 1) (Y : Set 𝒳) (hY : MeasurableSet Y)
    (tp tn margin : ℝ) (nTaus : ℕ) (h0 : 0 ≤ tp + margin) (h1 : tp + margin ≤ 1) (ε : ℝ) (hε : 0 ≤ ε) :
    μ.real {ω | ∃ t v,
      calibrate (MetricLaw.rowsOf X (Y.indicator 1) ω) (MetricLaw.rowsOf X f ω) tp tn nTaus margin = .ok t ∧
      truePositivePrecision (applyPatches (some t) (MetricLaw.rowsOf X f ω)) (MetricLaw.rowsOf X (Y.indicator 1) ω) tp = some v ∧
      tp + margin ≤ v ∧
      Q.real (Y ∩ {x | tp ≤ calibrated t (f x)}) ≤ (tp + margin) * Q.real {x | tp ≤ calibrated t (f x)} - ε} ≤
      nTaus * Real.exp (-2 * n * ε ^ 2) := by
  set S : ℝ → Set 𝒳 := fun τ => {x | tp ≤ if 1 / 2 < f x then min (τ * f x) 1 else f x} with hS
  have hSm : ∀ τ, MeasurableSet (S τ) := fun τ =>
    measurableSet_le measurable_const (Measurable.ite (measurableSet_lt measurable_const hf) ((hf.const_mul τ).min measurable_const) hf)
  have hlen : (tausPos tp nTaus).length = nTaus := by simp [tausPos, linspace]
  have := select_precise D hn (tausPos tp nTaus) S hSm Y hY (tp + margin) h0 h1 ε hε
  rw [hlen] at this
  refine le_trans (measureReal_mono ?_ (measure_ne_top _ _)) this
  rintro ω ⟨t, v, hc, hv, hle, hq⟩
  obtain ⟨htp, htn, hm1, hm2⟩ := calibrate_mem hc
  have e : ∀ x, (tp ≤ calibrated t (f x) ↔ x ∈ S t.tauPos) := fun x =>
    positive_iff htp (tausPos_mem htp hm1).1 (tausNeg_mem htn hm2).2 (f x) (hf1 x)
  have hset : {x | tp ≤ calibrated t (f x)} = S t.tauPos := Set.ext e
  rw [hset] at hq
  refine ⟨t.tauPos, hm1, ?_, hq⟩
  unfold truePositivePrecision at hv
  have hb : (applyPatches (some t) (MetricLaw.rowsOf X f ω)).map (fun p => decide (tp ≤ p)) =
      MetricLaw.rowsOf X (fun x => decide (tp ≤ calibrated t (f x))) ω := by
    rw [apply_rows]
    simp [MetricLaw.rowsOf, List.map_ofFn, Function.comp_def]
  dsimp only at hv
  rw [hb, probB_rows X _ (S t.tauPos) (fun x => by simpa using e x), maskedMean_rows X _ (S t.tauPos) Y (fun x => by simpa using e x) _
    (fun _ => rfl)] at hv
  split at hv
  · cases hv
  next hne =>
  injection hv with hv
  have hpos : 0 < avg X ((S t.tauPos).indicator 1) id ω := lt_of_le_of_ne (by
    unfold avg
    exact div_nonneg (Finset.sum_nonneg fun i _ => Set.indicator_nonneg (fun _ _ => by simp) _) (by positivity)) (Ne.symm hne)
  rw [← hv, le_div_iff₀ hpos] at hle
  exact hle

/-- **C124, negatives.** The same for the rows whose calibrated probability is at most 1 - threshold, and label 0. -/
theorem C124_negative (hn : 0 < n) (f : 𝒳 → ℝ) (hf : Measurable f) (hf1 : ∀ x, 0 ≤ f x ∧ f x ≤ 1) (Y : Set 𝒳) (hY : MeasurableSet Y)
    (tp tn margin : ℝ) (nTaus : ℕ) (h0 : 0 ≤ tn + margin) (h1 : tn + margin ≤ 1) (ε : ℝ) (hε : 0 ≤ ε) :
    μ.real {ω | ∃ t v,
      calibrate (MetricLaw.rowsOf X (Y.indicator 1) ω) (MetricLaw.rowsOf X f ω) tp tn nTaus margin = .ok t ∧
      trueNegativePrecision (applyPatches (some t) (MetricLaw.rowsOf X f ω)) (MetricLaw.rowsOf X (Y.indicator 1) ω) tn = some v ∧
      tn + margin ≤ v ∧
      Q.real (Yᶜ ∩ {x | calibrated t (f x) ≤ 1 - tn}) ≤ (tn + margin) * Q.real {x | calibrated t (f x) ≤ 1 - tn} - ε} ≤
      nTaus * Real.exp (-2 * n * ε ^ 2) := by
  set S : ℝ → Set 𝒳 := fun τ => {x | (if f x < 1 / 2 then τ * f x else f x) ≤ 1 - tn} with hS
  have hSm : ∀ τ, MeasurableSet (S τ) := fun τ =>
    measurableSet_le (Measurable.ite (measurableSet_lt hf measurable_const) (hf.const_mul τ) hf) measurable_const
  have hlen : (tausNeg tn nTaus).length = nTaus := by simp [tausNeg, linspace]
  have := select_precise D hn (tausNeg tn nTaus) S hSm Yᶜ hY.compl (tn + margin) h0 h1 ε hε
  rw [hlen] at this
  refine le_trans (measureReal_mono ?_ (measure_ne_top _ _)) this
  rintro ω ⟨t, v, hc, hv, hle, hq⟩
  obtain ⟨htp, htn, hm1, hm2⟩ := calibrate_mem hc
  have e : ∀ x, (calibrated t (f x) ≤ 1 - tn ↔ x ∈ S t.tauNeg) := fun x =>
    negative_iff htn (tausPos_mem htp hm1).1 (f x) (hf1 x)
  have hset : {x | calibrated t (f x) ≤ 1 - tn} = S t.tauNeg := Set.ext e
  rw [hset] at hq
  refine ⟨t.tauNeg, hm2, ?_, hq⟩
  unfold trueNegativePrecision at hv
  have hb : (applyPatches (some t) (MetricLaw.rowsOf X f ω)).map (fun p => decide (p ≤ 1 - tn)) =
      MetricLaw.rowsOf X (fun x => decide (calibrated t (f x) ≤ 1 - tn)) ω := by
    rw [apply_rows]
    simp [MetricLaw.rowsOf, List.map_ofFn, Function.comp_def]
  have hy : (MetricLaw.rowsOf X (Y.indicator 1) ω).map (fun y : ℝ => 1 - y) = MetricLaw.rowsOf X (Yᶜ.indicator 1) ω := by
    simp only [MetricLaw.rowsOf, List.map_ofFn]
    congr 1
    funext i
    by_cases h : X i ω ∈ Y <;> simp [h]
  dsimp only at hv
  rw [hb, hy, probB_rows X _ (S t.tauNeg) (fun x => by simpa using e x), maskedMean_rows X _ (S t.tauNeg) Yᶜ (fun x => by simpa using e x) _
    (fun _ => rfl)] at hv
  split at hv
  · cases hv
  next hne =>
  injection hv with hv
  have hpos : 0 < avg X ((S t.tauNeg).indicator 1) id ω := lt_of_le_of_ne (by
    unfold avg
    exact div_nonneg (Finset.sum_nonneg fun i _ => Set.indicator_nonneg (fun _ _ => by simp) _) (by positivity)) (Ne.symm hne)
  rw [← hv, le_div_iff₀ hpos] at hle
  exact hle

/-- **C124, coverage of the positives.** Except with probability `3 n_taus exp (-2 n ε²)`, the calibrated positives make up more than `c - 2 ε` of
new data, whenever some scale of the grid gives positives that make up the fraction `c` of new data and whose precision there is above
threshold + margin by `ε / c` or more. -/
theorem C124_positive_coverage (hn : 0 < n) (f : 𝒳 → ℝ) (hf : Measurable f) (hf1 : ∀ x, 0 ≤ f x ∧ f x ≤ 1) (Y : Set 𝒳) (hY : MeasurableSet Y)
    (tp tn margin : ℝ) (nTaus : ℕ) (h0 : 0 ≤ tp + margin) (h1 : tp + margin ≤ 1) (ε : ℝ) (hε : 0 < ε) :
    μ.real {ω | ∃ t,
      calibrate (MetricLaw.rowsOf X (Y.indicator 1) ω) (MetricLaw.rowsOf X f ω) tp tn nTaus margin = .ok t ∧
      ∃ τ ∈ tausPos tp nTaus, (tp + margin) * Q.real {x | tp ≤ calibrated ⟨τ, 1⟩ (f x)} + ε ≤ Q.real (Y ∩ {x | tp ≤ calibrated ⟨τ, 1⟩ (f x)}) ∧
        Q.real {x | tp ≤ calibrated t (f x)} ≤ Q.real {x | tp ≤ calibrated ⟨τ, 1⟩ (f x)} - 2 * ε} ≤
      nTaus * (3 * Real.exp (-2 * n * ε ^ 2)) := by
  set S : ℝ → Set 𝒳 := fun τ => {x | tp ≤ if 1 / 2 < f x then min (τ * f x) 1 else f x} with hS
  have hSm : ∀ τ, MeasurableSet (S τ) := fun τ =>
    measurableSet_le measurable_const (Measurable.ite (measurableSet_lt measurable_const hf) ((hf.const_mul τ).min measurable_const) hf)
  have hlen : (tausPos tp nTaus).length = nTaus := by simp [tausPos, linspace]
  have := select_best D hn (tausPos tp nTaus) S hSm Y hY (tp + margin) h0 h1 ε hε
  rw [hlen] at this
  refine le_trans (measureReal_mono ?_ (measure_ne_top _ _)) this
  rintro ω ⟨t, hc, τ, hτ, hprec, hcov⟩
  obtain ⟨htp, htn, hm1, hm2⟩ := calibrate_mem hc
  have e1 : {x | tp ≤ calibrated t (f x)} = S t.tauPos := Set.ext fun x =>
    positive_iff htp (tausPos_mem htp hm1).1 (tausNeg_mem htn hm2).2 (f x) (hf1 x)
  have e2 : {x | tp ≤ calibrated ⟨τ, 1⟩ (f x)} = S τ := Set.ext fun x =>
    positive_iff (t := ⟨τ, 1⟩) htp (tausPos_mem htp hτ).1 le_rfl (f x) (hf1 x)
  rw [e2] at hprec
  rw [e1, e2] at hcov
  refine ⟨t.tauPos, hm1, ?_, τ, hτ, hprec, hcov⟩
  have ht : t.tauPos = (tausPos tp nTaus).getD (argmax ((tausPos tp nTaus).map fun τ =>
      objective (posB tp τ (MetricLaw.rowsOf X f ω)) (MetricLaw.rowsOf X (Y.indicator 1) ω) (tp + margin))) 0 := by
    unfold calibrate at hc
    split at hc
    · cases hc
    split at hc
    · cases hc
    injection hc with hc
    rw [← hc]
  have hb : ∀ τ, posB tp τ (MetricLaw.rowsOf X f ω) = MetricLaw.rowsOf X (fun x => decide (x ∈ S τ)) ω := by
    intro τ
    rw [posB_eq tp htp τ _ (by intro p hp; simp only [MetricLaw.rowsOf, List.mem_ofFn] at hp; obtain ⟨i, rfl⟩ := hp; exact hf1 _)]
    simp only [scalePos, MetricLaw.rowsOf, List.map_ofFn]
    rfl
  intro σ hσ hpos hq
  rw [ht]
  exact chosen_best (tausPos tp nTaus) (List.ne_nil_of_mem hσ) (fun τ => posB tp τ (MetricLaw.rowsOf X f ω)) _ (tp + margin)
    (fun τ => avg X ((S τ).indicator 1) id ω) (fun τ => avg X ((Y ∩ S τ).indicator 1) id ω)
    (fun τ _ => by rw [hb, probB_rows X _ (S τ) fun x => by simp])
    (fun τ => by unfold avg; exact div_nonneg (Finset.sum_nonneg fun i _ => Set.indicator_nonneg (fun _ _ => by simp) _) (by positivity))
    (fun τ _ => by rw [hb, maskedMean_rows X _ (S τ) Y (fun x => by simp) _ fun _ => rfl]) σ hσ hpos hq

/-- **C124, coverage of the negatives.** The same for the rows whose calibrated probability is at most 1 - threshold. -/
theorem C124_negative_coverage (hn : 0 < n) (f : 𝒳 → ℝ) (hf : Measurable f) (hf1 : ∀ x, 0 ≤ f x ∧ f x ≤ 1) (Y : Set 𝒳) (hY : MeasurableSet Y)
    (tp tn margin : ℝ) (nTaus : ℕ) (h0 : 0 ≤ tn + margin) (h1 : tn + margin ≤ 1) (ε : ℝ) (hε : 0 < ε) :
    μ.real {ω | ∃ t,
      calibrate (MetricLaw.rowsOf X (Y.indicator 1) ω) (MetricLaw.rowsOf X f ω) tp tn nTaus margin = .ok t ∧
      ∃ τ ∈ tausNeg tn nTaus, (tn + margin) * Q.real {x | calibrated ⟨1, τ⟩ (f x) ≤ 1 - tn} + ε ≤
          Q.real (Yᶜ ∩ {x | calibrated ⟨1, τ⟩ (f x) ≤ 1 - tn}) ∧
        Q.real {x | calibrated t (f x) ≤ 1 - tn} ≤ Q.real {x | calibrated ⟨1, τ⟩ (f x) ≤ 1 - tn} - 2 * ε} ≤
      nTaus * (3 * Real.exp (-2 * n * ε ^ 2)) := by
  set S : ℝ → Set 𝒳 := fun τ => {x | (if f x < 1 / 2 then τ * f x else f x) ≤ 1 - tn} with hS
  have hSm : ∀ τ, MeasurableSet (S τ) := fun τ =>
    measurableSet_le (Measurable.ite (measurableSet_lt hf measurable_const) (hf.const_mul τ) hf) measurable_const
  have hlen : (tausNeg tn nTaus).length = nTaus := by simp [tausNeg, linspace]
  have := select_best D hn (tausNeg tn nTaus) S hSm Yᶜ hY.compl (tn + margin) h0 h1 ε hε
  rw [hlen] at this
  refine le_trans (measureReal_mono ?_ (measure_ne_top _ _)) this
  rintro ω ⟨t, hc, τ, hτ, hprec, hcov⟩
  obtain ⟨htp, htn, hm1, hm2⟩ := calibrate_mem hc
  have e1 : {x | calibrated t (f x) ≤ 1 - tn} = S t.tauNeg := Set.ext fun x =>
    negative_iff htn (tausPos_mem htp hm1).1 (f x) (hf1 x)
  have e2 : {x | calibrated ⟨1, τ⟩ (f x) ≤ 1 - tn} = S τ := Set.ext fun x =>
    negative_iff (t := ⟨1, τ⟩) htn le_rfl (f x) (hf1 x)
  rw [e2] at hprec
  rw [e1, e2] at hcov
  refine ⟨t.tauNeg, hm2, ?_, τ, hτ, hprec, hcov⟩
  have hy : (MetricLaw.rowsOf X (Y.indicator 1) ω).map (fun y : ℝ => 1 - y) = MetricLaw.rowsOf X (Yᶜ.indicator 1) ω := by
    simp only [MetricLaw.rowsOf, List.map_ofFn]
    congr 1
    funext i
    by_cases h : X i ω ∈ Y <;> simp [h]
  have ht : t.tauNeg = (tausNeg tn nTaus).getD (argmax ((tausNeg tn nTaus).map fun τ =>
      objective (negB tn τ (MetricLaw.rowsOf X f ω)) (MetricLaw.rowsOf X (Yᶜ.indicator 1) ω) (tn + margin))) 0 := by
    unfold calibrate at hc
    split at hc
    · cases hc
    split at hc
    · cases hc
    injection hc with hc
    rw [← hc, hy]
  have hb : ∀ τ, negB tn τ (MetricLaw.rowsOf X f ω) = MetricLaw.rowsOf X (fun x => decide (x ∈ S τ)) ω := by
    intro τ
    rw [negB_eq]
    simp only [scaleNeg, MetricLaw.rowsOf, List.map_ofFn]
    rfl
  intro σ hσ hpos hq
  rw [ht]
  exact chosen_best (tausNeg tn nTaus) (List.ne_nil_of_mem hσ) (fun τ => negB tn τ (MetricLaw.rowsOf X f ω)) _ (tn + margin)
    (fun τ => avg X ((S τ).indicator 1) id ω) (fun τ => avg X ((Yᶜ ∩ S τ).indicator 1) id ω)
    (fun τ _ => by rw [hb, probB_rows X _ (S τ) fun x => by simp])
    (fun τ => by unfold avg; exact div_nonneg (Finset.sum_nonneg fun i _ => Set.indicator_nonneg (fun _ _ => by simp) _) (by positivity))
    (fun τ _ => by rw [hb, maskedMean_rows X _ (S τ) Yᶜ (fun x => by simp) _ fun _ => rfl]) σ hσ hpos hq

/-- **C124, what the margin buys.** With a positive margin, the probability that the calibrated positives reach threshold + margin on the
calibration data, make up at least the fraction `c` of new data, and still have a precision below the threshold on new data, is at most
`n_taus exp (-2 n (margin c)²)`. -/
theorem C124_margin (hn : 0 < n) (f : 𝒳 → ℝ) (hf : Measurable f) (hf1 : ∀ x, 0 ≤ f x ∧ f x ≤ 1) (Y : Set 𝒳) (hY : MeasurableSet Y)
    (tp tn margin : ℝ) (nTaus : ℕ) (hm : 0 ≤ margin) (h1 : tp + margin ≤ 1) (htp : 0 ≤ tp) (c : ℝ) (hc0 : 0 ≤ c) :
    μ.real {ω | ∃ t v,
      calibrate (MetricLaw.rowsOf X (Y.indicator 1) ω) (MetricLaw.rowsOf X f ω) tp tn nTaus margin = .ok t ∧
      truePositivePrecision (applyPatches (some t) (MetricLaw.rowsOf X f ω)) (MetricLaw.rowsOf X (Y.indicator 1) ω) tp = some v ∧
      tp + margin ≤ v ∧ c ≤ Q.real {x | tp ≤ calibrated t (f x)} ∧
      Q.real (Y ∩ {x | tp ≤ calibrated t (f x)}) < tp * Q.real {x | tp ≤ calibrated t (f x)}} ≤
      nTaus * Real.exp (-2 * n * (margin * c) ^ 2) := by
  refine le_trans (measureReal_mono ?_ (measure_ne_top _ _))
    (C124_positive D hn f hf hf1 Y hY tp tn margin nTaus (by linarith) h1 (margin * c) (by positivity))
  rintro ω ⟨t, v, hc, hv, hle, hq, hq'⟩
  refine ⟨t, v, hc, hv, hle, ?_⟩
  nlinarith

end results

/-- **C124, without enough data.** False of the code: that a precision reached on the calibration data holds on new data, whatever the
margin. Let all probabilities be 9/10 and labels be 1 with probability `θ`; with threshold 3/4 and any margin up to 1/4 the calibration
reports precision 1 with probability at least `θ ^ n`, and on new data all rows are positive with precision `θ`. -/
theorem C124_small_false {X : Fin n → Ω → Bool} {Q : Measure Bool} {μ : Measure Ω} [IsProbabilityMeasure μ] (D : Draws X Q μ) (hn : 0 < n)
    (nTaus : ℕ) (hT : nTaus ≠ 0) (margin : ℝ) (hm : margin ≤ 1 / 4) :
    Q.real {true} ^ n ≤ μ.real {ω | ∃ t,
      calibrate (MetricLaw.rowsOf X (Set.indicator {true} 1) ω) (MetricLaw.rowsOf X (fun _ => 9 / 10) ω) (3 / 4) (3 / 4) nTaus margin = .ok t ∧
      truePositivePrecision (applyPatches (some t) (MetricLaw.rowsOf X (fun _ => 9 / 10) ω))
        (MetricLaw.rowsOf X (Set.indicator {true} 1) ω) (3 / 4) = some 1 ∧ 3 / 4 + margin ≤ 1 ∧
      Q.real ({true} ∩ {_x | 3 / 4 ≤ calibrated t (9 / 10)}) = Q.real {true} * Q.real {_x | 3 / 4 ≤ calibrated t (9 / 10)}} := by
  have : Nonempty (Fin n) := ⟨⟨0, hn⟩⟩
  have hQ : IsProbabilityMeasure Q := prob_law D
  have hn' : (n : ℝ) ≠ 0 := by exact_mod_cast hn.ne'
  have hprob : Q.real {true} ^ n = μ.real (⋂ i ∈ (Finset.univ : Finset (Fin n)), X i ⁻¹' {true}) := by
    unfold Measure.real
    rw [D.indep.measure_inter_preimage_eq_mul Finset.univ fun i _ => measurableSet_singleton true, ENNReal.toReal_prod]
    have : ∀ i, μ (X i ⁻¹' {true}) = Q {true} := by
      intro i
      rw [← D.law i, Measure.map_apply (D.meas i) (measurableSet_singleton true)]
    simp [this]
  rw [hprob]
  refine measureReal_mono ?_ (measure_ne_top _ _)
  intro ω hω
  have hall : ∀ i, X i ω = true := by simpa using hω
  have hok : ∃ t, calibrate (MetricLaw.rowsOf X (Set.indicator {true} 1) ω) (MetricLaw.rowsOf X (fun _ => (9 / 10 : ℝ)) ω)
      (3 / 4) (3 / 4) nTaus margin = .ok t := by
    unfold calibrate
    rw [if_neg (by norm_num), if_neg hT]
    exact ⟨_, rfl⟩
  obtain ⟨t, ht⟩ := hok
  obtain ⟨htp, htn, hm1, hm2⟩ := calibrate_mem ht
  have hsel : 3 / 4 ≤ calibrated t (9 / 10) := by
    rw [positive_iff htp (tausPos_mem htp hm1).1 (tausNeg_mem htn hm2).2 (9 / 10) (by norm_num), if_pos (by norm_num)]
    have := (tausPos_mem htp hm1).1
    exact le_min (by linarith) (by norm_num)
  refine ⟨t, ht, ?_, by linarith, ?_⟩
  · unfold truePositivePrecision
    have hb : (applyPatches (some t) (MetricLaw.rowsOf X (fun _ => (9 / 10 : ℝ)) ω)).map (fun p => decide (3 / 4 ≤ p)) =
        MetricLaw.rowsOf X (fun _ => true) ω := by
      rw [apply_rows]
      simp [MetricLaw.rowsOf, hsel]
    dsimp only
    rw [hb, probB_rows X _ Set.univ (fun x => by simp), maskedMean_rows X _ Set.univ {true} (fun x => by simp) _ (fun _ => rfl)]
    simp [avg, hall, hn']
  · have hu : {_x : Bool | 3 / 4 ≤ calibrated t (9 / 10)} = Set.univ := by ext; simp [hsel]
    rw [hu, Set.inter_univ, probReal_univ, mul_one]

/-- A scale of the grid with precise positives: probabilities 3/5, labels 1 with probability 9/10, threshold 3/4, margin 1/20, scale 5/4 of the grid
1, 5/4, 3/2; all rows are then positive. -/
example : (5 / 4 : ℝ) ∈ tausPos (3 / 4) 3 ∧ 3 / 4 ≤ calibrated ⟨5 / 4, 1⟩ (3 / 5) ∧ ((3 / 4 : ℝ) + 1 / 20) * 1 + 1 / 10 ≤ 9 / 10 := by
  refine ⟨?_, ?_, by norm_num⟩
  · unfold tausPos linspace
    rw [List.mem_map]
    exact ⟨1, by simp, by norm_num⟩
  · simp only [calibrated, applyPatches, List.map_cons, List.map_nil, List.getD_cons_zero]
    norm_num

/-- There are such draws for every law of the rows. -/
example (Q : Measure Bool) [IsProbabilityMeasure Q] : Draws (fun (i : Fin 3) (ω : Fin 3 → Bool) => ω i) Q (Measure.pi fun _ => Q) where
  meas i := measurable_pi_apply i
  indep := iIndepFun_pi (X := fun _ x => x) fun _ => aemeasurable_id
  law i := (measurePreserving_eval (fun _ => Q) i).map_eq

/-! ### Concrete cases that meet the hypotheses of the theorems above -/

/-- Random draws of a probability and of the noise of its label. -/
noncomputable def exLaw : Measure (ℝ × ℝ) := (gaussianReal (1 / 2) 1).prod (gaussianReal 0 1)

instance : IsProbabilityMeasure exLaw := by unfold exLaw; infer_instance

theorem exDraws (n : ℕ) : Draws (fun (i : Fin n) (ω : Fin n → ℝ × ℝ) => ω i) exLaw (Measure.pi fun _ => exLaw) where
  meas i := measurable_pi_apply i
  indep := iIndepFun_pi (X := fun _ x => x) fun _ => aemeasurable_id
  law i := (measurePreserving_eval (fun _ => exLaw) i).map_eq

/-- The probability the model gives, kept between zero and one. -/
noncomputable def exProb (x : ℝ × ℝ) : ℝ := max 0 (min 1 x.1)

theorem exProb_meas : Measurable exProb := by unfold exProb; fun_prop

theorem exProb_unit (x : ℝ × ℝ) : 0 ≤ exProb x ∧ exProb x ≤ 1 :=
  ⟨le_max_left _ _, max_le zero_le_one (min_le_left _ _)⟩

theorem exLabel : MeasurableSet {x : ℝ × ℝ | x.2 ≤ x.1} := measurableSet_le measurable_snd measurable_fst

example := C124_positive (exDraws 200) (by norm_num) exProb exProb_meas exProb_unit _ exLabel (3 / 4) (3 / 4) (1 / 20) 1000 (by norm_num)
  (by norm_num) (1 / 10) (by norm_num)
example := C124_negative (exDraws 200) (by norm_num) exProb exProb_meas exProb_unit _ exLabel (3 / 4) (3 / 4) (1 / 20) 1000 (by norm_num)
  (by norm_num) (1 / 10) (by norm_num)
example := C124_positive_coverage (exDraws 200) (by norm_num) exProb exProb_meas exProb_unit _ exLabel (3 / 4) (3 / 4) (1 / 20) 1000
  (by norm_num) (by norm_num) (1 / 10) (by norm_num)
example := C124_negative_coverage (exDraws 200) (by norm_num) exProb exProb_meas exProb_unit _ exLabel (3 / 4) (3 / 4) (1 / 20) 1000
  (by norm_num) (by norm_num) (1 / 10) (by norm_num)
example := C124_margin (exDraws 200) (by norm_num) exProb exProb_meas exProb_unit _ exLabel (3 / 4) (3 / 4) (1 / 20) 1000 (by norm_num)
  (by norm_num) (by norm_num) (1 / 4) (by norm_num)

end Verif.Props.PrecisionLaw
