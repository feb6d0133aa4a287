import Verif.Props.PrecisionLaw
import Verif.Props.RegressionCoverage
import Mathlib.Probability.CDF

/-!
Property C133: the coverage of split conformal sets and intervals on new data, given the calibration data. C03, C10 and C105 average the
coverage over the calibration data; here the calibration data is drawn once, and the coverage is that of all later points.
-/
set_option linter.unusedSectionVars false

namespace Verif.Props.ConditionalCoverage

open Verif Verif.Quantile Verif.ConformalRegression Verif.Props Verif.Props.MonteCarlo Finset MeasureTheory ProbabilityTheory Filter Topology
open Verif.Props.ClassCoverage Verif.Props.RegressionCoverage

variable {Ω 𝒳 : Type} [MeasurableSpace Ω] [MeasurableSpace 𝒳] {n : ℕ}

/-- The calibration data, followed by one new point. -/
def withNew {Z : Type} (cal : Fin n → Z) (z : Z) : Fin (n + 1) → Z := Fin.snoc (α := fun _ => Z) cal z

/-- The probability that a new point of law `Q` is covered, with the calibration data fixed. -/
noncomputable def coverage {Z : Type} [MeasurableSpace Z] (Q : Measure Z) (Covers : (Fin (n + 1) → Z) → Prop) (cal : Fin n → Z) : ℝ :=
  Q.real {z | Covers (withNew cal z)}

/-! ### A quantile of a law -/

/-- Every real random variable has a `t`-quantile. -/
theorem exists_quantile (Q : Measure 𝒳) [IsProbabilityMeasure Q] (g : 𝒳 → ℝ) (hg : Measurable g) (t : ℝ) (h0 : 0 < t) (h1 : t < 1) :
    ∃ x, t ≤ Q.real {z | g z ≤ x} ∧ Q.real {z | g z < x} ≤ t := by
  set ν := Q.map g with hν
  have : IsProbabilityMeasure ν := Measure.isProbabilityMeasure_map hg.aemeasurable
  have hF : ∀ x, cdf ν x = Q.real {z | g z ≤ x} := by
    intro x
    rw [cdf_eq_real, hν, map_measureReal_apply hg measurableSet_Iic]
    rfl
  set S : Set ℝ := {x | t ≤ cdf ν x} with hS
  have hne : S.Nonempty := ((tendsto_cdf_atTop ν).eventually (eventually_ge_nhds h1)).exists
  have hbdd : BddBelow S := by
    obtain ⟨b, hb⟩ := ((tendsto_cdf_atBot ν).eventually (eventually_lt_nhds h0)).exists
    refine ⟨b, fun x hx => ?_⟩
    by_contra hlt
    exact absurd (lt_of_le_of_lt (monotone_cdf ν (not_le.1 hlt).le) hb) (not_lt.2 hx)
  have habove : ∀ y, sInf S < y → t ≤ cdf ν y := by
    intro y hy
    obtain ⟨s, hs, hsy⟩ := exists_lt_of_csInf_lt hne hy
    exact le_trans hs (monotone_cdf ν hsy.le)
  have hbelow : ∀ y, y < sInf S → cdf ν y < t := by
    intro y hy
    by_contra h
    exact absurd (csInf_le hbdd (not_lt.1 h)) (not_le.2 hy)
  refine ⟨sInf S, ?_, ?_⟩
  · rw [← hF]
    have hr : Tendsto (cdf ν) (𝓝[>] (sInf S)) (𝓝 (cdf ν (sInf S))) :=
      ((cdf ν).right_continuous (sInf S)).mono_left (nhdsWithin_mono _ Set.Ioi_subset_Ici_self)
    refine ge_of_tendsto hr ?_
    filter_upwards [self_mem_nhdsWithin] with y hy using habove y hy
  · have h2 : ν (Set.Iio (sInf S)) = ENNReal.ofReal (Function.leftLim (cdf ν) (sInf S) - 0) := by
      conv_lhs => rw [← measure_cdf ν]
      exact (cdf ν).measure_Iio (tendsto_cdf_atBot ν) _
    have h3 : Function.leftLim (cdf ν) (sInf S) ≤ t := by
      refine le_of_tendsto ((monotone_cdf ν).tendsto_leftLim (sInf S)) ?_
      filter_upwards [self_mem_nhdsWithin] with y hy using (hbelow y hy).le
    have h4 : Q.real {z | g z < sInf S} = ν.real (Set.Iio (sInf S)) := by
      rw [hν, map_measureReal_apply hg measurableSet_Iio]
      rfl
    rw [h4, Measure.real, h2, sub_zero]
    exact ENNReal.toReal_le_of_le_ofReal h0.le (ENNReal.ofReal_le_ofReal h3)

section law
variable {X : Fin n → Ω → 𝒳} {Q : Measure 𝒳} {μ : Measure Ω} [IsProbabilityMeasure μ] (D : Draws X Q μ)

theorem avg_indicator (X : Fin n → Ω → 𝒳) (p : 𝒳 → Prop) [DecidablePred p] (ω : Ω) :
    avg X (Set.indicator {x | p x} 1) id ω = ((univ.filter fun i => p (X i ω)).card : ℝ) / n := by
  unfold avg
  congr 1
  rw [Finset.card_filter]
  push_cast
  apply Finset.sum_congr rfl
  intro i _
  simp [Set.indicator_apply]

include D

/-- The rows with a property are not much more frequent in the data than under the law. -/
theorem frequency_tail (hn : 0 < n) (p : 𝒳 → Prop) [DecidablePred p] (hp : MeasurableSet {x | p x}) (ε : ℝ) (hε : 0 ≤ ε) :
    μ.real {ω | (n : ℝ) * (Q.real {x | p x} + ε) ≤ (univ.filter fun i => p (X i ω)).card} ≤ Real.exp (-2 * n * ε ^ 2) := by
  have hn' : (0 : ℝ) < n := by exact_mod_cast hn
  have h := PrecisionLaw.upper_tail D hn (Set.indicator {x | p x} 1) (measurable_one.indicator hp) 0 1 one_pos (fun x => by
    by_cases h : p x <;> simp [Set.indicator_apply, h]) ε hε
  rw [sub_zero, one_pow, div_one, integral_indicator_one hp] at h
  refine le_trans (measureReal_mono ?_ (measure_ne_top _ _)) h
  intro ω hω
  simp only [Set.mem_ofPred_eq] at hω ⊢
  rw [avg_indicator, le_sub_iff_add_le, le_div_iff₀ hn']
  linarith

/-- An event, which forces the frequency of one property to be large, is rare. -/
theorem rare (hn : 0 < n) (E : Set Ω) (p : 𝒳 → Prop) [DecidablePred p] (hp : MeasurableSet {x | p x}) (ε : ℝ) (hε : 0 ≤ ε)
    (h : ∀ ω ∈ E, (n : ℝ) * (Q.real {x | p x} + ε) ≤ (univ.filter fun i => p (X i ω)).card) :
    μ.real E ≤ Real.exp (-2 * n * ε ^ 2) :=
  le_trans (measureReal_mono h (measure_ne_top _ _)) (frequency_tail D hn p hp ε hε)

/-- A downward closed set `B ω` of scores, which depends on the data and whose members have at least `n a` scores above them. -/
theorem below_few (hn : 0 < n) (g : 𝒳 → ℝ) (hg : Measurable g) (B : Ω → ℝ → Prop) (hB : ∀ ω s s', s ≤ s' → B ω s' → B ω s) (a ε : ℝ)
    (ha : a ≤ 1) (hε : 0 ≤ ε)
    (hcount : ∀ ω s, B ω s → (n : ℝ) * a ≤ (univ.filter fun i => s < g (X i ω)).card) :
    μ.real {ω | 1 - a + ε < Q.real {z | B ω (g z)}} ≤ Real.exp (-2 * n * ε ^ 2) := by
  have : Nonempty (Fin n) := ⟨⟨0, hn⟩⟩
  have hQ : IsProbabilityMeasure Q := prob_law D
  rcases hε.eq_or_lt with rfl | hε'
  · simpa using measureReal_le_one
  by_cases h1 : 1 ≤ 1 - a + ε
  · have : {ω | 1 - a + ε < Q.real {z | B ω (g z)}} = ∅ := by
      ext ω
      simp only [Set.mem_ofPred_eq, Set.mem_empty_iff_false, iff_false, not_lt]
      exact measureReal_le_one.trans h1
    rw [this, measureReal_empty]
    positivity
  obtain ⟨x, hx1, hx2⟩ := exists_quantile Q g hg (1 - a + ε) (by linarith) (not_le.1 h1)
  refine rare D hn _ (fun z => x < g z) (measurableSet_lt measurable_const hg) ε hε fun ω hω => ?_
  have hcompl : Q.real {z | x < g z} = 1 - Q.real {z | g z ≤ x} := by
    rw [← probReal_compl_eq_one_sub (measurableSet_le hg measurable_const)]
    congr 1
    ext z
    simp
  have hx : B ω x := by
    by_contra hno
    refine absurd (lt_of_lt_of_le hω (le_trans (measureReal_mono (fun z hz => ?_) (measure_ne_top _ _)) hx2)) (lt_irrefl _)
    by_contra hge
    exact hno (hB ω _ _ (not_lt.1 hge) hz)
  refine le_trans ?_ (hcount ω x hx)
  have hn' : (0 : ℝ) < n := by exact_mod_cast hn
  apply mul_le_mul_of_nonneg_left _ hn'.le
  rw [hcompl]
  linarith

/-- Without atoms: a downward closed set, whose non-members have fewer than `n a` scores above them, is not much smaller than `1 - a`. -/
theorem below_many (hn : 0 < n) (g : 𝒳 → ℝ) (hg : Measurable g) (hat : ∀ x, Q.real {z | g z = x} = 0) (B : Ω → ℝ → Prop)
    (hB : ∀ ω s s', s ≤ s' → B ω s' → B ω s) (a ε : ℝ) (ha : 0 ≤ a) (hε : 0 ≤ ε)
    (hcount : ∀ ω s, ¬ B ω s → ((univ.filter fun i => s < g (X i ω)).card : ℝ) ≤ n * a) :
    μ.real {ω | Q.real {z | B ω (g z)} < 1 - a - ε} ≤ Real.exp (-2 * n * ε ^ 2) := by
  have : Nonempty (Fin n) := ⟨⟨0, hn⟩⟩
  have hQ : IsProbabilityMeasure Q := prob_law D
  rcases hε.eq_or_lt with rfl | hε'
  · simpa using measureReal_le_one
  by_cases h1 : 1 - a - ε ≤ 0
  · have : {ω | Q.real {z | B ω (g z)} < 1 - a - ε} = ∅ := by
      ext ω
      simp only [Set.mem_ofPred_eq, Set.mem_empty_iff_false, iff_false, not_lt]
      exact h1.trans measureReal_nonneg
    rw [this, measureReal_empty]
    positivity
  obtain ⟨x, hx1, hx2⟩ := exists_quantile Q g hg (1 - a - ε) (not_le.1 h1) (by linarith)
  have hx3 : Q.real {z | g z ≤ x} ≤ 1 - a - ε := by
    have : {z | g z ≤ x} = {z | g z < x} ∪ {z | g z = x} := by
      ext z
      simp [le_iff_lt_or_eq]
    rw [this]
    refine (measureReal_union_le _ _).trans ?_
    rw [hat x]
    linarith
  refine rare D hn _ (fun z => g z ≤ x) (measurableSet_le hg measurable_const) ε hε fun ω hω => ?_
  have hx : ¬ B ω x := by
    intro hyes
    refine absurd (lt_of_lt_of_le hω (hx1.trans (measureReal_mono (fun z hz => ?_) (measure_ne_top _ _)))) (lt_irrefl _)
    exact hB ω _ _ hz hyes
  have hc := hcount ω x hx
  have hsum : ((univ.filter fun i => g (X i ω) ≤ x).card : ℝ) + (univ.filter fun i => x < g (X i ω)).card = n := by
    have := Finset.card_filter_add_card_filter_not (s := (univ : Finset (Fin n))) (fun i => g (X i ω) ≤ x)
    simp only [not_le, card_univ, Fintype.card_fin] at this
    exact_mod_cast this
  have hn' : (0 : ℝ) < n := by exact_mod_cast hn
  nlinarith

end law

/-! ### Classification -/

section classification
variable {c : ℕ} {X : Type} [MeasurableSpace X] {Z : Fin n → Ω → X × Fin c} {Q : Measure (X × Fin c)} {μ : Measure Ω} [IsProbabilityMeasure μ]

/-- Whether a new point is covered, from its score and those of the calibration data. -/
theorem split_new {score : List ℝ → ℕ → Option ℝ} {σ : List ℝ → ℕ → ℝ} (hσ : AdaptivePrediction.Scores score c σ) (f : X → Fin c → ℝ) (e : ℚ)
    (cal : Fin n → X × Fin c) (z : X × Fin c) :
    SplitCovers score f e (withNew cal z) ↔
      ((univ.filter fun i => pointScore σ f z < pointScore σ f (cal i)).card : ℝ) < (1 - e) * (n + 1) := by
  rw [splitCovers_iff hσ]
  have hc : (univ.filter fun i : Fin (n + 1) => pointScore σ f (withNew cal z (Fin.last n)) < pointScore σ f (withNew cal z i)).card =
      (univ.filter fun i => pointScore σ f z < pointScore σ f (cal i)).card := by
    rw [Finset.card_filter, Fin.sum_univ_castSucc]
    simp only [withNew, Fin.snoc_last, Fin.snoc_castSucc, lt_self_iff_false, if_false, add_zero]
    rw [Finset.card_filter]
  rw [hc]
  constructor
  · intro h
    exact_mod_cast h
  · intro h
    exact_mod_cast h

theorem split_coverage (Q : Measure (X × Fin c)) [IsProbabilityMeasure Q] {score : List ℝ → ℕ → Option ℝ} {σ : List ℝ → ℕ → ℝ}
    (hσ : AdaptivePrediction.Scores score c σ) (f : X → Fin c → ℝ) (hm : Measurable (pointScore σ f)) (e : ℚ) (cal : Fin n → X × Fin c) :
    coverage Q (SplitCovers score f e) cal =
      1 - Q.real {z | (1 - (e : ℝ)) * (n + 1) ≤ (univ.filter fun i => pointScore σ f z < pointScore σ f (cal i)).card} := by
  have hmeas : MeasurableSet {z | (1 - (e : ℝ)) * (n + 1) ≤ (univ.filter fun i => pointScore σ f z < pointScore σ f (cal i)).card} := by
    apply measurableSet_le measurable_const
    simp only [Finset.card_filter]
    push_cast
    refine Finset.measurable_sum _ fun i _ => ?_
    exact Measurable.ite (measurableSet_lt hm measurable_const) measurable_const measurable_const
  unfold coverage
  rw [← probReal_compl_eq_one_sub hmeas]
  congr 1
  ext z
  simp only [Set.mem_ofPred_eq, Set.mem_compl_iff, not_le]
  exact split_new hσ f e cal z

/-- **C133, classification.** Calibrate `AdaptivePredictionConformalClassifier` or `SimplePredictionConformalClassifier` with `n`
independent points. Except with probability `exp (-2 n ε²)` over the calibration data, a fraction `1 - e - ε` of all new points, or more,
have their label in their set. -/
theorem C133_classification_at_least (D : Draws Z Q μ) (hn : 0 < n) (score : List ℝ → ℕ → Option ℝ)
    (hs : score = AdaptivePrediction.adaptiveScore ∨ score = AdaptivePrediction.simpleScore) (f : X → Fin c → ℝ) (hf : Measurable f) (e : ℚ)
    (he0 : 0 ≤ e) (he1 : e ≤ 1) (ε : ℝ) (hε : 0 ≤ ε) :
    μ.real {ω | coverage Q (SplitCovers score f e) (fun i => Z i ω) < 1 - e - ε} ≤ Real.exp (-2 * n * ε ^ 2) := by
  have : Nonempty (Fin n) := ⟨⟨0, hn⟩⟩
  have hQ : IsProbabilityMeasure Q := prob_law D
  obtain ⟨σ, hσ, hm⟩ := measurable_pointScore (c := c) hs hf
  have he0' : (0 : ℝ) ≤ e := by exact_mod_cast he0
  have he1' : (e : ℝ) ≤ 1 := by exact_mod_cast he1
  have h := below_few D hn (pointScore σ f) hm
    (fun ω s => (1 - (e : ℝ)) * (n + 1) ≤ (univ.filter fun i => s < pointScore σ f (Z i ω)).card)
    (fun ω s s' hss h => h.trans (by
      exact_mod_cast card_le_card fun i hi => by
        simp only [mem_filter, mem_univ, true_and] at hi ⊢
        exact lt_of_le_of_lt hss hi))
    (1 - e) ε (by linarith) hε (fun ω s h => le_trans (by nlinarith) h)
  refine le_trans (measureReal_mono (fun ω hω => ?_) (measure_ne_top _ _)) h
  simp only [Set.mem_ofPred_eq] at hω ⊢
  rw [split_coverage Q hσ f hm] at hω
  linarith

/-- **C133, classification, from above.** Where no score has positive probability, the coverage of new points does not exceed
`1 - e + (1 - e) / n + ε` either. -/
theorem C133_classification_at_most (D : Draws Z Q μ) (hn : 0 < n) (score : List ℝ → ℕ → Option ℝ)
    (hs : score = AdaptivePrediction.adaptiveScore ∨ score = AdaptivePrediction.simpleScore) (f : X → Fin c → ℝ) (hf : Measurable f)
    (hat : ∀ x, Q.real {z | score (row f z.1) z.2 = some x} = 0) (e : ℚ) (he1 : e ≤ 1) (ε : ℝ) (hε : 0 ≤ ε) :
    μ.real {ω | 1 - e + (1 - e) / n + ε < coverage Q (SplitCovers score f e) (fun i => Z i ω)} ≤ Real.exp (-2 * n * ε ^ 2) := by
  have : Nonempty (Fin n) := ⟨⟨0, hn⟩⟩
  have hQ : IsProbabilityMeasure Q := prob_law D
  obtain ⟨σ, hσ, hm⟩ := measurable_pointScore (c := c) hs hf
  have he1' : (e : ℝ) ≤ 1 := by exact_mod_cast he1
  have hn' : (0 : ℝ) < n := by exact_mod_cast hn
  have hscore : ∀ z : X × Fin c, score (row f z.1) z.2 = some (pointScore σ f z) := fun z =>
    hσ (row f z.1) (by simp [row]) z.2 z.2.isLt
  have h := below_many D hn (pointScore σ f) hm (by simpa only [hscore, Option.some.injEq] using hat)
    (fun ω s => (1 - (e : ℝ)) * (n + 1) ≤ (univ.filter fun i => s < pointScore σ f (Z i ω)).card)
    (fun ω s s' hss h => h.trans (by
      exact_mod_cast card_le_card fun i hi => by
        simp only [mem_filter, mem_univ, true_and] at hi ⊢
        exact lt_of_le_of_lt hss hi))
    (1 - e + (1 - e) / n) ε (by have : (0:ℝ) ≤ (1 - e) / n := div_nonneg (by linarith) hn'.le
                                linarith) hε (fun ω s h => by
      have h := (not_le.1 h).le
      refine h.trans (le_of_eq ?_)
      field_simp)
  refine le_trans (measureReal_mono (fun ω hω => ?_) (measure_ne_top _ _)) h
  simp only [Set.mem_ofPred_eq] at hω ⊢
  rw [split_coverage Q hσ f hm] at hω
  linarith

end classification

/-! ### Regression -/

/-- A number with fewer than `n (1 - e)` scores below it is at most the quantile, for every error. -/
theorem le_quantile_of_few (s : List ℝ) (hs : s ≠ []) (x e q : ℝ) (hq : scoresQuantile s e = .ok q)
    (hc : ((s.countP fun y => decide (y < x) : ℕ) : ℝ) < s.length * (1 - e)) : x ≤ q := by
  obtain ⟨h0, h1, -⟩ := scoresQuantile_ok hq
  have hlen : (0 : ℝ) < s.length := by exact_mod_cast List.length_pos_iff.2 hs
  by_cases he : 1 / ((s.length : ℝ) + 1) ≤ e
  · refine le_scoresQuantile s hs x e q he ?_ hq
    rw [Int.lt_ceil]
    push_cast
    nlinarith
  · have hone : 1 / ((s.length : ℝ) + 1) ≤ 1 := by
      rw [div_le_one (by linarith)]
      linarith
    obtain ⟨q', hq'⟩ := scoresQuantile_of_ne hs (e := 1 / ((s.length : ℝ) + 1)) (by positivity) hone
    refine le_trans ?_ (scoresQuantile_anti (not_le.1 he).le hq hq')
    refine le_scoresQuantile s hs x _ q' le_rfl ?_ hq'
    rw [Int.lt_ceil]
    push_cast
    have : ((s.length : ℝ) + 1) * (1 - 1 / (s.length + 1)) = s.length := by
      field_simp
      ring
    rw [this]
    nlinarith

section regression
variable {X : Type} [MeasurableSpace X] {Z : Fin n → Ω → X × ℝ} {Q : Measure (X × ℝ)} {μ : Measure Ω} [IsProbabilityMeasure μ]

/-- An interval which covers a point if its score is at most the calibrated quantile. -/
theorem regression_at_least (D : Draws Z Q μ) (hn : 0 < n) (g : X × ℝ → ℝ) (hg : Measurable g) (Covers : (Fin (n + 1) → X × ℝ) → Prop) (e : ℝ)
    (he0 : 0 ≤ e) (he1 : e ≤ 1)
    (hcov : ∀ cal z, Covers (withNew cal z) ↔ ∃ q, scoresQuantile (List.ofFn fun i => g (cal i)) e = .ok q ∧ g z ≤ q) (ε : ℝ) (hε : 0 ≤ ε) :
    μ.real {ω | coverage Q Covers (fun i => Z i ω) < 1 - e - ε} ≤ Real.exp (-2 * n * ε ^ 2) := by
  have : Nonempty (Fin n) := ⟨⟨0, hn⟩⟩
  have hQ : IsProbabilityMeasure Q := prob_law D
  have hne : ∀ ω, (List.ofFn fun i => g (Z i ω)) ≠ [] := fun ω h => by
    have := congrArg List.length h
    simp at this
    omega
  have hq : ∀ ω, ∃ q, scoresQuantile (List.ofFn fun i => g (Z i ω)) e = .ok q := fun ω => scoresQuantile_of_ne (hne ω) he0 he1
  choose q hq using hq
  have h := below_few D hn (fun z => -g z) hg.neg (fun ω s => q ω < -s) (fun ω s s' hss h => by linarith) (1 - e) ε (by linarith) hε
    (fun ω s h => by
      by_contra hlt
      refine absurd (le_quantile_of_few _ (hne ω) (-s) e (q ω) (hq ω) ?_) (not_le.2 h)
      rw [Verif.ListAux.countP_ofFn, List.length_ofFn]
      refine lt_of_le_of_lt (le_of_eq ?_) (not_le.1 hlt)
      congr 2
      ext i
      simp [lt_neg])
  refine le_trans (measureReal_mono (fun ω hω => ?_) (measure_ne_top _ _)) h
  simp only [Set.mem_ofPred_eq] at hω ⊢
  have hset : {z | Covers (withNew (fun i => Z i ω) z)} = {z | q ω < - -g z}ᶜ := by
    ext z
    simp only [Set.mem_ofPred_eq, Set.mem_compl_iff, neg_neg, not_lt]
    rw [hcov, hq ω]
    simp
  unfold coverage at hω
  rw [hset, probReal_compl_eq_one_sub (by simpa using measurableSet_lt measurable_const hg)] at hω
  linarith

theorem regression_at_most (D : Draws Z Q μ) (hn : 0 < n) (g : X × ℝ → ℝ) (hg : Measurable g) (hat : ∀ x, Q.real {z | g z = x} = 0)
    (Covers : (Fin (n + 1) → X × ℝ) → Prop) (e : ℝ) (he0 : 0 ≤ e) (he1 : e ≤ 1)
    (hcov : ∀ cal z, Covers (withNew cal z) ↔ ∃ q, scoresQuantile (List.ofFn fun i => g (cal i)) e = .ok q ∧ g z ≤ q) (ε : ℝ) (hε : 0 ≤ ε) :
    μ.real {ω | 1 - e + (2 - e) / n + ε < coverage Q Covers (fun i => Z i ω)} ≤ Real.exp (-2 * n * ε ^ 2) := by
  have : Nonempty (Fin n) := ⟨⟨0, hn⟩⟩
  have hQ : IsProbabilityMeasure Q := prob_law D
  have hn' : (0 : ℝ) < n := by exact_mod_cast hn
  have hne : ∀ ω, (List.ofFn fun i => g (Z i ω)) ≠ [] := fun ω h => by
    have := congrArg List.length h
    simp at this
    omega
  have hq : ∀ ω, ∃ q, scoresQuantile (List.ofFn fun i => g (Z i ω)) e = .ok q := fun ω => scoresQuantile_of_ne (hne ω) he0 he1
  choose q hq using hq
  have h := below_many D hn (fun z => -g z) hg.neg (fun x => by
      have := hat (-x)
      simpa only [neg_eq_iff_eq_neg] using this)
    (fun ω s => q ω < -s) (fun ω s s' hss h => by linarith) (1 - e + (2 - e) / n) ε
    (by have : 0 ≤ (2 - e) / n := div_nonneg (by linarith) hn'.le
        linarith) hε
    (fun ω s h => by
      have h1 := few_below_quantile _ (-s) e (q ω) (hq ω) (not_lt.1 h)
      rw [Verif.ListAux.countP_ofFn, List.length_ofFn] at h1
      have h2 : ((⌈((n : ℝ) + 1) * (1 - e)⌉ : ℤ) : ℝ) < ((n : ℝ) + 1) * (1 - e) + 1 := Int.ceil_lt_add_one _
      have h3 : ((univ.filter fun i => decide (g (Z i ω) < -s) = true).card : ℝ) ≤ ((⌈((n : ℝ) + 1) * (1 - e)⌉ : ℤ) : ℝ) := by
        exact_mod_cast h1
      have h4 : (univ.filter fun i => s < -g (Z i ω)) = univ.filter fun i => decide (g (Z i ω) < -s) = true := by
        ext i
        simp [lt_neg]
      rw [h4]
      refine (h3.trans h2.le).trans (le_of_eq ?_)
      field_simp
      ring)
  refine le_trans (measureReal_mono (fun ω hω => ?_) (measure_ne_top _ _)) h
  simp only [Set.mem_ofPred_eq] at hω ⊢
  have hset : {z | Covers (withNew (fun i => Z i ω) z)} = {z | q ω < - -g z}ᶜ := by
    ext z
    simp only [Set.mem_ofPred_eq, Set.mem_compl_iff, neg_neg, not_lt]
    rw [hcov, hq ω]
    simp
  unfold coverage at hω
  rw [hset, probReal_compl_eq_one_sub (by simpa using measurableSet_lt measurable_const hg)] at hω
  linarith

theorem measurable_qScore {lo hi : X → ℝ} (hlo : Measurable lo) (hhi : Measurable hi) :
    Measurable fun z : X × ℝ => qScoreOf (lo z.1, hi z.1, z.2) := by
  unfold qScoreOf
  exact ((hlo.comp measurable_fst).sub measurable_snd).max (measurable_snd.sub (hhi.comp measurable_fst))

theorem measurable_uScore {pred unc : X → ℝ} (hpred : Measurable pred) (hunc : Measurable unc) :
    Measurable fun z : X × ℝ => uScoreOf (pred z.1, unc z.1, z.2) := by
  unfold uScoreOf
  exact (measurable_snd.sub (hpred.comp measurable_fst)).abs.div (hunc.comp measurable_fst)

theorem quantile_new (lo hi : X → ℝ) (e : ℝ) (cal : Fin n → X × ℝ) (z : X × ℝ) :
    QuantileCovers lo hi e (withNew cal z) ↔
      ∃ q, scoresQuantile (List.ofFn fun i => qScoreOf (lo (cal i).1, hi (cal i).1, (cal i).2)) e = .ok q ∧ qScoreOf (lo z.1, hi z.1, z.2) ≤ q := by
  rw [quantileCovers_iff, qCovered_iff]
  simp [withNew, List.map_ofFn, Function.comp_def]

theorem onedim_new (pred unc : X → ℝ) (hpos : ∀ x, 0 < unc x) (e : ℝ) (cal : Fin n → X × ℝ) (z : X × ℝ) :
    OnedimCovers pred unc e (withNew cal z) ↔
      ∃ q, scoresQuantile (List.ofFn fun i => uScoreOf (pred (cal i).1, unc (cal i).1, (cal i).2)) e = .ok q ∧
        uScoreOf (pred z.1, unc z.1, z.2) ≤ q := by
  rw [onedimCovers_iff, uCovered_iff]
  · simp [withNew, List.map_ofFn, Function.comp_def]
  · intro d hd
    obtain ⟨i, rfl⟩ := (List.mem_ofFn' _ _).1 hd
    exact hpos _
  · exact hpos _

/-- **C133, intervals of `QuantileConformalRegressor`.** -/
theorem C133_quantile_at_least (D : Draws Z Q μ) (hn : 0 < n) (lo hi : X → ℝ) (hlo : Measurable lo) (hhi : Measurable hi) (e : ℝ) (he0 : 0 ≤ e)
    (he1 : e ≤ 1) (ε : ℝ) (hε : 0 ≤ ε) :
    μ.real {ω | coverage Q (QuantileCovers lo hi e) (fun i => Z i ω) < 1 - e - ε} ≤ Real.exp (-2 * n * ε ^ 2) :=
  regression_at_least D hn _ (measurable_qScore hlo hhi) _ e he0 he1 (quantile_new lo hi e) ε hε

theorem C133_quantile_at_most (D : Draws Z Q μ) (hn : 0 < n) (lo hi : X → ℝ) (hlo : Measurable lo) (hhi : Measurable hi)
    (hat : ∀ x, Q.real {z | max (lo z.1 - z.2) (z.2 - hi z.1) = x} = 0) (e : ℝ) (he0 : 0 ≤ e) (he1 : e ≤ 1) (ε : ℝ) (hε : 0 ≤ ε) :
    μ.real {ω | 1 - e + (2 - e) / n + ε < coverage Q (QuantileCovers lo hi e) (fun i => Z i ω)} ≤ Real.exp (-2 * n * ε ^ 2) :=
  regression_at_most D hn _ (measurable_qScore hlo hhi) hat _ e he0 he1 (quantile_new lo hi e) ε hε

/-- **C133, intervals of `OneDimensionalUncertaintyConformalRegressor`.** -/
theorem C133_onedim_at_least (D : Draws Z Q μ) (hn : 0 < n) (pred unc : X → ℝ) (hpred : Measurable pred) (hunc : Measurable unc)
    (hpos : ∀ x, 0 < unc x) (e : ℝ) (he0 : 0 ≤ e) (he1 : e ≤ 1) (ε : ℝ) (hε : 0 ≤ ε) :
    μ.real {ω | coverage Q (OnedimCovers pred unc e) (fun i => Z i ω) < 1 - e - ε} ≤ Real.exp (-2 * n * ε ^ 2) :=
  regression_at_least D hn _ (measurable_uScore hpred hunc) _ e he0 he1 (onedim_new pred unc hpos e) ε hε

theorem C133_onedim_at_most (D : Draws Z Q μ) (hn : 0 < n) (pred unc : X → ℝ) (hpred : Measurable pred) (hunc : Measurable unc)
    (hpos : ∀ x, 0 < unc x) (hat : ∀ x, Q.real {z | |z.2 - pred z.1| / unc z.1 = x} = 0) (e : ℝ) (he0 : 0 ≤ e) (he1 : e ≤ 1) (ε : ℝ) (hε : 0 ≤ ε) :
    μ.real {ω | 1 - e + (2 - e) / n + ε < coverage Q (OnedimCovers pred unc e) (fun i => Z i ω)} ≤ Real.exp (-2 * n * ε ^ 2) :=
  regression_at_most D hn _ (measurable_uScore hpred hunc) hat _ e he0 he1 (onedim_new pred unc hpos e) ε hε

/-- **C133, without enough data.** False of the code: that at least a fraction `1 - e` of all new points is covered, whatever the
calibration data. Whatever the error, the interval covers no other targets than 0 if all calibration targets are 0, where bounds are 0; this
happens with probability `θ ^ n` if targets are 0 with probability `θ`. -/
theorem C133_every_calibration_false (D : Draws Z Q μ) (hn : 0 < n) (e : ℝ) (he0 : 0 ≤ e) (he1 : e ≤ 1) :
    Q.real {z | z.2 = 0} ^ n ≤
      μ.real {ω | coverage Q (QuantileCovers (fun _ => 0) (fun _ => 0) e) (fun i => Z i ω) = Q.real {z | z.2 = 0}} := by
  have hms : MeasurableSet {z : X × ℝ | z.2 = 0} := measurable_snd (measurableSet_singleton (0 : ℝ))
  have hprob : Q.real {z | z.2 = 0} ^ n = μ.real (⋂ i ∈ (Finset.univ : Finset (Fin n)), Z i ⁻¹' {z | z.2 = 0}) := by
    unfold Measure.real
    rw [D.indep.measure_inter_preimage_eq_mul Finset.univ fun i _ => hms, ENNReal.toReal_prod]
    have : ∀ i, μ (Z i ⁻¹' {z | z.2 = 0}) = Q {z | z.2 = 0} := by
      intro i
      rw [← D.law i, Measure.map_apply (D.meas i) hms]
    simp only [this, prod_const, card_univ, Fintype.card_fin]
  rw [hprob]
  refine measureReal_mono ?_ (measure_ne_top _ _)
  intro ω hω
  have hall : ∀ i, (Z i ω).2 = 0 := by simpa using hω
  simp only [Set.mem_ofPred_eq]
  unfold coverage
  congr 1
  ext z
  simp only [Set.mem_ofPred_eq]
  rw [quantile_new]
  have hs : (List.ofFn fun i => qScoreOf ((0 : ℝ), (0 : ℝ), (Z i ω).2)) = List.replicate n 0 := by
    simp [qScoreOf, hall, List.ofFn_const]
  rw [hs]
  have hne : List.replicate n (0 : ℝ) ≠ [] := by simpa using hn.ne'
  obtain ⟨q, hq⟩ := scoresQuantile_of_ne hne he0 he1
  have hq0 : q = 0 := by
    obtain ⟨-, -, h⟩ := scoresQuantile_ok hq
    obtain ⟨-, rfl⟩ := quantile_some h
    have hall0 : ∀ i, atClamped (sort (List.replicate n (0 : ℝ))) i = 0 := by
      intro i
      obtain ⟨j, hj, -, h⟩ := atClamped_eq (sort (List.replicate n (0 : ℝ))) (sort_ne_nil hne) i
      rw [h]
      exact List.eq_of_mem_replicate ((sort_perm _).mem_iff.1 (List.getElem_mem hj))
    apply le_antisymm
    · exact (interp_le_atClamped (sort_sorted _) (sort_ne_nil hne) _).trans (hall0 _).le
    · exact (hall0 _).ge.trans (atClamped_le_interp (sort_sorted _) (sort_ne_nil hne) _)
  rw [hq, hq0]
  simp only [Except.ok.injEq, exists_eq_left', qScoreOf, zero_sub, sub_zero, max_le_iff]
  constructor
  · rintro ⟨h1, h2⟩
    linarith
  · intro h
    simp [h]

end regression

/-- Independent draws of any law. -/
theorem draws_pi (Z : Type) [MeasurableSpace Z] (ν : Measure Z) [IsProbabilityMeasure ν] (n : ℕ) :
    Draws (fun (i : Fin n) (ω : Fin n → Z) => ω i) ν (Measure.pi fun _ => ν) where
  meas i := measurable_pi_apply i
  indep := iIndepFun_pi (X := fun _ x => x) fun _ => aemeasurable_id
  law i := (measurePreserving_eval (fun _ => ν) i).map_eq

-- 1000 calibration points and an error of 10%: less than 85% of new labels are covered with probability at most exp (-5)
example (ν : Measure (Bool × Fin 2)) [IsProbabilityMeasure ν] :
    (Measure.pi fun _ : Fin 1000 => ν).real
      {ω | coverage ν (SplitCovers AdaptivePrediction.adaptiveScore twoKinds (1 / 10)) ω < 1 - ((1 / 10 : ℚ) : ℝ) - 1 / 20} ≤ Real.exp (-5) := by
  have := C133_classification_at_least (draws_pi _ ν 1000) (by norm_num) _ (Or.inl rfl) twoKinds (measurable_of_countable _) (1 / 10)
    (by norm_num) (by norm_num) (1 / 20) (by norm_num)
  refine this.trans (le_of_eq ?_)
  norm_num

-- the same with intervals of fixed width around a prediction
example (ν : Measure (ℝ × ℝ)) [IsProbabilityMeasure ν] :
    (Measure.pi fun _ : Fin 1000 => ν).real
      {ω | coverage ν (OnedimCovers (fun x => 2 * x) (fun _ => 1) (1 / 10)) ω < 1 - 1 / 10 - 1 / 20} ≤ Real.exp (-5) := by
  have := C133_onedim_at_least (draws_pi _ ν 1000) (by norm_num) (fun x => 2 * x) (fun _ => 1) (by fun_prop) (by fun_prop) (fun _ => one_pos)
    (1 / 10) (by norm_num) (by norm_num) (1 / 20) (by norm_num)
  refine this.trans (le_of_eq ?_)
  norm_num

-- scores without atoms: targets with a continuous law
example (ν : Measure ℝ) [IsProbabilityMeasure ν] [NullSingletonClass ν] (x : ℝ) :
    ((Measure.dirac ()).prod ν).real {z : Unit × ℝ | max (0 - z.2) (z.2 - 0) = x} = 0 := by
  have hsub : {z : Unit × ℝ | max (0 - z.2) (z.2 - 0) = x} ⊆ Set.univ ×ˢ {x, -x} := by
    intro z hz
    simp only [Set.mem_ofPred_eq, zero_sub, sub_zero] at hz
    simp only [Set.mem_prod, Set.mem_univ, true_and, Set.mem_insert_iff, Set.mem_singleton_iff]
    rcases max_choice (-z.2) z.2 with h | h
    · right; linarith
    · left; linarith
  refine le_antisymm ((measureReal_mono hsub (measure_ne_top _ _)).trans ?_) measureReal_nonneg
  rw [measureReal_prod_prod]
  have : ν.real {x, -x} = 0 := by
    unfold Measure.real
    rw [(Set.toFinite _).measure_zero ν]
    rfl
  simp [this]

-- ten targets which are 0 with probability 9/10: with an error of 1%, every third calibration covers only 90% of new targets
example (ν : Measure (Unit × ℝ)) [IsProbabilityMeasure ν] (h : ν.real {z | z.2 = 0} = 9 / 10) :
    1 / 3 < (Measure.pi fun _ : Fin 10 => ν).real {ω | coverage ν (QuantileCovers (fun _ => 0) (fun _ => 0) (1 / 100)) ω = 9 / 10} := by
  have := C133_every_calibration_false (draws_pi _ ν 10) (by norm_num) (1 / 100) (by norm_num) (by norm_num)
  rw [h] at this
  refine lt_of_lt_of_le ?_ this
  norm_num

/-! ### Concrete cases that meet the hypotheses of the theorems above -/

/-- The first class of a row has the row's number as its probability. -/
example := C133_classification_at_most (draws_pi (ℝ × Fin 2) ((gaussianReal 0 1).prod (Measure.dirac 0)) 1000) (by norm_num)
  AdaptivePrediction.simpleScore (Or.inr rfl) (fun x => ![x, 1 - x])
  (measurable_pi_iff.2 fun i => by fin_cases i <;> simp <;> fun_prop)
  (fun v => by
    have := nullSingletonClass_gaussianReal (μ := 0) (v := 1) one_ne_zero
    have hsub : {z : ℝ × Fin 2 | AdaptivePrediction.simpleScore (row (fun x => ![x, 1 - x]) z.1) z.2 = some v} ⊆ {1 - v, v} ×ˢ Set.univ := by
      rintro ⟨x, y⟩ hz
      simp only [Set.mem_prod, Set.mem_univ, and_true, Set.mem_insert_iff, Set.mem_singleton_iff]
      simp only [Set.mem_ofPred_eq, AdaptivePrediction.simpleScore, row] at hz
      fin_cases y <;> simp at hz
      · left; linarith
      · right; linarith
    refine le_antisymm ((measureReal_mono hsub).trans (le_of_eq ?_)) measureReal_nonneg
    rw [Measure.real, Measure.prod_prod, (Set.toFinite ({1 - v, v} : Set ℝ)).measure_zero]
    simp)
  (1 / 10) (by norm_num) (1 / 20) (by norm_num)

/-- The law of the examples on regression: a normal target. -/
noncomputable def exLaw : Measure (Unit × ℝ) := (Measure.dirac ()).prod (gaussianReal 0 1)

instance : IsProbabilityMeasure exLaw := by unfold exLaw; infer_instance

theorem exLaw_two (s : Set (Unit × ℝ)) (a b : ℝ) (h : ∀ z ∈ s, z.2 = a ∨ z.2 = b) : exLaw.real s = 0 := by
  have := nullSingletonClass_gaussianReal (μ := 0) (v := 1) one_ne_zero
  have hsub : s ⊆ Set.univ ×ˢ {a, b} := fun z hz => by simpa using h z hz
  refine le_antisymm ((measureReal_mono hsub).trans (le_of_eq ?_)) measureReal_nonneg
  rw [exLaw, Measure.real, Measure.prod_prod, (Set.toFinite ({a, b} : Set ℝ)).measure_zero]
  simp

example := C133_quantile_at_least (draws_pi (Unit × ℝ) exLaw 1000) (by norm_num) (fun _ => -1) (fun _ => 1) measurable_const measurable_const (1 / 10)
  (by norm_num) (by norm_num) (1 / 20) (by norm_num)
example := C133_quantile_at_most (draws_pi (Unit × ℝ) exLaw 1000) (by norm_num) (fun _ => -1) (fun _ => 1) measurable_const measurable_const
  (fun x => exLaw_two _ (-1 - x) (1 + x) fun z hz => by
    simp only [Set.mem_ofPred_eq] at hz
    rcases max_choice (-1 - z.2) (z.2 - 1) with h | h
    · left; linarith
    · right; linarith) (1 / 10) (by norm_num) (by norm_num) (1 / 20) (by norm_num)
example := C133_onedim_at_most (draws_pi (Unit × ℝ) exLaw 1000) (by norm_num) (fun _ => 1) (fun _ => 1) measurable_const measurable_const
  (fun _ => one_pos) (fun x => exLaw_two _ (1 + x) (1 - x) fun z hz => by
    simp only [Set.mem_ofPred_eq, div_one] at hz
    rcases abs_choice (z.2 - 1) with h | h
    · left; linarith
    · right; linarith) (1 / 10) (by norm_num) (by norm_num) (1 / 20) (by norm_num)

end Verif.Props.ConditionalCoverage
