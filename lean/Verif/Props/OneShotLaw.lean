import Mathlib.Analysis.Complex.ExponentialBounds
import Verif.Props.PrecisionLaw
import Verif.Props.MultivalidCells

/-!
Property C128: what the one-shot calibrators, fitted to independent draws, say about new rows.
-/
set_option linter.unusedSectionVars false

namespace Verif.Props.OneShotLaw

open Verif.Props.MonteCarlo Verif.Props.MetricLaw Verif.ArrayOps MeasureTheory ProbabilityTheory
open Verif.Props.MultivalidCells (FirstMax argmax_iff C57_cell C57_apply_exact)
open Verif.Multivalid (probB maskedMean col oneShotB oneShotPatch oneShotCalibrate oneShotApply)

variable {Ω 𝒳 : Type} [MeasurableSpace Ω] [MeasurableSpace 𝒳] {n : ℕ}

/-! ## Specification -/

/-- The data points whose first most likely class is `c`, with a probability less than half a bucket away from `v`. -/
def cell (buckets : ℕ) (val : 𝒳 → List ℝ) (v : ℝ) (c : ℕ) : Set 𝒳 :=
  {x | |(val x).getD c 0 - v| < 1 / (2 * (buckets : ℝ)) ∧ FirstMax (val x) c}

/-- The expected score of class `c` in a set. -/
noncomputable def condMean (Q : Measure 𝒳) (S : Set 𝒳) (s : 𝒳 → ℝ) : ℝ := (∫ x in S, s x ∂Q) / Q.real S

/-- The fraction of the calibration rows in a set. -/
noncomputable def share (X : Fin n → Ω → 𝒳) (S : Set 𝒳) (ω : Ω) : ℝ := avg X (S.indicator 1) id ω

/-- The bucket `k` of `B`. -/
noncomputable def bucket (B k : ℕ) : ℝ := (k : ℝ) / ((B - 1 : ℕ) : ℝ)

/-- The weighted mean of the scores. -/
theorem maskedMean_scores (X : Fin n → Ω → 𝒳) (b : 𝒳 → Bool) (S : Set 𝒳) (hb : ∀ x, b x = true ↔ x ∈ S) (y : 𝒳 → ℝ) (ω : Ω) :
    maskedMean (MetricLaw.rowsOf X b ω) (MetricLaw.rowsOf X y ω) = avg X (S.indicator y) id ω := by
  unfold maskedMean MetricLaw.rowsOf avg
  rw [List.length_ofFn]
  congr 1
  have : ∀ l : List 𝒳, (List.zipWith (fun t y => if t then y else 0) (l.map b) (l.map y)).sum = (l.map (S.indicator y)).sum := by
    intro l
    induction l with
    | nil => simp
    | cons a l ih =>
      simp only [List.map_cons, List.zipWith_cons_cons, List.sum_cons, ih]
      congr 1
      by_cases h : a ∈ S
      · simp [h, (hb a).2 h]
      · have : b a = false := by rw [Bool.eq_false_iff]; exact fun hh => h ((hb a).1 hh)
        simp [h, this]
  have h2 := this (List.ofFn fun i => X i ω)
  rw [List.map_ofFn, List.map_ofFn, List.map_ofFn, List.sum_ofFn] at h2
  exact h2

theorem entry (B nDims : ℕ) (minProbB : ℝ) (values scores : List (List ℝ)) (k c : ℕ) (hk : k < B) (hc : c < nDims) :
    ((oneShotCalibrate B nDims minProbB values scores).getD k []).getD c 0 = oneShotPatch B minProbB (bucket B k) c values scores := by
  unfold oneShotCalibrate linspace
  have hv' : (0 : ℝ) + (k : ℝ) * ((1 - 0) / ((B - 1 : ℕ) : ℝ)) = bucket B k := by unfold bucket; ring
  simp only [List.getD_eq_getElem?_getD, List.getElem?_map, List.getElem?_range hk, Option.map_some, Option.getD_some,
    List.getElem?_range hc, hv']

/-- The patch of a cell in terms of averages over the calibration rows. -/
theorem patch_avg (X : Fin n → Ω → 𝒳) (B : ℕ) (minProbB v : ℝ) (c : ℕ) (val sc : 𝒳 → List ℝ) (hval : ∀ x, val x ≠ []) (ω : Ω)
    (h : minProbB < share X (cell B val v c) ω) :
    oneShotPatch B minProbB v c (MetricLaw.rowsOf X val ω) (MetricLaw.rowsOf X sc ω) =
      avg X ((cell B val v c).indicator fun x => (sc x).getD c 0) id ω / share X (cell B val v c) ω := by
  have hb : (MetricLaw.rowsOf X val ω).map (oneShotB B v c) = MetricLaw.rowsOf X (fun x => oneShotB B v c (val x)) ω := by
    unfold MetricLaw.rowsOf; rw [List.map_ofFn]; rfl
  have hs : ∀ x, oneShotB B v c (val x) = true ↔ x ∈ cell B val v c := fun x => C57_cell B v c (val x) (hval x)
  have hcol : col (MetricLaw.rowsOf X sc ω) c = MetricLaw.rowsOf X (fun x => (sc x).getD c 0) ω := by
    unfold col MetricLaw.rowsOf; rw [List.map_ofFn]; rfl
  unfold oneShotPatch
  dsimp only
  rw [hb, hcol, PrecisionLaw.probB_rows X _ _ hs, maskedMean_scores X _ _ hs]
  exact if_pos h

section law
variable {X : Fin n → Ω → 𝒳} {Q : Measure 𝒳} {μ : Measure Ω} [IsProbabilityMeasure μ] (D : Draws X Q μ)
include D

/-- One cell. -/
theorem one_cell (hn : 0 < n) (S : Set 𝒳) (hS : MeasurableSet S) (s : 𝒳 → ℝ) (hsm : Measurable s) (hs : ∀ x, s x ∈ Set.Icc 0 1)
    (p ε : ℝ) (hp : 0 ≤ p) (hε : 0 ≤ ε) :
    μ.real {ω | p < share X S ω ∧ ε ≤ |avg X (S.indicator s) id ω / share X S ω - condMean Q S s|} ≤
      2 * Real.exp (-2 * n * (p * ε) ^ 2) := by
  have : Nonempty (Fin n) := ⟨⟨0, hn⟩⟩
  have hQ : IsProbabilityMeasure Q := prob_law D
  set m := condMean Q S s with hm
  have hsi : Integrable s Q := Integrable.of_mem_Icc 0 1 hsm.aemeasurable (Filter.Eventually.of_forall hs)
  have hI0 : 0 ≤ ∫ x in S, s x ∂Q := setIntegral_nonneg hS fun x _ => (hs x).1
  have hI1 : ∫ x in S, s x ∂Q ≤ Q.real S := by
    have h1 : ∫ x in S, s x ∂Q ≤ ∫ _x in S, (1 : ℝ) ∂Q :=
      setIntegral_mono_on hsi.integrableOn (integrable_const (1 : ℝ)).integrableOn hS fun x _ => (hs x).2
    simpa using h1
  have hm0 : 0 ≤ m := div_nonneg hI0 measureReal_nonneg
  have hm1 : m ≤ 1 := div_le_one_of_le₀ hI1 measureReal_nonneg
  have hmS : m * Q.real S = ∫ x in S, s x ∂Q := by
    rw [hm]; unfold condMean
    rcases eq_or_ne (Q.real S) 0 with h0 | h0
    · rw [h0, mul_zero]; rw [h0] at hI1; linarith
    · rw [div_mul_cancel₀ _ h0]
  set g : 𝒳 → ℝ := fun x => S.indicator s x - m * S.indicator 1 x with hg
  have hgm : Measurable g := (hsm.indicator hS).sub ((measurable_one.indicator hS).const_mul m)
  have hgb : ∀ x, g x ∈ Set.Icc (-m) (1 - m) := by
    intro x
    simp only [hg]
    by_cases hx : x ∈ S
    · have := hs x
      simp only [Set.indicator_of_mem hx, Pi.one_apply, mul_one]
      exact ⟨by linarith [this.1], by linarith [this.2]⟩
    · simp only [Set.indicator_of_notMem hx, mul_zero, sub_zero]
      exact ⟨by linarith, by linarith⟩
  have hint : ∫ x, g x ∂Q = 0 := by
    simp only [hg]
    have i2 : Integrable (S.indicator (1 : 𝒳 → ℝ)) Q := (integrable_const (1 : ℝ)).indicator hS
    rw [integral_sub (hsi.indicator hS) (i2.const_mul m), integral_const_mul, integral_indicator_one hS, integral_indicator hS, hmS,
      sub_self]
  have havg : ∀ ω, avg X g id ω = avg X (S.indicator s) id ω - m * share X S ω := by
    intro ω
    simp only [share, avg, hg, Finset.sum_sub_distrib, ← Finset.mul_sum]
    ring
  have hh := hoeffding D hn g hgm (-m) (1 - m) (by linarith) hgb (p * ε) (by positivity)
  rw [show (1 - m - -m) = 1 by ring, one_pow, div_one, hint] at hh
  refine le_trans (measureReal_mono ?_ (measure_ne_top _ _)) hh
  rintro ω ⟨h1, h2⟩
  simp only [Set.mem_ofPred_eq, sub_zero]
  have hpos : 0 < share X S ω := hp.trans_lt h1
  rw [havg]
  have e : avg X (S.indicator s) id ω - m * share X S ω = (avg X (S.indicator s) id ω / share X S ω - m) * share X S ω := by
    rw [sub_mul, div_mul_cancel₀ _ hpos.ne']
  rw [e, abs_mul, abs_of_pos hpos, mul_comm p ε]
  exact mul_le_mul h2 h1.le hp (abs_nonneg _)

/-- **C128.** Calibrate a one-shot multicalibrator on `n` independent rows with scores in [0,1]. Except with probability
`2 B D exp(-2 n (min_prob_b ε)²)`, all `B` times `D` patches of cells with more than `min_prob_b` of the calibration rows are within
`ε` of the expected score of a new row of the cell. -/
theorem C128_patches (hn : 0 < n) (B nDims : ℕ) (p ε : ℝ) (hp : 0 ≤ p) (hε : 0 ≤ ε) (val sc : 𝒳 → List ℝ) (hval : ∀ x, val x ≠ [])
    (hcell : ∀ v c, MeasurableSet (cell B val v c)) (hsm : ∀ c, Measurable fun x => (sc x).getD c 0)
    (hs : ∀ x c, (sc x).getD c 0 ∈ Set.Icc (0 : ℝ) 1) :
    μ.real {ω | ∃ k < B, ∃ c < nDims, p < share X (cell B val (bucket B k) c) ω ∧
      ε ≤ |((oneShotCalibrate B nDims p (MetricLaw.rowsOf X val ω) (MetricLaw.rowsOf X sc ω)).getD k []).getD c 0 -
        condMean Q (cell B val (bucket B k) c) fun x => (sc x).getD c 0|} ≤ B * nDims * (2 * Real.exp (-2 * n * (p * ε) ^ 2)) := by
  have hsub : {ω | ∃ k < B, ∃ c < nDims, p < share X (cell B val (bucket B k) c) ω ∧
      ε ≤ |((oneShotCalibrate B nDims p (MetricLaw.rowsOf X val ω) (MetricLaw.rowsOf X sc ω)).getD k []).getD c 0 -
        condMean Q (cell B val (bucket B k) c) fun x => (sc x).getD c 0|} ⊆
      ⋃ kc ∈ Finset.range B ×ˢ Finset.range nDims, {ω | p < share X (cell B val (bucket B kc.1) kc.2) ω ∧
        ε ≤ |avg X ((cell B val (bucket B kc.1) kc.2).indicator fun x => (sc x).getD kc.2 0) id ω /
          share X (cell B val (bucket B kc.1) kc.2) ω - condMean Q (cell B val (bucket B kc.1) kc.2) fun x => (sc x).getD kc.2 0|} := by
    rintro ω ⟨k, hk, c, hc, h1, h2⟩
    refine Set.mem_iUnion₂.2 ⟨(k, c), by simp [hk, hc], h1, ?_⟩
    rw [entry B nDims p _ _ k c hk hc, patch_avg X B p _ c val sc hval ω h1] at h2
    exact h2
  calc _ ≤ _ := measureReal_mono hsub (measure_ne_top _ _)
    _ ≤ _ := measureReal_biUnion_finset_le _ _
    _ ≤ ∑ _kc ∈ Finset.range B ×ˢ Finset.range nDims, 2 * Real.exp (-2 * n * (p * ε) ^ 2) :=
        Finset.sum_le_sum fun kc _ => one_cell D hn _ (hcell _ _) _ (hsm _) (fun x => hs x _) p ε hp hε
    _ = _ := by rw [Finset.sum_const, Finset.card_product, Finset.card_range, Finset.card_range, nsmul_eq_mul]; push_cast; ring

end law

theorem apply_length (B : ℕ) (patches values : List (List ℝ)) : (oneShotApply B patches values).length = values.length := by
  unfold oneShotApply
  dsimp only
  have inner : ∀ (v : ℝ) (cs : List ℕ) (cur : List (List ℝ)), cur.length = values.length →
      (cs.foldl (fun cur c => Verif.Multivalid.oneShotStep B patches values v c cur) cur).length = values.length := by
    intro v cs
    induction cs with
    | nil => exact fun _ h => h
    | cons c cs ih =>
      intro cur h
      exact ih _ (by unfold Verif.Multivalid.oneShotStep; simp [h])
  have outer : ∀ (vs : List ℝ) (cur : List (List ℝ)), cur.length = values.length →
      (vs.foldl (fun cur v => (List.range (values.headD []).length).foldl
        (fun cur c => Verif.Multivalid.oneShotStep B patches values v c cur) cur) cur).length = values.length := by
    intro vs
    induction vs with
    | nil => exact fun _ h => h
    | cons v vs ih => exact fun cur h => ih _ (inner v _ cur h)
  exact outer _ _ rfl

/-- **C128.** A new row of the cell of bucket `k` and class `c`, given on its own, gets exactly the patch of that cell for its class `c`, and
its other probabilities stay as they are. -/
theorem C128_applied (B d : ℕ) (hB : 0 < B) (patches : List (List ℝ)) (row : List ℝ) (hd : row.length = d) (hd0 : 0 < d)
    (k c : ℕ) (hk : k < B) (hcell : |row.getD c 0 - bucket B k| < 1 / (2 * (B : ℝ))) (hc : FirstMax row c) :
    oneShotApply B patches [row] = [row.set c ((patches.getD k []).getD c 0)] := by
  obtain ⟨c', u, k', hc', hu, hclose, hmax, hk', hnear, happ⟩ :=
    C57_apply_exact B d hB hd0 patches [row] (by simpa using hd) 0 row rfl
  have hne : row ≠ [] := by rintro rfl; simp at hd; omega
  have hcc : c' = c := by rw [← (argmax_iff row hne c').2 hc', ← (argmax_iff row hne c).2 hc]
  subst hcc
  have hB' : (0 : ℝ) < 1 / (2 * (B : ℝ)) := by positivity
  have hmem : row.getD c' 0 ∈ [row].flatten := by
    rw [List.getD_eq_getElem?_getD, List.getElem?_eq_getElem hc.1]
    simp
  have h1 : row.getD c' 0 ≤ u := hmax _ hmem (by rw [sub_self, abs_zero]; exact hB')
  have h2 : u ≤ row.getD c' 0 := by
    have : u ∈ row := by simpa using hu
    obtain ⟨j, hj⟩ := List.getElem?_of_mem this
    exact (hc.2 j u hj).1
  have hu' : u = row.getD c' 0 := le_antisymm h2 h1
  have hkk : k' = k := by
    by_contra hne
    have hB2 : 2 ≤ B := by omega
    have hpos : (0 : ℝ) < ((B - 1 : ℕ) : ℝ) := by exact_mod_cast (by omega : 0 < B - 1)
    have h3 := hnear k hk
    rw [hu'] at h3
    change |bucket B k' - row.getD c' 0| ≤ |bucket B k - row.getD c' 0| at h3
    rw [abs_sub_comm (bucket B k)] at h3
    have h4 : |bucket B k' - bucket B k| < 1 / (B : ℝ) := by
      calc |bucket B k' - bucket B k| = |(bucket B k' - row.getD c' 0) + (row.getD c' 0 - bucket B k)| := by ring_nf
        _ ≤ _ := abs_add_le _ _
        _ < 1 / (2 * (B : ℝ)) + 1 / (2 * (B : ℝ)) := by linarith
        _ = _ := by field_simp; norm_num
    have h5 : 1 / ((B - 1 : ℕ) : ℝ) ≤ |bucket B k' - bucket B k| := by
      unfold bucket
      rw [← sub_div, abs_div, abs_of_pos hpos]
      refine div_le_div_of_nonneg_right ?_ hpos.le
      have : (1 : ℤ) ≤ |(k' : ℤ) - (k : ℤ)| := Int.one_le_abs (by omega)
      exact_mod_cast this
    have h6 : 1 / (B : ℝ) ≤ 1 / ((B - 1 : ℕ) : ℝ) := one_div_le_one_div_of_le hpos (by exact_mod_cast Nat.sub_le B 1)
    linarith
  subst hkk
  have hlen : (oneShotApply B patches [row]).length = 1 := apply_length B patches [row]
  match hh : oneShotApply B patches [row], hlen with
  | [r], _ => rw [hh] at happ; simpa using happ

/-- **C128.** Calibration of a new row: let a cell's patch be within `ε` of the expected score (as C128_patches says of all cells with enough
calibration rows). Then the score of a new row of the cell differs from the probability it is given by at most `ε` on average. For the
top-label method the score is 1 if the class is right: among the rows of the cell the class is right as often as the calibrated
probability says, up to `ε`. -/
theorem C128_calibrated (Q : Measure 𝒳) [IsProbabilityMeasure Q] (S : Set 𝒳) (hS : MeasurableSet S) (s : 𝒳 → ℝ) (hsm : Measurable s)
    (hs : ∀ x, s x ∈ Set.Icc (0 : ℝ) 1) (patch ε : ℝ) (h : |patch - condMean Q S s| ≤ ε) :
    |∫ x in S, (s x - patch) ∂Q| ≤ ε * Q.real S := by
  have hsi : Integrable s Q := Integrable.of_mem_Icc 0 1 hsm.aemeasurable (Filter.Eventually.of_forall hs)
  rw [integral_sub hsi.integrableOn (integrable_const _).integrableOn, setIntegral_const, smul_eq_mul]
  rcases eq_or_ne (Q.real S) 0 with h0 | h0
  · have : ∫ x in S, s x ∂Q = 0 := setIntegral_measure_zero _ ((measureReal_eq_zero_iff (measure_ne_top _ _)).1 h0)
    rw [this, h0]; simp
  · have e : ∫ x in S, s x ∂Q = condMean Q S s * Q.real S := by unfold condMean; rw [div_mul_cancel₀ _ h0]
    rw [e, mul_comm (Q.real S), ← sub_mul, abs_mul, abs_of_nonneg (measureReal_nonneg (μ := Q) (s := S)), abs_sub_comm]
    exact mul_le_mul_of_nonneg_right h measureReal_nonneg

/-- **C128 (false).** Not every row counts in the calibration: buckets are `1/(B-1)` apart but cells only `1/B` wide, so that for every
`B ≥ 2` there are probabilities in no cell, which calibration ignores, and which are nevertheless replaced by a patch. With two buckets
these are all probabilities from 1/4 to 3/4. -/
theorem C128_gap_false :
    (∀ B : ℕ, 2 ≤ B → ∃ p : ℝ, 0 < p ∧ p < 1 ∧ ∀ k < B, ¬ |p - bucket B k| < 1 / (2 * (B : ℝ))) ∧
    (∀ p : ℝ, 1 / 4 ≤ p → p ≤ 3 / 4 → ∀ k < 2, ¬ |p - bucket 2 k| < 1 / (2 * (2 : ℝ))) ∧
    (∀ p : ℝ, ∃ q : ℝ, oneShotApply 2 [[0], [1]] [[p]] = [[q]] ∧ (q = 0 ∨ q = 1)) := by
  have half : ∀ B : ℕ, 2 ≤ B → ∀ k : ℕ, k < B → 1 / (2 * (B : ℝ)) ≤ |1 / (2 * ((B - 1 : ℕ) : ℝ)) - bucket B k| := by
    intro B hB k hk
    have hpos : (0 : ℝ) < ((B - 1 : ℕ) : ℝ) := by exact_mod_cast (by omega : 0 < B - 1)
    have e : 1 / (2 * ((B - 1 : ℕ) : ℝ)) - bucket B k = (1 - 2 * (k : ℝ)) / (2 * ((B - 1 : ℕ) : ℝ)) := by
      unfold bucket; field_simp
    rw [e, abs_div, abs_of_pos (by positivity : (0 : ℝ) < 2 * ((B - 1 : ℕ) : ℝ))]
    have h1 : (1 : ℝ) ≤ |1 - 2 * (k : ℝ)| := by
      have : (1 : ℤ) ≤ |1 - 2 * (k : ℤ)| := Int.one_le_abs (by omega)
      exact_mod_cast this
    have h2 : ((B - 1 : ℕ) : ℝ) ≤ B := by exact_mod_cast Nat.sub_le B 1
    exact div_le_div₀ (by positivity) h1 (by positivity) (by linarith)
  refine ⟨fun B hB => ?_, fun p h1 h2 k hk h => ?_, fun p => ?_⟩
  · rcases Nat.lt_or_ge 2 B with h | h
    · have h2 : (2 : ℝ) ≤ ((B - 1 : ℕ) : ℝ) := by exact_mod_cast (by omega : 2 ≤ B - 1)
      refine ⟨1 / (2 * ((B - 1 : ℕ) : ℝ)), by positivity, ?_, fun k hk => not_lt.2 (half B hB k hk)⟩
      rw [div_lt_one (by positivity)]; linarith
    · have hB2 : B = 2 := by omega
      subst hB2
      exact ⟨1 / (2 * ((2 - 1 : ℕ) : ℝ)), by norm_num, by norm_num, fun k hk => not_lt.2 (half 2 le_rfl k hk)⟩
  · rw [abs_lt] at h
    have : k = 0 ∨ k = 1 := by omega
    rcases this with rfl | rfl <;> norm_num [bucket] at h <;> linarith [h.1, h.2]
  · obtain ⟨c, u, k, hc, -, -, -, hk, -, happ⟩ := C57_apply_exact 2 1 two_pos one_pos [[(0 : ℝ)], [1]] [[p]] (by simp) 0 [p] rfl
    have hc0 : c = 0 := by have := hc.1; simpa using this
    subst hc0
    have hlen : (oneShotApply 2 [[(0 : ℝ)], [1]] [[p]]).length = 1 := apply_length 2 _ [[p]]
    match hh : oneShotApply 2 [[(0 : ℝ)], [1]] [[p]], hlen with
    | [r], _ =>
      rw [hh] at happ
      have h01 : k = 0 ∨ k = 1 := by omega
      rcases h01 with rfl | rfl
      · exact ⟨0, by simpa using happ, Or.inl rfl⟩
      · exact ⟨1, by simpa using happ, Or.inr rfl⟩

/-! ## Examples -/

/-- 100 buckets, 10 classes, `min_prob_b` 1/1000 (the automatic one), `ε = 1/10`: with a billion rows the bound is below 1/1000, with a
million it says nothing. -/
example : (100 : ℝ) * 10 * (2 * Real.exp (-2 * 1000000000 * (1 / 1000 * (1 / 10)) ^ 2)) < 1 / 1000 ∧
    1 < (100 : ℝ) * 10 * (2 * Real.exp (-2 * 1000000 * (1 / 1000 * (1 / 10)) ^ 2)) := by
  constructor
  · have h : Real.exp (-2 * 1000000000 * (1 / 1000 * (1 / 10)) ^ 2) = (Real.exp (-1)) ^ 20 := by
      rw [← Real.exp_nat_mul]; norm_num
    have h2 : Real.exp (-1) ^ 20 < (37 / 100) ^ 20 := by
      have h3 : Real.exp (-1) < 37 / 100 := by
        have := Real.exp_one_gt_d9
        rw [Real.exp_neg, inv_lt_comm₀ (Real.exp_pos 1) (by norm_num)]
        norm_num
        linarith
      exact pow_lt_pow_left₀ h3 (Real.exp_pos _).le (by norm_num)
    rw [h]
    have h4 : (37 / 100 : ℝ) ^ 20 < 1 / 10000000 := by norm_num
    linarith
  · have h := Real.add_one_le_exp (-2 * 1000000 * (1 / 1000 * (1 / 10)) ^ 2 : ℝ)
    have e : (-2 * 1000000 * (1 / 1000 * (1 / 10)) ^ 2 : ℝ) = -1 / 50 := by norm_num
    rw [e] at h ⊢
    linarith

/-- A row with probabilities `(1/4, 3/4)`, 4 buckets: class 1 is first, 3/4 is within 1/8 of bucket 2/3. -/
example : FirstMax ([1 / 4, 3 / 4] : List ℚ) 1 ∧ |(3 / 4 : ℚ) - 2 / 3| < 1 / (2 * 4) := by
  refine ⟨⟨by simp, fun j y hy => ?_⟩, by norm_num [abs_lt]⟩
  match j, hy with
  | 0, hy => simp at hy; subst hy; norm_num
  | 1, hy => simp at hy; subst hy; norm_num

/-! ### Concrete cases that meet the hypotheses of the theorems above -/

theorem exDraws (n : ℕ) : Draws (fun (i : Fin n) (ω : Fin n → Bool) => ω i) (Measure.dirac true) (Measure.pi fun _ => Measure.dirac true) where
  meas i := measurable_pi_apply i
  indep := iIndepFun_pi (X := fun _ x => x) fun _ => aemeasurable_id
  law i := (measurePreserving_eval (fun _ => Measure.dirac true) i).map_eq

example := C128_patches (exDraws 1000) (by norm_num) 100 2 (1 / 10) (1 / 10) (by norm_num) (by norm_num) (fun b => if b then [3 / 4, 1 / 4] else [1 / 4, 3 / 4])
  (fun b => if b then [1, 0] else [0, 1]) (by intro b; cases b <;> simp) (fun _ _ => Set.Finite.measurableSet (Set.toFinite _)) (fun _ => measurable_of_finite _)
  (by
    intro b c
    cases b <;> rcases c with _ | _ | c <;> simp)
example := C128_applied 4 2 (by norm_num) [[1, 0], [1, 0], [1 / 2, 3 / 5], [1, 1]] [1 / 4, 3 / 4] rfl (by norm_num) 2 1 (by norm_num)
  (by rw [bucket, abs_lt]; norm_num) ⟨by simp, fun j y hy => by
    match j, hy with
    | 0, hy => simp at hy; subst hy; norm_num
    | 1, hy => simp at hy; subst hy; norm_num⟩
example := C128_calibrated (Measure.dirac true) {true} (measurableSet_singleton true) (fun b => if b then 1 else 0) (measurable_of_finite _)
  (by intro b; cases b <;> simp) (9 / 10) (1 / 10) (by
    have : condMean (Measure.dirac true) {true} (fun b => if b then (1 : ℝ) else 0) = 1 := by
      simp [condMean, Measure.real]
    rw [this, abs_le]
    norm_num)

end Verif.Props.OneShotLaw
