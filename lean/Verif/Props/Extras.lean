import Verif.Props.AdaptiveConformal
import Verif.Props.ConformalClassification
import Verif.Props.MaxCoverage
import Verif.Props.MultivalidMore
import Verif.Props.Loader
import Verif.Props.NestedDict
import Verif.Props.Calibration

/-!
# Further statements about functions modelled elsewhere

The weighted online loop (C06), the simple score (C01), reported precision and coverage (C08), BatchMVP errors and
losses (C56, C58), bucket types (C20), targets loaders (C21), concatenated loaders (C25), several updates (C60), the
temperature loss (C52).
-/
set_option linter.unusedSectionVars false

namespace Verif.Props

/-! ## C06: the weighted loop -/

section adaptive
open Verif.AdaptiveConformal

/-- **C06, weighted loop.** Passing the returned history back, with ascending weights which sum to one and are one
longer at every step, the loop never raises, the level stays in [0, 1] and the history is exactly the sequence of
outcomes so far. -/
theorem C06_weighted_run (g τ : ℚ) (hg : 0 < g) (l : List (Bool × List ℚ)) (e : ℚ) (hist : List ℚ)
    (he : 0 ≤ e ∧ e ≤ 1) (hb : ∀ x ∈ hist, x = 0 ∨ x = 1)
    (hw : ∀ (k : ℕ) (t : Bool × List ℚ), l[k]? = some t → badWeights t.2 = false ∧ t.2.length = hist.length + k + 1) :
    ∃ e', runWeighted g τ e hist l = .ok (e', hist ++ l.map fun t => if t.1 then 1 else 0) ∧ 0 ≤ e' ∧ e' ≤ 1 := by
  induction l generalizing e hist with
  | nil => exact ⟨e, by simp [runWeighted], he⟩
  | cons t l ih =>
    obtain ⟨b, w⟩ := t
    obtain ⟨hw1, hw2⟩ := hw 0 (b, w) rfl
    have hany : hist.any (fun x => decide (x ≠ 0 ∧ x ≠ 1)) = false := by
      rw [List.any_eq_false]
      intro x hx
      rcases hb x hx with h | h <;> simp [h]
    have hup : ∃ r, updateError b e g τ (some w) (some hist) = .ok r := by
      unfold updateError
      rw [if_neg (not_le.2 hg)]
      simp only [hw1, hany, Bool.false_eq_true, if_false]
      rw [if_neg (by simp at hw2; omega)]
      exact ⟨_, rfl⟩
    obtain ⟨r, hr⟩ := hup
    have hr01 : 0 ≤ r ∧ r ≤ 1 := by
      rw [(C06_weighted_update b e g τ r w hist he hr).1]
      exact ⟨le_max_left _ _, max_le zero_le_one (min_le_left _ _)⟩
    obtain ⟨e', h1, h2⟩ := ih r (updatedWereIn b (some hist)) hr01 (by
        intro x hx
        simp only [updatedWereIn, Option.getD_some, List.mem_append, List.mem_singleton] at hx
        rcases hx with hx | rfl
        · exact hb x hx
        · cases b <;> simp) (by
        intro k t ht
        obtain ⟨a1, a2⟩ := hw (k + 1) t (by simpa using ht)
        refine ⟨a1, ?_⟩
        simp only [updatedWereIn, Option.getD_some, List.length_append, List.length_singleton]
        omega)
    refine ⟨e', ?_, h2⟩
    rw [runWeighted, hr]
    simp only
    rw [h1]
    simp [updatedWereIn]

example : runWeighted (1 / 10) (1 / 5) (1 / 2) [] [(true, [1]), (false, [1 / 4, 3 / 4])] =
    .ok (1 / 2 + 1 / 50 + 1 / 10 * (1 / 5 - 3 / 4), [1, 0]) := by decide +kernel

/-- **C06, weighted loop, converse.** A weight vector whose length is not the history's plus one is refused. -/
theorem C06_weighted_length (g τ e : ℚ) (b : Bool) (w hist : List ℚ) (h : w.length ≠ hist.length + 1) (r : ℚ) :
    updateError b e g τ (some w) (some hist) ≠ .ok r := by
  unfold updateError
  split
  · simp
  simp only
  split_ifs with h1 h2 h3
  all_goals first | omega | simp

end adaptive

/-! ## C01: the simple score -/

section simple
open Verif.ConformalClassification

/-- **C01, simple score.** With one in-range target per validation row, label `j` of a test row is in the set exactly
when the number of validation rows whose *target* probability is below the probability of `j` is less than
`(1 - error) (n + 1)`. -/
theorem C01_simple (valProbs : List (List ℚ)) (valTargets : List ℕ) (hl : valProbs.length = valTargets.length)
    (ht : ∀ t ∈ valProbs.zip valTargets, t.2 < t.1.length) (testProbs : List (List ℚ)) (e : ℚ) (i : ℕ)
    (row : List ℚ) (hrow : testProbs[i]? = some row) :
    ∃ S : List ℕ, (simpleConformalSet valProbs valTargets testProbs e)[i]? = some (some S) ∧ S.Pairwise (· < ·) ∧
      ∀ j, j ∈ S ↔ ∃ p, row[j]? = some p ∧
        (((valProbs.zip valTargets).countP fun t => decide (t.1.getD t.2 0 < p) : ℕ) : ℚ) <
          (1 - e) * (valProbs.length + 1) := by
  obtain ⟨S, h1, h2, h3⟩ := (C01_conformal_sets_exact (simpleValScores valProbs valTargets)
    (simpleTestScores testProbs) e).2 i (row.map (1 - ·)) (by simp [simpleTestScores, hrow])
  have hval : simpleValScores valProbs valTargets = (valProbs.zip valTargets).map fun t => 1 - t.1.getD t.2 0 := by
    unfold simpleValScores
    rw [← List.filterMap_eq_map]
    apply List.filterMap_congr
    intro t htm
    have := ht t htm
    simp [simpleScore, List.getElem?_eq_getElem this]
  have hlen : (simpleValScores valProbs valTargets).length = valProbs.length := by
    rw [hval]; simp [hl]
  have hcnt : ∀ p : ℚ, numAbove (simpleValScores valProbs valTargets) (1 - p) =
      (valProbs.zip valTargets).countP fun t => decide (t.1.getD t.2 0 < p) := by
    intro p
    rw [numAbove_eq, hval, List.countP_map]
    apply List.countP_congr
    intro t _
    simp
  refine ⟨S, h1, h2, fun j => ?_⟩
  rw [h3 j, hlen]
  constructor
  · rintro ⟨t, ht1, ht2⟩
    rw [List.getElem?_map, Option.map_eq_some_iff] at ht1
    obtain ⟨p, hp, rfl⟩ := ht1
    exact ⟨p, hp, by rw [← hcnt p]; exact ht2⟩
  · rintro ⟨p, hp, hlt⟩
    exact ⟨1 - p, by simp [hp], by rw [hcnt p]; exact hlt⟩

example : simpleConformalSet [[1 / 2, 1 / 2], [1 / 4, 3 / 4]] [0, 1] [[1 / 3, 2 / 3]] (1 / 2) = [some [0, 1]] ∧
    simpleConformalSet [[1 / 2, 1 / 2], [1 / 4, 3 / 4]] [0, 1] [[1 / 3, 2 / 3]] (2 / 3) = [some [0]] := by
  decide +kernel

end simple

/-! ## C08: the reported metrics -/

section maxcov
open Verif.MaxCoverage Verif.ArrayOps
open Verif.Multivalid (probB maskedMean)

variable {K : Type*} [Field K] [LinearOrder K] [IsStrictOrderedRing K]

theorem precision_eq (cov : K → Bool) (probs targets : List K) (hl : targets.length = probs.length)
    (hpos : 0 < probs.countP cov) :
    probB (K := K) (probs.map cov) ≠ 0 ∧
      maskedMean (probs.map cov) targets / probB (probs.map cov) = mean (coveredTargets cov probs targets) := by
  have hc : 0 < (probs.map cov).count true := by rw [count_map_cov]; exact hpos
  exact ⟨((probB_pos_iff (K := K) _).2 hc).ne', by
    rw [maskedMean_div_probB _ _ (by simpa using hl) hc, selected_eq_covered]⟩

/-- **C08, reported metrics.** `true_positive_precision` is the mean target among the probabilities that reach the
threshold (NaN without any), `true_negative_precision` the mean of `1 - target` among those at most `1 - threshold`,
`true_positive_coverage` the fraction that reaches the threshold. -/
theorem C08_metrics (probs targets : List K) (thr : K) (hl : targets.length = probs.length) :
    truePositiveCoverage probs thr = ((probs.countP fun p => decide (thr ≤ p) : ℕ) : K) / (probs.length : K) ∧
    (∀ m, truePositivePrecision probs targets thr = some m ↔
      (0 < probs.countP fun p => decide (thr ≤ p)) ∧ m = mean (coveredTargets (fun p => decide (thr ≤ p)) probs targets)) ∧
    (∀ m, trueNegativePrecision probs targets thr = some m ↔
      (0 < probs.countP fun p => decide (p ≤ 1 - thr)) ∧
        m = mean (coveredTargets (fun p => decide (p ≤ 1 - thr)) probs (targets.map fun y => 1 - y))) := by
  have zero : ∀ cov : K → Bool, ¬ 0 < probs.countP cov → probB (K := K) (probs.map cov) = 0 := by
    intro cov h
    have h0 : probs.countP cov = 0 := by omega
    unfold probB
    rw [count_map_cov, h0]; simp
  refine ⟨?_, ?_, ?_⟩
  · unfold truePositiveCoverage probB
    rw [count_map_cov, List.length_map]
  · intro m
    unfold truePositivePrecision
    dsimp only
    by_cases hpos : 0 < probs.countP fun p => decide (thr ≤ p)
    · obtain ⟨h1, h2⟩ := precision_eq _ probs targets hl hpos
      rw [if_neg h1, h2]
      simp only [Option.some.injEq, hpos, true_and]
      exact eq_comm
    · rw [if_pos (zero _ hpos)]
      simp [hpos]
  · intro m
    unfold trueNegativePrecision
    dsimp only
    by_cases hpos : 0 < probs.countP fun p => decide (p ≤ 1 - thr)
    · obtain ⟨h1, h2⟩ := precision_eq _ probs (targets.map fun y => 1 - y) (by simpa using hl) hpos
      rw [if_neg h1, h2]
      simp only [Option.some.injEq, hpos, true_and]
      exact eq_comm
    · rw [if_pos (zero _ hpos)]
      simp [hpos]

/-- **C08, reported.** If some scale of the grid reaches threshold + margin, then the precision that
`true_positive_precision` reports on the patched calibration probabilities reaches it, and the reported
coverage is at least that of every such scale. -/
theorem C08_reported (targets probs : List K) (tp tn : K) (nTaus : ℕ) (margin : K) (t : Patches K)
    (hl : targets.length = probs.length) (hp : ∀ p ∈ probs, 0 ≤ p ∧ p ≤ 1)
    (h : calibrate targets probs tp tn nTaus margin = .ok t)
    (hex : ∃ tau ∈ tausPos tp nTaus, ∃ m, truePositivePrecision (scalePos tau probs) targets tp = some m ∧
      tp + margin ≤ m) :
    (∃ m, truePositivePrecision (applyPatches (some t) probs) targets tp = some m ∧ tp + margin ≤ m) ∧
    ∀ tau ∈ tausPos tp nTaus, ∀ m, truePositivePrecision (scalePos tau probs) targets tp = some m → tp + margin ≤ m →
      truePositiveCoverage (scalePos tau probs) tp ≤ truePositiveCoverage (applyPatches (some t) probs) tp := by
  have hls : ∀ tau, targets.length = (scalePos tau probs).length := fun tau => by simpa [scalePos] using hl
  have hla : targets.length = (applyPatches (some t) probs).length := by simpa [applyPatches] using hl
  have hq : ∀ tau m, truePositivePrecision (scalePos tau probs) targets tp = some m → tp + margin ≤ m →
      Qualifies (fun p => decide (tp ≤ p)) (tp + margin) (scalePos tau probs) targets := by
    intro tau m hm hle
    obtain ⟨h1, h2⟩ := ((C08_metrics _ _ tp (hls tau)).2.1 m).1 hm
    exact ⟨h1, h2 ▸ hle⟩
  rcases C08_positive targets probs tp tn nTaus margin t hl hp h with ⟨⟨h1, h2⟩, h3⟩ | ⟨h1, -⟩
  · refine ⟨⟨_, ((C08_metrics _ _ tp hla).2.1 _).2 ⟨h1, rfl⟩, h2⟩, ?_⟩
    intro tau htau m hm hle
    have hc := h3 tau htau (hq tau m hm hle)
    rw [(C08_metrics _ _ tp (hls tau)).1, (C08_metrics _ _ tp hla).1, ← hls tau, ← hla]
    exact div_le_div_of_nonneg_right (by exact_mod_cast hc) (Nat.cast_nonneg _)
  · obtain ⟨tau, htau, m, hm, hle⟩ := hex
    exact absurd (hq tau m hm hle) (h1 tau htau)

example : truePositivePrecision (K := ℚ) (applyPatches (some ⟨5 / 4, 1⟩) [3 / 5, 4 / 5, 1 / 10]) [1, 1, 0] (3 / 4) =
    some 1 ∧ truePositiveCoverage (K := ℚ) (applyPatches (some ⟨5 / 4, 1⟩) [3 / 5, 4 / 5, 1 / 10]) (3 / 4) = 2 / 3 := by
  decide +kernel

end maxcov

/-! ## C20: bucket types -/

section multivalid
open Verif.Multivalid Verif.ArrayOps

variable {K : Type*} [Field K] [LinearOrder K] [IsStrictOrderedRing K]

/-- **C20.** The searched bucket types are exactly the requested ones, each once, whatever the order or the repetitions in
which they are given. -/
theorem C20_bucket_types (types : List String) :
    (bucketTypeIndices types).Pairwise (· < ·) ∧
    (0 ∈ bucketTypeIndices types ↔ "=" ∈ types) ∧ (1 ∈ bucketTypeIndices types ↔ ">=" ∈ types) ∧
    (2 ∈ bucketTypeIndices types ↔ "<=" ∈ types) ∧ ∀ i ∈ bucketTypeIndices types, i < 3 := by
  unfold bucketTypeIndices
  by_cases h1 : "=" ∈ types <;> by_cases h2 : ">=" ∈ types <;> by_cases h3 : "<=" ∈ types <;> simp [h1, h2, h3]

example : bucketTypeIndices ["<=", "=", "<="] = [0, 2] := by decide

/-! ## C56, C58: BatchMVP -/

/-- Fraction of the selected rows whose score is at most the value. -/
def cellCoverage (b : List Bool) (values scores : List K) : K :=
  ((((b.zip (values.zip scores)).filter fun t => t.1).countP fun t => decide (t.2.2 ≤ t.2.1) : ℕ) : K) /
    ((b.count true : ℕ) : K)

theorem selected_indicator (b : List Bool) (values scores : List K) :
    (selected b (List.zipWith (fun s v => if s ≤ v + 0 then (1 : K) else 0) scores values)).sum =
      (((b.zip (values.zip scores)).filter fun t => t.1).countP fun t => decide (t.2.2 ≤ t.2.1) : ℕ) := by
  induction b generalizing values scores with
  | nil => simp [selected]
  | cons t b ih =>
    cases values with
    | nil => simp [selected]
    | cons v values =>
      cases scores with
      | nil => simp [selected]
      | cons s scores =>
        have := ih values scores
        unfold selected at this ⊢
        cases t
        · simpa using this
        · by_cases hsv : s ≤ v
          · simp [hsv] at this ⊢
            rw [this]; ring
          · simp [hsv] at this ⊢
            rw [this]

theorem mvpProb_zero (b : List Bool) (values scores : List K) (hv : values.length = b.length)
    (hs : scores.length = b.length) : mvpProb b values scores 0 = cellCoverage b values scores := by
  unfold mvpProb
  split
  · next hp =>
    have hpos := (probB_pos_iff (K := K) b).1 hp
    rw [maskedMean_div_probB _ _ (by simp [hv, hs]) hpos]
    unfold mean cellCoverage
    rw [selected_indicator, selected_length _ _ (by simp [hv, hs])]
  · next hp =>
    have h0 : b.count true = 0 := by
      by_contra hc
      exact hp ((probB_pos_iff (K := K) b).2 (by omega))
    unfold cellCoverage
    rw [h0]; simp

theorem cellCoverage_mem (b : List Bool) (values scores : List K) :
    0 ≤ cellCoverage (K := K) b values scores ∧ cellCoverage (K := K) b values scores ≤ 1 := by
  unfold cellCoverage
  refine ⟨by positivity, ?_⟩
  apply div_le_one_of_le₀ _ (Nat.cast_nonneg _)
  rw [Nat.cast_le]
  refine List.countP_le_length.trans ?_
  induction b generalizing values scores with
  | nil => simp
  | cons t b ih =>
    cases hz : values.zip scores with
    | nil => simp
    | cons p l =>
      have hl : l = (l.map Prod.fst).zip (l.map Prod.snd) := by
        rw [List.zip_map']; simp
      have := ih (l.map Prod.fst) (l.map Prod.snd)
      rw [← hl] at this
      cases t <;> simp at this ⊢ <;> omega

/-- **C58, error of a cell.** The error is the share of the cell times the squared distance between the target coverage
and the fraction of its rows with score at most the threshold; it is in [0, share], and zero exactly for an empty cell or a
cell with the target coverage. -/
theorem C58_cell_error (coverage : K) (h0 : 0 ≤ coverage) (h1 : coverage ≤ 1) (b : List Bool) (c : ℕ)
    (values scores : List (List K)) (hv : values.length = b.length) (hs : scores.length = b.length) :
    mvpErr coverage b c values scores = probB b * (coverage - cellCoverage b (col values c) (col scores c)) ^ 2 ∧
    0 ≤ mvpErr coverage b c values scores ∧ mvpErr coverage b c values scores ≤ probB b ∧
    (mvpErr coverage b c values scores = 0 ↔ b.count true = 0 ∨ cellCoverage b (col values c) (col scores c) = coverage) := by
  have e : mvpErr coverage b c values scores = probB b * (coverage - cellCoverage b (col values c) (col scores c)) ^ 2 := by
    unfold mvpErr
    rw [mvpProb_zero _ _ _ (by simp [col, hv]) (by simp [col, hs])]
  have hp : (0 : K) ≤ probB b := by unfold probB; positivity
  obtain ⟨c0, c1⟩ := cellCoverage_mem b (col values c) (col scores c)
  refine ⟨e, by rw [e]; positivity, ?_, ?_⟩
  · rw [e]
    have : (coverage - cellCoverage b (col values c) (col scores c)) ^ 2 ≤ 1 := by
      rw [sq_le_one_iff_abs_le_one, abs_le]
      constructor <;> linarith
    nlinarith
  · rw [e, mul_eq_zero, pow_eq_zero_iff (by norm_num), sub_eq_zero]
    apply or_congr
    · constructor
      · intro h
        by_contra hc
        exact ((probB_pos_iff (K := K) b).2 (by omega)).ne' h
      · intro h; unfold probB; rw [h]; simp
    · exact eq_comm

example : mvpErr (K := ℚ) (1 / 2) [true, false, true, true] 0 [[1], [0], [0], [0]] [[1 / 2], [1], [3 / 4], [1]] =
    3 / 4 * (1 / 2 - 1 / 3) ^ 2 := by decide +kernel

/-- **C56, BatchMVP.** `calibration_error` of BatchMVP is in [0, 1]. -/
theorem C56_batch_mvp_range (coverage : K) (h0 : 0 ≤ coverage) (h1 : coverage ≤ 1) (nBuckets : ℕ) (d : Data K) (g c : ℕ)
    (hg : d.groups.length = d.values.length) (hsl : d.scores.length = d.values.length) (e : K)
    (he : calibrationError (batchMVP coverage nBuckets) nBuckets d g c = some e) : 0 ≤ e ∧ e ≤ 1 := by
  unfold calibrationError at he
  dsimp only at he
  split at he
  · cases he
  next hpg =>
  injection he with he
  have hlenb : ∀ v, (getBs nBuckets 0 g v c d.groups d.values).length = d.values.length := by
    intro v; simp [getBs, hg]
  have hpgnn : (0 : K) ≤ probB (d.groups.map fun r => r.getD g false) := by unfold probB; positivity
  have hpgpos : (0 : K) < probB (d.groups.map fun r => r.getD g false) := lt_of_le_of_ne hpgnn (Ne.symm hpg)
  have cell := fun v => C58_cell_error coverage h0 h1 (getBs nBuckets 0 g v c d.groups d.values) c d.values d.scores
    (hlenb v).symm (by rw [hlenb v, hsl])
  have hsum1 : 0 ≤ ((linspace (0 : K) 1 nBuckets).map fun v =>
      (batchMVP coverage nBuckets).calibErr (getBs nBuckets 0 g v c d.groups d.values) c d.values d.scores).sum := by
    apply List.sum_nonneg
    intro y hy
    rw [List.mem_map] at hy
    obtain ⟨v, _, rfl⟩ := hy
    exact (cell v).2.1
  have hsum2 : ((linspace (0 : K) 1 nBuckets).map fun v =>
      (batchMVP coverage nBuckets).calibErr (getBs nBuckets 0 g v c d.groups d.values) c d.values d.scores).sum ≤
      probB (d.groups.map fun r => r.getD g false) := by
    have a1 : ((linspace (0 : K) 1 nBuckets).map fun v =>
      (batchMVP coverage nBuckets).calibErr (getBs nBuckets 0 g v c d.groups d.values) c d.values d.scores).sum ≤
      ((linspace (0 : K) 1 nBuckets).map fun v =>
        (((getBs nBuckets 0 g v c d.groups d.values).count true : ℕ) : K) * (1 / (d.values.length : K))).sum := by
      apply List.sum_le_sum
      intro v _
      refine (cell v).2.2.1.trans (le_of_eq ?_)
      unfold probB; rw [hlenb v]; ring
    have a2 : ((linspace (0 : K) 1 nBuckets).map fun v =>
        (((getBs nBuckets 0 g v c d.groups d.values).count true : ℕ) : K) * (1 / (d.values.length : K))).sum =
        ((((linspace (0 : K) 1 nBuckets).map fun v =>
          (getBs nBuckets 0 g v c d.groups d.values).count true).sum : ℕ) : K) * (1 / (d.values.length : K)) := by
      rw [List.sum_map_mul_right, Nat.cast_list_sum, List.map_map]
      rfl
    have a3 := sum_cells_le nBuckets g c (linspace (0 : K) 1 nBuckets) (linspace_unit_gap nBuckets) d.groups d.values hg
    rw [a2] at a1
    refine a1.trans ?_
    unfold probB
    rw [List.length_map, hg, mul_one_div]
    exact div_le_div_of_nonneg_right (by exact_mod_cast a3) (Nat.cast_nonneg _)
  rw [← he]
  exact ⟨div_nonneg hsum1 hpgpos.le, (div_le_one hpgpos).2 hsum2⟩

example : calibrationError (K := ℚ) (batchMVP (1 / 2) 2) 2 ⟨[[true], [true]], [[0], [1]], [[1 / 2], [1 / 2]]⟩ 0 0 =
    some (1 / 4) := by decide +kernel

/-- One term of the pinball loss at level `c`, threshold `v`, score `s`. -/
def pinTerm (c v s : K) : K := if s > v then c * (s - v) else (1 - c) * (v - s)

theorem pinTerm_subgradient_up (c v w s : K) (h : v ≤ w) :
    (w - v) * ((if s ≤ v then 1 else 0) - c) ≤ pinTerm c w s - pinTerm c v s := by
  unfold pinTerm
  by_cases h1 : s ≤ v
  · rw [if_pos h1, if_neg (not_lt.2 (h1.trans h)), if_neg (not_lt.2 h1)]
    linarith [mul_comm (w - v) (1 - c)]
  · rw [if_neg h1, if_pos (not_le.1 h1)]
    by_cases h2 : s > w
    · rw [if_pos h2]; nlinarith
    · rw [if_neg h2]; nlinarith [not_lt.1 h2, not_le.1 h1]

theorem pinTerm_subgradient_down (c v w s : K) (h : w ≤ v) :
    (w - v) * ((if s < v then 1 else 0) - c) ≤ pinTerm c w s - pinTerm c v s := by
  unfold pinTerm
  by_cases h1 : s < v
  · rw [if_pos h1, if_neg (not_lt.2 h1.le)]
    by_cases h2 : s > w
    · rw [if_pos h2]; nlinarith
    · rw [if_neg h2]; nlinarith
  · rw [if_neg h1]
    by_cases h3 : s > v
    · rw [if_pos h3, if_pos (lt_of_le_of_lt h h3)]; nlinarith
    · have h4 : s = v := le_antisymm (not_lt.1 h3) (not_lt.1 h1)
      subst h4
      rw [if_neg h3]
      rcases h.lt_or_eq with h5 | h5
      · rw [if_pos h5]; nlinarith
      · subst h5; rw [if_neg (lt_irrefl _)]; nlinarith

theorem pinball_eq (c : K) (rows : List (K × K)) (hne : rows ≠ []) (shift : K) :
    pinball c (rows.map fun r => [r.1 + shift]) (rows.map fun r => [r.2]) =
      some ((rows.map fun r => pinTerm c (r.1 + shift) r.2).sum / (rows.length : K)) := by
  have key : ∀ rows : List (K × K), (List.zipWith (fun v s => let diff := s - v
      (if s > v then diff * c else 0) - (if s ≤ v then diff * (1 - c) else 0))
      (col (rows.map fun r => [r.1 + shift]) 0) (col (rows.map fun r => [r.2]) 0)) =
      rows.map fun r => pinTerm c (r.1 + shift) r.2 := by
    intro rows
    induction rows with
    | nil => rfl
    | cons r rows ih =>
      unfold col at ih ⊢
      simp only [List.map_cons, List.zipWith_cons_cons]
      rw [ih]
      congr 1
      simp only [List.getD_cons_zero]
      unfold pinTerm
      by_cases h : r.2 > r.1 + shift
      · rw [if_pos h, if_neg (not_le.2 h), if_pos h]; ring
      · rw [if_neg h, if_pos (not_lt.1 h), if_neg h]; ring
  unfold pinball
  dsimp only
  rw [show (List.zipWith (fun v s => (if s > v then (s - v) * c else 0) - (if s ≤ v then (s - v) * (1 - c) else 0))
    (col (rows.map fun r => [r.1 + shift]) 0) (col (rows.map fun r => [r.2]) 0)) = _ from key rows]
  rw [if_neg (by simpa using hne), List.length_map]

theorem list_sum_map_sub {α : Type*} (l : List α) (f g : α → K) :
    (l.map fun r => f r - g r).sum = (l.map f).sum - (l.map g).sum := by
  induction l with
  | nil => simp
  | cons a l ih => simp only [List.map_cons, List.sum_cons, ih]; ring

/-- **C58, loss.** The BatchMVP loss of thresholds and scores is the mean pinball loss: `coverage` times the excess of a
score over its threshold, `1 - coverage` times the shortfall. It is never negative, and shifting all thresholds by a
quantile – a shift such that at least a fraction `coverage` of the scores is at or below the threshold and at most
that fraction is strictly below – minimises it among all shifts. -/
theorem C58_pinball (c : K) (h0 : 0 ≤ c) (h1 : c ≤ 1) (rows : List (K × K)) (hne : rows ≠ []) (shift : K)
    (hge : c * (rows.length : K) ≤ ((rows.countP fun r => decide (r.2 ≤ r.1 + shift) : ℕ) : K))
    (hle : ((rows.countP fun r => decide (r.2 < r.1 + shift) : ℕ) : K) ≤ c * (rows.length : K)) (shift' : K) :
    ∃ a b, pinball c (rows.map fun r => [r.1 + shift]) (rows.map fun r => [r.2]) = some a ∧
      pinball c (rows.map fun r => [r.1 + shift']) (rows.map fun r => [r.2]) = some b ∧ 0 ≤ a ∧ a ≤ b ∧
      a = (rows.map fun r => pinTerm c (r.1 + shift) r.2).sum / (rows.length : K) := by
  refine ⟨_, _, pinball_eq c rows hne shift, pinball_eq c rows hne shift', ?_, ?_, rfl⟩
  · apply div_nonneg _ (Nat.cast_nonneg _)
    apply List.sum_nonneg
    intro x hx
    obtain ⟨r, _, rfl⟩ := List.mem_map.1 hx
    unfold pinTerm
    split
    · next h => exact mul_nonneg h0 (by linarith)
    · next h => exact mul_nonneg (by linarith) (by linarith [not_lt.1 h])
  · apply div_le_div_of_nonneg_right _ (Nat.cast_nonneg _)
    have hsum : ∀ (P : K × K → Prop) [DecidablePred P], (rows.map fun r => (shift' - shift) * ((if P r then 1 else 0) - c)).sum =
        (shift' - shift) * (((rows.countP fun r => decide (P r) : ℕ) : K) - c * (rows.length : K)) := by
      intro P _
      clear hge hle hne
      induction rows with
      | nil => simp
      | cons r rows ih =>
        rw [List.map_cons, List.sum_cons, ih, List.countP_cons, List.length_cons]
        by_cases h : P r
        · simp [h]; ring
        · simp [h]; ring
    rcases le_total shift shift' with h | h
    · have hb : (rows.map fun r => (shift' - shift) * ((if r.2 ≤ r.1 + shift then 1 else 0) - c)).sum ≤
          (rows.map fun r => pinTerm c (r.1 + shift') r.2 - pinTerm c (r.1 + shift) r.2).sum := by
        apply List.sum_le_sum
        intro r _
        have := pinTerm_subgradient_up c (r.1 + shift) (r.1 + shift') r.2 (by linarith)
        rwa [show r.1 + shift' - (r.1 + shift) = shift' - shift by ring] at this
      rw [hsum, list_sum_map_sub] at hb
      nlinarith [mul_nonneg (sub_nonneg.2 h) (sub_nonneg.2 hge)]
    · have hb : (rows.map fun r => (shift' - shift) * ((if r.2 < r.1 + shift then 1 else 0) - c)).sum ≤
          (rows.map fun r => pinTerm c (r.1 + shift') r.2 - pinTerm c (r.1 + shift) r.2).sum := by
        apply List.sum_le_sum
        intro r _
        have := pinTerm_subgradient_down c (r.1 + shift) (r.1 + shift') r.2 (by linarith)
        rwa [show r.1 + shift' - (r.1 + shift) = shift' - shift by ring] at this
      rw [hsum, list_sum_map_sub] at hb
      nlinarith [mul_nonneg (sub_nonneg.2 h) (sub_nonneg.2 hle)]

example : pinball (K := ℚ) (1 / 2) [[1 / 2], [1 / 2], [1 / 2]] [[1 / 4], [1 / 2], [1]] = some (1 / 8) ∧
    pinball (K := ℚ) (1 / 2) [[3 / 4], [3 / 4], [3 / 4]] [[1 / 4], [1 / 2], [1]] = some (1 / 6) := by decide +kernel

/-- **C58, failure.** A patch can increase the loss: because ties between shifts are not broken towards zero, a run on a
single row stops in its first round because the loss increased, and stores no patch. -/
theorem C58_loss_increase_false :
    ∃ (p : Params ℚ) (d : Data ℚ), d.values = [[1 / 2]] ∧ d.scores = [[1 / 2]] ∧ p.cfg.eta = 1 ∧
      (loop (batchMVP (1 / 2) p.cfg.nBuckets) p 10 (initState (batchMVP (1 / 2) p.cfg.nBuckets) d d)).2 =
        some .lossIncreased ∧
      (calibrateSplit (batchMVP (1 / 2) p.cfg.nBuckets) p 10 d d).2 = [] :=
  ⟨⟨⟨3, 1, .additive⟩, [0], 1, 1, 1 / 10, 0, 0⟩, ⟨[[true]], [[1 / 2]], [[1 / 2]]⟩, rfl, rfl, rfl, by decide +kernel,
    by decide +kernel⟩

end multivalid

/-! ## C21, C25: targets and concatenated loaders -/

section loader
open Verif.Loader

variable {α β : Type}

/-- **C21.** The targets-only loader sees the same rows: `from_array_data` on the targets and `to_targets_loader` agree. -/
theorem C21_targets_loader (x : List α) (y : List β) (bs : Option ℕ) (h : x.length = y.length) (pf : Bool)
    (perm : Option (List ℕ)) (hperm : ∀ p ∈ perm, p.Perm (List.range x.length)) :
    fromArray y bs perm pf = (fromBatchArray x y bs perm pf).map toTargets := by
  cases bs with
  | none => rfl
  | some bs =>
    rcases Nat.eq_zero_or_pos bs with rfl | hb
    · rfl
    have key : ∀ (x : List α) (y : List β), x.length = y.length →
        maybePrefetch pf (npSplit y 0 (arange bs y.length bs)) =
        (maybePrefetch pf ((npSplit x 0 (arange bs x.length bs)).zip (npSplit y 0 (arange bs y.length bs)))).map
          toTargets := by
      intro x y h
      rw [batched_eq x y bs hb h pf, npSplit_arange y bs hb, maybePrefetch_eq _ (by simp)]
      simp only [Except.map, toTargets, List.map_map, h]
      rfl
    unfold fromArray fromBatchArray
    simp only [if_neg (Nat.pos_iff_ne_zero.1 hb)]
    cases perm with
    | none => exact key x y h
    | some p =>
      have hp := hperm p rfl
      have hlt : ∀ i ∈ p, i < x.length := fun i hi => List.mem_range.1 (hp.mem_iff.1 hi)
      have hlt' : ∀ i ∈ p, i < y.length := fun i hi => h ▸ hlt i hi
      have hlen : p.length = x.length := by rw [hp.length_eq, List.length_range]
      have := key (gather x p) (gather y p) (by rw [gather_length x p hlt, gather_length y p hlt'])
      rw [gather_length x p hlt, gather_length y p hlt', hlen] at this
      rw [← h]
      exact this

example : fromArray [10, 20, 30] (some 2) none false = .ok [[10, 20], [30]] ∧
    (fromBatchArray ["a", "b", "c"] [10, 20, 30] (some 2) none false).map toTargets = .ok [[10, 20], [30]] := by decide

/-- **C25.** Concatenating loaders of inputs or targets yields all batches of the first, then of the second, and so on:
their rows in order. -/
theorem C25_concat_loaders (loaders : List (List (List α))) :
    (concatLoaders loaders).flatten = (loaders.map List.flatten).flatten ∧
    (concatLoaders loaders).length = (loaders.map List.length).sum ∧
    ∀ b, b ∈ concatLoaders loaders ↔ ∃ l ∈ loaders, b ∈ l := by
  unfold concatLoaders
  refine ⟨?_, by simp [List.length_flatMap], by simp [List.mem_flatMap]⟩
  induction loaders with
  | nil => rfl
  | cons l ls ih => rw [List.flatMap_cons, List.flatten_append, ih]; simp

example : concatLoaders [[[1, 2], [3]], [], [[4]]] = [[1, 2], [3], [4]] := by decide

end loader

/-! ## C60: several updates -/

section nested
open Verif.Nested Verif.Nested.Obj

variable {K V : Type} [DecidableEq K]

/-- **C60, several updates.** With several updating dictionaries the last one that has a leaf at a path decides, provided the
later ones neither contain the path nor cut it off; and every leaf of the result comes from one of the dictionaries. -/
theorem C60_several (d : Obj K V) (us₁ us₂ : List (Obj K V)) (u : Obj K V) (hu : WF u)
    (h₂ : ∀ w ∈ us₂, WF w ∧ w.isDict = true) (p : List K) (v : V) (h : nestedGet u p = .ok (leaf v))
    (hlater : ∀ w ∈ us₂, (∀ o, nestedGet w p ≠ .ok o) ∧ ∀ q x, q <+: p → nestedGet w q ≠ .ok (leaf x)) :
    nestedGet (nestedUpdateAll d (us₁ ++ u :: us₂)) p = .ok (leaf v) := by
  unfold nestedUpdateAll
  rw [List.foldl_append, List.foldl_cons]
  generalize List.foldl nestedUpdate d us₁ = d₁
  have h0 := C60_update_wins d₁ u hu p v h
  generalize nestedUpdate d₁ u = d₂ at h0
  induction us₂ generalizing d₂ with
  | nil => exact h0
  | cons w us ih =>
    rw [List.foldl_cons]
    obtain ⟨a1, a2⟩ := hlater w (by simp)
    exact ih (fun x hx => h₂ x (by simp [hx])) (fun x hx => hlater x (by simp [hx])) _
      ((C60_update_frame d₂ w (h₂ w (by simp)).2 (h₂ w (by simp)).1 p a1 a2 _).2 h0)

/-- **C60, several updates.** Nothing is invented. -/
theorem C60_several_origin (d : Obj K V) (us : List (Obj K V)) (hu : ∀ u ∈ us, WF u) (p : List K) (v : V)
    (h : nestedGet (nestedUpdateAll d us) p = .ok (leaf v)) :
    nestedGet d p = .ok (leaf v) ∨ ∃ u ∈ us, nestedGet u p = .ok (leaf v) := by
  unfold nestedUpdateAll at h
  induction us generalizing d with
  | nil => exact Or.inl h
  | cons u us ih =>
    rw [List.foldl_cons] at h
    rcases ih _ (fun x hx => hu x (by simp [hx])) h with h' | ⟨w, hw, h'⟩
    · rcases C60_no_invention d u (hu u (by simp)) p v h' with h'' | h''
      · exact Or.inr ⟨u, by simp, h''⟩
      · exact Or.inl h''
    · exact Or.inr ⟨w, by simp [hw], h'⟩

example : nestedUpdateAll (cons "a" (leaf 1) nil) [cons "b" (cons "x" (leaf 2) nil) nil, cons "b" (cons "y" (leaf 3) nil) nil,
    cons "a" (leaf 4) nil] = cons "a" (leaf 4) (cons "b" (cons "x" (leaf 2) (cons "y" (leaf 3) nil)) nil) := by decide

end nested

/-! ## C52: the optimised loss -/

section temp
open Verif.Calibration

/-- **C52, loss.** The loss minimised by `ClassificationTemperatureScaling.fit` is the negative log-likelihood of the targets under
the tempered probabilities: it is never negative, `exp (-loss)` is the product of the targets' tempered probabilities, and
at temperature one it is the negative log-likelihood of the given probabilities. -/
theorem C52_loss {c n : ℕ} (p : Fin n → Fin c → ℝ) (hp : ∀ k i, 0 < p k i) (hs : ∀ k, ∑ i, p k i = 1)
    (y : Fin n → Fin c) (T : ℝ) (hT : 0 < T) :
    0 ≤ tempLoss p y T ∧ Real.exp (-tempLoss p y T) = ∏ k, tempProba T (p k) (y k) ∧
    tempLoss p y 1 = -∑ k, Real.log (p k (y k)) := by
  have hrow := fun k => C52_rows T hT (p k) (fun i => (hp k i).le) (hs k)
  have hpos : ∀ k, 0 < tempProba T (p k) (y k) := by
    intro k
    unfold tempProba
    refine div_pos ?_ (tempered_sum_pos T (p k) (hs k))
    unfold tempered
    rw [if_neg (hp k _).ne']
    exact Real.exp_pos _
  have hle : ∀ k, tempProba T (p k) (y k) ≤ 1 := by
    intro k
    rw [← (hrow k).2.1]
    exact Finset.single_le_sum (fun i _ => (hrow k).1 i) (Finset.mem_univ (y k))
  refine ⟨?_, ?_, ?_⟩
  · unfold tempLoss
    rw [neg_nonneg]
    exact Finset.sum_nonpos fun k _ => Real.log_nonpos (hpos k).le (hle k)
  · unfold tempLoss
    rw [neg_neg, Real.exp_sum]
    exact Finset.prod_congr rfl fun k _ => Real.exp_log (hpos k)
  · unfold tempLoss
    congr 1
    refine Finset.sum_congr rfl fun k _ => ?_
    rw [(C52_rows 1 one_pos (p k) (fun i => (hp k i).le) (hs k)).2.2.2]

example : ∃ (p : Fin 1 → Fin 2 → ℝ), (∀ k i, 0 < p k i) ∧ ∀ k, ∑ i, p k i = 1 :=
  ⟨fun _ _ => 1 / 2, fun _ _ => by norm_num, fun _ => by norm_num⟩

end temp

/-! ### Concrete cases that meet the hypotheses of the theorems above -/

section cases
open Verif.AdaptiveConformal Verif.MaxCoverage Verif.Nested Verif.Nested.Obj
example := C06_weighted_length (1 / 100) (1 / 10) (1 / 10) true [1, 1] [1, 0, 1] (by decide) (1 / 10)
example := C08_metrics (K := ℚ) [1 / 5, 3 / 5, 4 / 5] [0, 1, 1] (3 / 5) rfl
example := C60_several (cons "a" (leaf 1) nil) [] [cons "b" (cons "y" (leaf 3) nil) nil] (cons "a" (leaf 4) nil) (by simp [WF, lookup, isDict]) (by simp [WF, lookup, isDict]) ["a"] 4 rfl
  (by
    intro w hw
    obtain rfl := List.mem_singleton.1 hw
    refine ⟨fun o h => by simp [nestedGet, item, lookup, isDict] at h, fun q x hq h => ?_⟩
    rcases List.prefix_cons_iff.1 hq with rfl | ⟨t, rfl, ht⟩
    · cases h
    · obtain rfl := List.prefix_nil.1 ht
      simp [nestedGet, item, lookup, isDict] at h)
end cases

end Verif.Props
