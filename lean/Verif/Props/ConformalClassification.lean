import Verif.Lemmas.ConformalClassification
import Verif.Lemmas.Exchangeable
import Mathlib.Algebra.Order.Field.Rat
import Mathlib.Tactic.NormNum
import Mathlib.Tactic.FinCases

/-! Properties C01–C05: conformal sets for classification. -/
namespace Verif.Props

open Verif.ConformalClassification MeasureTheory

variable {α : Type*} [LinearOrder α]

/-- Specification: how many validation scores are strictly greater than `t`. -/
def numAbove (val : List α) (t : α) : ℕ := (val.filter fun v => t < v).length

theorem numAbove_eq (val : List α) (t : α) : numAbove val t = val.countP fun v => decide (v > t) := by
  unfold numAbove; rw [List.countP_eq_length_filter]

/-- **C01.** The sets returned by `_get_conformal_sets_from_scores` are exact, one per row in order, sorted. -/
theorem C01_conformal_sets_exact (val : List α) (test : List (List α)) (e : ℚ) :
    (conformalSetsFromScores val test e).length = test.length ∧
    ∀ (i : ℕ) (row : List α), test[i]? = some row →
      ∃ S : List ℕ, (conformalSetsFromScores val test e)[i]? = some (some S) ∧ S.Pairwise (· < ·) ∧
        ∀ j, j ∈ S ↔ ∃ t, row[j]? = some t ∧ (numAbove val t : ℚ) < (1 - e) * (val.length + 1) := by
  rw [conformalSetsFromScores_eq]
  refine ⟨by simp, ?_⟩
  intro i row h
  refine ⟨whereTrue (condRow val row e) 0, by simp [h], sorted_whereTrue _ _, ?_⟩
  intro j
  rw [mem_set_iff]
  simp only [numAbove_eq]

-- a non-trivial run: sets of size 1, 0, 2 (so three iterations of the loop over sizes)
example : conformalSetsFromScores (α := ℚ) [1, 2, 3] [[0, 5], [0, 0], [4, 5]] (1 / 2) =
    [some [1], some [], some [0, 1]] := by
  rw [conformalSetsFromScores_eq]; decide +kernel

/-- **C01** for `is_in`: entry `i` of the answer says whether value `i` belongs to set `i`. -/
theorem C01_is_in (values : List ℕ) (sets : List (List ℕ)) (i : ℕ) (v : ℕ) (s : List ℕ)
    (hv : values[i]? = some v) (hs : sets[i]? = some s) : (isIn values sets)[i]? = some (decide (v ∈ s)) := by
  simp [isIn, hv, hs, List.zip, List.getElem?_zipWith]

example : isIn [1, 5] [[0, 1], [4]] = [true, false] := by decide

/-- **C02.** Sets are nested in the error level. -/
theorem C02_nested (val : List α) (test : List (List α)) (e₁ e₂ : ℚ) (h : e₁ ≤ e₂) (i : ℕ) (S₁ S₂ : List ℕ)
    (h₁ : (conformalSetsFromScores val test e₁)[i]? = some (some S₁))
    (h₂ : (conformalSetsFromScores val test e₂)[i]? = some (some S₂)) : S₂ ⊆ S₁ := by
  rw [conformalSetsFromScores_eq] at h₁ h₂
  simp only [List.getElem?_map, Option.map_eq_some_iff] at h₁ h₂
  obtain ⟨r, hr, h1⟩ := h₁
  obtain ⟨r', hr', h2⟩ := h₂
  obtain rfl : r = r' := by rw [hr] at hr'; exact Option.some.inj hr'
  cases h1; cases h2
  intro j hj
  rw [mem_set_iff] at hj ⊢
  obtain ⟨t, ht, hlt⟩ := hj
  refine ⟨t, ht, lt_of_lt_of_le hlt ?_⟩
  have : (0 : ℚ) ≤ (val.length : ℚ) + 1 := by positivity
  nlinarith

/-- **C02.** At error 0 every set is the full label set; at error 1 every set is empty. -/
theorem C02_extremes (val : List α) (test : List (List α)) (i : ℕ) (row : List α) (hrow : test[i]? = some row)
    (S₀ S₁ : List ℕ) (h₀ : (conformalSetsFromScores val test 0)[i]? = some (some S₀))
    (h₁ : (conformalSetsFromScores val test 1)[i]? = some (some S₁)) :
    (∀ j, j ∈ S₀ ↔ j < row.length) ∧ S₁ = [] := by
  rw [conformalSetsFromScores_eq] at h₀ h₁
  simp only [List.getElem?_map, hrow, Option.map_some, Option.some.injEq] at h₀ h₁
  subst h₀ h₁
  constructor
  · intro j
    rw [mem_set_iff]
    constructor
    · rintro ⟨t, ht, _⟩; exact (List.getElem?_eq_some_iff.1 ht).1
    · intro hj
      refine ⟨row[j], by simp [hj], ?_⟩
      have : (val.countP fun v => decide (v > row[j])) ≤ val.length := List.countP_le_length
      have : ((val.countP fun v => decide (v > row[j]) : ℕ) : ℚ) ≤ val.length := by exact_mod_cast this
      linarith
  · rw [List.eq_nil_iff_forall_not_mem]
    intro j hj
    rw [mem_set_iff] at hj
    obtain ⟨t, _, hlt⟩ := hj
    have : (0 : ℚ) ≤ ((val.countP fun v => decide (v > t) : ℕ) : ℚ) := by positivity
    linarith

example : ∃ S₁ S₂ : List ℕ, (conformalSetsFromScores (α := ℚ) [1, 2, 3] [[0, 2, 5]] (1 / 4))[0]? = some (some S₁) ∧
    (conformalSetsFromScores (α := ℚ) [1, 2, 3] [[0, 2, 5]] (3 / 4))[0]? = some (some S₂) ∧ S₁ = [1, 2] ∧ S₂ = [2] :=
  ⟨[1, 2], [2], by rw [conformalSetsFromScores_eq]; decide +kernel, by rw [conformalSetsFromScores_eq]; decide +kernel,
    rfl, rfl⟩

/-- The label `y` of a held-out point with candidate scores `row` is in the set calibrated on `val`. -/
def Covered (val : List α) (row : List α) (y : ℕ) (e : ℚ) : Prop :=
  ∃ S, (conformalSetsFromScores val [row] e)[0]? = some (some S) ∧ y ∈ S

theorem covered_iff (val row : List α) (y : ℕ) (e : ℚ) (s : α) (h : row[y]? = some s) :
    Covered val row y e ↔ (numAbove val s : ℚ) < (1 - e) * (val.length + 1) := by
  unfold Covered
  rw [conformalSetsFromScores_eq]
  simp only [List.map_cons, List.map_nil, List.getElem?_cons_zero, Option.some.injEq, exists_eq_left']
  rw [mem_set_iff]
  simp [h, numAbove_eq]

/-- **C03 (counting form).** Given `n+1` labelled points (point `i` has candidate scores `rows i`, true label `ys i`
and score `l[i]`), at least `(1-e)(n+1)` of them are covered when held out and calibrated on all the others. -/
theorem C03_leave_one_out_coverage (l : List α) (e : ℚ) (he0 : 0 ≤ e)
    (rows : ℕ → List α) (ys : ℕ → ℕ) (hrow : ∀ i (h : i < l.length), (rows i)[ys i]? = some l[i]) :
    ∃ A : Finset ℕ, (∀ i ∈ A, i < l.length ∧ Covered (l.eraseIdx i) (rows i) (ys i) e) ∧
      (1 - e) * l.length ≤ A.card := by
  classical
  have hT : (1 - e) * (l.length : ℚ) ≤ l.length := by
    have : (0 : ℚ) ≤ (l.length : ℚ) := by positivity
    nlinarith
  have hcount := Verif.ListAux.count_few_above l ((1 - e) * l.length) hT
  set p : α → Bool := fun x => decide (((l.countP fun y => decide (y > x) : ℕ) : ℚ) < (1 - e) * l.length) with hp
  refine ⟨(Finset.range l.length).filter (fun i => (l[i]?).any p = true), ?_, ?_⟩
  · intro i hi
    simp only [Finset.mem_filter, Finset.mem_range] at hi
    obtain ⟨hi, hpi⟩ := hi
    refine ⟨hi, ?_⟩
    rw [covered_iff _ _ _ _ _ (hrow i hi), numAbove_eq,
      Verif.ListAux.countP_eraseIdx_of_false l _ i hi (by simp)]
    have hlen : ((l.eraseIdx i).length : ℚ) + 1 = l.length := by
      rw [List.length_eraseIdx_of_lt hi]
      have : 1 ≤ l.length := by omega
      push_cast [Nat.cast_sub this]; ring
    rw [hlen]
    simpa [hp, hi] using hpi
  · rw [← Verif.ListAux.countP_eq_card]; exact hcount

-- hypotheses are satisfiable, with ties
example : let l : List ℚ := [3, 1, 3, 2]
    ∀ i (h : i < l.length), ((fun i => [[3, 0], [0, 1], [7, 3], [2, 5]].getD i []) i : List ℚ)[
      (fun i => [0, 1, 1, 0].getD i 0) i]? = some l[i] := by decide +kernel

/-- **C03 (probability form).** If the `n+1` scores are exchangeable, the held-out label is covered with probability
at least `1-e`. `rows ω`, `y ω` are the candidate scores and the true label of the held-out point. -/
theorem C03_exchangeable_coverage {Ω : Type*} [MeasurableSpace Ω] (μ : Measure Ω) [IsProbabilityMeasure μ] {n : ℕ}
    (S : Fin (n + 1) → Ω → ℝ) (hS : ∀ i, Measurable (S i)) (hex : Exchangeable μ S) (e : ℚ) (he0 : 0 ≤ e)
    (row : Ω → List ℝ) (y : Ω → ℕ) (hrow : ∀ ω, (row ω)[y ω]? = some (S (Fin.last n) ω)) :
    ENNReal.ofReal (1 - e) ≤
      μ {ω | Covered (List.ofFn fun i : Fin n => S i.castSucc ω) (row ω) (y ω) e} := by
  classical
  set T : ℝ := (1 - e) * (n + 1) with hTdef
  let C : Set (Fin (n + 1) → ℝ) := {x | (((Finset.univ.filter fun j => x (Fin.last n) < x j).card : ℕ) : ℝ) < T}
  have hC : MeasurableSet C := by
    have : Measurable fun x : Fin (n + 1) → ℝ =>
        (((Finset.univ.filter fun j => x (Fin.last n) < x j).card : ℕ) : ℝ) := by
      simp only [Finset.card_filter, Nat.cast_sum, Nat.cast_ite, Nat.cast_one, Nat.cast_zero]
      apply Finset.measurable_sum
      intro j _
      exact Measurable.ite (measurableSet_lt (measurable_pi_apply _) (measurable_pi_apply _))
        measurable_const measurable_const
    exact this measurableSet_Iio
  have hTle : T ≤ Fintype.card (Fin (n + 1)) := by
    have h1 : (0 : ℝ) ≤ (e : ℝ) := by exact_mod_cast he0
    have h2 : (0 : ℝ) ≤ (n : ℝ) := by positivity
    simp only [Fintype.card_fin, hTdef]
    push_cast
    nlinarith
  have hmain := Exchangeable.coverage μ S hS hex C hC T (by
    intro x
    obtain ⟨A, hA, hAc⟩ := Verif.ListAux.exists_few_above x T hTle
    refine ⟨A, hA, fun i hi => ?_⟩
    have := hAc i hi
    simp only [C, Set.mem_ofPred_eq, Function.comp, Equiv.swap_apply_right]
    refine lt_of_le_of_lt ?_ this
    norm_cast
    apply Finset.card_le_card_of_injOn (Equiv.swap i (Fin.last n))
    · intro j hj; simpa using hj
    · exact (Equiv.injective _).injOn)
  have hdiv : T / (n + 1) = 1 - (e : ℝ) := by
    rw [hTdef]; field_simp
  rw [hdiv] at hmain
  refine le_trans hmain (le_of_eq ?_)
  congr 1
  ext ω
  simp only [C, Set.mem_ofPred_eq]
  rw [covered_iff _ _ _ _ _ (hrow ω), numAbove_eq]
  have hcnt : (List.ofFn fun i : Fin n => S i.castSucc ω).countP (fun v => decide (v > S (Fin.last n) ω)) =
      (Finset.univ.filter fun j => S (Fin.last n) ω < S j ω).card := by
    rw [Finset.card_filter, Fin.sum_univ_castSucc]
    simp only [lt_self_iff_false, if_false, add_zero]
    rw [← Finset.card_filter, Verif.ListAux.countP_ofFn]
    simp
  rw [hcnt, hTdef, List.length_ofFn]
  rw [← Rat.cast_lt (K := ℝ)]
  push_cast
  rfl

-- the hypotheses hold for independent identically distributed scores from any law `ν`
example (ν : Measure ℝ) [IsProbabilityMeasure ν] (n : ℕ) :
    ENNReal.ofReal (1 - ((1 / 10 : ℚ) : ℝ)) ≤ (Measure.pi fun _ : Fin (n + 1) => ν)
      {ω | Covered (List.ofFn fun i : Fin n => ω i.castSucc) [ω (Fin.last n), 0] 0 (1 / 10)} :=
  C03_exchangeable_coverage _ _ (fun i => measurable_pi_apply i) (exchangeable_iid ν (n + 1)) (1 / 10) (by norm_num)
    (fun ω => [ω (Fin.last n), 0]) (fun _ => 0) (fun _ => rfl)

/-- **C04.** Sets are upward closed in the score. -/
theorem C04_upward_closed (val : List α) (test : List (List α)) (e : ℚ) (i : ℕ) (row : List α)
    (hrow : test[i]? = some row) (S : List ℕ) (hS : (conformalSetsFromScores val test e)[i]? = some (some S))
    (j k : ℕ) (tj tk : α) (hj : row[j]? = some tj) (hk : row[k]? = some tk) (hle : tj ≤ tk) (hmem : j ∈ S) : k ∈ S := by
  rw [conformalSetsFromScores_eq] at hS
  simp only [List.getElem?_map, hrow, Option.map_some, Option.some.injEq] at hS
  subst hS
  rw [mem_set_iff] at hmem ⊢
  obtain ⟨t, ht, hlt⟩ := hmem
  obtain rfl : t = tj := by rw [hj] at ht; exact (Option.some.inj ht).symm
  refine ⟨tk, hk, lt_of_le_of_lt ?_ hlt⟩
  have : (val.countP fun v => decide (v > tk)) ≤ val.countP fun v => decide (v > t) := by
    apply List.countP_mono_left
    intro x _ hx
    simp only [decide_eq_true_eq] at hx ⊢
    exact lt_of_le_of_lt hle hx
  exact_mod_cast this

/-- **C04, expected form is false of the code.** With the simple score, a label can be in the set while a strictly
more likely label is not: here the set is `{1}` although label 0 has probability 9/10. -/
theorem C04_most_likely_first_false :
    ¬ ∀ (valProbs : List (List ℚ)) (valTargets : List ℕ) (testRow : List ℚ) (e : ℚ) (S : List ℕ) (j k : ℕ) (pj pk : ℚ),
      (simpleConformalSet valProbs valTargets [testRow] e)[0]? = some (some S) →
      testRow[j]? = some pj → testRow[k]? = some pk → pj < pk → j ∈ S → k ∈ S := by
  intro h
  have := h [[1 / 2, 1 / 2]] [0] [9 / 10, 1 / 10] (1 / 2) [1] 1 0 (1 / 10) (9 / 10)
    (by decide +kernel) (by decide +kernel) (by decide +kernel) (by norm_num) (by simp)
  simp at this

/-- **C04 (partial), what does hold for the simple score:** the *less* likely labels enter first. -/
theorem C04_least_likely_first_partial (valProbs : List (List ℚ)) (valTargets : List ℕ) (testRow : List ℚ) (e : ℚ)
    (S : List ℕ) (j k : ℕ) (pj pk : ℚ)
    (hS : (simpleConformalSet valProbs valTargets [testRow] e)[0]? = some (some S))
    (hj : testRow[j]? = some pj) (hk : testRow[k]? = some pk) (hle : pk ≤ pj) (hmem : j ∈ S) : k ∈ S := by
  refine C04_upward_closed _ _ e 0 (testRow.map (1 - ·)) (by simp [simpleTestScores]) S hS j k (1 - pj) (1 - pk)
    (by simp [hj]) (by simp [hk]) (by linarith) hmem

/-- **C05.** CV+ returns `K · n_test` sets; so the expected count holds exactly for one fold. -/
theorem C05_cvplus_count (folds : List (List α × List (List α))) (m : ℕ) (h : ∀ f ∈ folds, f.2.length = m)
    (e : ℚ) : (cvPlusConformalSet folds e).length = folds.length * m := by
  unfold cvPlusConformalSet
  rw [(C01_conformal_sets_exact _ _ e).1, List.length_flatMap]
  have : folds.map (fun f => f.2.length) = List.replicate folds.length m := by
    rw [List.eq_replicate_iff]; simp; intro b x y hx; exact fun h' => h' ▸ h _ hx
  rw [this]; simp

/-- **C05, false of the code:** with two folds and one test input, two sets come back. -/
theorem C05_one_set_per_input_false :
    ¬ ∀ (folds : List (List ℚ × List (List ℚ))) (m : ℕ) (e : ℚ), folds ≠ [] → (∀ f ∈ folds, f.2.length = m) →
      (cvPlusConformalSet folds e).length = m := by
  intro h
  have := h [([1], [[0, 2]]), ([1], [[0, 2]])] 1 (1 / 2) (by simp) (by simp)
  rw [C05_cvplus_count _ 1 (by simp)] at this
  simp at this

/-! ### Concrete cases that meet the hypotheses of the theorems above -/

theorem exFirst : (conformalSetsFromScores ([1, 2, 3, 4] : List ℚ) [[0, 2, 4]] (1 / 2))[0]? = some (some [1, 2]) := by
  rw [conformalSetsFromScores_eq]; decide +kernel
theorem exSecond : (conformalSetsFromScores ([1, 2, 3, 4] : List ℚ) [[0, 2, 4]] (9 / 10))[0]? = some (some [2]) := by
  rw [conformalSetsFromScores_eq]; decide +kernel
example := C02_nested ([1, 2, 3, 4] : List ℚ) [[0, 2, 4]] (1 / 2) (9 / 10) (by norm_num) 0 _ _ exFirst exSecond
example := C04_upward_closed ([1, 2, 3, 4] : List ℚ) [[0, 2, 4]] (1 / 2) 0 [0, 2, 4] rfl _ exFirst 1 2 2 4 rfl rfl (by norm_num) (by simp)
example := C05_cvplus_count ([([1, 2], [[0, 3]]), ([4, 5], [[1, 2]])] : List (List ℚ × List (List ℚ))) 1 (by simp) (1 / 10)

end Verif.Props
