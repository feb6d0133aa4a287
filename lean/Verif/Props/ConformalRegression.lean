import Verif.Lemmas.ConformalRegression
import Verif.Lemmas.Exchangeable
import Mathlib.Tactic.NormNum
import Mathlib.Algebra.Order.Archimedean.Real.Basic

/-! Properties C09–C13: conformal intervals for regression. -/
set_option linter.unusedSectionVars false

namespace Verif.Props

open Verif.ConformalRegression Verif.Quantile MeasureTheory

variable {K : Type*} [Field K] [LinearOrder K] [IsStrictOrderedRing K] [FloorRing K]

theorem isIn_singleton (y : K) (iv : K × K) : isIn [y] [iv] = [true] ↔ iv.1 ≤ y ∧ y ≤ iv.2 := by
  simp [isIn, and_comm]

/-! ### C09 -/

theorem quantileInterval_ok {valLo valHi testLo testHi valY : List K} {e : K} {q : Option K} {ivs : List (K × K)}
    (h : quantileInterval valLo valHi testLo testHi valY e q = .ok ivs) :
    ∃ qv, (q = some qv ∨ q = none ∧ quantileQuantile valLo valHi valY e = .ok qv) ∧
      testLo.length = testHi.length ∧ ivs = (testLo.map (· - qv)).zip (testHi.map (· + qv)) := by
  unfold quantileInterval at h
  split at h
  · cases h
  split at h
  · cases h
  next h1 h2 =>
  rw [bind_ok] at h
  obtain ⟨qv, hq, h⟩ := h
  refine ⟨qv, ?_, not_not.1 h2, by cases h; rfl⟩
  cases q with
  | some q => left; cases hq; rfl
  | none => right; exact ⟨rfl, hq⟩

/-- **C09** for `QuantileConformalRegressor`: a value `y` lies in the `i`-th returned interval iff its score (as
computed by `score` from the `i`-th test bounds) is at most the quantile that was used. -/
theorem C09_quantile_membership (valLo valHi testLo testHi valY : List K) (e : K) (q : Option K) (ivs : List (K × K))
    (h : quantileInterval valLo valHi testLo testHi valY e q = .ok ivs) :
    ∃ qv, (q = some qv ∨ q = none ∧ quantileQuantile valLo valHi valY e = .ok qv) ∧ ivs.length = testLo.length ∧
      ∀ (i : ℕ) (lo hi y : K), testLo[i]? = some lo → testHi[i]? = some hi →
        ∃ iv s, ivs[i]? = some iv ∧ quantileScore [lo] [hi] [y] = .ok [s] ∧ (isIn [y] [iv] = [true] ↔ s ≤ qv) := by
  obtain ⟨qv, hq, hlen, rfl⟩ := quantileInterval_ok h
  refine ⟨qv, hq, by simp [hlen], ?_⟩
  intro i lo hi y hlo hhi
  refine ⟨(lo - qv, hi + qv), max (lo - y) (y - hi), ?_, by simp [quantileScore], ?_⟩
  · simp [List.zip, List.getElem?_zipWith, hlo, hhi]
  · rw [isIn_singleton, max_le_iff]
    dsimp only
    constructor
    · rintro ⟨h1, h2⟩; constructor <;> linarith
    · rintro ⟨h1, h2⟩; constructor <;> linarith

theorem onedimInterval_ok {valP valU testP testU valY : List K} {e : K} {q : Option K} {ivs : List (K × K)}
    (h : onedimInterval valP valU testP testU valY e q = .ok ivs) :
    ∃ qv, (q = some qv ∨ q = none ∧ onedimQuantile valP valU valY e = .ok qv) ∧
      (∀ u ∈ testU, 0 < u) ∧ testU.length = testP.length ∧
      ivs = (List.zipWith (fun p u => p - u * qv) testP testU).zip (List.zipWith (fun p u => p + u * qv) testP testU) := by
  unfold onedimInterval at h
  split at h
  · cases h
  next h1 =>
  rw [bind_ok] at h
  obtain ⟨qv, hq, h⟩ := h
  split at h
  · cases h
  next h2 =>
  refine ⟨qv, ?_, ?_, not_not.1 h2, by cases h; rfl⟩
  · cases q with
    | some q => left; cases hq; rfl
    | none => right; exact ⟨rfl, hq⟩
  · intro u hu
    exact not_le.1 fun hcon => h1 (List.any_eq_true.2 ⟨u, hu, by simpa using hcon⟩)

/-- **C09** for `OneDimensionalUncertaintyConformalRegressor`. -/
theorem C09_onedim_membership (valP valU testP testU valY : List K) (e : K) (q : Option K) (ivs : List (K × K))
    (h : onedimInterval valP valU testP testU valY e q = .ok ivs) :
    ∃ qv, (q = some qv ∨ q = none ∧ onedimQuantile valP valU valY e = .ok qv) ∧ ivs.length = testP.length ∧
      ∀ (i : ℕ) (p u y : K), testP[i]? = some p → testU[i]? = some u →
        ∃ iv s, ivs[i]? = some iv ∧ onedimScore [p] [u] [y] = .ok [s] ∧ (isIn [y] [iv] = [true] ↔ s ≤ qv) := by
  obtain ⟨qv, hq, hpos, hlen, rfl⟩ := onedimInterval_ok h
  refine ⟨qv, hq, by simp [hlen], ?_⟩
  intro i p u y hp hu
  have hu0 : 0 < u := hpos u (List.mem_of_getElem? hu)
  refine ⟨(p - u * qv, p + u * qv), |y - p| / u, ?_, by simp [onedimScore, hu0], ?_⟩
  · simp [List.zip, List.getElem?_zipWith, hp, hu]
  · rw [isIn_singleton, div_le_iff₀ hu0, abs_le]
    dsimp only
    constructor
    · rintro ⟨h1, h2⟩; constructor <;> linarith
    · rintro ⟨h1, h2⟩; constructor <;> linarith

example : quantileInterval (K := ℚ) [0, 1, 2] [1, 2, 3] [5, 6] [6, 6] [3, 1, 1] (1 / 2) none =
    .ok [(5 - 4 / 3, 6 + 4 / 3), (6 - 4 / 3, 6 + 4 / 3)] := by decide +kernel

example : onedimInterval (K := ℚ) [0, 1] [1, 2] [5] [3] [3, 0] (1 / 2) none = .ok [(-4, 14)] := by decide +kernel

/-! ### C10 -/

/-- Leave-one-out counting for the calibrated quantile, for any scores. -/
theorem loo_count (l : List K) (e : K) (hlen : 2 ≤ l.length) (he : 1 / (l.length : K) ≤ e) (he1 : e ≤ 1) :
    ∃ A : Finset ℕ, (∀ i ∈ A, ∃ h : i < l.length, ∃ q, scoresQuantile (l.eraseIdx i) e = .ok q ∧ l[i] ≤ q) ∧
      (1 - e) * l.length ≤ (A.card : K) := by
  classical
  set k : ℤ := ⌈(l.length : K) * (1 - e)⌉ with hk
  have hl0 : (0 : K) < l.length := by
    have : 0 < l.length := by omega
    exact_mod_cast this
  have he0 : 0 ≤ e := le_trans (by positivity) he
  have hk0 : 0 ≤ k := by
    rw [hk]; apply Int.ceil_nonneg; exact mul_nonneg hl0.le (by linarith)
  have hkl : k ≤ l.length := by
    rw [hk, Int.ceil_le]; push_cast; nlinarith
  obtain ⟨m, hm⟩ : ∃ m : ℕ, (m : ℤ) = k := ⟨k.toNat, by omega⟩
  have hcount := Verif.ListAux.count_few_below l (m : ℚ) (by
    have : m ≤ l.length := by omega
    exact_mod_cast this)
  set p : K → Bool := fun x => decide (((l.countP fun y => decide (y < x) : ℕ) : ℚ) < (m : ℚ)) with hp
  refine ⟨(Finset.range l.length).filter (fun i => (l[i]?).any p = true), ?_, ?_⟩
  · intro i hi
    simp only [Finset.mem_filter, Finset.mem_range] at hi
    obtain ⟨hi, hpi⟩ := hi
    have hel : (l.eraseIdx i).length = l.length - 1 := List.length_eraseIdx_of_lt hi
    have hne : l.eraseIdx i ≠ [] := by
      intro h0; rw [h0] at hel; simp at hel; omega
    have hcast : ((l.eraseIdx i).length : K) + 1 = l.length := by
      rw [hel, Nat.cast_sub (by omega)]; push_cast; ring
    obtain ⟨q, hq⟩ := scoresQuantile_of_ne hne he0 he1
    refine ⟨hi, q, hq, le_scoresQuantile _ hne _ e q (by rw [hcast]; exact he) ?_ hq⟩
    rw [hcast, Verif.ListAux.countP_eraseIdx_of_false l _ i hi (by simp), ← hk, ← hm]
    simp only [hp, List.getElem?_eq_getElem hi, Option.any_some, decide_eq_true_eq] at hpi
    exact_mod_cast hpi
  · rw [← Verif.ListAux.countP_eq_card]
    have h1 : (1 - e) * l.length ≤ (k : K) := by
      rw [mul_comm, hk]; exact Int.le_ceil _
    refine le_trans h1 ?_
    have h2 : m ≤ l.countP p := by exact_mod_cast hcount
    have h3 : k ≤ (l.countP p : ℕ) := by omega
    exact_mod_cast h3

/-- A labelled point `(lo, hi, y)` is covered by the interval calibrated on `cal`. -/
def QCovered (cal : List (K × K × K)) (pt : K × K × K) (e : K) : Prop :=
  ∃ iv, quantileInterval (cal.map (·.1)) (cal.map (·.2.1)) [pt.1] [pt.2.1] (cal.map (·.2.2)) e none = .ok [iv] ∧
    isIn [pt.2.2] [iv] = [true]

/-- The score of a labelled point. -/
def qScoreOf (d : K × K × K) : K := max (d.1 - d.2.2) (d.2.2 - d.2.1)

theorem quantileScore_map (cal : List (K × K × K)) :
    quantileScore (cal.map (·.1)) (cal.map (·.2.1)) (cal.map (·.2.2)) = .ok (cal.map qScoreOf) := by
  unfold quantileScore
  rw [if_neg (by simp), if_neg (by simp)]
  congr 1
  induction cal with
  | nil => rfl
  | cons a l ih => simp only [List.map_cons, List.zip_cons_cons, List.zipWith_cons_cons, ih]; rfl

theorem quantileQuantile_map (cal : List (K × K × K)) (e : K) :
    quantileQuantile (cal.map (·.1)) (cal.map (·.2.1)) (cal.map (·.2.2)) e = scoresQuantile (cal.map qScoreOf) e := by
  unfold quantileQuantile
  rw [quantileScore_map]
  unfold scoresQuantile
  split <;> rfl

theorem qCovered_iff (cal : List (K × K × K)) (pt : K × K × K) (e : K) :
    QCovered cal pt e ↔ ∃ q, scoresQuantile (cal.map qScoreOf) e = .ok q ∧ qScoreOf pt ≤ q := by
  constructor
  · rintro ⟨iv, h, hin⟩
    obtain ⟨qv, hq, _, hall⟩ := C09_quantile_membership _ _ _ _ _ _ _ _ h
    rcases hq with hq | ⟨_, hq⟩
    · cases hq
    rw [quantileQuantile_map] at hq
    refine ⟨qv, hq, ?_⟩
    obtain ⟨iv', s, h1, h2, h3⟩ := hall 0 pt.1 pt.2.1 pt.2.2 rfl rfl
    simp only [List.getElem?_cons_zero, Option.some.injEq] at h1
    subst h1
    have := h3.1 hin
    simp only [quantileScore, List.length_cons, List.length_nil, ne_eq, not_true_eq_false, if_false] at h2
    cases h2
    exact this
  · rintro ⟨q, hq, hle⟩
    refine ⟨(pt.1 - q, pt.2.1 + q), ?_, ?_⟩
    · unfold quantileInterval
      rw [if_neg (by simp), if_neg (by simp)]
      simp only [quantileQuantile_map, hq]
      rfl
    · rw [isIn_singleton]
      unfold qScoreOf at hle
      rw [max_le_iff] at hle
      dsimp only
      constructor <;> linarith [hle.1, hle.2]

/-- **C10** for `QuantileConformalRegressor`, counting form: among any `N ≥ 2` labelled points, for
`1/N ≤ e ≤ 1`, at least `(1-e) N` are covered when held out and calibrated on the others. -/
theorem C10_quantile_leave_one_out (data : List (K × K × K)) (e : K) (hlen : 2 ≤ data.length)
    (he : 1 / (data.length : K) ≤ e) (he1 : e ≤ 1) :
    ∃ A : Finset ℕ, (∀ i ∈ A, ∃ h : i < data.length, QCovered (data.eraseIdx i) data[i] e) ∧
      (1 - e) * data.length ≤ (A.card : K) := by
  obtain ⟨A, hA, hc⟩ := loo_count (data.map qScoreOf) e (by simpa using hlen) (by simpa using he) he1
  refine ⟨A, ?_, by simpa using hc⟩
  intro i hi
  obtain ⟨h, q, hq, hle⟩ := hA i hi
  rw [List.length_map] at h
  refine ⟨h, ?_⟩
  rw [qCovered_iff]
  refine ⟨q, ?_, by simpa using hle⟩
  rw [← List.eraseIdx_map]; exact hq

-- three points, error 1/3: at least two of the three are covered
example : ∃ A : Finset ℕ, (∀ i ∈ A, ∃ h : i < 3, QCovered (([(0, 1, 5), (0, 1, 2), (0, 1, 3)] :
    List (ℚ × ℚ × ℚ)).eraseIdx i) ([(0, 1, 5), (0, 1, 2), (0, 1, 3)] : List (ℚ × ℚ × ℚ))[i] (1 / 3)) ∧ 2 ≤ A.card := by
  obtain ⟨A, h1, h2⟩ := C10_quantile_leave_one_out ([(0, 1, 5), (0, 1, 2), (0, 1, 3)] : List (ℚ × ℚ × ℚ)) (1 / 3)
    (by simp) (by norm_num) (by norm_num)
  refine ⟨A, h1, ?_⟩
  norm_num at h2
  exact_mod_cast h2

/-- A labelled point `(pred, unc, y)` is covered by the interval calibrated on `cal`. -/
def UCovered (cal : List (K × K × K)) (pt : K × K × K) (e : K) : Prop :=
  ∃ iv, onedimInterval (cal.map (·.1)) (cal.map (·.2.1)) [pt.1] [pt.2.1] (cal.map (·.2.2)) e none = .ok [iv] ∧
    isIn [pt.2.2] [iv] = [true]

/-- The score of a labelled point. -/
def uScoreOf (d : K × K × K) : K := |d.2.2 - d.1| / d.2.1

theorem onedimScore_map (cal : List (K × K × K)) (hpos : ∀ d ∈ cal, 0 < d.2.1) :
    onedimScore (cal.map (·.1)) (cal.map (·.2.1)) (cal.map (·.2.2)) = .ok (cal.map uScoreOf) := by
  unfold onedimScore
  rw [if_neg, if_neg (by simp)]
  · congr 1
    clear hpos
    induction cal with
    | nil => rfl
    | cons a l ih => simp only [List.map_cons, List.zip_cons_cons, List.zipWith_cons_cons, ih]; rfl
  · simp only [List.any_map, List.any_eq_true, Function.comp, decide_eq_true_eq]
    rintro ⟨d, hd, hle⟩
    exact absurd (hpos d hd) (not_lt.2 hle)

theorem uCovered_of (cal : List (K × K × K)) (pt : K × K × K) (e : K) (hpos : ∀ d ∈ cal, 0 < d.2.1)
    (hpt : 0 < pt.2.1) (q : K) (hq : scoresQuantile (cal.map uScoreOf) e = .ok q) (hle : uScoreOf pt ≤ q) :
    UCovered cal pt e := by
  obtain ⟨h0, h1, _⟩ := scoresQuantile_ok hq
  have hqq : onedimQuantile (cal.map (·.1)) (cal.map (·.2.1)) (cal.map (·.2.2)) e = .ok q := by
    unfold onedimQuantile
    rw [if_neg (by push Not; exact ⟨h0, h1⟩), onedimScore_map _ hpos]
    exact hq
  refine ⟨(pt.1 - pt.2.1 * q, pt.1 + pt.2.1 * q), ?_, ?_⟩
  · unfold onedimInterval
    rw [if_neg (by simpa using hpt)]
    simp only [hqq]
    rfl
  · rw [isIn_singleton]
    unfold uScoreOf at hle
    rw [div_le_iff₀ hpt, abs_le] at hle
    dsimp only
    constructor <;> linarith [hle.1, hle.2]

/-- **C10** for `OneDimensionalUncertaintyConformalRegressor`, counting form. -/
theorem C10_onedim_leave_one_out (data : List (K × K × K)) (hpos : ∀ d ∈ data, 0 < d.2.1) (e : K)
    (hlen : 2 ≤ data.length) (he : 1 / (data.length : K) ≤ e) (he1 : e ≤ 1) :
    ∃ A : Finset ℕ, (∀ i ∈ A, ∃ h : i < data.length, UCovered (data.eraseIdx i) data[i] e) ∧
      (1 - e) * data.length ≤ (A.card : K) := by
  obtain ⟨A, hA, hc⟩ := loo_count (data.map uScoreOf) e (by simpa using hlen) (by simpa using he) he1
  refine ⟨A, ?_, by simpa using hc⟩
  intro i hi
  obtain ⟨h, q, hq, hle⟩ := hA i hi
  rw [List.length_map] at h
  refine ⟨h, uCovered_of _ _ _ (fun d hd => hpos d (List.mem_of_mem_eraseIdx hd)) (hpos _ (List.getElem_mem h)) q ?_
    (by simpa using hle)⟩
  rw [← List.eraseIdx_map]; exact hq

example : ∀ d ∈ ([(0, 1, 5), (0, 2, 2)] : List (ℚ × ℚ × ℚ)), 0 < d.2.1 := by decide +kernel

/-- Probability that an exchangeable score is at most the quantile calibrated on the others. -/
theorem exchangeable_scores {Ω : Type*} [MeasurableSpace Ω] (μ : Measure Ω) [IsProbabilityMeasure μ] {n : ℕ}
    (hn : 1 ≤ n) (S : Fin (n + 1) → Ω → ℝ) (hS : ∀ i, Measurable (S i)) (hex : Exchangeable μ S) (e : ℝ)
    (he : 1 / ((n : ℝ) + 1) ≤ e) (he1 : e ≤ 1) :
    ENNReal.ofReal (1 - e) ≤ μ {ω | ∃ q, scoresQuantile (List.ofFn fun i : Fin n => S i.castSucc ω) e = .ok q ∧
      S (Fin.last n) ω ≤ q} := by
  classical
  have he0 : 0 ≤ e := le_trans (by positivity) he
  have hn0 : (0 : ℝ) ≤ (n : ℝ) := by positivity
  set k : ℤ := ⌈((n : ℝ) + 1) * (1 - e)⌉ with hk
  set T : ℝ := (k : ℝ) with hTdef
  let C : Set (Fin (n + 1) → ℝ) := {x | (((Finset.univ.filter fun j => x j < x (Fin.last n)).card : ℕ) : ℝ) < T}
  have hC : MeasurableSet C := by
    have : Measurable fun x : Fin (n + 1) → ℝ =>
        (((Finset.univ.filter fun j => x j < x (Fin.last n)).card : ℕ) : ℝ) := by
      simp only [Finset.card_filter, Nat.cast_sum, Nat.cast_ite, Nat.cast_one, Nat.cast_zero]
      apply Finset.measurable_sum
      intro j _
      exact Measurable.ite (measurableSet_lt (measurable_pi_apply _) (measurable_pi_apply _))
        measurable_const measurable_const
    exact this measurableSet_Iio
  have hTle : T ≤ Fintype.card (Fin (n + 1)) := by
    have : k ≤ (n : ℤ) + 1 := by
      rw [hk, Int.ceil_le]; push_cast; nlinarith
    simp only [Fintype.card_fin, hTdef]
    exact_mod_cast this
  have hmain := Exchangeable.coverage μ S hS hex C hC T (by
    intro x
    obtain ⟨A, hA, hAc⟩ := Verif.ListAux.exists_few_below x T hTle
    refine ⟨A, hA, fun i hi => ?_⟩
    have := hAc i hi
    simp only [C, Set.mem_ofPred_eq, Function.comp, Equiv.swap_apply_right]
    refine lt_of_le_of_lt ?_ this
    norm_cast
    apply Finset.card_le_card_of_injOn (Equiv.swap i (Fin.last n))
    · intro j hj; simpa using hj
    · exact (Equiv.injective _).injOn)
  refine le_trans (le_trans (ENNReal.ofReal_le_ofReal ?_) hmain) (measure_mono ?_)
  · rw [le_div_iff₀ (by positivity), mul_comm]
    exact Int.le_ceil _
  · intro ω hω
    simp only [C, Set.mem_ofPred_eq] at hω ⊢
    have hne : (List.ofFn fun i : Fin n => S i.castSucc ω) ≠ [] := by
      intro h0
      have := congrArg List.length h0
      simp at this
      omega
    obtain ⟨q, hq⟩ := scoresQuantile_of_ne hne he0 he1
    refine ⟨q, hq, le_scoresQuantile _ hne _ e q (by simpa using he) ?_ hq⟩
    have hcnt : (List.ofFn fun i : Fin n => S i.castSucc ω).countP (fun v => decide (v < S (Fin.last n) ω)) =
        (Finset.univ.filter fun j => S j ω < S (Fin.last n) ω).card := by
      rw [Finset.card_filter, Fin.sum_univ_castSucc]
      simp only [lt_self_iff_false, if_false, add_zero]
      rw [← Finset.card_filter, Verif.ListAux.countP_ofFn]
      simp
    rw [hcnt, List.length_ofFn, ← hk]
    rw [hTdef] at hω
    exact_mod_cast hω

/-- **C10** for `QuantileConformalRegressor`, probability form: if the scores of the `n+1` labelled points are
exchangeable, the held-out target is covered with probability at least `1-e`. -/
theorem C10_quantile_exchangeable {Ω : Type*} [MeasurableSpace Ω] (μ : Measure Ω) [IsProbabilityMeasure μ] {n : ℕ}
    (hn : 1 ≤ n) (D : Fin (n + 1) → Ω → ℝ × ℝ × ℝ) (hS : ∀ i, Measurable fun ω => qScoreOf (D i ω))
    (hex : Exchangeable μ fun i ω => qScoreOf (D i ω)) (e : ℝ) (he : 1 / ((n : ℝ) + 1) ≤ e) (he1 : e ≤ 1) :
    ENNReal.ofReal (1 - e) ≤ μ {ω | QCovered (List.ofFn fun i : Fin n => D i.castSucc ω) (D (Fin.last n) ω) e} := by
  refine le_trans (exchangeable_scores μ hn _ hS hex e he he1) (measure_mono ?_)
  rintro ω ⟨q, hq, hle⟩
  refine (qCovered_iff _ _ _).2 ⟨q, ?_, hle⟩
  rw [List.map_ofFn]; exact hq

/-- **C10** for `OneDimensionalUncertaintyConformalRegressor`, probability form. -/
theorem C10_onedim_exchangeable {Ω : Type*} [MeasurableSpace Ω] (μ : Measure Ω) [IsProbabilityMeasure μ] {n : ℕ}
    (hn : 1 ≤ n) (D : Fin (n + 1) → Ω → ℝ × ℝ × ℝ) (hpos : ∀ i ω, 0 < (D i ω).2.1)
    (hS : ∀ i, Measurable fun ω => uScoreOf (D i ω))
    (hex : Exchangeable μ fun i ω => uScoreOf (D i ω)) (e : ℝ) (he : 1 / ((n : ℝ) + 1) ≤ e) (he1 : e ≤ 1) :
    ENNReal.ofReal (1 - e) ≤ μ {ω | UCovered (List.ofFn fun i : Fin n => D i.castSucc ω) (D (Fin.last n) ω) e} := by
  refine le_trans (exchangeable_scores μ hn _ hS hex e he he1) (measure_mono ?_)
  rintro ω ⟨q, hq, hle⟩
  refine uCovered_of _ _ _ ?_ (hpos _ _) q ?_ hle
  · intro d hd
    rw [List.mem_ofFn] at hd
    obtain ⟨i, rfl⟩ := hd
    exact hpos _ _
  · rw [List.map_ofFn]; exact hq

-- independent targets, constant prediction 0 and uncertainty 1: the hypotheses of the probability form are met
example (ν : Measure ℝ) [IsProbabilityMeasure ν] :
    ENNReal.ofReal (1 - 1 / 10) ≤ (Measure.pi fun _ : Fin (9 + 1) => ν) {ω | QCovered
      (List.ofFn fun i : Fin 9 => ((0 : ℝ), (0 : ℝ), ω i.castSucc)) (0, 0, ω (Fin.last 9)) (1 / 10)} := by
  have hmeas : Measurable fun x : ℝ => max (0 - x) (x - 0) := by fun_prop
  refine C10_quantile_exchangeable (n := 9) _ (by norm_num)
    (fun i (ω : Fin (9 + 1) → ℝ) => ((0 : ℝ), (0 : ℝ), ω i)) ?_ ?_ (1 / 10) (by norm_num)
    (by norm_num)
  · intro i; exact hmeas.comp (measurable_pi_apply i)
  · intro σ
    have h := exchangeable_iid ν (9 + 1) σ
    have h2 := congrArg (fun m => m.map (fun (x : Fin (9 + 1) → ℝ) i => max (0 - x i) (x i - 0))) h
    have hm : Measurable (fun (x : Fin (9 + 1) → ℝ) i => max (0 - x i) (x i - 0)) :=
      measurable_pi_lambda _ fun i => hmeas.comp (measurable_pi_apply i)
    dsimp only at h2
    rw [Measure.map_map hm (measurable_pi_lambda _ fun i => measurable_pi_apply _),
      Measure.map_map hm (measurable_pi_lambda _ fun i => measurable_pi_apply _)] at h2
    exact h2

/-- **C10, failure below `1/N`.** For every `N ≥ 2` and every `0 ≤ e < 1/N` there are `N` points of which fewer than
`(1-e) N` are covered: the guarantee really stops at `1/N` because the quantile level is clamped at 1. -/
theorem C10_small_error_false (N : ℕ) (hN : 2 ≤ N) (e : K) (_he0 : 0 ≤ e) (he : e < 1 / (N : K)) :
    ∃ data : List (K × K × K), data.length = N ∧
      ∀ A : Finset ℕ, (∀ i ∈ A, ∃ h : i < data.length, QCovered (data.eraseIdx i) data[i] e) →
        (A.card : K) < (1 - e) * N := by
  refine ⟨(List.range N).map (fun i : ℕ => ((0 : K), (0 : K), (i : K))), by simp, ?_⟩
  intro A hA
  have hNK : (0 : K) < N := by
    have : 0 < N := by omega
    exact_mod_cast this
  have hsub : A ⊆ Finset.range (N - 1) := by
    intro i hi
    obtain ⟨h, hc⟩ := hA i hi
    simp only [List.length_map, List.length_range] at h
    rw [Finset.mem_range]
    by_contra hcon
    obtain rfl : i = N - 1 := by omega
    rw [qCovered_iff] at hc
    obtain ⟨q, hq, hle⟩ := hc
    obtain ⟨_, _, hq⟩ := scoresQuantile_ok hq
    have hb := (quantile_mem_range (lo := 0) (hi := ((N - 2 : ℕ) : K)) hq ?_ ?_).2
    · simp only [qScoreOf, List.getElem_map, List.getElem_range] at hle
      have h1 : ((N - 1 : ℕ) : K) ≤ ((N - 2 : ℕ) : K) := by
        refine le_trans ?_ (le_trans hle hb)
        simp
      have : N - 1 ≤ N - 2 := by exact_mod_cast h1
      omega
    · intro x hx
      simp only [List.mem_map] at hx
      obtain ⟨d, hd, rfl⟩ := hx
      have := List.mem_of_mem_eraseIdx hd
      simp only [List.mem_map] at this
      obtain ⟨j, _, rfl⟩ := this
      simp [qScoreOf]
    · intro x hx
      simp only [List.mem_map] at hx
      obtain ⟨d, hd, rfl⟩ := hx
      rw [List.mem_eraseIdx_iff_getElem] at hd
      obtain ⟨j, hj, hne, rfl⟩ := hd
      simp only [List.length_map, List.length_range] at hj
      have hjN : j ≤ N - 2 := by omega
      simp only [qScoreOf, List.getElem_map, List.getElem_range]
      have : (j : K) ≤ ((N - 2 : ℕ) : K) := by exact_mod_cast hjN
      have h0 : (0 : K) ≤ (j : K) := by positivity
      simp only [zero_sub, sub_zero, max_le_iff]
      exact ⟨by linarith, this⟩
  have hcard : A.card ≤ N - 1 := by simpa using Finset.card_le_card hsub
  have h1 : (A.card : K) ≤ (N : K) - 1 := by
    have : ((N - 1 : ℕ) : K) = (N : K) - 1 := by rw [Nat.cast_sub (by omega)]; simp
    rw [← this]; exact_mod_cast hcard
  have h2 : e * N < 1 := by rwa [lt_div_iff₀ hNK] at he
  linarith

/-! ### Concrete cases that meet the hypotheses of the theorems above -/

example := C09_quantile_membership (K := ℚ) [0, 0, 0] [1, 1, 1] [0, 2] [1, 3] [1, 2, 3] (1 / 2) (some (1 / 2)) [(-1 / 2, 3 / 2), (3 / 2, 7 / 2)] (by decide +kernel)
example := C10_small_error_false (K := ℚ) 9 (by norm_num) (1 / 10) (by norm_num) (by norm_num)

end Verif.Props
