import Verif.Props.ConformalRegression

/-! Properties C11–C13: nesting, properness and folds for conformal intervals. -/
set_option linter.unusedSectionVars false

namespace Verif.Props

open Verif.ConformalRegression Verif.Quantile

variable {K : Type*} [Field K] [LinearOrder K] [IsStrictOrderedRing K] [FloorRing K]

/-- Specification: the interval `a` contains the interval `b` (as pairs of end points). -/
def Contains (a b : K × K) : Prop := a.1 ≤ b.1 ∧ b.2 ≤ a.2

/-! ### C11 -/

/-- **C11** for `QuantileConformalRegressor`. -/
theorem C11_quantile_nested (valLo valHi testLo testHi valY : List K) (e₁ e₂ : K) (h : e₁ ≤ e₂)
    (ivs₁ ivs₂ : List (K × K)) (h₁ : quantileInterval valLo valHi testLo testHi valY e₁ none = .ok ivs₁)
    (h₂ : quantileInterval valLo valHi testLo testHi valY e₂ none = .ok ivs₂) : List.Forall₂ Contains ivs₁ ivs₂ := by
  obtain ⟨q₁, hq₁, hl, rfl⟩ := quantileInterval_ok h₁
  obtain ⟨q₂, hq₂, _, rfl⟩ := quantileInterval_ok h₂
  rcases hq₁ with hq₁ | ⟨_, hq₁⟩
  · cases hq₁
  rcases hq₂ with hq₂ | ⟨_, hq₂⟩
  · cases hq₂
  have hle : q₂ ≤ q₁ := by
    unfold quantileQuantile at hq₁ hq₂
    split at hq₁
    · cases hq₁
    split at hq₂
    · cases hq₂
    rw [bind_ok] at hq₁ hq₂
    obtain ⟨s, hs, hq₁⟩ := hq₁
    obtain ⟨s', hs', hq₂⟩ := hq₂
    rw [hs] at hs'; cases hs'
    exact scoresQuantile_anti h hq₁ hq₂
  rw [List.forall₂_iff_get]
  refine ⟨by simp, fun i hi hi' => ?_⟩
  simp only [List.get_eq_getElem, List.getElem_zip, List.getElem_map, Contains]
  constructor <;> linarith

/-- **C11** for `OneDimensionalUncertaintyConformalRegressor`. -/
theorem C11_onedim_nested (valP valU testP testU valY : List K) (e₁ e₂ : K) (h : e₁ ≤ e₂)
    (ivs₁ ivs₂ : List (K × K)) (h₁ : onedimInterval valP valU testP testU valY e₁ none = .ok ivs₁)
    (h₂ : onedimInterval valP valU testP testU valY e₂ none = .ok ivs₂) : List.Forall₂ Contains ivs₁ ivs₂ := by
  obtain ⟨q₁, hq₁, hpos, hl, rfl⟩ := onedimInterval_ok h₁
  obtain ⟨q₂, hq₂, _, _, rfl⟩ := onedimInterval_ok h₂
  rcases hq₁ with hq₁ | ⟨_, hq₁⟩
  · cases hq₁
  rcases hq₂ with hq₂ | ⟨_, hq₂⟩
  · cases hq₂
  have hle : q₂ ≤ q₁ := by
    unfold onedimQuantile at hq₁ hq₂
    split at hq₁
    · cases hq₁
    split at hq₂
    · cases hq₂
    rw [bind_ok] at hq₁ hq₂
    obtain ⟨s, hs, hq₁⟩ := hq₁
    obtain ⟨s', hs', hq₂⟩ := hq₂
    rw [hs] at hs'; cases hs'
    exact scoresQuantile_anti h hq₁ hq₂
  rw [List.forall₂_iff_get]
  refine ⟨by simp, fun i hi hi' => ?_⟩
  simp only [List.get_eq_getElem, List.getElem_zip, List.getElem_zipWith, Contains]
  have hu : i < testU.length := by simp at hi; omega
  have := mul_le_mul_of_nonneg_left hle (hpos _ (List.getElem_mem hu)).le
  constructor <;> linarith

theorem jackknifePlus_ok {valOut valY : List K} {test : List (List K)} {e : K} {ivs : List (K × K)}
    (h : jackknifePlus valOut valY test e = .ok ivs) :
    valOut.length = valY.length ∧ test.length = valOut.length ∧ ivs.length = ncols test ∧
    ∀ j (hj : j < ivs.length),
      quantile (List.zipWith (· - ·) (column test j) (absResiduals valY valOut)) e = some ivs[j].1 ∧
      quantile (List.zipWith (· + ·) (column test j) (absResiduals valY valOut)) (1 - e) = some ivs[j].2 := by
  unfold jackknifePlus at h
  split at h
  · cases h
  split at h
  · cases h
  split at h
  · cases h
  next h1 h2 _ =>
  push Not at h2
  obtain ⟨hl, hall⟩ := mapM_range_ok h
  refine ⟨not_not.1 h1, h2.1, hl, fun j hj => ?_⟩
  have := hall j hj
  rw [bind_ok] at this
  obtain ⟨a, ha, this⟩ := this
  rw [bind_ok] at this
  obtain ⟨b, hb, this⟩ := this
  rw [ofNan_ok] at ha hb
  cases hij : ivs[j] with
  | mk x y =>
    rw [hij] at this
    cases this
    exact ⟨ha, hb⟩

theorem jackknifeMinmax_ok {valOut valY : List K} {test : List (List K)} {e : K} {ivs : List (K × K)}
    (h : jackknifeMinmax valOut valY test e = .ok ivs) :
    valOut.length = valY.length ∧ ivs.length = ncols test ∧
    ∀ j (hj : j < ivs.length), ∃ q lo hi, quantile (absResiduals valY valOut) (1 - e) = some q ∧
      (column test j).min? = some lo ∧ (column test j).max? = some hi ∧ ivs[j] = (lo - q, hi + q) := by
  unfold jackknifeMinmax at h
  split at h
  · cases h
  split at h
  · cases h
  split at h
  · cases h
  split at h
  · cases h
  next h1 h2 h3 _ =>
  obtain ⟨hl, hall⟩ := mapM_range_ok h
  refine ⟨not_not.1 h1, hl, fun j hj => ?_⟩
  have := hall j hj
  rw [bind_ok] at this
  obtain ⟨q, hq, this⟩ := this
  rw [bind_ok] at this
  obtain ⟨lo, hlo, this⟩ := this
  rw [bind_ok] at this
  obtain ⟨hi, hhi, this⟩ := this
  rw [ofNan_ok] at hq
  refine ⟨q, lo, hi, hq, ?_, ?_, by injection this with this; exact this.symm⟩
  · unfold minOf at hlo; split at hlo
    · next h => cases hlo; exact h
    · cases hlo
  · unfold maxOf at hhi; split at hhi
    · next h => cases hhi; exact h
    · cases hhi

/-- Left and right score columns of CV+. -/
theorem cvPlus_ok {folds : List (Fold K)} {e : K} {ivs : List (K × K)} (h : cvPlus folds e = .ok ivs) :
    ivs.length = ncols (folds.map Fold.test) ∧
    ∀ j (hj : j < ivs.length),
      quantile (folds.flatMap fun f => (absResiduals f.valY f.valOut).map fun ri => f.test.getD j 0 - ri) e
        = some ivs[j].1 ∧
      quantile (folds.flatMap fun f => (absResiduals f.valY f.valOut).map fun ri => f.test.getD j 0 + ri) (1 - e)
        = some ivs[j].2 := by
  unfold cvPlus at h
  split at h
  · cases h
  split at h
  · cases h
  split at h
  · cases h
  split at h
  · cases h
  obtain ⟨hl, hall⟩ := mapM_range_ok h
  refine ⟨hl, fun j hj => ?_⟩
  have := hall j hj
  rw [bind_ok] at this
  obtain ⟨a, ha, this⟩ := this
  rw [bind_ok] at this
  obtain ⟨b, hb, this⟩ := this
  rw [ofNan_ok] at ha hb
  cases hij : ivs[j] with
  | mk x y =>
    rw [hij] at this
    cases this
    exact ⟨ha, hb⟩

/-- **C11** for jackknife+. -/
theorem C11_jackknifeplus_nested (valOut valY : List K) (test : List (List K)) (e₁ e₂ : K) (h : e₁ ≤ e₂)
    (ivs₁ ivs₂ : List (K × K)) (h₁ : jackknifePlus valOut valY test e₁ = .ok ivs₁)
    (h₂ : jackknifePlus valOut valY test e₂ = .ok ivs₂) : List.Forall₂ Contains ivs₁ ivs₂ := by
  obtain ⟨_, _, hl₁, hall₁⟩ := jackknifePlus_ok h₁
  obtain ⟨_, _, hl₂, hall₂⟩ := jackknifePlus_ok h₂
  rw [List.forall₂_iff_get]
  refine ⟨by omega, fun i hi hi' => ?_⟩
  obtain ⟨a₁, b₁⟩ := hall₁ i hi
  obtain ⟨a₂, b₂⟩ := hall₂ i hi'
  exact ⟨quantile_mono_level h a₁ a₂, quantile_mono_level (by linarith) b₂ b₁⟩

/-- **C11** for jackknife-minmax. -/
theorem C11_minmax_nested (valOut valY : List K) (test : List (List K)) (e₁ e₂ : K) (h : e₁ ≤ e₂)
    (ivs₁ ivs₂ : List (K × K)) (h₁ : jackknifeMinmax valOut valY test e₁ = .ok ivs₁)
    (h₂ : jackknifeMinmax valOut valY test e₂ = .ok ivs₂) : List.Forall₂ Contains ivs₁ ivs₂ := by
  obtain ⟨_, hl₁, hall₁⟩ := jackknifeMinmax_ok h₁
  obtain ⟨_, hl₂, hall₂⟩ := jackknifeMinmax_ok h₂
  rw [List.forall₂_iff_get]
  refine ⟨by omega, fun i hi hi' => ?_⟩
  obtain ⟨q₁, lo, hi₁, a₁, b₁, c₁, d₁⟩ := hall₁ i hi
  obtain ⟨q₂, lo', hi₂, a₂, b₂, c₂, d₂⟩ := hall₂ i hi'
  rw [b₁] at b₂; cases b₂
  rw [c₁] at c₂; cases c₂
  have hq : q₂ ≤ q₁ := quantile_mono_level (by linarith) a₂ a₁
  simp only [List.get_eq_getElem, d₁, d₂, Contains]
  constructor <;> linarith

/-- **C11** for CV+. -/
theorem C11_cvplus_nested (folds : List (Fold K)) (e₁ e₂ : K) (h : e₁ ≤ e₂)
    (ivs₁ ivs₂ : List (K × K)) (h₁ : cvPlus folds e₁ = .ok ivs₁) (h₂ : cvPlus folds e₂ = .ok ivs₂) :
    List.Forall₂ Contains ivs₁ ivs₂ := by
  obtain ⟨hl₁, hall₁⟩ := cvPlus_ok h₁
  obtain ⟨hl₂, hall₂⟩ := cvPlus_ok h₂
  rw [List.forall₂_iff_get]
  refine ⟨by omega, fun i hi hi' => ?_⟩
  obtain ⟨a₁, b₁⟩ := hall₁ i hi
  obtain ⟨a₂, b₂⟩ := hall₂ i hi'
  exact ⟨quantile_mono_level h a₁ a₂, quantile_mono_level (by linarith) b₂ b₁⟩

-- every method succeeds on concrete data with two levels, giving different intervals
example : jackknifePlus (K := ℚ) [0, 1, 2] [1, 1, 4] [[5, 0], [6, 0], [7, 1]] (1 / 4) =
      .ok [(9 / 2, 15 / 2), (- 1, 2)] ∧
    jackknifeMinmax (K := ℚ) [0, 1, 2] [1, 1, 4] [[5, 0], [6, 0], [7, 1]] (1 / 4) =
      .ok [(7 / 2, 17 / 2), (- 3 / 2, 5 / 2)] ∧
    jackknifePlus (K := ℚ) [0, 1, 2] [1, 1, 4] [[5, 0], [6, 0], [7, 1]] (1 / 2) = .ok [(5, 6), (- 1, 1)] ∧
    cvPlus (K := ℚ) [⟨[0, 1], [1, 1], [5]⟩, ⟨[2], [4], [7]⟩] (1 / 4) = .ok [(9 / 2, 15 / 2)] := by
  decide +kernel

/-! ### C12 -/

theorem absResiduals_nonneg {y m : List K} : ∀ r ∈ absResiduals y m, 0 ≤ r := by
  intro r hr
  unfold absResiduals at hr
  rw [List.mem_iff_getElem] at hr
  obtain ⟨i, hi, rfl⟩ := hr
  simp

theorem length_absResiduals (y m : List K) : (absResiduals y m).length = min y.length m.length := by
  simp [absResiduals]

/-- **C12.** Jackknife+ intervals are proper whenever `error ≤ 1/2`. -/
theorem C12_jackknifeplus_proper (valOut valY : List K) (test : List (List K)) (e : K) (he : e ≤ 1 / 2)
    (ivs : List (K × K)) (h : jackknifePlus valOut valY test e = .ok ivs) : ∀ iv ∈ ivs, iv.1 ≤ iv.2 := by
  obtain ⟨_, _, _, hall⟩ := jackknifePlus_ok h
  intro iv hiv
  obtain ⟨j, hj, rfl⟩ := List.mem_iff_getElem.1 hiv
  obtain ⟨a, b⟩ := hall j hj
  have hne := (quantile_some a).1
  have hlevel := quantile_of_ne hne (1 - e)
  refine le_trans (quantile_mono_level (by linarith) a hlevel) (quantile_mono_data ?_ hlevel b)
  rw [List.forall₂_iff_get]
  refine ⟨by simp, fun i hi hi' => ?_⟩
  simp only [List.get_eq_getElem, List.getElem_zipWith]
  have hir : i < (absResiduals valY valOut).length := by
    rw [List.length_zipWith] at hi; omega
  have := absResiduals_nonneg _ (List.getElem_mem hir)
  linarith

/-- **C12.** CV+ intervals are proper whenever `error ≤ 1/2`. -/
theorem C12_cvplus_proper (folds : List (Fold K)) (e : K) (he : e ≤ 1 / 2)
    (ivs : List (K × K)) (h : cvPlus folds e = .ok ivs) : ∀ iv ∈ ivs, iv.1 ≤ iv.2 := by
  obtain ⟨_, hall⟩ := cvPlus_ok h
  intro iv hiv
  obtain ⟨j, hj, rfl⟩ := List.mem_iff_getElem.1 hiv
  obtain ⟨a, b⟩ := hall j hj
  have hne := (quantile_some a).1
  have hlevel := quantile_of_ne hne (1 - e)
  refine le_trans (quantile_mono_level (by linarith) a hlevel) (quantile_mono_data ?_ hlevel b)
  apply List.rel_flatMap (R := Eq)
  · exact List.forall₂_eq_eq_eq ▸ rfl
  · rintro f _ rfl
    rw [List.forall₂_map_left_iff, List.forall₂_map_right_iff, List.forall₂_same]
    intro r hr
    have := absResiduals_nonneg r hr
    linarith

/-- **C12.** Jackknife-minmax intervals are proper at every error level. -/
theorem C12_minmax_proper (valOut valY : List K) (test : List (List K)) (e : K)
    (ivs : List (K × K)) (h : jackknifeMinmax valOut valY test e = .ok ivs) : ∀ iv ∈ ivs, iv.1 ≤ iv.2 := by
  obtain ⟨_, _, hall⟩ := jackknifeMinmax_ok h
  intro iv hiv
  obtain ⟨j, hj, rfl⟩ := List.mem_iff_getElem.1 hiv
  obtain ⟨q, lo, hi, a, b, c, d⟩ := hall j hj
  rw [d]
  obtain ⟨m, _, hm⟩ := Verif.ListAux.exists_max _ (quantile_some a).1
  have hq := (quantile_mem_range a absResiduals_nonneg hm).1
  have h1 : lo ∈ column test j := List.min?_mem b
  have h2 := (List.max?_eq_some_iff.1 c).2 lo h1
  dsimp only
  linarith

/-- **C12.** The jackknife-minmax interval contains the jackknife+ interval, at every error level. -/
theorem C12_minmax_contains_plus (valOut valY : List K) (test : List (List K)) (e : K)
    (ivsM ivsP : List (K × K)) (hM : jackknifeMinmax valOut valY test e = .ok ivsM)
    (hP : jackknifePlus valOut valY test e = .ok ivsP) : List.Forall₂ Contains ivsM ivsP := by
  obtain ⟨hlen, hlM, hallM⟩ := jackknifeMinmax_ok hM
  obtain ⟨_, htest, hlP, hallP⟩ := jackknifePlus_ok hP
  rw [List.forall₂_iff_get]
  refine ⟨by omega, fun j hj hj' => ?_⟩
  obtain ⟨q, lo, hi, a, b, c, d⟩ := hallM j hj
  obtain ⟨x, y⟩ := hallP j hj'
  simp only [List.get_eq_getElem, d, Contains]
  set r := absResiduals valY valOut with hr
  have hlr : r.length = (column test j).length := by
    rw [hr, length_absResiduals]; simp [column]; omega
  constructor
  · have h1 := quantile_map_sub lo r e
    rw [a] at h1
    refine quantile_mono_data ?_ h1 x
    rw [List.forall₂_iff_get]
    refine ⟨by simp [hlr], fun i hi hi' => ?_⟩
    simp only [List.get_eq_getElem, List.getElem_map, List.getElem_zipWith]
    have := (List.min?_eq_some_iff.1 b).2 _ (List.getElem_mem (n := i) (by rw [List.length_zipWith] at hi'; omega))
    linarith
  · have h1 := quantile_map_add hi r (1 - e)
    rw [a] at h1
    refine quantile_mono_data ?_ y h1
    rw [List.forall₂_iff_get]
    refine ⟨by simp [hlr], fun i hi' hi'' => ?_⟩
    simp only [List.get_eq_getElem, List.getElem_map, List.getElem_zipWith]
    have := (List.max?_eq_some_iff.1 c).2 _ (List.getElem_mem (n := i) (by rw [List.length_zipWith] at hi'; omega))
    linarith

/-- **C12, failure above 1/2.** Jackknife+ can return an inverted interval for an accepted error level. -/
theorem C12_jackknifeplus_large_error_false :
    ∃ (valOut valY : List ℚ) (test : List (List ℚ)) (e : ℚ) (iv : ℚ × ℚ), 0 ≤ e ∧ e ≤ 1 ∧
      jackknifePlus valOut valY test e = .ok [iv] ∧ iv.2 < iv.1 :=
  ⟨[0, 0], [0, 0], [[0], [1]], 3 / 4, (3 / 4, 1 / 4), by norm_num, by norm_num, by decide +kernel, by norm_num⟩

/-! ### C13 -/

/-- **C13.** CV+ on folds of one point each equals jackknife+ on the same leave-one-out predictions. `loo` lists, per
left-out point, its output, its target and the outputs of its model on the test inputs. -/
theorem C13_cvplus_singleton_folds (loo : List (K × K × List K)) (hne : loo ≠ []) (e : K) :
    cvPlus (loo.map fun p => ⟨[p.1], [p.2.1], p.2.2⟩) e =
      jackknifePlus (loo.map (·.1)) (loo.map (·.2.1)) (loo.map (·.2.2)) e := by
  unfold cvPlus jackknifePlus
  rw [if_neg (by simp), if_neg (by simpa using hne), if_neg (c := (loo.map (·.1)).length ≠ _) (by simp)]
  simp only [List.map_map, Function.comp_def, List.length_map, ne_eq, not_true_eq_false, false_or]
  split
  · rfl
  split
  · rfl
  · next hmat hc =>
    clear hmat hne hc
    congr 1
    funext j
    have hL : (loo.map fun p => (⟨[p.1], [p.2.1], p.2.2⟩ : Fold K)).flatMap
          (fun f => (absResiduals f.valY f.valOut).map fun ri => f.test.getD j 0 - ri) =
        List.zipWith (· - ·) (column (loo.map (·.2.2)) j) (absResiduals (loo.map (·.2.1)) (loo.map (·.1))) := by
      induction loo with
      | nil => rfl
      | cons a l ih =>
        simp only [List.map_cons, List.flatMap_cons, column, absResiduals, List.zipWith_cons_cons] at ih ⊢
        rw [ih]; rfl
    have hR : (loo.map fun p => (⟨[p.1], [p.2.1], p.2.2⟩ : Fold K)).flatMap
          (fun f => (absResiduals f.valY f.valOut).map fun ri => f.test.getD j 0 + ri) =
        List.zipWith (· + ·) (column (loo.map (·.2.2)) j) (absResiduals (loo.map (·.2.1)) (loo.map (·.1))) := by
      clear hL
      induction loo with
      | nil => rfl
      | cons a l ih =>
        simp only [List.map_cons, List.flatMap_cons, column, absResiduals, List.zipWith_cons_cons] at ih ⊢
        rw [ih]; rfl
    rw [hL, hR]

/-- Two folds hold the same labelled points up to order, and the same test outputs. -/
def SamePoints (f g : Fold K) : Prop :=
  f.test = g.test ∧ f.valOut.length = f.valY.length ∧ g.valOut.length = g.valY.length ∧
    (f.valY.zip f.valOut).Perm (g.valY.zip g.valOut)

theorem absResiduals_eq_map (y m : List K) : absResiduals y m = (y.zip m).map fun p => |p.1 - p.2| := by
  unfold absResiduals; rw [List.zip, List.map_zipWith]

/-- **C13.** Reordering the points inside each fold does not change the CV+ intervals. -/
theorem C13_order_within_folds (fs gs : List (Fold K)) (h : List.Forall₂ SamePoints fs gs) (e : K) :
    cvPlus fs e = cvPlus gs e := by
  have ht : fs.map Fold.test = gs.map Fold.test := by
    induction h with
    | nil => rfl
    | cons h1 _ ih => simp [h1.1, ih]
  have hf : fs.any (fun f => f.valOut.length ≠ f.valY.length) = false := by
    induction h with
    | nil => rfl
    | cons h1 _ ih => simp_all [h1.2.1]
  have hg : gs.any (fun f => f.valOut.length ≠ f.valY.length) = false := by
    induction h with
    | nil => rfl
    | cons h1 _ ih => simp_all [h1.2.2.1]
  have hperm : ∀ (j : ℕ) (op : K → K → K),
      (fs.flatMap fun f => (absResiduals f.valY f.valOut).map fun ri => op (f.test.getD j 0) ri).Perm
      (gs.flatMap fun f => (absResiduals f.valY f.valOut).map fun ri => op (f.test.getD j 0) ri) := by
    intro j op
    clear ht hf hg
    induction h with
    | nil => exact List.Perm.refl _
    | cons h1 _ ih =>
      simp only [List.flatMap_cons]
      refine List.Perm.append ?_ ih
      rw [h1.1, absResiduals_eq_map, absResiduals_eq_map]
      exact (h1.2.2.2.map _).map _
  unfold cvPlus
  have he : fs = [] ↔ gs = [] := by
    rw [← List.length_eq_zero_iff, h.length_eq, List.length_eq_zero_iff]
  rw [hf, hg, ht]
  simp only [Bool.false_eq_true, if_false, he]
  split
  · rfl
  split
  · rfl
  split
  · rfl
  · congr 1
    funext j
    rw [quantile_perm (hperm j (· - ·)), quantile_perm (hperm j (· + ·))]

/-- **C13.** Passing the folds in another order does not change the CV+ intervals. -/
theorem C13_order_of_folds (fs gs : List (Fold K)) (h : fs.Perm gs) (m : ℕ) (hm : ∀ f ∈ fs, f.test.length = m) (e : K) :
    cvPlus fs e = cvPlus gs e := by
  have hmg : ∀ f ∈ gs, f.test.length = m := fun f hf => hm f (h.mem_iff.2 hf)
  have hany : fs.any (fun f => f.valOut.length ≠ f.valY.length) = gs.any (fun f => f.valOut.length ≠ f.valY.length) :=
    h.any_eq
  have hnc : ∀ l : List (Fold K), (∀ f ∈ l, f.test.length = m) → l ≠ [] → ncols (l.map Fold.test) = m := by
    intro l hl hne
    cases l with
    | nil => exact absurd rfl hne
    | cons a l => simpa [ncols] using hl a (by simp)
  by_cases hne : fs = []
  · subst hne; rw [h.nil_eq]
  have hneg : gs ≠ [] := fun h0 => hne (by rw [h0] at h; exact h.eq_nil)
  have hmat : ∀ l : List (Fold K), (∀ f ∈ l, f.test.length = m) → l ≠ [] → isMatrix (l.map Fold.test) = true := by
    intro l hl hne
    unfold isMatrix
    rw [hnc l hl hne]
    simpa using hl
  unfold cvPlus
  rw [hany, hmat fs hm hne, hmat gs hmg hneg, hnc fs hm hne, hnc gs hmg hneg, if_neg hne, if_neg hneg]
  split
  · rfl
  · simp only [Bool.not_true, Bool.false_eq_true, if_false]
    congr 2
    funext j
    rw [quantile_perm (h.flatMap_right _), quantile_perm (h.flatMap_right _)]

example : SamePoints (K := ℚ) ⟨[0, 1], [1, 3], [5]⟩ ⟨[1, 0], [3, 1], [5]⟩ := by
  refine ⟨rfl, rfl, rfl, ?_⟩
  decide +kernel

/-! ### Concrete cases that meet the hypotheses of the theorems above -/

example := C11_quantile_nested (K := ℚ) [0, 1, 2] [1, 2, 3] [0, 5] [1, 6] [1 / 2, 3, 2] (1 / 4) (1 / 2) (by norm_num) [(-1, 2), (4, 7)]
  [(-1 / 3, 4 / 3), (14 / 3, 19 / 3)] (by decide +kernel) (by decide +kernel)
example := C11_onedim_nested (K := ℚ) [0, 1, 2] [1, 2, 1] [0, 5] [1, 2] [1 / 2, 3, 3] (1 / 4) (1 / 2) (by norm_num) [(-1, 1), (3, 7)]
  [(-1, 1), (3, 7)] (by decide +kernel) (by decide +kernel)
example := C11_jackknifeplus_nested (K := ℚ) [0, 1, 2] [1, 3, 2] [[0, 5], [1, 4], [2, 6]] (1 / 4) (1 / 2) (by norm_num) [(-1, 5 / 2), (3, 6)]
  [(-1, 2), (4, 6)] (by decide +kernel) (by decide +kernel)
example := C11_minmax_nested (K := ℚ) [0, 1, 2] [1, 3, 2] [[0, 5], [1, 4], [2, 6]] (1 / 4) (1 / 2) (by norm_num)
  [(-3 / 2, 7 / 2), (5 / 2, 15 / 2)] [(-1, 3), (3, 7)] (by decide +kernel) (by decide +kernel)
example := C12_jackknifeplus_proper (K := ℚ) [0, 1, 2] [1, 3, 2] [[0, 5], [1, 4], [2, 6]] (1 / 4) (by norm_num) [(-1, 5 / 2), (3, 6)]
  (by decide +kernel)
example := C12_cvplus_proper (K := ℚ) [⟨[0, 1], [1, 3], [0, 5]⟩, ⟨[2], [2], [1, 4]⟩] (1 / 2) (by norm_num) [(-1, 1), (4, 6)] (by decide +kernel)
example := C12_minmax_proper (K := ℚ) [0, 1, 2] [1, 3, 2] [[0, 5], [1, 4], [2, 6]] (1 / 4) [(-3 / 2, 7 / 2), (5 / 2, 15 / 2)] (by decide +kernel)
example := C12_minmax_contains_plus (K := ℚ) [0, 1, 2] [1, 3, 2] [[0, 5], [1, 4], [2, 6]] (1 / 4) [(-3 / 2, 7 / 2), (5 / 2, 15 / 2)]
  [(-1, 5 / 2), (3, 6)] (by decide +kernel) (by decide +kernel)
example := C13_cvplus_singleton_folds (K := ℚ) [(0, 1, [0, 5]), (1, 3, [1, 4])] (by simp) (1 / 4)
example := C13_order_within_folds (K := ℚ) [⟨[0, 1], [1, 3], [0, 5]⟩] [⟨[1, 0], [3, 1], [0, 5]⟩]
  (.cons ⟨rfl, rfl, rfl, List.Perm.swap _ _ _⟩ .nil) (1 / 2)

end Verif.Props
