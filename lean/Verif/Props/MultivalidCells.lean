import Verif.Props.MultivalidError
import Verif.Props.MultivalidMore
import Mathlib.Algebra.BigOperators.Group.Finset.Basic
import Mathlib.Algebra.BigOperators.Intervals
import Mathlib.Data.List.Sort
import Mathlib.Algebra.BigOperators.Field

/-! Properties C19, C57: multiplicative patches, the loss, and what the one-shot methods compute exactly. -/
set_option linter.unusedSectionVars false

namespace Verif.Props.MultivalidCells

open Verif.Multivalid Verif.ArrayOps Verif.Props

variable {K : Type*} [Field K] [LinearOrder K] [IsStrictOrderedRing K]

theorem getD_lt {α : Type*} (l : List α) (a : α) {i : ℕ} (h : i < l.length) : l.getD i a = l[i] := by
  rw [List.getD_eq_getElem?_getD, List.getElem?_eq_getElem h]; rfl

/-! ### C19: multiplicative patches -/

theorem selected_patchValues (pt : PatchType) (eta delta : K) (b : List Bool) (c : ℕ) (values : List (List K))
    (hl : values.length = b.length) (hc : ∀ r ∈ values, c < r.length) :
    selected b (col (patchValues pt eta delta c b values) c) = (selected b (col values c)).map (patchEntry pt eta delta) := by
  induction b generalizing values with
  | nil => simp [selected]
  | cons t b ih =>
    cases values with
    | nil => simp at hl
    | cons v values =>
      have := ih values (by simpa using hl) (fun r hr => hc r (by simp [hr]))
      cases t with
      | false => simpa [selected, col, patchValues, patchRow] using this
      | true =>
        have hv := hc v (by simp)
        have e : (v.set c (patchEntry pt eta delta (v.getD c 0))).getD c 0 = patchEntry pt eta delta (v.getD c 0) := by
          rw [List.getD_eq_getElem?_getD, List.getElem?_set_self hv]; rfl
        have e1 : selected (true :: b) (col (patchValues pt eta delta c (true :: b) (v :: values)) c) =
            (v.set c (patchEntry pt eta delta (v.getD c 0))).getD c 0 ::
              selected b (col (patchValues pt eta delta c b values) c) := by
          simp [selected, col, patchValues, patchRow]
        have e2 : selected (true :: b) (col (v :: values) c) = v.getD c 0 :: selected b (col values c) := by
          simp [selected, col]
        rw [e1, e2, e, this, List.map_cons]

/-- **C19.** The multiplicative patch is undefined exactly for an empty cell or a cell with mean value zero; otherwise it is the
mean score of the cell over its mean value. -/
theorem C19_multiplicative_patch (b : List Bool) (c : ℕ) (values scores : List (List K)) (hs : Shaped b c values scores) :
    (mcPatch .multiplicative b c values scores = none ↔
      (∀ t ∈ b, t = false) ∨ mean (selected b (col values c)) = 0) ∧
    ∀ delta, mcPatch .multiplicative b c values scores = some delta →
      delta * mean (selected b (col values c)) = mean (selected b (col scores c)) := by
  unfold mcPatch
  rcases Nat.eq_zero_or_pos (b.count true) with h | h
  · have h0 : probB (K := K) b = 0 := by simp [probB, h]
    simp only [h0, if_true]
    refine ⟨⟨fun _ => Or.inl ?_, fun _ => trivial⟩, fun delta hd => by cases hd⟩
    intro t ht
    cases t with
    | false => rfl
    | true => exact absurd ht (List.count_eq_zero.1 h)
  · have h0 : probB (K := K) b ≠ 0 := ((probB_pos_iff (K := K) b).2 h).ne'
    have hb : ¬ ∀ t ∈ b, t = false := fun hh => by
      have := hh true (List.count_pos_iff.1 h); cases this
    simp only [h0, if_false]
    have es : (col scores c).length = b.length := by simp [col, hs.lenS]
    have ev : (col values c).length = b.length := by simp [col, hs.lenV]
    rw [maskedMean_div_probB b _ es h, maskedMean_div_probB b _ ev h]
    by_cases hz : mean (selected b (col values c)) = 0
    · simp [hz]
    · simp only [hz, if_false, hb, or_false]
      refine ⟨by simp, fun delta hd => ?_⟩
      cases hd
      field_simp

/-- **C19.** A full multiplicative step without clipping makes the cell mean-calibrated, too. -/
theorem C19_cell_mean_multiplicative (b : List Bool) (c : ℕ) (values scores : List (List K)) (hs : Shaped b c values scores)
    (delta : K) (hd : mcPatch .multiplicative b c values scores = some delta)
    (hnc : ∀ x ∈ selected b (col values c), 0 ≤ x * delta ∧ x * delta ≤ 1) :
    mean (selected b (col (patchValues .multiplicative 1 delta c b values) c)) = mean (selected b (col scores c)) := by
  rw [← (C19_multiplicative_patch b c values scores hs).2 delta hd,
    selected_patchValues .multiplicative 1 delta b c values hs.lenV hs.colV]
  have : (selected b (col values c)).map (patchEntry .multiplicative 1 delta) =
      (selected b (col values c)).map fun x => x * delta := by
    apply List.map_congr_left
    intro x hx
    have h := hnc x hx
    have e : x * (1 - 1 * (1 - delta)) = x * delta := by ring
    unfold patchEntry
    dsimp only
    rw [e]
    exact clip_eq h.1 h.2
  rw [this]
  unfold mean
  rw [List.sum_map_mul_right, List.length_map, List.map_id']
  ring

example : mcPatch (K := ℚ) .multiplicative [true, false, true] 0 [[1 / 4], [0], [1 / 2]] [[1 / 2], [1], [1 / 4]] = some 1 ∧
    mcPatch (K := ℚ) .multiplicative [true, true] 0 [[1 / 4], [1 / 4]] [[1 / 2], [1]] = some 3 ∧
    patchValues (K := ℚ) .multiplicative 1 3 0 [true, true] [[1 / 4], [1 / 4]] = [[3 / 4], [3 / 4]] := by decide +kernel

/-! ### C19: the loss -/

theorem zipWith_sum {α β : Type*} (f : α → β → K) (a : List α) (b : List β) (h : a.length = b.length) (da : α) (db : β) :
    (List.zipWith f a b).sum = ∑ i ∈ Finset.range a.length, f (a.getD i da) (b.getD i db) := by
  induction a generalizing b with
  | nil => simp
  | cons x a ih =>
    cases b with
    | nil => cases h
    | cons y b =>
      rw [List.zipWith_cons_cons, List.sum_cons, ih b (by simpa using h), List.length_cons, Finset.sum_range_succ']
      simp [add_comm]

/-- Specification: the sum of the squared differences of two matrices with `N` rows and `n` columns. -/
def sqSum (N n : ℕ) (values scores : List (List K)) : K :=
  ∑ i ∈ Finset.range N, ∑ j ∈ Finset.range n, ((values.getD i []).getD j 0 - (scores.getD i []).getD j 0) ^ 2

theorem sqErr_eq (N n : ℕ) (values scores : List (List K)) (hv : values.length = N) (hs : scores.length = N)
    (hrv : ∀ r ∈ values, r.length = n) (hrs : ∀ r ∈ scores, r.length = n) : sqErr values scores = sqSum N n values scores := by
  unfold sqErr sqSum
  rw [zipWith_sum _ values scores (by omega) [] [], hv]
  apply Finset.sum_congr rfl
  intro i hi
  rw [Finset.mem_range] at hi
  have h1 : (values.getD i []).length = n := by
    have hiv : i < values.length := by omega
    rw [getD_lt _ _ hiv]; exact hrv _ (List.getElem_mem hiv)
  have h2 : (scores.getD i []).length = n := by
    have his : i < scores.length := by omega
    rw [getD_lt _ _ his]; exact hrs _ (List.getElem_mem his)
  rw [zipWith_sum _ _ _ (by omega) 0 0, h1]

/-- **C19.** The loss of the top-label method is the mean squared error over all rows and classes; without entries it is
undefined. -/
theorem C19_loss_value (N n : ℕ) (values scores : List (List K)) (hv : values.length = N) (hs : scores.length = N)
    (hrv : ∀ r ∈ values, r.length = n) (hrs : ∀ r ∈ scores, r.length = n) (pt : PatchType) :
    (0 < N * n → (topLabelMulticalibrator pt).loss values scores = some (sqSum N n values scores / ((N : K) * (n : K)))) ∧
    (N * n = 0 → (topLabelMulticalibrator pt).loss values scores = none) := by
  have hl : (values.map List.length).sum = N * n := by rw [sum_lengths n values hrv, hv]
  simp only [topLabelMulticalibrator, mcLoss2d, hl, sqErr_eq N n values scores hv hs hrv hrs]
  constructor
  · intro h
    rw [if_neg (by omega), Nat.cast_mul]
  · intro h
    rw [if_pos h]

/-- **C19 (does not hold).** The loss of the one-dimensional methods is documented as the mean squared error; it is the sum of
the squared errors. -/
theorem C19_mean_squared_error_false (N : ℕ) (values scores : List (List K)) (hv : values.length = N) (hs : scores.length = N)
    (hrv : ∀ r ∈ values, r.length = 1) (hrs : ∀ r ∈ scores, r.length = 1) (pt : PatchType) (hN : 2 ≤ N)
    (hne : sqSum N 1 values scores ≠ 0) :
    (multicalibrator pt).loss values scores = some (sqSum N 1 values scores) ∧
    (multicalibrator pt).loss values scores ≠ some (sqSum N 1 values scores / (N : K)) := by
  have : (multicalibrator pt).loss values scores = some (sqSum N 1 values scores) := by
    simp only [multicalibrator, mcLoss1d, sqErr_eq N 1 values scores hv hs hrv hrs]
  refine ⟨this, ?_⟩
  rw [this]
  intro h
  have h := Option.some.inj h
  have hN0 : (N : K) ≠ 0 := by exact_mod_cast (by omega : N ≠ 0)
  have hN1 : (N : K) ≠ 1 := by exact_mod_cast (by omega : N ≠ 1)
  rw [eq_div_iff hN0] at h
  exact hN1 (mul_left_cancel₀ hne (by rw [h, mul_one]))

example : (topLabelMulticalibrator (K := ℚ) .additive).loss [[1, 0], [1 / 2, 1 / 2]] [[1, 0], [0, 1]] = some (1 / 8) ∧
    (multicalibrator (K := ℚ) .additive).loss [[1], [1 / 2]] [[0], [0]] = some (5 / 4) := by decide +kernel

/-! ### C57: the one-shot methods -/

/-- Specification: `c` is the first class with the largest probability. -/
def FirstMax (row : List K) (c : ℕ) : Prop :=
  c < row.length ∧ ∀ (j : ℕ) (y : K), row[j]? = some y → y ≤ row.getD c 0 ∧ (j < c → y < row.getD c 0)

theorem argmax_iff (row : List K) (h : row ≠ []) (c : ℕ) : argmax row = c ↔ FirstMax row c := by
  obtain ⟨m, h1, h2, h3⟩ := argmax_spec row h
  constructor
  · rintro rfl
    refine ⟨argmax_lt row h, fun j y hy => ?_⟩
    have : row.getD (argmax row) 0 = m := by rw [List.getD_eq_getElem?_getD, h1]; rfl
    rw [this]
    exact ⟨h2 y (List.mem_of_getElem? hy), fun hj => h3 j y hj hy⟩
  · rintro ⟨hc, hall⟩
    have hcv : row[c]? = some (row.getD c 0) := by
      rw [getD_lt _ _ hc, List.getElem?_eq_getElem hc]
    rcases Nat.lt_trichotomy (argmax row) c with hlt | heq | hgt
    · have := (hall _ m h1).2 hlt
      exact absurd this (not_lt.2 (h2 _ (List.mem_of_getElem? hcv)))
    · exact heq
    · have := h3 c _ hgt hcv
      exact absurd this (not_lt.2 (hall _ m h1).1)

/-- **C57.** A row is in the cell of value `v` and class `c` exactly if `c` is its first most likely class and the probability of
`c` is within half a bucket of `v`. -/
theorem C57_cell (n : ℕ) (v : K) (c : ℕ) (row : List K) (h : row ≠ []) :
    oneShotB n v c row = true ↔ |row.getD c 0 - v| < 1 / (2 * (n : K)) ∧ FirstMax row c := by
  unfold oneShotB
  rw [Bool.and_eq_true, decide_eq_true_eq, decide_eq_true_eq, argmax_iff row h, div_div]

/-- **C57.** The patch of bucket `k` and class `c` is the mean score of the rows of its cell if they are more than the fraction
`minProbB` of all rows, and the bucket itself otherwise. -/
theorem C57_patch_value (n nDims : ℕ) (minProbB : K) (hm : 0 ≤ minProbB) (values scores : List (List K))
    (hl : scores.length = values.length) (k c : ℕ) (hk : k < n) (hc : c < nDims) (v : K)
    (hv : v = (k : K) / ((n - 1 : ℕ) : K)) (b : List Bool) (hb : b = values.map (oneShotB n v c)) :
    (minProbB * (values.length : K) < (b.count true : K) →
      ((oneShotCalibrate n nDims minProbB values scores).getD k []).getD c 0 = mean (selected b (col scores c))) ∧
    ((b.count true : K) ≤ minProbB * (values.length : K) →
      ((oneShotCalibrate n nDims minProbB values scores).getD k []).getD c 0 = v) := by
  have hentry : ((oneShotCalibrate n nDims minProbB values scores).getD k []).getD c 0 =
      oneShotPatch n minProbB v c values scores := by
    unfold oneShotCalibrate linspace
    have hv' : (0 : K) + (k : K) * ((1 - 0) / ((n - 1 : ℕ) : K)) = v := by rw [hv]; ring
    simp only [List.getD_eq_getElem?_getD, List.getElem?_map, List.getElem?_range hk, Option.map_some, Option.getD_some,
      List.getElem?_range hc, hv']
  rw [hentry]
  unfold oneShotPatch
  dsimp only
  rw [← hb]
  have hbl : b.length = values.length := by rw [hb, List.length_map]
  rcases Nat.eq_zero_or_pos values.length with h0 | hpos
  · have hb0 : b = [] := List.eq_nil_of_length_eq_zero (by omega)
    subst hb0
    refine ⟨fun h => ?_, fun _ => ?_⟩
    · simp [h0] at h
    · rw [if_neg]; simp [probB, hm]
  · have hp : (0 : K) < (values.length : K) := by exact_mod_cast hpos
    have hiff : probB (K := K) b > minProbB ↔ minProbB * (values.length : K) < (b.count true : K) := by
      unfold probB; rw [gt_iff_lt, hbl, lt_div_iff₀ hp]
    refine ⟨fun h => ?_, fun h => ?_⟩
    · rw [if_pos (hiff.2 h)]
      refine maskedMean_div_probB b _ (by simp [col, hl, hbl]) ?_
      exact (probB_pos_iff (K := K) b).1 (lt_of_le_of_lt hm (hiff.2 h))
    · rw [if_neg]
      rw [hiff]
      exact not_lt.2 h

/-! The assignments of `_patch` act on every row by itself. -/

/-- One assignment on one row. -/
def rowStep (n : ℕ) (patches : List (List K)) (o : List K) (v : K) (c : ℕ) (r : List K) : List K :=
  if oneShotB n v c o then
    r.set c ((patches.getD (argmin ((linspace 0 1 n).map fun u => |u - v|)) []).getD c 0)
  else r

theorem oneShotStep_getElem? (n : ℕ) (patches orig cur : List (List K)) (v : K) (c i : ℕ) (o : List K)
    (ho : orig[i]? = some o) :
    (oneShotStep n patches orig v c cur)[i]? = (cur[i]?).map (rowStep n patches o v c) := by
  unfold oneShotStep
  dsimp only
  rw [List.getElem?_zipWith, ho]
  cases cur[i]? <;> rfl

theorem inner_getElem? (n : ℕ) (patches orig : List (List K)) (v : K) (i : ℕ) (o : List K) (ho : orig[i]? = some o)
    (cs : List ℕ) (cur : List (List K)) :
    (cs.foldl (fun cur c => oneShotStep n patches orig v c cur) cur)[i]? =
      (cur[i]?).map fun r => cs.foldl (fun r c => rowStep n patches o v c r) r := by
  induction cs generalizing cur with
  | nil => simp
  | cons c cs ih =>
    rw [List.foldl_cons, ih, oneShotStep_getElem? n patches orig cur v c i o ho, Option.map_map]
    rfl

theorem outer_getElem? (n d : ℕ) (patches orig : List (List K)) (i : ℕ) (o : List K) (ho : orig[i]? = some o)
    (vs : List K) (cur : List (List K)) :
    (vs.foldl (fun cur v => (List.range d).foldl (fun cur c => oneShotStep n patches orig v c cur) cur) cur)[i]? =
      (cur[i]?).map fun r => vs.foldl (fun r v => (List.range d).foldl (fun r c => rowStep n patches o v c r) r) r := by
  induction vs generalizing cur with
  | nil => simp
  | cons v vs ih =>
    rw [List.foldl_cons, ih, inner_getElem? n patches orig v i o ho, Option.map_map]
    rfl

/-- Only the most likely class is assigned. -/
theorem inner_row (n d : ℕ) (patches : List (List K)) (o : List K) (v : K) (hd : argmax o < d) (r : List K) :
    (List.range d).foldl (fun r c => rowStep n patches o v c r) r = rowStep n patches o v (argmax o) r := by
  have hskip : ∀ (cs : List ℕ), argmax o ∉ cs → ∀ r, cs.foldl (fun r c => rowStep n patches o v c r) r = r := by
    intro cs
    induction cs with
    | nil => intro _ r; rfl
    | cons c cs ih =>
      intro hn r
      rw [List.foldl_cons]
      have hne : argmax o ≠ c := fun h => hn (by simp [h])
      have : rowStep n patches o v c r = r := by
        unfold rowStep
        rw [if_neg]
        simp [oneShotB, hne]
      rw [this]
      exact ih (fun h => hn (by simp [h])) r
  obtain ⟨l1, l2, h⟩ := List.append_of_mem (List.mem_range.2 hd)
  have hnd := List.nodup_range (n := d)
  rw [h] at hnd
  have h2 := List.nodup_append.1 hnd
  have hn1 : argmax o ∉ l1 := fun hh => h2.2.2 _ hh _ (by simp) rfl
  have hn2 : argmax o ∉ l2 := (List.nodup_cons.1 h2.2.1).1
  rw [h, List.foldl_append, hskip l1 hn1, List.foldl_cons, hskip l2 hn2]

theorem unique_sorted (l : List K) : (Multivalid.unique l).Pairwise (· ≤ ·) :=
  (List.pairwise_insertionSort (· ≤ ·) l).sublist (List.dedup_sublist _)

theorem mem_unique (l : List K) (x : K) : x ∈ Multivalid.unique l ↔ x ∈ l := by
  unfold Multivalid.unique
  rw [List.mem_dedup, List.mem_insertionSort]

/-- The last matching value of an ascending list decides. -/
theorem outer_row (p : K → Bool) (f : K → K) (c : ℕ) (vs : List K) (hs : vs.Pairwise (· ≤ ·)) (r : List K) :
    (∀ v ∈ vs, p v = false) ∧ vs.foldl (fun r v => if p v then r.set c (f v) else r) r = r ∨
    ∃ u ∈ vs, p u = true ∧ (∀ w ∈ vs, p w = true → w ≤ u) ∧
      vs.foldl (fun r v => if p v then r.set c (f v) else r) r = r.set c (f u) := by
  induction vs generalizing r with
  | nil => exact Or.inl ⟨by simp, rfl⟩
  | cons v vs ih =>
    obtain ⟨h1, h2⟩ := List.pairwise_cons.1 hs
    rw [List.foldl_cons]
    rcases ih h2 (if p v then r.set c (f v) else r) with ⟨ha, hb⟩ | ⟨u, hu, hp, hmax, hb⟩
    · cases hv : p v with
      | false =>
        refine Or.inl ⟨?_, by rw [hv] at hb; exact hb⟩
        intro w hw
        rcases List.mem_cons.1 hw with rfl | hw
        · exact hv
        · exact ha w hw
      | true =>
        refine Or.inr ⟨v, by simp, hv, ?_, by rw [hv] at hb; exact hb⟩
        intro w hw hpw
        rcases List.mem_cons.1 hw with rfl | hw
        · exact le_refl _
        · rw [ha w hw] at hpw; cases hpw
    · refine Or.inr ⟨u, by simp [hu], hp, ?_, ?_⟩
      · intro w hw hpw
        rcases List.mem_cons.1 hw with rfl | hw
        · exact h1 u hu
        · exact hmax w hw hpw
      · rw [hb]
        split
        · rw [List.set_set]
        · rfl

/-- **C57.** What applying one-shot patches does to a row, exactly: only the probability of its first most likely class `c`
changes. It becomes the patch of the bucket nearest to `u`, where `u` is the largest entry of the whole batch less than half a
bucket away from the probability of `c`. -/
theorem C57_apply_exact (n d : ℕ) (hn : 0 < n) (hd : 0 < d) (patches values : List (List K)) (hw : ∀ r ∈ values, r.length = d)
    (i : ℕ) (row : List K) (hi : values[i]? = some row) :
    ∃ (c : ℕ) (u : K) (k : ℕ), FirstMax row c ∧
      u ∈ values.flatten ∧ |row.getD c 0 - u| < 1 / (2 * (n : K)) ∧
      (∀ w ∈ values.flatten, |row.getD c 0 - w| < 1 / (2 * (n : K)) → w ≤ u) ∧
      k < n ∧ (∀ j < n, |(k : K) / ((n - 1 : ℕ) : K) - u| ≤ |(j : K) / ((n - 1 : ℕ) : K) - u|) ∧
      (oneShotApply n patches values)[i]? = some (row.set c ((patches.getD k []).getD c 0)) := by
  have hrl := hw row (List.mem_of_getElem? hi)
  have hne : row ≠ [] := by rintro rfl; simp at hrl; omega
  have hfm := (argmax_iff row hne _).1 rfl
  have hhead : (values.headD []).length = d := by
    cases values with
    | nil => cases hi
    | cons r rs => exact hw r (by simp)
  set c := argmax row with hc
  have hfold : (oneShotApply n patches values)[i]? = some ((Multivalid.unique values.flatten).foldl
      (fun r v => if oneShotB n v c row then
        r.set c ((patches.getD (argmin ((linspace 0 1 n).map fun u => |u - v|)) []).getD c 0) else r) row) := by
    unfold oneShotApply
    dsimp only
    rw [hhead, outer_getElem? n d patches values i row hi, hi, Option.map_some]
    congr 2
    funext r v
    rw [inner_row n d patches row v (by have := hfm.1; rw [hrl] at this; exact this)]
    rfl
  have hcell : ∀ v : K, oneShotB n v c row = true ↔ |row.getD c 0 - v| < 1 / (2 * (n : K)) := by
    intro v
    rw [C57_cell n v c row hne]
    exact ⟨fun h => h.1, fun h => ⟨h, hfm⟩⟩
  have hself : row.getD c 0 ∈ values.flatten := by
    rw [List.mem_flatten]
    refine ⟨row, List.mem_of_getElem? hi, ?_⟩
    rw [getD_lt _ _ hfm.1]
    exact List.getElem_mem hfm.1
  have hpos : (0 : K) < 1 / (2 * (n : K)) := by
    have : (0 : K) < (n : K) := by exact_mod_cast hn
    positivity
  rcases outer_row (fun v => oneShotB n v c row)
    (fun v => (patches.getD (argmin ((linspace 0 1 n).map fun u => |u - v|)) []).getD c 0) c
    (Multivalid.unique values.flatten) (unique_sorted _) row with ⟨hno, -⟩ | ⟨u, hu, hp, hmax, hres⟩
  · have h1 := hno _ ((mem_unique _ _).2 hself)
    have h2 := (hcell (row.getD c 0)).2 (by simpa using hpos)
    rw [h2] at h1; cases h1
  · have hlne : ((linspace (0 : K) 1 n).map fun w => |w - u|) ≠ [] := by
      simp [linspace]; omega
    have hlen : ((linspace (0 : K) 1 n).map fun w => |w - u|).length = n := by simp [linspace]
    obtain ⟨m, m1, m2, -⟩ := argmin_spec _ hlne
    have hk := argmin_lt _ hlne
    rw [hlen] at hk
    set k := argmin ((linspace (0 : K) 1 n).map fun w => |w - u|) with hkd
    have hget : ∀ j < n, ((linspace (0 : K) 1 n).map fun w => |w - u|)[j]? =
        some |(j : K) / ((n - 1 : ℕ) : K) - u| := by
      intro j hj
      unfold linspace
      rw [List.map_map, List.getElem?_map, List.getElem?_range hj]
      simp only [Option.map_some, Function.comp]
      congr 3
      ring
    refine ⟨c, u, k, hfm, (mem_unique _ _).1 hu, (hcell u).1 hp, ?_, hk, ?_, ?_⟩
    · intro w hw' hcw
      exact hmax w ((mem_unique _ _).2 hw') ((hcell w).2 hcw)
    · intro j hj
      rw [hget k hk] at m1
      rw [Option.some.inj m1]
      exact m2 _ (List.mem_of_getElem? (hget j hj))
    · rw [hfold, hres]

-- the first row is moved to the bucket of the second row's probability
example : oneShotApply (K := ℚ) 2 [[1 / 10, 0], [9 / 10, 0]] [[2 / 5, 3 / 10], [3 / 5, 2 / 5]] =
    [[9 / 10, 3 / 10], [9 / 10, 2 / 5]] := by decide +kernel

/-! ### Concrete cases that meet the hypotheses of the theorems above -/

example := C19_multiplicative_patch (K := ℚ) [true, false, true] 0 [[1 / 4], [0], [1 / 2]] [[1 / 2], [1], [3 / 4]] ⟨rfl, rfl, by simp, by simp⟩
example := C19_loss_value (K := ℚ) 2 2 [[1, 0], [1 / 2, 1 / 2]] [[1, 0], [0, 1]] rfl rfl (by simp) (by simp) .additive
example := C57_cell (K := ℚ) 2 1 0 [4 / 5, 1 / 5] (by simp)
example := C57_patch_value (K := ℚ) 2 2 (1 / 10) (by norm_num) [[4 / 5, 1 / 5], [9 / 10, 1 / 10]] [[1, 0], [0, 1]] rfl 1 0 (by norm_num) (by norm_num) 1
  (by norm_num) _ rfl

end Verif.Props.MultivalidCells
