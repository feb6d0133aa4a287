import Verif.Props.Jackknife

/-! Property C12, continued: which data the jackknife methods and CV+ accept, and what they return on them. -/
set_option linter.unusedSectionVars false

namespace Verif.Props

open Verif.ConformalRegression Verif.Quantile

variable {K : Type*} [Field K] [LinearOrder K] [IsStrictOrderedRing K] [FloorRing K]

theorem mapM_range_total {β : Type*} (f : ℕ → Except String β) (m : ℕ) (h : ∀ j < m, ∃ b, f j = .ok b) :
    ∃ out, (List.range m).mapM f = .ok out := by
  have : ∀ l : List ℕ, (∀ j ∈ l, ∃ b, f j = .ok b) → ∃ out, l.mapM f = .ok out := by
    intro l
    induction l with
    | nil => exact fun _ => ⟨[], rfl⟩
    | cons a l ih =>
      intro hl
      obtain ⟨b, hb⟩ := hl a (by simp)
      obtain ⟨bs, hbs⟩ := ih fun j hj => hl j (by simp [hj])
      exact ⟨b :: bs, by rw [List.mapM_cons, hb]; simp only [bind, Except.bind, hbs]; rfl⟩
  exact this _ fun j hj => h j (by simpa using hj)

/-- Specification: an array of `n` rows and `m` columns. -/
def HasShape (rows : List (List K)) (n m : ℕ) : Prop := rows.length = n ∧ ∀ r ∈ rows, r.length = m

theorem HasShape.matrix {rows : List (List K)} {n m : ℕ} (h : HasShape rows n m) (hn : 1 ≤ n) :
    isMatrix rows = true ∧ ncols rows = m ∧ rows ≠ [] := by
  obtain ⟨hl, hr⟩ := h
  have hne : rows ≠ [] := by rintro rfl; simp at hl; omega
  have hc : ncols rows = m := by
    cases rows with
    | nil => exact absurd rfl hne
    | cons r rs => exact hr r (by simp)
  refine ⟨?_, hc, hne⟩
  simp only [isMatrix, List.all_eq_true, decide_eq_true_eq, hc]
  exact hr

theorem absResiduals_ne {valOut valY : List K} (h : valOut.length = valY.length) (hn : 1 ≤ valOut.length) :
    absResiduals valY valOut ≠ [] := by
  rw [← List.length_pos_iff, length_absResiduals]; omega

/-- **C12.** On `n ≥ 1` left-out points and `m ≥ 1` test inputs, jackknife+ returns `m` intervals; the ends of the `j`th
one are the `error` and `1 - error` quantiles of the left-out predictions at input `j`, less and plus the residuals. -/
theorem C12_jackknifeplus_accepts (valOut valY : List K) (test : List (List K)) (e : K) (n m : ℕ) (hn : 1 ≤ n) (hm : 1 ≤ m)
    (ho : valOut.length = n) (hy : valY.length = n) (ht : HasShape test n m) :
    ∃ ivs, jackknifePlus valOut valY test e = .ok ivs ∧ ivs.length = m ∧
      ∀ j (hj : j < ivs.length),
        quantile (List.zipWith (fun p r => p - r) (test.map fun row => row.getD j 0)
          (List.zipWith (fun y o => |y - o|) valY valOut)) e = some ivs[j].1 ∧
        quantile (List.zipWith (fun p r => p + r) (test.map fun row => row.getD j 0)
          (List.zipWith (fun y o => |y - o|) valY valOut)) (1 - e) = some ivs[j].2 := by
  obtain ⟨hmat, hc, hne⟩ := ht.matrix hn
  have hrne := absResiduals_ne (valOut := valOut) (valY := valY) (by omega) (by omega)
  have hex : ∃ ivs, jackknifePlus valOut valY test e = .ok ivs := by
    unfold jackknifePlus
    rw [if_neg (by omega), if_neg (by simp [hmat, ht.1, ho]), if_neg (by omega)]
    refine mapM_range_total _ _ fun j _ => ?_
    have hz : ∀ f : K → K → K, List.zipWith f (column test j) (absResiduals valY valOut) ≠ [] := by
      intro f
      rw [← List.length_pos_iff, List.length_zipWith, length_absResiduals, column, List.length_map, ht.1]
      omega
    dsimp only
    rw [quantile_of_ne (hz _), quantile_of_ne (hz _)]
    exact ⟨_, rfl⟩
  obtain ⟨ivs, hivs⟩ := hex
  obtain ⟨_, _, hl, hall⟩ := jackknifePlus_ok hivs
  exact ⟨ivs, hivs, hl.trans hc, hall⟩

/-- **C12.** On `n ≥ 1` left-out points and `m ≥ 1` test inputs, jackknife-minmax returns `m` intervals; the `j`th one
reaches from the least left-out prediction at input `j` less the `1 - error` quantile of the residuals to the greatest
one plus that quantile. -/
theorem C12_minmax_accepts (valOut valY : List K) (test : List (List K)) (e : K) (n m : ℕ) (hn : 1 ≤ n) (hm : 1 ≤ m)
    (ho : valOut.length = n) (hy : valY.length = n) (ht : HasShape test n m) :
    ∃ ivs, jackknifeMinmax valOut valY test e = .ok ivs ∧ ivs.length = m ∧
      ∀ j (hj : j < ivs.length), ∃ q lo hi,
        quantile (List.zipWith (fun y o => |y - o|) valY valOut) (1 - e) = some q ∧
        (lo ∈ test.map fun row => row.getD j 0) ∧ (hi ∈ test.map fun row => row.getD j 0) ∧
        (∀ row ∈ test, lo ≤ row.getD j 0 ∧ row.getD j 0 ≤ hi) ∧ ivs[j] = (lo - q, hi + q) := by
  obtain ⟨hmat, hc, hne⟩ := ht.matrix hn
  have hrne := absResiduals_ne (valOut := valOut) (valY := valY) (by omega) (by omega)
  have hex : ∃ ivs, jackknifeMinmax valOut valY test e = .ok ivs := by
    unfold jackknifeMinmax
    rw [if_neg (by omega), if_neg (by simp [hmat]), if_neg hne, if_neg (by omega)]
    refine mapM_range_total _ _ fun j _ => ?_
    have hz : column test j ≠ [] := by simpa [column] using hne
    obtain ⟨lo, hlo⟩ := Option.isSome_iff_exists.1 (List.isSome_min?_iff.2 hz)
    obtain ⟨hi, hhi⟩ := Option.isSome_iff_exists.1 (List.isSome_max?_iff.2 hz)
    rw [quantile_of_ne hrne]
    simp only [ofNan, minOf, maxOf, hlo, hhi, bind, Except.bind]
    exact ⟨_, rfl⟩
  obtain ⟨ivs, hivs⟩ := hex
  obtain ⟨_, hl, hall⟩ := jackknifeMinmax_ok hivs
  refine ⟨ivs, hivs, hl.trans hc, fun j hj => ?_⟩
  obtain ⟨q, lo, hi, hq, hlo, hhi, hiv⟩ := hall j hj
  refine ⟨q, lo, hi, hq, List.min?_mem hlo, List.max?_mem hhi, fun row hrow => ?_, hiv⟩
  have hmem : row.getD j 0 ∈ column test j := List.mem_map.2 ⟨row, hrow, rfl⟩
  exact ⟨(List.min?_eq_some_iff.1 hlo).2 _ hmem, (List.max?_eq_some_iff.1 hhi).2 _ hmem⟩

/-- **C12.** On at least one fold with at least one point, with as many targets as outputs in every fold, and the
models of all folds evaluated at the same `m ≥ 1` test inputs, CV+ returns `m` intervals; the ends of the `j`th one are the
`error` and `1 - error` quantiles of the predictions of all folds at input `j`, less and plus the residuals of the
fold. -/
theorem C12_cvplus_accepts (folds : List (Fold K)) (e : K) (m : ℕ) (hm : 1 ≤ m)
    (hpt : ∃ f ∈ folds, f.valOut ≠ []) (hl : ∀ f ∈ folds, f.valOut.length = f.valY.length)
    (ht : ∀ f ∈ folds, f.test.length = m) :
    ∃ ivs, cvPlus folds e = .ok ivs ∧ ivs.length = m ∧
      ∀ j (hj : j < ivs.length),
        quantile (folds.flatMap fun f => (List.zipWith (fun y o => |y - o|) f.valY f.valOut).map
          fun r => f.test.getD j 0 - r) e = some ivs[j].1 ∧
        quantile (folds.flatMap fun f => (List.zipWith (fun y o => |y - o|) f.valY f.valOut).map
          fun r => f.test.getD j 0 + r) (1 - e) = some ivs[j].2 := by
  obtain ⟨f₀, hf₀, hne₀⟩ := hpt
  have hne : folds ≠ [] := by rintro rfl; simp at hf₀
  have hshape : HasShape (folds.map Fold.test) folds.length m := by
    refine ⟨by simp, fun r hr => ?_⟩
    obtain ⟨f, hf, rfl⟩ := List.mem_map.1 hr
    exact ht f hf
  obtain ⟨hmat, hc, _⟩ := hshape.matrix (List.length_pos_iff.2 hne)
  have hex : ∃ ivs, cvPlus folds e = .ok ivs := by
    unfold cvPlus
    rw [if_neg (by simpa using hl), if_neg hne, if_neg (by simp [hmat]), if_neg (by omega)]
    refine mapM_range_total _ _ fun j _ => ?_
    have hz : ∀ g : Fold K → K → K,
        (folds.flatMap fun f => (absResiduals f.valY f.valOut).map (g f)) ≠ [] := by
      intro g h0
      rw [List.flatMap_eq_nil_iff] at h0
      have := h0 f₀ hf₀
      rw [List.map_eq_nil_iff] at this
      exact absResiduals_ne (hl f₀ hf₀) (List.length_pos_iff.2 hne₀) this
    dsimp only
    rw [quantile_of_ne (hz fun f ri => f.test.getD j 0 - ri), quantile_of_ne (hz fun f ri => f.test.getD j 0 + ri)]
    exact ⟨_, rfl⟩
  obtain ⟨ivs, hivs⟩ := hex
  obtain ⟨hlen, hall⟩ := cvPlus_ok hivs
  exact ⟨ivs, hivs, hlen.trans hc, hall⟩

/-- **C12.** Data whose targets and outputs differ in number are refused by all three methods. -/
theorem C12_refuses (valOut valY : List K) (test : List (List K)) (folds : List (Fold K)) (e : K)
    (h : valOut.length ≠ valY.length) (hf : ∃ f ∈ folds, f.valOut.length ≠ f.valY.length) :
    jackknifePlus valOut valY test e = .error "ValueError" ∧
    jackknifeMinmax valOut valY test e = .error "ValueError" ∧ cvPlus folds e = .error "ValueError" := by
  refine ⟨by unfold jackknifePlus; rw [if_pos h], by unfold jackknifeMinmax; rw [if_pos h], ?_⟩
  unfold cvPlus
  rw [if_pos (by simpa using hf)]

/-- **C12, no test inputs.** Without test inputs the three methods raise instead of returning no intervals. -/
theorem C12_no_inputs_false (valOut valY : List K) (test : List (List K)) (folds : List (Fold K)) (e : K) (n : ℕ)
    (hn : 1 ≤ n) (ho : valOut.length = n) (hy : valY.length = n) (ht : HasShape test n 0) (hne : folds ≠ [])
    (hl : ∀ f ∈ folds, f.valOut.length = f.valY.length) (hf : ∀ f ∈ folds, f.test = []) :
    jackknifePlus valOut valY test e = .error "ValueError" ∧
    jackknifeMinmax valOut valY test e = .error "ValueError" ∧ cvPlus folds e = .error "ValueError" := by
  obtain ⟨hmat, hc, ht0⟩ := ht.matrix hn
  have hshape : HasShape (folds.map Fold.test) folds.length 0 := by
    refine ⟨by simp, fun r hr => ?_⟩
    obtain ⟨f, hf', rfl⟩ := List.mem_map.1 hr
    simp [hf f hf']
  obtain ⟨hmat', hc', _⟩ := hshape.matrix (List.length_pos_iff.2 hne)
  refine ⟨?_, ?_, ?_⟩
  · unfold jackknifePlus
    rw [if_neg (by omega), if_neg (by simp [hmat, ht.1, ho]), if_pos hc]
  · unfold jackknifeMinmax
    rw [if_neg (by omega), if_neg (by simp [hmat]), if_neg ht0, if_pos hc]
  · unfold cvPlus
    rw [if_neg (by simpa using hl), if_neg hne, if_neg (by simp [hmat']), if_pos hc']

-- two left-out points and no test inputs
example : HasShape (K := ℚ) [[], []] 2 0 ∧ jackknifePlus (K := ℚ) [0, 1] [1, 1] [[], []] (1 / 4) = .error "ValueError" :=
  ⟨⟨rfl, by decide⟩, by decide +kernel⟩

-- three left-out points, two test inputs
example : HasShape (K := ℚ) [[5, 0], [6, 0], [7, 1]] 3 2 ∧
    jackknifePlus (K := ℚ) [0, 1, 2] [1, 1, 4] [[5, 0], [6, 0], [7, 1]] (1 / 4) =
      .ok [(9 / 2, 15 / 2), (- 1, 2)] ∧
    jackknifeMinmax (K := ℚ) [0, 1, 2] [1, 1] [[5, 0], [6, 0], [7, 1]] (1 / 4) = .error "ValueError" := by
  refine ⟨⟨rfl, by decide⟩, ?_, ?_⟩ <;> decide +kernel

-- two folds, one of them empty of points
example : cvPlus (K := ℚ) [⟨[0, 1], [1, 1], [5]⟩, ⟨[], [], [7]⟩] (1 / 4) = .ok [(17 / 4, 23 / 4)] := by
  decide +kernel

/-! ### Concrete cases that meet the hypotheses of the theorems above -/

example := C12_jackknifeplus_accepts (K := ℚ) [0, 1, 2] [1, 1, 4] [[5, 0], [6, 0], [7, 1]] (1 / 4) 3 2 (by norm_num) (by norm_num) rfl rfl ⟨rfl, by decide⟩
example := C12_minmax_accepts (K := ℚ) [0, 1, 2] [1, 1, 4] [[5, 0], [6, 0], [7, 1]] (1 / 4) 3 2 (by norm_num) (by norm_num) rfl rfl ⟨rfl, by decide⟩
example := C12_cvplus_accepts (K := ℚ) [⟨[0, 1], [1, 1], [5]⟩, ⟨[], [], [7]⟩] (1 / 4) 1 le_rfl ⟨_, List.mem_cons_self, by simp⟩ (by simp) (by simp)
example := C12_refuses (K := ℚ) [0, 1, 2] [1, 1] [[5], [6], [7]] [⟨[0, 1], [1], [5]⟩] (1 / 4) (by decide) ⟨_, List.mem_cons_self, by simp⟩

end Verif.Props
