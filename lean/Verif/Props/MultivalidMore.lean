import Verif.Props.MultivalidError

/-! Properties C56 (calibration error), C57 (one-shot methods), C58 (BatchMVP patch). -/
set_option linter.unusedSectionVars false

namespace Verif.Props

open Verif.Multivalid Verif.ArrayOps

variable {K : Type*} [Field K] [LinearOrder K] [IsStrictOrderedRing K]

/-! ### C56 -/

theorem getD_prob {r : List K} (h : ∀ x ∈ r, 0 ≤ x ∧ x ≤ 1) (c : ℕ) : 0 ≤ r.getD c 0 ∧ r.getD c 0 ≤ 1 := by
  rw [List.getD_eq_getElem?_getD]
  by_cases hc : c < r.length
  · rw [List.getElem?_eq_getElem hc]; exact h _ (List.getElem_mem hc)
  · rw [List.getElem?_eq_none (by omega)]; simp

theorem col_prob {rows : List (List K)} (h : AllProb rows) (c : ℕ) : ∀ x ∈ col rows c, 0 ≤ x ∧ x ≤ 1 := by
  intro x hx
  unfold col at hx
  rw [List.mem_map] at hx
  obtain ⟨r, hr, rfl⟩ := hx
  exact getD_prob (h r hr) c

theorem selected_subset (b : List Bool) (xs : List K) : ∀ x ∈ selected b xs, x ∈ xs := by
  intro x hx
  unfold selected at hx
  rw [List.mem_map] at hx
  obtain ⟨t, ht, rfl⟩ := hx
  exact (List.of_mem_zip (a := t.1) (b := t.2) (List.mem_filter.1 ht).1).2

theorem linspace_unit_gap (n : ℕ) : (linspace (0 : K) 1 n).Pairwise fun u v => u + 1 / (n : K) ≤ v := by
  unfold linspace
  rw [List.pairwise_map]
  apply List.Pairwise.imp_of_mem _ List.pairwise_lt_range
  intro i j _ hj hij
  rw [List.mem_range] at hj
  have hn : (0 : K) < ((n - 1 : ℕ) : K) := by
    have : 0 < n - 1 := by omega
    exact_mod_cast this
  have hn' : (0 : K) < (n : K) := by
    have : 0 < n := by omega
    exact_mod_cast this
  have hle : ((n - 1 : ℕ) : K) ≤ (n : K) := by exact_mod_cast Nat.sub_le _ _
  have h1 : 1 / (n : K) ≤ 1 / ((n - 1 : ℕ) : K) := one_div_le_one_div_of_le hn hle
  have h2 : (i : K) + 1 ≤ (j : K) := by exact_mod_cast hij
  have h3 : ((i : K) + 1) * (1 / ((n - 1 : ℕ) : K)) ≤ (j : K) * (1 / ((n - 1 : ℕ) : K)) :=
    mul_le_mul_of_nonneg_right h2 (by positivity)
  simp only [zero_add, sub_zero]
  linarith

theorem bucket_unique (n : ℕ) (L : List K) (hL : L.Pairwise fun u v => u + 1 / (n : K) ≤ v) (x : K) :
    (L.map fun v => if inBucket n 0 v x then 1 else 0).sum ≤ 1 := by
  induction L with
  | nil => simp
  | cons u L ih =>
    rw [List.pairwise_cons] at hL
    rw [List.map_cons, List.sum_cons]
    by_cases hu : inBucket n 0 u x = true
    · have hz : (L.map fun v => if inBucket n 0 v x then 1 else 0).sum = 0 := by
        apply List.sum_eq_zero
        intro y hy
        rw [List.mem_map] at hy
        obtain ⟨v, hv, rfl⟩ := hy
        rw [if_neg]
        intro hvb
        have h1 := hL.1 v hv
        simp only [inBucket, if_true, decide_eq_true_eq, abs_lt] at hu hvb
        have e : (1 : K) / 2 / (n : K) + 1 / 2 / (n : K) = 1 / (n : K) := by ring
        linarith [hu.2, hvb.1]
      rw [hz, if_pos hu]
    · rw [if_neg hu, zero_add]; exact ih hL.2

theorem sum_cells_le (n g c : ℕ) (L : List K) (hL : L.Pairwise fun u v => u + 1 / (n : K) ≤ v)
    (groups : List (List Bool)) (values : List (List K)) (h : groups.length = values.length) :
    (L.map fun v => (getBs n 0 g v c groups values).count true).sum ≤
      (groups.map fun r => r.getD g false).count true := by
  induction groups generalizing values with
  | nil =>
    have : (L.map fun v => (getBs n 0 g v c [] values).count true).sum = 0 := by
      apply List.sum_eq_zero
      intro y hy
      rw [List.mem_map] at hy
      obtain ⟨v, _, rfl⟩ := hy
      simp [getBs]
    rw [this]; exact Nat.zero_le _
  | cons gr groups ih =>
    cases values with
    | nil => simp at h
    | cons r values =>
      have e : ∀ v, (getBs n 0 g v c (gr :: groups) (r :: values)).count true =
          (getBs n 0 g v c groups values).count true + (if getB n 0 g v c gr r then 1 else 0) := by
        intro v
        unfold getBs
        rw [List.zipWith_cons_cons, List.count_cons]
        simp
      simp only [e]
      rw [List.sum_map_add, List.map_cons, List.count_cons]
      apply Nat.add_le_add (ih values (by simpa using h))
      by_cases hg : gr.getD g false = true
      · rw [hg]
        simp only [beq_self_eq_true, if_true]
        refine le_trans ?_ (bucket_unique n L hL (r.getD c 0))
        apply List.sum_le_sum
        intro v _
        unfold getB
        by_cases hb : inBucket n 0 v (r.getD c 0) = true
        · rw [if_pos hb]; split <;> omega
        · rw [if_neg hb]
          have : (inBucket n 0 v (r.getD c 0)) = false := by simpa using hb
          rw [this]; simp
      · have hgf : gr.getD g false = false := by simpa using hg
        rw [hgf]
        have : (L.map fun v => if getB n 0 g v c gr r then 1 else 0).sum = 0 := by
          apply List.sum_eq_zero
          intro y hy
          rw [List.mem_map] at hy
          obtain ⟨v, _, rfl⟩ := hy
          simp only [getB, hgf]; simp
        rw [this]; exact Nat.zero_le _

theorem mcDelta_sq_le (b : List Bool) (c : ℕ) (values scores : List (List K)) (hv : AllProb values)
    (hs : AllProb scores) (hlv : values.length = b.length) (hls : scores.length = b.length) :
    mcDelta b c values scores ^ 2 ≤ 1 := by
  unfold mcDelta
  split
  · next hp =>
    have hpos := (probB_pos_iff (K := K) b).1 hp
    have ls : (col scores c).length = b.length := by simp [col, hls]
    have lv : (col values c).length = b.length := by simp [col, hlv]
    rw [maskedMean_div_probB b _ ls hpos, maskedMean_div_probB b _ lv hpos]
    have hne : ∀ xs : List K, xs.length = b.length → selected b xs ≠ [] := by
      intro xs hx he
      have := selected_length b xs hx
      rw [he] at this; simp at this; omega
    have m1 := mean_mem (hne _ ls) (lo := 0) (hi := 1) (fun x hx => (col_prob hs c x (selected_subset _ _ x hx)).1)
      (fun x hx => (col_prob hs c x (selected_subset _ _ x hx)).2)
    have m2 := mean_mem (hne _ lv) (lo := 0) (hi := 1) (fun x hx => (col_prob hv c x (selected_subset _ _ x hx)).1)
      (fun x hx => (col_prob hv c x (selected_subset _ _ x hx)).2)
    nlinarith
  · norm_num

/-- **C56.** The calibration error reported for a group and class lies in [0, 1]. -/
theorem C56_calibration_error_range (pt : PatchType) (nBuckets : ℕ) (d : Data K) (g c : ℕ) (hv : AllProb d.values)
    (hs : AllProb d.scores) (hg : d.groups.length = d.values.length) (hsl : d.scores.length = d.values.length) (e : K)
    (he : calibrationError (multicalibrator pt) nBuckets d g c = some e) : 0 ≤ e ∧ e ≤ 1 := by
  unfold calibrationError at he
  dsimp only at he
  split at he
  · cases he
  next hpg =>
  injection he with he
  have hlenb : ∀ v, (getBs nBuckets 0 g v c d.groups d.values).length = d.values.length := by
    intro v; simp [getBs, hg]
  have hpgnn : (0 : K) ≤ probB (d.groups.map fun r => r.getD g false) := by unfold probB; positivity
  have hpgpos : (0 : K) < probB (d.groups.map fun r => r.getD g false) := lt_of_le_of_ne hpgnn (Ne.symm hpg)
  have hsum1 : 0 ≤ ((linspace (0 : K) 1 nBuckets).map fun v =>
      (multicalibrator pt).calibErr (getBs nBuckets 0 g v c d.groups d.values) c d.values d.scores).sum := by
    apply List.sum_nonneg
    intro y hy
    rw [List.mem_map] at hy
    obtain ⟨v, _, rfl⟩ := hy
    show 0 ≤ mcErr _ _ _ _
    unfold mcErr probB
    positivity
  have hsum2 : ((linspace (0 : K) 1 nBuckets).map fun v =>
      (multicalibrator pt).calibErr (getBs nBuckets 0 g v c d.groups d.values) c d.values d.scores).sum ≤
      probB (d.groups.map fun r => r.getD g false) := by
    have h1 : ((linspace (0 : K) 1 nBuckets).map fun v =>
      (multicalibrator pt).calibErr (getBs nBuckets 0 g v c d.groups d.values) c d.values d.scores).sum ≤
      ((linspace (0 : K) 1 nBuckets).map fun v =>
        (((getBs nBuckets 0 g v c d.groups d.values).count true : ℕ) : K) * (1 / (d.values.length : K))).sum := by
      apply List.sum_le_sum
      intro v _
      show mcErr _ _ _ _ ≤ _
      unfold mcErr
      have := mcDelta_sq_le (getBs nBuckets 0 g v c d.groups d.values) c d.values d.scores hv hs (hlenb v).symm
        (by rw [hlenb v, hsl])
      have hp : (0 : K) ≤ probB (getBs nBuckets 0 g v c d.groups d.values) := by unfold probB; positivity
      calc _ ≤ probB (getBs nBuckets 0 g v c d.groups d.values) * 1 := mul_le_mul_of_nonneg_left this hp
        _ = _ := by unfold probB; rw [hlenb v]; ring
    have h2 : ((linspace (0 : K) 1 nBuckets).map fun v =>
        (((getBs nBuckets 0 g v c d.groups d.values).count true : ℕ) : K) * (1 / (d.values.length : K))).sum =
        ((((linspace (0 : K) 1 nBuckets).map fun v =>
          (getBs nBuckets 0 g v c d.groups d.values).count true).sum : ℕ) : K) * (1 / (d.values.length : K)) := by
      generalize linspace (0 : K) 1 nBuckets = L
      induction L with
      | nil => simp
      | cons v L ih => simp only [List.map_cons, List.sum_cons, ih, Nat.cast_add]; ring
    have h3 := sum_cells_le (K := K) nBuckets g c _ (linspace_unit_gap nBuckets) d.groups d.values hg
    rw [h2] at h1
    refine h1.trans ?_
    unfold probB
    rw [List.length_map, hg, div_eq_mul_one_div (((d.groups.map fun r => r.getD g false).count true : ℕ) : K)]
    apply mul_le_mul_of_nonneg_right _ (by positivity)
    exact_mod_cast h3
  rw [← he]
  exact ⟨div_nonneg hsum1 hpgnn, (div_le_one hpgpos).2 hsum2⟩

example : calibrationError (K := ℚ) (multicalibrator .additive) 2 ⟨[[true], [true]], [[0], [1]], [[1], [1]]⟩ 0 0 =
    some (1 / 2) := by decide +kernel

/-- **C56, failure.** The buckets of `calibration_error` (half-width `1/(2 n)`, spacing `1/(n-1)`) do not cover [0, 1]:
a value between two buckets is ignored, so a completely miscalibrated model gets error 0. -/
theorem C56_zero_error_calibrated_false :
    ∃ (nBuckets : ℕ) (d : Data ℚ), calibrationError (multicalibrator .additive) nBuckets d 0 0 = some 0 ∧
      d.values = [[1 / 2]] ∧ d.scores = [[1]] ∧ d.groups = [[true]] :=
  ⟨2, ⟨[[true]], [[1 / 2]], [[1]]⟩, by decide +kernel, rfl, rfl, rfl⟩

/-! ### C57 -/

/-- **C57.** The patches fitted by a one-shot method are probabilities. -/
theorem C57_one_shot_patches (nBuckets nDims : ℕ) (minProbB : K) (hm : 0 ≤ minProbB) (values scores : List (List K))
    (hl : scores.length = values.length) (hs : AllProb scores) :
    AllProb (oneShotCalibrate nBuckets nDims minProbB values scores) := by
  intro r hr x hx
  unfold oneShotCalibrate at hr
  rw [List.mem_map] at hr
  obtain ⟨v, hv, rfl⟩ := hr
  rw [List.mem_map] at hx
  obtain ⟨c, _, rfl⟩ := hx
  unfold oneShotPatch
  dsimp only
  split
  · next hp =>
    have hpos := (probB_pos_iff (K := K) _).1 (lt_of_le_of_lt hm hp)
    have ls : (col scores c).length = (values.map (oneShotB nBuckets v c)).length := by simp [col, hl]
    rw [maskedMean_div_probB _ _ ls hpos]
    have hne : selected (values.map (oneShotB nBuckets v c)) (col scores c) ≠ [] := by
      intro he
      have := selected_length _ _ ls
      rw [he] at this
      simp only [List.length_nil] at this
      omega
    exact mean_mem hne (fun x hx => (col_prob hs c x (selected_subset _ _ x hx)).1)
      (fun x hx => (col_prob hs c x (selected_subset _ _ x hx)).2)
  · exact mem_linspace zero_le_one hv

theorem oneShotStep_prob (nBuckets : ℕ) (patches orig cur : List (List K)) (v : K) (c : ℕ) (hp : AllProb patches)
    (hc : AllProb cur) : AllProb (oneShotStep nBuckets patches orig v c cur) := by
  intro r hr x hx
  unfold oneShotStep at hr
  dsimp only at hr
  rw [List.mem_iff_getElem] at hr
  obtain ⟨i, hi, rfl⟩ := hr
  rw [List.length_zipWith] at hi
  rw [List.getElem_zipWith] at hx
  have hcr := hc cur[i] (List.getElem_mem (by omega))
  split at hx
  · rcases List.mem_or_eq_of_mem_set hx with h | h
    · exact hcr x h
    · rw [h]
      apply getD_prob
      intro y hy
      rw [List.getD_eq_getElem?_getD] at hy
      generalize argmin ((linspace (0 : K) 1 nBuckets).map fun u => |u - v|) = k at hy
      by_cases hk : k < patches.length
      · rw [List.getElem?_eq_getElem hk] at hy; exact hp _ (List.getElem_mem hk) y hy
      · rw [List.getElem?_eq_none (by omega)] at hy; simp at hy
  · exact hcr x hx

/-- **C57.** Applying one-shot patches which are probabilities to probabilities gives probabilities. -/
theorem C57_one_shot_apply (nBuckets : ℕ) (patches values : List (List K)) (hp : AllProb patches) (hv : AllProb values) :
    AllProb (oneShotApply nBuckets patches values) := by
  unfold oneShotApply
  dsimp only
  have inner : ∀ (cs : List ℕ) (v : K) (cur : List (List K)), AllProb cur →
      AllProb (cs.foldl (fun cur c => oneShotStep nBuckets patches values v c cur) cur) := by
    intro cs v
    induction cs with
    | nil => intro cur h; exact h
    | cons c cs ih => intro cur h; exact ih _ (oneShotStep_prob _ _ _ _ _ _ hp h)
  have outer : ∀ (vs : List K) (cur : List (List K)), AllProb cur →
      AllProb (vs.foldl (fun cur v => (List.range (values.headD []).length).foldl
        (fun cur c => oneShotStep nBuckets patches values v c cur) cur) cur) := by
    intro vs
    induction vs with
    | nil => intro cur h; exact h
    | cons v vs ih => intro cur h; exact ih _ (inner _ _ _ h)
  exact outer _ _ hv

example : oneShotCalibrate (K := ℚ) 2 1 0 [[0], [1 / 10], [1]] [[0], [1], [1]] = [[1 / 2], [1]] ∧
    oneShotApply (K := ℚ) 2 [[1 / 2], [1]] [[1 / 5], [1]] = [[1 / 2], [1]] := by decide +kernel

/-- **C57, failure.** One-shot patching is not a function of the row: the same probability is mapped to different values
depending on which other rows are in the batch. -/
theorem C57_rowwise_false :
    ∃ (nBuckets : ℕ) (patches : List (List ℚ)) (x y : ℚ),
      patches = oneShotCalibrate nBuckets 1 0 [[0], [1]] [[0], [1]] ∧
      (oneShotApply nBuckets patches [[x], [y]])[0]? ≠ (oneShotApply nBuckets patches [[x]])[0]? :=
  ⟨2, [[0], [1]], 2 / 5, 3 / 5, by decide +kernel, by decide +kernel⟩

/-! ### C58 -/

theorem zero_mem_mvpShifts (n : ℕ) (hn : 0 < n) : (0 : K) ∈ mvpShifts n := by
  unfold mvpShifts
  rw [List.mem_append]
  right
  exact List.mem_of_getElem? (linspace_head (0 : K) 1 n hn)

/-- **C58.** The patch of BatchMVP is a grid shift between -1 and 1 for which the fraction of rows of the cell with
score at most the shifted threshold is as close to the target coverage as for any shift of the grid; in particular it is
no further from it than without a patch. -/
theorem C58_patch_minimises (coverage : K) (nBuckets : ℕ) (b : List Bool) (c : ℕ)
    (values scores : List (List K)) (delta : K) (h : mvpPatch coverage nBuckets b c values scores = some delta) :
    delta ∈ mvpShifts (K := K) nBuckets ∧ (∀ s ∈ mvpShifts (K := K) nBuckets,
      |coverage - mvpProb b (col values c) (col scores c) delta| ≤ |coverage - mvpProb b (col values c) (col scores c) s|) ∧
    |coverage - mvpProb b (col values c) (col scores c) delta| ≤ |coverage - mvpProb b (col values c) (col scores c) 0| := by
  have main : delta ∈ mvpShifts (K := K) nBuckets ∧ ∀ s ∈ mvpShifts (K := K) nBuckets,
      |coverage - mvpProb b (col values c) (col scores c) delta| ≤ |coverage - mvpProb b (col values c) (col scores c) s| := by
    unfold mvpPatch at h
    dsimp only at h
    set f : K → K := fun d => (coverage - mvpProb b (col values c) (col scores c) d) ^ 2 with hf
    set shifts : List K := mvpShifts nBuckets with hsh
    split at h
    · cases h
    next minErr hmin =>
    rw [List.min?_eq_some_iff] at hmin
    obtain ⟨hmem, hle⟩ := hmin
    obtain ⟨k, hk, hke⟩ := List.mem_iff_getElem.1 hmem
    set idx := (List.range (shifts.map f).length).filter fun i => decide ((shifts.map f)[i]? = some minErr) with hidx
    have hkidx : k ∈ idx := by
      rw [hidx, List.mem_filter, List.mem_range, decide_eq_true_eq]
      exact ⟨hk, by rw [List.getElem?_eq_getElem hk, hke]⟩
    have hne : idx ≠ [] := List.ne_nil_of_mem hkidx
    have key : ∀ i ∈ idx, shifts[i]? = some delta → delta ∈ shifts ∧ ∀ s ∈ shifts, f delta ≤ f s := by
      intro i hi hd
      rw [hidx, List.mem_filter, decide_eq_true_eq, List.getElem?_map, hd] at hi
      have he : f delta = minErr := by simpa using hi.2
      exact ⟨List.mem_of_getElem? hd, fun s hs => by rw [he]; exact hle _ (List.mem_map_of_mem hs)⟩
    have hfin : delta ∈ shifts ∧ ∀ s ∈ shifts, f delta ≤ f s := by
      split at h
      · refine key _ ?_ h
        rw [List.headD_eq_head?_getD, List.head?_eq_some_head hne]
        exact List.head_mem hne
      · refine key _ ?_ h
        rw [List.getLastD_eq_getLast?, List.getLast?_eq_some_getLast hne]
        exact List.getLast_mem hne
    refine ⟨hfin.1, fun s hs => ?_⟩
    exact sq_le_sq.1 (hfin.2 s hs)
  refine ⟨main.1, main.2, ?_⟩
  have hn : 0 < nBuckets := by
    rcases Nat.eq_zero_or_pos nBuckets with h0 | h0
    · subst h0
      have := main.1
      simp [mvpShifts, linspace] at this
    · exact h0
  exact main.2 0 (zero_mem_mvpShifts nBuckets hn)

theorem mvpShifts_range (n : ℕ) : ∀ s ∈ mvpShifts (K := K) n, -1 ≤ s ∧ s ≤ 1 := by
  intro s hs
  unfold mvpShifts at hs
  rw [List.mem_append] at hs
  rcases hs with hs | hs
  · rw [List.mem_map] at hs
    obtain ⟨x, hx, rfl⟩ := hs
    have := mem_linspace (zero_le_one (α := K)) (List.mem_reverse.1 (List.dropLast_subset _ hx))
    constructor <;> linarith [this.1, this.2]
  · have := mem_linspace (zero_le_one (α := K)) hs
    constructor <;> linarith [this.1, this.2]

example : mvpPatch (K := ℚ) (1 / 2) 3 [true, true] 0 [[0], [0]] [[1 / 2], [1]] = some (1 / 2) := by decide +kernel

/-- **C58, failure.** Among equally good shifts the patch is not the smallest: a shift of -1 is returned although no
shift at all is just as good. -/
theorem C58_smallest_shift_false :
    ∃ (coverage : ℚ) (nBuckets : ℕ) (b : List Bool) (values scores : List (List ℚ)),
      AllProb values ∧ AllProb scores ∧ mvpPatch coverage nBuckets b 0 values scores = some (-1) ∧
      |coverage - mvpProb b (col values 0) (col scores 0) 0| =
        |coverage - mvpProb b (col values 0) (col scores 0) (-1)| := by
  refine ⟨1 / 2, 2, [true], [[1 / 2]], [[1 / 2]], ?_, ?_, by decide +kernel, by decide +kernel⟩
  · simp [AllProb]; norm_num
  · simp [AllProb]; norm_num

/-! ### Concrete cases that meet the hypotheses of the theorems above -/

example := C57_one_shot_patches (K := ℚ) 2 2 (1 / 10) (by norm_num) [[4 / 5, 1 / 5], [9 / 10, 1 / 10]] [[1, 0], [0, 1]] rfl (by simp [AllProb])

end Verif.Props
