import Mathlib.Tactic.Linarith
import Mathlib.Tactic.Ring
import Mathlib.Tactic.FieldSimp
import Mathlib.Tactic.Positivity
import Mathlib.Tactic.NormNum
import Mathlib.Algebra.Order.BigOperators.Group.List
import Verif.Model.Metrics
import Verif.Lemmas.ArrayOps

/-!
# C42–C44: calibration errors, Brier score, accuracy, interval coverage, regression errors
-/

set_option linter.unusedSectionVars false

namespace Verif.Props
open Verif.Metrics Verif.ArrayOps

variable {K : Type} [Field K] [LinearOrder K] [IsStrictOrderedRing K]

/-! ## Means -/

theorem sum_map_sub' {α : Type*} (l : List α) (f g : α → K) :
    (l.map fun x => f x - g x).sum = (l.map f).sum - (l.map g).sum := by
  induction l with
  | nil => simp
  | cons x xs ih => simp only [List.map_cons, List.sum_cons, ih]; ring

theorem sum_map_neg' (l : List K) : (l.map fun x => -x).sum = - l.sum := by
  induction l with
  | nil => simp
  | cons x xs ih => simp only [List.map_cons, List.sum_cons, ih]; ring

theorem sum_le_length {l : List K} {b : K} (h : ∀ x ∈ l, x ≤ b) : l.sum ≤ l.length * b := by
  induction l with
  | nil => simp
  | cons x xs ih =>
    have h1 := ih fun y hy => h y (by simp [hy])
    have h2 := h x (by simp)
    simp only [List.sum_cons, List.length_cons]; push_cast; linarith

theorem mean_unit {l : List K} (h0 : ∀ x ∈ l, 0 ≤ x) (h1 : ∀ x ∈ l, x ≤ 1) :
    0 ≤ mean l ∧ mean l ≤ 1 := by
  unfold mean
  have hs : 0 ≤ l.sum := List.sum_nonneg h0
  have hl := sum_le_length h1
  rw [mul_one] at hl
  refine ⟨div_nonneg hs (Nat.cast_nonneg _), div_le_one_of_le₀ hl (Nat.cast_nonneg _)⟩

/-- A mean of numbers at most `b` reaches `b` only if all of them do. -/
theorem mean_eq_max {l : List K} (hne : l ≠ []) {b : K} (h : ∀ x ∈ l, x ≤ b) :
    mean l = b ↔ ∀ x ∈ l, x = b := by
  have hpos : (0 : K) < l.length := by
    have := List.length_pos_iff.mpr hne; exact_mod_cast this
  unfold mean
  rw [div_eq_iff hpos.ne']
  clear hne hpos
  induction l with
  | nil => simp
  | cons x xs ih =>
    have hx := h x (by simp)
    have hxs : ∀ y ∈ xs, y ≤ b := fun y hy => h y (by simp [hy])
    have hle := sum_le_length hxs
    simp only [List.sum_cons, List.length_cons, List.mem_cons, forall_eq_or_imp]
    push_cast
    constructor
    · intro he
      have h1 : x = b := by
        apply le_antisymm hx
        by_contra hlt
        push Not at hlt
        nlinarith
      exact ⟨h1, (ih hxs).mp (by rw [h1] at he; linarith)⟩
    · rintro ⟨rfl, h2⟩
      have := (ih hxs).mpr h2
      rw [this]; ring

theorem mean_eq_zero {l : List K} (hne : l ≠ []) (h : ∀ x ∈ l, 0 ≤ x) :
    mean l = 0 ↔ ∀ x ∈ l, x = 0 := by
  have h' := mean_eq_max (l := l.map (-·)) (by simpa using hne) (b := 0)
    (by simp only [List.mem_map]; rintro _ ⟨x, hx, rfl⟩; linarith [h x hx])
  have hm : mean (l.map (-·)) = - mean l := by
    unfold mean
    rw [sum_map_neg', List.length_map, neg_div]
  rw [hm, neg_eq_zero] at h'
  rw [h']
  constructor
  · intro hh x hx
    have := hh (-x) (List.mem_map.mpr ⟨x, hx, rfl⟩)
    simpa using this
  · intro hh x hx
    obtain ⟨y, hy, rfl⟩ := List.mem_map.mp hx
    simp [hh y hy]

/-! ## C42 -/

theorem thresholds_get (n i : ℕ) (hi : i < 10) :
    (thresholds (K := K) n).getD i 0 = 1 / n + i * ((1 - 1 / n) / 9) := by
  unfold thresholds linspace
  rw [List.getD_eq_getElem?_getD]
  simp [hi]

theorem thresholds_mono (n : ℕ) (hn : 0 < n) (i j : ℕ) (hij : i ≤ j) (hj : j < 10) :
    (thresholds (K := K) n).getD i 0 ≤ (thresholds (K := K) n).getD j 0 := by
  rw [thresholds_get n i (by omega), thresholds_get n j hj]
  have hn' : (1 : K) ≤ n := by exact_mod_cast hn
  have h1 : (0 : K) ≤ (1 - 1 / n) / 9 := by
    have : (1 : K) / n ≤ 1 := by rw [div_le_one (by linarith)]; exact hn'
    apply div_nonneg <;> linarith
  have h2 : (i : K) ≤ j := by exact_mod_cast hij
  nlinarith

theorem thresholds_last (n : ℕ) : (thresholds (K := K) n).getD 9 0 = 1 := by
  rw [thresholds_get n 9 (by omega)]; push_cast; ring

/-- The rows up to threshold `m` are those of the first `m + 1` bins. -/
theorem bin_counts (n : ℕ) (hn : 0 < n) (rows : List (Point K)) (p : Point K → K) (m : ℕ)
    (hm : m < 10) :
    ((List.range (m + 1)).map fun i => ((bin (thresholds n) i rows).map p).sum).sum =
      ((rows.filter fun r => decide (r.prob ≤ (thresholds n).getD m 0)).map p).sum := by
  induction m with
  | zero => simp [bin]
  | succ m ih =>
    rw [List.range_succ, List.map_append, List.sum_append, ih (by omega)]
    simp only [List.map_cons, List.map_nil, List.sum_cons, List.sum_nil, add_zero, bin]
    rw [if_neg (by omega)]
    have hmono := thresholds_mono (K := K) n hn m (m + 1) (by omega) hm
    simp only [Nat.add_sub_cancel]
    clear ih
    induction rows with
    | nil => simp
    | cons r rs ihr =>
      by_cases h1 : r.prob ≤ (thresholds n).getD m 0
      · have h2 := le_trans h1 hmono
        have h3 : ¬ (r.prob > (thresholds n).getD m 0) := not_lt.mpr h1
        simp only [List.filter_cons, h1, h2, h3, decide_true, decide_false, Bool.and_false,
          if_true, List.map_cons, List.sum_cons, Bool.false_eq_true, if_false]
        rw [← ihr]; ring
      · by_cases h2 : r.prob ≤ (thresholds n).getD (m + 1) 0
        · have h3 : r.prob > (thresholds n).getD m 0 := not_le.mp h1
          simp only [List.filter_cons, h1, h2, h3, decide_true, decide_false, Bool.and_true,
            if_true, List.map_cons, List.sum_cons, Bool.false_eq_true, if_false]
          rw [← ihr]; ring
        · simp only [List.filter_cons, h1, h2, decide_false, Bool.false_and, Bool.false_eq_true,
            if_false]
          exact ihr

theorem thresholds_length (n : ℕ) : (thresholds (K := K) n).length = 10 := by
  simp [thresholds, linspace]

/-- Summing anything over the bins is summing it over the rows, for probabilities at most 1. -/
theorem bins_sum (rows : List (Point K)) (hne : rows ≠ []) (h1 : ∀ r ∈ rows, r.prob ≤ 1)
    (p : Point K → K) :
    ((List.range 10).map fun i => ((bin (thresholds rows.length) i rows).map p).sum).sum =
      (rows.map p).sum := by
  have hn : 0 < rows.length := List.length_pos_iff.mpr hne
  have := bin_counts (K := K) rows.length hn rows p 9 (by omega)
  rw [this, thresholds_last]
  congr 2
  rw [List.filter_eq_self]
  intro r hr
  simpa using h1 r hr

/-- **C42, bins.** If all probabilities are at most 1, every row falls in exactly one of the ten bins,
and the counts sum to the number of rows. -/
theorem C42_bins (rows : List (Point K)) (hne : rows ≠ []) (h1 : ∀ r ∈ rows, r.prob ≤ 1) :
    (∀ r ∈ rows, ∃! i, i < 10 ∧ r ∈ bin (thresholds rows.length) i rows) ∧
    ((countsConfsAccs rows).map (·.1)).sum = rows.length ∧ (countsConfsAccs rows).length = 10 := by
  have hn : 0 < rows.length := List.length_pos_iff.mpr hne
  refine ⟨fun r hr => ?_, ?_, by simp [countsConfsAccs, thresholds_length]⟩
  · have hex : ∃ i, i < 10 ∧ r.prob ≤ (thresholds rows.length).getD i 0 :=
      ⟨9, by omega, by rw [thresholds_last]; exact h1 r hr⟩
    classical
    have hspec := Nat.find_spec hex
    have hmin := fun m hm => Nat.find_min hex (m := m) hm
    set i := Nat.find hex with hi
    refine ⟨i, ⟨hspec.1, ?_⟩, ?_⟩
    · unfold bin
      by_cases h0 : i = 0
      · rw [if_pos h0]; rw [h0] at hspec; simp [hr]; simpa using hspec.2
      · rw [if_neg h0]
        have := hmin (i - 1) (by omega)
        push Not at this
        have h2 := this (by omega)
        simp only [List.mem_filter, Bool.and_eq_true, decide_eq_true_eq]
        exact ⟨hr, hspec.2, h2⟩
    · rintro j ⟨hj, hjm⟩
      unfold bin at hjm
      by_cases h0 : j = 0
      · rw [if_pos h0] at hjm
        simp only [List.mem_filter, decide_eq_true_eq] at hjm
        by_contra hne'
        exact hmin 0 (by omega) ⟨by omega, hjm.2⟩
      · rw [if_neg h0] at hjm
        simp only [List.mem_filter, Bool.and_eq_true, decide_eq_true_eq] at hjm
        rcases lt_trichotomy j i with hlt | heq | hgt
        · exact absurd ⟨hj, hjm.2.1⟩ (hmin j hlt)
        · exact heq
        · exfalso
          have := thresholds_mono (K := K) rows.length hn i (j - 1) (by omega) (by omega)
          exact absurd (le_trans hspec.2 this) (not_le.mpr hjm.2.2)
  · have := bins_sum rows hne h1 (fun _ => 1)
    have hK : ((countsConfsAccs rows).map fun c => (c.1 : K)).sum = (rows.length : K) := by
      simp only [countsConfsAccs, thresholds_length, List.map_map]
      simp only [List.map_const', List.sum_replicate, nsmul_eq_mul, mul_one] at this
      rw [← this]
      rfl
    have hK' : ((((countsConfsAccs rows).map (·.1)).sum : ℕ) : K) = (rows.length : K) := by
      rw [Nat.cast_list_sum, List.map_map]; exact hK
    exact_mod_cast hK'

theorem count_mul_gap (b : List (Point K)) :
    (b.length : K) * |mean (b.map fun r => if r.target - r.pred = 0 then (1 : K) else 0) -
        mean (b.map (·.prob))| =
      |(b.map fun r => (if r.pred = r.target then 1 else 0) - r.prob).sum| := by
  have e1 : (b.map fun r => if r.target - r.pred = 0 then (1 : K) else 0) =
      b.map fun r => if r.pred = r.target then 1 else 0 := by
    apply List.map_congr_left
    intro r _
    by_cases h : r.pred = r.target
    · simp [h]
    · have : ¬ r.target - r.pred = 0 := by omega
      simp [h, this]
  rw [e1, sum_map_sub']
  unfold mean
  simp only [List.length_map]
  by_cases hb : b = []
  · simp [hb]
  · have hpos : (0 : K) < b.length := by
      have := List.length_pos_iff.mpr hb; exact_mod_cast this
    rw [← sub_div, abs_div, abs_of_pos hpos, mul_div_cancel₀ _ hpos.ne']

/-- **C42, meaning.** ECE is the average over the rows of the absolute excess of correct predictions
over confidence, summed bin by bin: `n·ECE = Σ_bins |Σ_{rows in bin} (correct − prob)|`. -/
theorem C42_meaning (rows : List (Point K)) :
    ece rows = ((List.range 10).map fun i =>
      |((bin (thresholds rows.length) i rows).map fun r =>
        (if r.pred = r.target then 1 else 0) - r.prob).sum|).sum / rows.length := by
  unfold ece countsConfsAccs
  simp only [thresholds_length, List.map_map]
  congr 2
  apply List.map_congr_left
  intro i _
  exact count_mul_gap _

theorem abs_sum_le_length (b : List (Point K)) (h0 : ∀ r ∈ b, 0 ≤ r.prob)
    (h1 : ∀ r ∈ b, r.prob ≤ 1) :
    |(b.map fun r => (if r.pred = r.target then (1 : K) else 0) - r.prob).sum| ≤
      (b.map fun _ => (1 : K)).sum := by
  induction b with
  | nil => simp
  | cons r rs ih =>
    have ih := ih (fun x hx => h0 x (by simp [hx])) (fun x hx => h1 x (by simp [hx]))
    simp only [List.map_cons, List.sum_cons]
    refine le_trans (abs_add_le _ _) (add_le_add ?_ ih)
    have a := h0 r (by simp); have b := h1 r (by simp)
    rw [abs_le]
    split_ifs <;> constructor <;> linarith

theorem bin_subset (ts : List K) (i : ℕ) (rows : List (Point K)) : ∀ r ∈ bin ts i rows, r ∈ rows := by
  intro r hr
  unfold bin at hr
  split_ifs at hr <;> exact (List.mem_filter.mp hr).1

/-- **C42, range.** -/
theorem C42_range (rows : List (Point K)) (hne : rows ≠ [])
    (hp : ∀ r ∈ rows, 0 ≤ r.prob ∧ r.prob ≤ 1) : 0 ≤ ece rows ∧ ece rows ≤ 1 := by
  have hpos : (0 : K) < rows.length := by
    have := List.length_pos_iff.mpr hne; exact_mod_cast this
  rw [C42_meaning]
  constructor
  · apply div_nonneg _ hpos.le
    apply List.sum_nonneg
    intro x hx
    obtain ⟨i, -, rfl⟩ := List.mem_map.mp hx
    exact abs_nonneg _
  · rw [div_le_one hpos]
    have hs := bins_sum rows hne (fun r hr => (hp r hr).2) (fun _ => 1)
    have : (rows.map fun _ => (1 : K)).sum = rows.length := by simp
    rw [← this, ← hs]
    apply List.sum_le_sum
    intro i _
    exact abs_sum_le_length _ (fun r hr => (hp r (bin_subset _ _ _ r hr)).1)
      (fun r hr => (hp r (bin_subset _ _ _ r hr)).2)

/-- **C42, calibration in the large.** The gap between accuracy and average confidence is at most the
ECE. -/
theorem C42_large (rows : List (Point K)) (hne : rows ≠ []) (h1 : ∀ r ∈ rows, r.prob ≤ 1) :
    |accuracy rows - mean (rows.map (·.prob))| ≤ ece rows := by
  have hpos : (0 : K) < rows.length := by
    have := List.length_pos_iff.mpr hne; exact_mod_cast this
  rw [C42_meaning]
  have e : accuracy rows - mean (rows.map (·.prob)) =
      (rows.map fun r => (if r.pred = r.target then (1 : K) else 0) - r.prob).sum / rows.length := by
    unfold accuracy mean
    rw [sum_map_sub', sub_div]; simp
  rw [e, abs_div, abs_of_pos hpos]
  apply div_le_div_of_nonneg_right _ hpos.le
  rw [← bins_sum rows hne h1]
  generalize List.range 10 = l
  induction l with
  | nil => simp
  | cons a as ih =>
    simp only [List.map_cons, List.sum_cons]
    exact le_trans (abs_add_le _ _) (by linarith)

/-- **C42, perfect classifier.** All predictions correct with probability 1: ECE is 0. -/
theorem C42_perfect (rows : List (Point K)) (h : ∀ r ∈ rows, r.pred = r.target ∧ r.prob = 1) :
    ece rows = 0 := by
  rw [C42_meaning]
  have : ∀ i, ((bin (thresholds rows.length) i rows).map fun r =>
      (if r.pred = r.target then (1 : K) else 0) - r.prob).sum = 0 := by
    intro i
    apply List.sum_eq_zero
    intro x hx
    obtain ⟨r, hr, rfl⟩ := List.mem_map.mp hx
    obtain ⟨a, b⟩ := h r (bin_subset _ _ _ r hr)
    simp [a, b]
  simp [this]

/-- **C42, order.** Permuting the data points changes neither calibration error. -/
theorem C42_perm (rows rows' : List (Point K)) (h : rows.Perm rows') :
    ece rows = ece rows' ∧ mce rows = mce rows' := by
  have hc : countsConfsAccs rows = countsConfsAccs rows' := by
    unfold countsConfsAccs
    rw [h.length_eq]
    apply List.map_congr_left
    intro i _
    have hb : (bin (thresholds (K := K) rows'.length) i rows).Perm
        (bin (thresholds rows'.length) i rows') := by
      unfold bin
      split_ifs <;> exact h.filter _
    have hm : ∀ f : Point K → K, mean ((bin (thresholds (K := K) rows'.length) i rows).map f) =
        mean ((bin (thresholds rows'.length) i rows').map f) := by
      intro f
      unfold mean
      rw [(hb.map f).sum_eq, (hb.map f).length_eq]
    simp only [hb.length_eq, hm]
  unfold ece mce
  rw [hc, h.length_eq]
  exact ⟨rfl, rfl⟩

/-- Four points, two confident and one of them wrong. -/
example : ece [(⟨1, 1, 1⟩ : Point ℚ), ⟨1, 1, 0⟩, ⟨0, 3/5, 0⟩, ⟨0, 3/5, 0⟩] = 9/20 ∧
    ∀ r ∈ [(⟨1, 1, 1⟩ : Point ℚ), ⟨1, 1, 0⟩, ⟨0, 3/5, 0⟩, ⟨0, 3/5, 0⟩], 0 ≤ r.prob ∧ r.prob ≤ 1 := by
  decide +kernel

/-! ## C43 -/

theorem foldl_max_ge (l : List K) (a : K) : a ≤ l.foldl max a ∧ ∀ x ∈ l, x ≤ l.foldl max a := by
  induction l generalizing a with
  | nil => simp
  | cons x xs ih =>
    obtain ⟨h1, h2⟩ := ih (max a x)
    refine ⟨le_trans (le_max_left _ _) h1, ?_⟩
    simp only [List.mem_cons, forall_eq_or_imp, List.foldl_cons]
    exact ⟨le_trans (le_max_right _ _) h1, h2⟩

theorem foldl_max_mem (l : List K) (a : K) : l.foldl max a = a ∨ l.foldl max a ∈ l := by
  induction l generalizing a with
  | nil => simp
  | cons x xs ih =>
    rcases ih (max a x) with h | h
    · rw [List.foldl_cons, h]
      rcases max_choice a x with h' | h' <;> rw [h'] <;> simp
    · right; simp [h]

/-- **C43.** The value is the largest of `count·|accuracy − confidence|` over the
bins; it is non-negative, at least the ECE, and at most the number of data points. It is zero exactly
when the ECE is. -/
theorem C43_range (rows : List (Point K)) (hne : rows ≠ [])
    (hp : ∀ r ∈ rows, 0 ≤ r.prob ∧ r.prob ≤ 1) :
    0 ≤ mce rows ∧ ece rows ≤ mce rows ∧ mce rows ≤ rows.length ∧ (mce rows = 0 ↔ ece rows = 0) ∧
    (∃ c ∈ countsConfsAccs rows, mce rows = c.1 * |c.2.2 - c.2.1|) ∧
    ∀ c ∈ countsConfsAccs rows, c.1 * |c.2.2 - c.2.1| ≤ mce rows := by
  have hpos : (0 : K) < rows.length := by
    have := List.length_pos_iff.mpr hne; exact_mod_cast this
  set vs := (countsConfsAccs rows).map fun c => (c.1 : K) * |c.2.2 - c.2.1| with hvs
  have hnn : ∀ v ∈ vs, 0 ≤ v := by
    intro v hv
    obtain ⟨c, -, rfl⟩ := List.mem_map.mp hv
    positivity
  obtain ⟨h0, hmax⟩ := foldl_max_ge vs 0
  have hm : mce rows = vs.foldl max 0 := rfl
  rw [← hm] at h0 hmax
  obtain ⟨-, hcount, hlen⟩ := C42_bins rows hne fun r hr => (hp r hr).2
  have hmem : ∀ c ∈ countsConfsAccs rows, c.1 * |c.2.2 - c.2.1| ≤ mce rows := fun c hc =>
    hmax _ (List.mem_map.mpr ⟨c, hc, rfl⟩)
  have hsum : vs.sum ≤ rows.length * mce rows := by
    rw [← hcount, hvs, Nat.cast_list_sum, List.map_map]
    have : ∀ l : List (ℕ × K × K), (∀ c ∈ l, c.1 * |c.2.2 - c.2.1| ≤ mce rows) →
        (l.map fun c => (c.1 : K) * |c.2.2 - c.2.1|).sum ≤
          (l.map ((fun n : ℕ => (n : K)) ∘ fun c => c.1)).sum * mce rows := by
      intro l hl
      induction l with
      | nil => simp
      | cons c cs ih =>
        have ih := ih fun x hx => hl x (by simp [hx])
        have hc := hl c (by simp)
        simp only [List.map_cons, List.sum_cons, Function.comp_apply, add_mul]
        refine add_le_add ?_ ih
        rcases Nat.eq_zero_or_pos c.1 with hz | hz
        · simp [hz]
        · have : (1 : K) ≤ c.1 := by exact_mod_cast hz
          nlinarith
    exact this _ hmem
  have hece : ece rows = vs.sum / rows.length := rfl
  have hle : ece rows ≤ mce rows := by
    rw [hece, div_le_iff₀ hpos]; linarith
  refine ⟨h0, hle, ?_, ?_, ?_, hmem⟩
  · rcases foldl_max_mem vs 0 with h | h
    · rw [hm, h]; exact hpos.le
    · rw [← hm] at h
      have h1 : mce rows ≤ vs.sum := List.single_le_sum hnn _ h
      have h2 : ece rows ≤ 1 := (C42_range rows hne hp).2
      rw [hece, div_le_one hpos] at h2
      linarith
  · constructor
    · intro h; exact le_antisymm (h ▸ hle) (C42_range rows hne hp).1
    · intro h
      rw [hece, div_eq_zero_iff] at h
      rcases h with h | h
      · rcases foldl_max_mem vs 0 with h' | h'
        · rw [hm, h']
        · rw [← hm] at h'
          have h1 : mce rows ≤ vs.sum := List.single_le_sum hnn _ h'
          linarith
      · exact absurd h hpos.ne'
  · have hvne : vs ≠ [] := by
      rw [hvs]; intro h
      have := congrArg List.length h
      simp [hlen] at this
    rcases foldl_max_mem vs 0 with h | h
    · obtain ⟨v, hv⟩ := List.exists_mem_of_ne_nil vs hvne
      have h1 : v = mce rows := by
        rw [hm, h]; apply le_antisymm _ (hnn v hv)
        have := hmax v hv; rw [hm, h] at this; exact this
      obtain ⟨c, hc, rfl⟩ := List.mem_map.mp hv
      exact ⟨c, hc, h1.symm⟩
    · obtain ⟨c, hc, he⟩ := List.mem_map.mp h
      exact ⟨c, hc, by rw [hm]; exact he.symm⟩

/-- **C43 is false as stated.** The gaps are multiplied by the bin counts, so four confident mistakes
give a maximum calibration error of 4. -/
theorem C43_range_false : ∃ rows : List (Point ℚ),
    (∀ r ∈ rows, 0 ≤ r.prob ∧ r.prob ≤ 1) ∧ rows ≠ [] ∧ mce rows = 4 :=
  ⟨List.replicate 4 ⟨1, 1, 0⟩, by decide +kernel⟩

/-! ## C44 -/

/-- **C44, accuracy.** The fraction of correct predictions; 1 exactly when all are correct. -/
theorem C44_accuracy (rows : List (Point K)) (hne : rows ≠ []) :
    accuracy rows = (rows.countP fun r => r.pred == r.target) / rows.length ∧
    0 ≤ accuracy rows ∧ accuracy rows ≤ 1 ∧
    (accuracy rows = 1 ↔ ∀ r ∈ rows, r.pred = r.target) := by
  refine ⟨?_, ?_, ?_, ?_⟩
  · unfold accuracy mean
    rw [List.length_map]
    congr 1
    clear hne
    induction rows with
    | nil => simp
    | cons r rs ih =>
      rw [List.map_cons, List.sum_cons, ih, List.countP_cons]
      by_cases h : r.pred = r.target <;> simp [h, add_comm]
  · refine (mean_unit ?_ ?_).1 <;> simp only [List.mem_map] <;> rintro _ ⟨r, -, rfl⟩ <;>
      split_ifs <;> norm_num
  · refine (mean_unit ?_ ?_).2 <;> simp only [List.mem_map] <;> rintro _ ⟨r, -, rfl⟩ <;>
      split_ifs <;> norm_num
  · unfold accuracy
    rw [mean_eq_max (by simpa using hne)]
    · simp
    · simp only [List.mem_map]; rintro _ ⟨r, -, rfl⟩; split_ifs <;> norm_num

/-- **C44, interval coverage.** The fraction of targets inside their interval; 1 exactly when all are;
never smaller for wider intervals. -/
theorem C44_picp (rows : List (Interval K)) (hne : rows ≠ []) :
    picp rows =
      (rows.countP fun r => decide (r.lower ≤ r.target ∧ r.target ≤ r.upper)) / rows.length ∧
    0 ≤ picp rows ∧ picp rows ≤ 1 ∧
    (picp rows = 1 ↔ ∀ r ∈ rows, r.lower ≤ r.target ∧ r.target ≤ r.upper) := by
  have hval : ∀ r : Interval K, ((if r.target ≥ r.lower then 1 else 0) *
      (if r.target ≤ r.upper then 1 else 0) : K) =
      if r.lower ≤ r.target ∧ r.target ≤ r.upper then 1 else 0 := by
    intro r
    by_cases h1 : r.lower ≤ r.target <;> by_cases h2 : r.target ≤ r.upper <;> simp [h1, h2]
  have hp : picp rows = mean (rows.map fun r =>
      if r.lower ≤ r.target ∧ r.target ≤ r.upper then (1 : K) else 0) := by
    unfold picp; simp only [hval]
  rw [hp]
  refine ⟨?_, ?_, ?_, ?_⟩
  · unfold mean
    rw [List.length_map]
    congr 1
    clear hne hp
    induction rows with
    | nil => simp
    | cons r rs ih =>
      rw [List.map_cons, List.sum_cons, ih, List.countP_cons]
      by_cases h : r.lower ≤ r.target ∧ r.target ≤ r.upper <;> simp [h, add_comm]
  · refine (mean_unit ?_ ?_).1 <;> simp only [List.mem_map] <;> rintro _ ⟨r, -, rfl⟩ <;>
      split_ifs <;> norm_num
  · refine (mean_unit ?_ ?_).2 <;> simp only [List.mem_map] <;> rintro _ ⟨r, -, rfl⟩ <;>
      split_ifs <;> norm_num
  · rw [mean_eq_max (by simpa using hne)]
    · simp
    · simp only [List.mem_map]; rintro _ ⟨r, -, rfl⟩; split_ifs <;> norm_num

theorem zipWith_range (p : List K) (q : ℕ → K) (k : ℕ) (f : K → K → K) :
    List.zipWith f p ((List.range p.length).map fun j : ℕ => q (j + k)) =
      (p.zipIdx k).map fun a => f a.1 (q a.2) := by
  induction p generalizing k with
  | nil => simp
  | cons x xs ih =>
    rw [List.length_cons, List.range_succ_eq_map]
    simp only [List.map_cons, List.map_map, List.zipWith_cons_cons, List.zipIdx_cons, Nat.zero_add]
    congr 1
    rw [← ih (k + 1)]
    congr 1
    apply List.map_congr_left
    intro j _
    simp [Nat.add_comm, Nat.add_left_comm]

theorem brierRow_eq (p : List K) (y : ℤ) :
    brierRow p y = (p.zipIdx.map fun a => (a.1 - if (a.2 : ℤ) = y then 1 else 0) ^ 2).sum := by
  unfold brierRow oneHot
  exact congrArg List.sum
    (zipWith_range p (fun j => if (j : ℤ) = y then 1 else 0) 0 fun a b => (a - b) ^ 2)

theorem sum_sq_shift (p : List K) (y : ℕ) (k : ℕ) :
    ((p.zipIdx k).map fun a => (a.1 - if a.2 = y + k then 1 else 0) ^ 2).sum =
      (p.map fun x => x ^ 2).sum + (match p[y]? with | some q => 1 - 2 * q | none => 0) := by
  induction p generalizing y k with
  | nil => simp
  | cons x xs ih =>
    simp only [List.zipIdx_cons, List.map_cons, List.sum_cons]
    cases y with
    | zero =>
      have : ((xs.zipIdx (k + 1)).map fun a => (a.1 - if a.2 = 0 + k then (1 : K) else 0) ^ 2).sum =
          (xs.map fun x => x ^ 2).sum := by
        congr 1
        have h1 : (xs.zipIdx (k + 1)).map (fun a => (a.1 - if a.2 = 0 + k then (1 : K) else 0) ^ 2) =
            (xs.zipIdx (k + 1)).map fun a => a.1 ^ 2 := by
          apply List.map_congr_left
          rintro ⟨a, i⟩ hi
          have := (List.mem_zipIdx hi).1
          have hne : ¬ i = 0 + k := by omega
          simp only [hne, if_false, sub_zero]
        rw [h1]
        conv_rhs => rw [← List.zipIdx_map_fst (k + 1) xs, List.map_map]
        rfl
      rw [this]
      simp
      ring
    | succ y =>
      have := ih y (k + 1)
      have e : y + (k + 1) = y + 1 + k := by omega
      rw [e] at this
      rw [this]
      have hk : ¬ k = y + 1 + k := by omega
      simp only [hk, if_false, sub_zero, List.getElem?_cons_succ]
      ring

/-- **C44, one Brier row.** For a row of probabilities and a target that is one of the classes, the
score is in [0,2], and it is 0 exactly for the one-hot forecast of the target. -/
theorem C44_brier_row (p : List K) (y : ℕ) (hy : y < p.length) (h0 : ∀ x ∈ p, 0 ≤ x)
    (h1 : p.sum = 1) :
    0 ≤ brierRow p y ∧ brierRow p y ≤ 2 ∧
    (brierRow p y = 0 ↔ ∀ j, (hj : j < p.length) → p[j] = if j = y then 1 else 0) := by
  have hle1 : ∀ x ∈ p, x ≤ 1 := fun x hx => h1 ▸ List.single_le_sum h0 x hx
  rw [brierRow_eq]
  have hnn : ∀ x ∈ p.zipIdx.map fun a => (a.1 - if (a.2 : ℤ) = y then (1 : K) else 0) ^ 2, 0 ≤ x := by
    intro x hx
    obtain ⟨a, -, rfl⟩ := List.mem_map.mp hx
    positivity
  refine ⟨List.sum_nonneg hnn, ?_, ?_⟩
  · have hs := sum_sq_shift p y 0
    simp only [Nat.add_zero] at hs
    have hcast : (p.zipIdx.map fun a => (a.1 - if (a.2 : ℤ) = y then (1 : K) else 0) ^ 2) =
        p.zipIdx.map fun a => (a.1 - if a.2 = y then 1 else 0) ^ 2 := by
      apply List.map_congr_left; intro a _; norm_cast
    rw [hcast, hs, List.getElem?_eq_getElem hy]
    have hsq : (p.map fun x => x ^ 2).sum ≤ p.sum := by
      conv_rhs => rw [← List.map_id p]
      apply List.sum_le_sum
      intro x hx
      have a := h0 x hx; have b := hle1 x hx
      simp only [id]; nlinarith
    have := h0 p[y] (List.getElem_mem hy)
    simp only
    linarith
  · constructor
    · intro h j hj
      have hmem : (p[j] - if (j : ℤ) = y then (1 : K) else 0) ^ 2 ∈
          p.zipIdx.map fun a => (a.1 - if (a.2 : ℤ) = y then (1 : K) else 0) ^ 2 := by
        apply List.mem_map.mpr
        refine ⟨(p[j], j), ?_, rfl⟩
        rw [List.mem_zipIdx_iff_getElem?]
        simp [hj]
      have hle := List.single_le_sum hnn _ hmem
      rw [h] at hle
      have : p[j] - (if (j : ℤ) = y then (1 : K) else 0) = 0 := by
        have := sq_nonneg (p[j] - if (j : ℤ) = y then (1 : K) else 0)
        exact pow_eq_zero_iff (two_ne_zero) |>.mp (le_antisymm hle this)
      have e := sub_eq_zero.mp this
      rw [e]; norm_cast
    · intro h
      apply List.sum_eq_zero
      intro x hx
      obtain ⟨⟨a, j⟩, ha, rfl⟩ := List.mem_map.mp hx
      obtain ⟨-, hj, he⟩ := List.mem_zipIdx ha
      simp only [Nat.sub_zero] at he
      have hj' : j < p.length := by simpa using hj
      have := h j hj'
      rw [he, this]
      norm_cast
      simp

/-- **C44, Brier score.** Over rows of probabilities with valid targets the score is in [0,2] and 0
exactly when every row is the one-hot forecast of its target. -/
theorem C44_brier (rows : List (List K × ℕ)) (hne : rows ≠ [])
    (hp : ∀ r ∈ rows, r.2 < r.1.length ∧ (∀ x ∈ r.1, 0 ≤ x) ∧ r.1.sum = 1) :
    let b := brier (rows.map fun r => (r.1, (r.2 : ℤ)))
    0 ≤ b ∧ b ≤ 2 ∧ (b = 0 ↔ ∀ r ∈ rows, ∀ j, (hj : j < r.1.length) →
      r.1[j] = if j = r.2 then 1 else 0) := by
  intro b
  have hb : b = mean (rows.map fun r => brierRow r.1 r.2) := by
    show brier _ = _
    unfold brier; rw [List.map_map]; rfl
  have hrow := fun r hr => C44_brier_row r.1 r.2 (hp r hr).1 (hp r hr).2.1 (hp r hr).2.2
  have hm := mean_mem (l := rows.map fun r => brierRow r.1 r.2) (by simpa using hne) (lo := 0) (hi := 2)
    (by simp only [List.mem_map]; rintro _ ⟨r, hr, rfl⟩; exact (hrow r hr).1)
    (by simp only [List.mem_map]; rintro _ ⟨r, hr, rfl⟩; exact (hrow r hr).2.1)
  rw [hb]
  refine ⟨hm.1, hm.2, ?_⟩
  rw [mean_eq_zero (by simpa using hne)
    (by simp only [List.mem_map]; rintro _ ⟨r, hr, rfl⟩; exact (hrow r hr).1)]
  simp only [List.mem_map, forall_exists_index, and_imp, forall_apply_eq_imp_iff₂]
  exact ⟨fun h r hr => (hrow r hr).2.2.mp (h r hr), fun h r hr => (hrow r hr).2.2.mpr (h r hr)⟩

/-- **C44, binary Brier score.** -/
theorem C44_brier_binary (rows : List (K × ℤ)) (hne : rows ≠ [])
    (hp : ∀ r ∈ rows, 0 ≤ r.1 ∧ r.1 ≤ 1 ∧ (r.2 = 0 ∨ r.2 = 1)) :
    0 ≤ brierBinary rows ∧ brierBinary rows ≤ 1 ∧
    (brierBinary rows = 0 ↔ ∀ r ∈ rows, r.1 = (r.2 : K)) := by
  have hu := mean_unit (l := rows.map fun r => (r.1 - (r.2 : K)) ^ 2)
    (by simp only [List.mem_map]; rintro _ ⟨r, hr, rfl⟩; positivity)
    (by
      simp only [List.mem_map]; rintro _ ⟨r, hr, rfl⟩
      obtain ⟨a, b, c⟩ := hp r hr
      rcases c with c | c <;> rw [c] <;> push_cast <;> nlinarith)
  refine ⟨hu.1, hu.2, ?_⟩
  unfold brierBinary
  rw [mean_eq_zero (by simpa using hne)
    (by simp only [List.mem_map]; rintro _ ⟨r, hr, rfl⟩; positivity)]
  simp only [List.mem_map, forall_exists_index, and_imp, forall_apply_eq_imp_iff₂]
  constructor
  · intro h r hr
    have := h r hr
    exact sub_eq_zero.mp (pow_eq_zero_iff two_ne_zero |>.mp this)
  · intro h r hr
    rw [h r hr]; ring

/-- **C44, regression errors.** RMSE squared is MSE and the root mean absolute error squared is the mean
absolute error; all are non-negative; MSE (and so RMSE) is zero exactly when every prediction equals its
target. -/
theorem C44_rmse (rows : List (List ℝ × List ℝ)) (hne : rows ≠ [])
    (hlen : ∀ r ∈ rows, r.1.length = r.2.length) :
    rmse rows ^ 2 = mse rows ∧ rmae rows ^ 2 = mae rows ∧ 0 ≤ rmse rows ∧ 0 ≤ mae rows ∧
    (mse rows = 0 ↔ ∀ r ∈ rows, r.1 = r.2) := by
  have hrow : ∀ r : List ℝ × List ℝ, 0 ≤ (List.zipWith (fun a b => (a - b) ^ 2) r.1 r.2).sum := by
    intro r
    apply List.sum_nonneg
    intro x hx
    rw [List.zipWith_eq_zipWith_take_min, ← List.map_uncurry_zip_eq_zipWith] at hx
    obtain ⟨a, -, rfl⟩ := List.mem_map.mp hx
    simp only [Function.uncurry]; positivity
  have harow : ∀ r : List ℝ × List ℝ, 0 ≤ (List.zipWith (fun a b => |a - b|) r.1 r.2).sum := by
    intro r
    apply List.sum_nonneg
    intro x hx
    rw [List.zipWith_eq_zipWith_take_min, ← List.map_uncurry_zip_eq_zipWith] at hx
    obtain ⟨a, -, rfl⟩ := List.mem_map.mp hx
    simp only [Function.uncurry]; positivity
  have hm : 0 ≤ mse rows := by
    unfold mse mean
    apply div_nonneg _ (Nat.cast_nonneg _)
    apply List.sum_nonneg
    simp only [List.mem_map]; rintro _ ⟨r, hr, rfl⟩; exact hrow r
  have ha : 0 ≤ mae rows := by
    unfold mae mean
    apply div_nonneg _ (Nat.cast_nonneg _)
    apply List.sum_nonneg
    simp only [List.mem_map]; rintro _ ⟨r, hr, rfl⟩; exact harow r
  refine ⟨Real.sq_sqrt hm, Real.sq_sqrt ha, Real.sqrt_nonneg _, ha, ?_⟩
  unfold mse
  rw [mean_eq_zero (by simpa using hne)
    (by simp only [List.mem_map]; rintro _ ⟨r, hr, rfl⟩; exact hrow r)]
  simp only [List.mem_map, forall_exists_index, and_imp, forall_apply_eq_imp_iff₂]
  have key : ∀ p q : List ℝ, p.length = q.length →
      ((List.zipWith (fun a b => (a - b) ^ 2) p q).sum = 0 ↔ p = q) := by
    intro p
    induction p with
    | nil => intro q h; cases q <;> simp_all
    | cons x xs ih =>
      intro q h
      cases q with
      | nil => simp at h
      | cons y ys =>
        have h' : xs.length = ys.length := by simpa using h
        simp only [List.zipWith_cons_cons, List.sum_cons, List.cons.injEq]
        have h1 := hrow (xs, ys)
        have h2 := sq_nonneg (x - y)
        constructor
        · intro hs
          have hx : (x - y) ^ 2 = 0 := by simp only at h1; linarith
          have hxs : (List.zipWith (fun a b => (a - b) ^ 2) xs ys).sum = 0 := by linarith
          exact ⟨sub_eq_zero.mp (pow_eq_zero_iff two_ne_zero |>.mp hx), (ih ys h').mp hxs⟩
        · rintro ⟨rfl, h3⟩
          rw [(ih ys h').mpr h3]; ring
  exact ⟨fun h r hr => (key _ _ (hlen r hr)).mp (h r hr), fun h r hr => (key _ _ (hlen r hr)).mpr (h r hr)⟩

example : brier [([1/2, 1/4, 1/4], 0), ([(0:ℚ), 1, 0], 1)] = 3/16 ∧
    brierBinary [((1:ℚ)/2, 1), (1, 1)] = 1/8 ∧
    picp [(⟨0, 1, 1⟩ : Interval ℚ), ⟨0, 1, 2⟩] = 1/2 ∧
    accuracy [(⟨1, 1, 1⟩ : Point ℚ), ⟨1, 1, 0⟩] = 1/2 ∧
    mse [([1, 2], [(3:ℚ), 2])] = 4 := by
  decide +kernel

/-- **C44, shapes of intervals.** Bounds and targets may be given as vectors or as single columns, in any mixture; arrays with more
columns are refused with a `ValueError`. -/
theorem C44_picp_shapes (t u l : Option ℕ) (ht : t ≠ some 0) :
    (picpShapes t u l = .ok () ↔ ∀ s ∈ [t, u, l], s = none ∨ s = some 1) ∧
    ((∃ s ∈ [t, u, l], s ≠ none ∧ s ≠ some 1) → picpShapes t u l = .error "ValueError") := by
  unfold picpShapes
  rcases t with _ | _ | _ | t <;> rcases u with _ | _ | _ | u <;> rcases l with _ | _ | _ | l <;> simp_all

/-- **C44, shapes of regressions.** With one target the loss of the column of predictions is what it should be. -/
theorem C44_flat_single (p t : ℚ) : mseFlat [p] [t] = mse [([p], [t])] := by
  simp [mseFlat, mse, mean]

/-- **C44 is false of targets given as a vector.** Predictions are columns; targets given as a vector are broadcast against them, so
that the error of perfect predictions is not zero, and it does not depend on the order of the targets. -/
theorem C44_flat_false : mseFlat [0, 1] [0, 1] = (1 : ℚ) ∧ mse [([0], [0]), ([1], [(1 : ℚ)])] = 0 ∧
    ∀ ps ts ts' : List ℚ, ts.Perm ts' → mseFlat ps ts = mseFlat ps ts' := by
  refine ⟨by decide +kernel, by decide +kernel, ?_⟩
  intro ps ts ts' h
  unfold mseFlat
  congr 1
  apply List.map_congr_left
  intro p _
  exact (h.map _).sum_eq

/-! ### Concrete cases that meet the hypotheses of the theorems above -/

/-- Three points: two right, one wrong. -/
def exPts : List (Point ℚ) := [⟨1, 3 / 5, 1⟩, ⟨0, 4 / 5, 1⟩, ⟨2, 1, 2⟩]

theorem exPts_prob : ∀ r ∈ exPts, 0 ≤ r.prob ∧ r.prob ≤ 1 := by norm_num [exPts]

example := C42_bins exPts (by simp [exPts]) fun r hr => (exPts_prob r hr).2
example := C42_range exPts (by simp [exPts]) exPts_prob
example := C42_large exPts (by simp [exPts]) fun r hr => (exPts_prob r hr).2
example := C42_perfect ([⟨1, 1, 1⟩, ⟨2, 1, 2⟩] : List (Point ℚ)) (by norm_num)
example := C43_range exPts (by simp [exPts]) exPts_prob
example := C44_accuracy exPts (by simp [exPts])
example := C44_picp ([⟨0, 1, 1 / 2⟩, ⟨0, 1, 2⟩] : List (Interval ℚ)) (by simp)
example := C44_brier_row ([1 / 4, 3 / 4] : List ℚ) 1 (by simp) (by norm_num) (by norm_num)
example := C44_brier_binary ([(1 / 4, 0), (1, 1)] : List (ℚ × ℤ)) (by simp) (by norm_num)
example := C44_picp_shapes (some 2) none (some 1) (by simp)

end Verif.Props
