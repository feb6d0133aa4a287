import Verif.Props.Multivalid
import Mathlib.Tactic.LinearCombination
import Mathlib.Tactic.FieldSimp
import Mathlib.Tactic.Positivity

/-! Properties C19, C20: what a single patch achieves, and which cell is patched. -/
set_option linter.unusedSectionVars false

namespace Verif.Props

open Verif.Multivalid Verif.ArrayOps

variable {K : Type*} [Field K] [LinearOrder K] [IsStrictOrderedRing K]

/-! ### Specification -/

/-- The entries of `xs` in the selected rows. -/
def selected (b : List Bool) (xs : List K) : List K := ((b.zip xs).filter fun t => t.1).map fun t => t.2

/-- Mean score minus mean value over the selected rows, in column `c`. -/
def gap (b : List Bool) (c : ℕ) (values scores : List (List K)) : K :=
  mean (selected b (col scores c)) - mean (selected b (col values c))

/-- All rows of `values` and `scores` have an entry `c`, and there are as many of both as selectors. -/
structure Shaped (b : List Bool) (c : ℕ) (values scores : List (List K)) : Prop where
  lenV : values.length = b.length
  lenS : scores.length = b.length
  colV : ∀ r ∈ values, c < r.length
  colS : ∀ r ∈ scores, c < r.length

/-! ### Lemmas -/

theorem masked_sum_selected (b : List Bool) (xs : List K) :
    (List.zipWith (fun t y => if t then y else 0) b xs).sum = (selected b xs).sum := by
  induction b generalizing xs with
  | nil => simp [selected]
  | cons t b ih =>
    cases xs with
    | nil => simp [selected]
    | cons x xs =>
      rw [List.zipWith_cons_cons, List.sum_cons, ih]
      cases t <;> simp [selected]

theorem selected_length (b : List Bool) (xs : List K) (h : xs.length = b.length) :
    (selected b xs).length = b.count true := by
  induction b generalizing xs with
  | nil => simp [selected]
  | cons t b ih =>
    cases xs with
    | nil => simp at h
    | cons x xs =>
      have := ih xs (by simpa using h)
      cases t <;> simp_all [selected]

theorem probB_pos_iff (b : List Bool) : (0 : K) < probB b ↔ 0 < b.count true := by
  unfold probB
  constructor
  · intro h
    by_contra hc
    have : b.count true = 0 := by omega
    rw [this] at h; simp at h
  · intro h
    have hl : 0 < b.length := lt_of_lt_of_le h List.count_le_length
    have h1 : (0 : K) < (b.count true : ℕ) := by exact_mod_cast h
    have h2 : (0 : K) < (b.length : ℕ) := by exact_mod_cast hl
    positivity

theorem maskedMean_div_probB (b : List Bool) (xs : List K) (h : xs.length = b.length) (hpos : 0 < b.count true) :
    maskedMean b xs / probB b = mean (selected b xs) := by
  have hl : 0 < b.length := lt_of_lt_of_le hpos List.count_le_length
  have h1 : (0 : K) < (b.count true : ℕ) := by exact_mod_cast hpos
  have h2 : (0 : K) < (b.length : ℕ) := by exact_mod_cast hl
  unfold maskedMean probB mean
  rw [masked_sum_selected, selected_length b xs h]
  field_simp

/-- The additive patch is the gap of the cell. -/
theorem mcDelta_eq_gap (b : List Bool) (c : ℕ) (values scores : List (List K)) (hs : Shaped b c values scores)
    (hpos : 0 < b.count true) : mcDelta b c values scores = gap b c values scores := by
  unfold mcDelta gap
  rw [if_pos ((probB_pos_iff b).2 hpos), maskedMean_div_probB b _ (by simp [col, hs.lenS]) hpos,
    maskedMean_div_probB b _ (by simp [col, hs.lenV]) hpos]

theorem mcDelta_mul_count (b : List Bool) (c : ℕ) (values scores : List (List K)) (hs : Shaped b c values scores) :
    mcDelta b c values scores * (b.count true : ℕ) =
      (selected b (col scores c)).sum - (selected b (col values c)).sum := by
  rcases Nat.eq_zero_or_pos (b.count true) with h | h
  · have e1 : selected b (col scores c) = [] := by
      apply List.eq_nil_of_length_eq_zero; rw [selected_length _ _ (by simp [col, hs.lenS]), h]
    have e2 : selected b (col values c) = [] := by
      apply List.eq_nil_of_length_eq_zero; rw [selected_length _ _ (by simp [col, hs.lenV]), h]
    rw [h, e1, e2]; simp
  · rw [mcDelta_eq_gap b c values scores hs h]
    have h1 : (0 : K) < (b.count true : ℕ) := by exact_mod_cast h
    unfold gap mean
    rw [selected_length _ _ (by simp [col, hs.lenS]), selected_length _ _ (by simp [col, hs.lenV])]
    field_simp

theorem row_set_sum (v s : List K) (c : ℕ) (x : K) (hv : c < v.length) (hs : c < s.length) :
    (List.zipWith (fun x y => (x - y) ^ 2) (v.set c x) s).sum =
      (List.zipWith (fun x y => (x - y) ^ 2) v s).sum - (v.getD c 0 - s.getD c 0) ^ 2 + (x - s.getD c 0) ^ 2 := by
  induction c generalizing v s with
  | zero =>
    cases v with
    | nil => simp at hv
    | cons a v =>
      cases s with
      | nil => simp at hs
      | cons y s => simp [add_comm]
  | succ c ih =>
    cases v with
    | nil => simp at hv
    | cons a v =>
      cases s with
      | nil => simp at hs
      | cons y s =>
        have := ih v s (by simpa using hv) (by simpa using hs)
        simp only [List.set_cons_succ, List.zipWith_cons_cons, List.sum_cons, List.getD_cons_succ]
        rw [this]; ring

/-- Expansion of the squared error after an additive patch with an arbitrary `delta`. -/
theorem sqErr_patch (eta delta : K) (b : List Bool) (c : ℕ) (values scores : List (List K))
    (hs : Shaped b c values scores) (hsc : ∀ r ∈ scores, 0 ≤ r.getD c 0 ∧ r.getD c 0 ≤ 1) :
    sqErr (patchValues .additive eta delta c b values) scores ≤
      sqErr values scores - 2 * (eta * delta) * ((selected b (col scores c)).sum - (selected b (col values c)).sum) +
        (eta * delta) ^ 2 * (b.count true : ℕ) := by
  induction b generalizing values scores with
  | nil =>
    have e1 := List.eq_nil_of_length_eq_zero hs.lenV
    subst e1
    simp [sqErr, patchValues, selected]
  | cons t b ih =>
    obtain ⟨h1, h2, h3, h4⟩ := hs
    cases values with
    | nil => simp at h1
    | cons v values =>
      cases scores with
      | nil => simp at h2
      | cons s scores =>
        have := ih values scores ⟨by simpa using h1, by simpa using h2, fun r hr => h3 r (by simp [hr]),
          fun r hr => h4 r (by simp [hr])⟩ (fun r hr => hsc r (by simp [hr]))
        have hy := hsc s (by simp)
        have hv := h3 v (by simp)
        have hss := h4 s (by simp)
        cases t with
        | false =>
          simp only [sqErr, patchValues, patchRow, List.zipWith_cons_cons, List.sum_cons, selected, col, List.map_cons,
            List.zip_cons_cons, List.filter_cons, List.count_cons] at this ⊢
          simp only [Bool.false_eq_true, if_false, beq_iff_eq, if_false] at this ⊢
          simp at this ⊢
          linarith
        | true =>
          have hrow := row_set_sum v s c (patchEntry .additive eta delta (v.getD c 0)) hv hss
          have hclip := sq_clip_sub_le (v.getD c 0 + eta * delta) (s.getD c 0) 0 1 hy.1 hy.2
          have hpe : patchEntry .additive eta delta (v.getD c 0) = clip (v.getD c 0 + eta * delta) 0 1 := rfl
          rw [← hpe] at hclip
          have e1 : sqErr (patchValues .additive eta delta c (true :: b) (v :: values)) (s :: scores) =
              (List.zipWith (fun x y => (x - y) ^ 2) (v.set c (patchEntry .additive eta delta (v.getD c 0))) s).sum +
                sqErr (patchValues .additive eta delta c b values) scores := by
            simp [sqErr, patchValues, patchRow]
          have e2 : sqErr (v :: values) (s :: scores) = (List.zipWith (fun x y => (x - y) ^ 2) v s).sum + sqErr values scores := by
            simp [sqErr]
          have e3 : ∀ rows : List (List K), ∀ r : List K, (selected (true :: b) (col (r :: rows) c)).sum =
              r.getD c 0 + (selected b (col rows c)).sum := by
            intro rows r; simp [selected, col]
          have e4 : (((true :: b).count true : ℕ) : K) = (b.count true : ℕ) + 1 := by simp
          rw [e1, e2, e3, e3, e4, hrow]
          nlinarith

/-- The same expansion is an equality when no entry is clipped. -/
theorem sqErr_patch_unclipped (eta delta : K) (b : List Bool) (c : ℕ) (values scores : List (List K))
    (hs : Shaped b c values scores)
    (hnc : ∀ x ∈ selected b (col values c), 0 ≤ x + eta * delta ∧ x + eta * delta ≤ 1) :
    sqErr (patchValues .additive eta delta c b values) scores =
      sqErr values scores - 2 * (eta * delta) * ((selected b (col scores c)).sum - (selected b (col values c)).sum) +
        (eta * delta) ^ 2 * (b.count true : ℕ) := by
  induction b generalizing values scores with
  | nil =>
    have e1 := List.eq_nil_of_length_eq_zero hs.lenV
    subst e1
    simp [sqErr, patchValues, selected]
  | cons t b ih =>
    obtain ⟨h1, h2, h3, h4⟩ := hs
    cases values with
    | nil => simp at h1
    | cons v values =>
      cases scores with
      | nil => simp at h2
      | cons s scores =>
        have := ih values scores ⟨by simpa using h1, by simpa using h2, fun r hr => h3 r (by simp [hr]),
          fun r hr => h4 r (by simp [hr])⟩ (fun x hx => hnc x (by
            cases t <;> simp [selected, col] at hx ⊢ <;> simp [hx]))
        have hv := h3 v (by simp)
        have hss := h4 s (by simp)
        cases t with
        | false =>
          simp only [sqErr, patchValues, patchRow, List.zipWith_cons_cons, List.sum_cons, selected, col, List.map_cons,
            List.zip_cons_cons, List.filter_cons, List.count_cons] at this ⊢
          simp only [Bool.false_eq_true, if_false, beq_iff_eq, if_false] at this ⊢
          simp at this ⊢
          linarith
        | true =>
          have hrow := row_set_sum v s c (patchEntry .additive eta delta (v.getD c 0)) hv hss
          have hx := hnc (v.getD c 0) (by simp [selected, col])
          have hpe : patchEntry .additive eta delta (v.getD c 0) = v.getD c 0 + eta * delta := clip_eq hx.1 hx.2
          have e1 : sqErr (patchValues .additive eta delta c (true :: b) (v :: values)) (s :: scores) =
              (List.zipWith (fun x y => (x - y) ^ 2) (v.set c (patchEntry .additive eta delta (v.getD c 0))) s).sum +
                sqErr (patchValues .additive eta delta c b values) scores := by
            simp [sqErr, patchValues, patchRow]
          have e2 : sqErr (v :: values) (s :: scores) = (List.zipWith (fun x y => (x - y) ^ 2) v s).sum + sqErr values scores := by
            simp [sqErr]
          have e3 : ∀ rows : List (List K), ∀ r : List K, (selected (true :: b) (col (r :: rows) c)).sum =
              r.getD c 0 + (selected b (col rows c)).sum := by
            intro rows r; simp [selected, col]
          have e4 : (((true :: b).count true : ℕ) : K) = (b.count true : ℕ) + 1 := by simp
          rw [e1, e2, e3, e3, e4, hrow, this, hpe]
          ring

/-! ### C19 -/

/-- **C19.** Applying the additive patch of a non-empty cell with step `eta` lowers the total squared error between
values and scores (scores in [0, 1]) by at least `eta (2 - eta) · (number of rows in the cell) · gap²`, clipping
included. -/
theorem C19_squared_error_decrease (eta : K) (b : List Bool) (c : ℕ) (values scores : List (List K))
    (hs : Shaped b c values scores) (hsc : ∀ r ∈ scores, 0 ≤ r.getD c 0 ∧ r.getD c 0 ≤ 1) (hpos : 0 < b.count true)
    (delta : K) (hd : mcPatch .additive b c values scores = some delta) :
    delta = gap b c values scores ∧
    sqErr (patchValues .additive eta delta c b values) scores ≤
      sqErr values scores - eta * (2 - eta) * (b.count true : ℕ) * (gap b c values scores) ^ 2 := by
  have hd' : delta = mcDelta b c values scores := by simpa [mcPatch] using hd.symm
  have hg := mcDelta_eq_gap b c values scores hs hpos
  have h1 := sqErr_patch eta delta b c values scores hs hsc
  have h2 := mcDelta_mul_count b c values scores hs
  refine ⟨hd'.trans hg, h1.trans (le_of_eq ?_)⟩
  rw [← h2, ← hg, ← hd']
  ring

/-- **C19.** The decrease is exactly that amount if no patched value leaves [0, 1]. -/
theorem C19_squared_error_exact (eta : K) (b : List Bool) (c : ℕ) (values scores : List (List K))
    (hs : Shaped b c values scores) (hpos : 0 < b.count true)
    (hnc : ∀ x ∈ selected b (col values c), 0 ≤ x + eta * gap b c values scores ∧ x + eta * gap b c values scores ≤ 1)
    (delta : K) (hd : mcPatch .additive b c values scores = some delta) :
    sqErr (patchValues .additive eta delta c b values) scores =
      sqErr values scores - eta * (2 - eta) * (b.count true : ℕ) * (gap b c values scores) ^ 2 := by
  have hd' : delta = mcDelta b c values scores := by simpa [mcPatch] using hd.symm
  have hg := mcDelta_eq_gap b c values scores hs hpos
  rw [← hg, ← hd'] at hnc
  have h1 := sqErr_patch_unclipped eta delta b c values scores hs hnc
  have h2 := mcDelta_mul_count b c values scores hs
  rw [h1, ← h2, ← hg, ← hd']
  ring

theorem selected_patch (eta delta : K) (b : List Bool) (c : ℕ) (values : List (List K)) (hl : values.length = b.length)
    (hc : ∀ r ∈ values, c < r.length)
    (hnc : ∀ x ∈ selected b (col values c), 0 ≤ x + eta * delta ∧ x + eta * delta ≤ 1) :
    selected b (col (patchValues .additive eta delta c b values) c) =
      (selected b (col values c)).map fun x => x + eta * delta := by
  induction b generalizing values with
  | nil => simp [selected]
  | cons t b ih =>
    cases values with
    | nil => simp at hl
    | cons v values =>
      have := ih values (by simpa using hl) (fun r hr => hc r (by simp [hr])) (fun x hx => hnc x (by
            cases t <;> simp [selected, col] at hx ⊢ <;> simp [hx]))
      cases t with
      | false => simpa [selected, col, patchValues, patchRow] using this
      | true =>
        have hx := hnc (v.getD c 0) (by simp [selected, col])
        have hpe : patchEntry .additive eta delta (v.getD c 0) = v.getD c 0 + eta * delta := clip_eq hx.1 hx.2
        have hv := hc v (by simp)
        have e : (v.set c (patchEntry .additive eta delta (v.getD c 0))).getD c 0 = v.getD c 0 + eta * delta := by
          rw [hpe, List.getD_eq_getElem?_getD, List.getElem?_set_self hv]; rfl
        have e1 : selected (true :: b) (col (patchValues .additive eta delta c (true :: b) (v :: values)) c) =
            (v.set c (patchEntry .additive eta delta (v.getD c 0))).getD c 0 ::
              selected b (col (patchValues .additive eta delta c b values) c) := by
          simp [selected, col, patchValues, patchRow]
        have e2 : selected (true :: b) (col (v :: values) c) = v.getD c 0 :: selected b (col values c) := by
          simp [selected, col]
        rw [e1, e2, e, this, List.map_cons]

/-- **C19.** With a full step and no clipping, the patched cell is exactly mean-calibrated: the rows of the cell now have
mean value equal to their mean score. -/
theorem C19_cell_mean (b : List Bool) (c : ℕ) (values scores : List (List K)) (hs : Shaped b c values scores)
    (hpos : 0 < b.count true)
    (hnc : ∀ x ∈ selected b (col values c), 0 ≤ x + gap b c values scores ∧ x + gap b c values scores ≤ 1)
    (delta : K) (hd : mcPatch .additive b c values scores = some delta) :
    mean (selected b (col (patchValues .additive 1 delta c b values) c)) = mean (selected b (col scores c)) := by
  have hd' : delta = mcDelta b c values scores := by simpa [mcPatch] using hd.symm
  have hg := mcDelta_eq_gap b c values scores hs hpos
  rw [← hg, ← hd'] at hnc
  rw [selected_patch 1 delta b c values hs.lenV hs.colV (by simpa using hnc)]
  have hlen := selected_length b (col values c) (by simp [col, hs.lenV])
  have hlen2 := selected_length b (col scores c) (by simp [col, hs.lenS])
  have hdg : delta = gap b c values scores := hd'.trans hg
  have h1 : (0 : K) < (b.count true : ℕ) := by exact_mod_cast hpos
  have hsum : ∀ l : List K, (l.map fun x => x + 1 * delta).sum = l.sum + (l.length : K) * delta := by
    intro l
    induction l with
    | nil => simp
    | cons x l ih => simp only [List.map_cons, List.sum_cons, ih, List.length_cons, Nat.cast_add, Nat.cast_one]; ring
  unfold gap mean at hdg
  unfold mean
  rw [List.length_map, hsum, hlen, hlen2, hdg, hlen, hlen2]
  field_simp
  ring

example : gap (K := ℚ) [true, false, true] 0 [[1 / 4], [0], [1 / 2]] [[1 / 2], [1], [3 / 4]] = 1 / 4 ∧
    patchValues (K := ℚ) .additive 1 (1 / 4) 0 [true, false, true] [[1 / 4], [0], [1 / 2]] = [[1 / 2], [0], [3 / 4]] ∧
    Shaped (K := ℚ) [true, false, true] 0 [[1 / 4], [0], [1 / 2]] [[1 / 2], [1], [3 / 4]] :=
  ⟨by decide +kernel, by decide +kernel, rfl, rfl, by simp, by simp⟩

/-! ### The loss never increases -/

theorem mem_grid {taus : List ℕ} {nG nD : ℕ} {buckets : List K} {cell : Cell K} :
    cell ∈ grid taus nG buckets nD ↔ cell.tau ∈ taus ∧ cell.g < nG ∧ cell.v ∈ buckets ∧ cell.c < nD := by
  unfold grid
  simp only [List.mem_flatMap, List.mem_map, List.mem_range]
  constructor
  · rintro ⟨t, ht, g, hg, v, hv, c, hc, rfl⟩; exact ⟨ht, hg, hv, hc⟩
  · rintro ⟨ht, hg, hv, hc⟩; exact ⟨_, ht, _, hg, _, hv, _, hc, rfl⟩

theorem bestCell_mem {m : Method K} {p : Params K} {d : Data K} {cell : Cell K} (h : bestCell m p d = some cell) :
    cell ∈ grid p.taus p.nGroups (linspace 0 1 p.cfg.nBuckets) p.nDims := by
  unfold bestCell at h
  exact List.mem_of_getElem? h

/-- Shape of a data set: same number of rows everywhere, rows of values and scores of length `n`. -/
structure WellShaped (n : ℕ) (d : Data K) : Prop where
  g : d.groups.length = d.values.length
  s : d.scores.length = d.values.length
  rowV : ∀ r ∈ d.values, r.length = n
  rowS : ∀ r ∈ d.scores, r.length = n

theorem patchValues_rows (pt : PatchType) (eta delta : K) (c n : ℕ) (b : List Bool) (values : List (List K))
    (h : ∀ r ∈ values, r.length = n) : ∀ r ∈ patchValues pt eta delta c b values, r.length = n := by
  intro r hr
  unfold patchValues at hr
  rw [List.mem_iff_getElem] at hr
  obtain ⟨i, hi, rfl⟩ := hr
  rw [List.length_zipWith] at hi
  rw [List.getElem_zipWith]
  have := h values[i] (List.getElem_mem (by omega))
  unfold patchRow
  split
  · rw [List.length_set, this]
  · exact this

theorem cellB_length (nB : ℕ) (cell : Cell K) (groups : List (List Bool)) (values : List (List K))
    (h : groups.length = values.length) : (cellB nB cell groups values).length = values.length := by
  simp [cellB, getBs, h]

theorem sum_lengths (n : ℕ) (values : List (List K)) (h : ∀ r ∈ values, r.length = n) :
    (values.map List.length).sum = values.length * n := by
  induction values with
  | nil => simp
  | cons r values ih =>
    rw [List.map_cons, List.sum_cons, ih (fun r hr => h r (by simp [hr])), h r (by simp), List.length_cons]; ring

theorem sqErr_patch_le (eta : K) (h0 : 0 < eta) (h1 : eta ≤ 1) (b : List Bool) (c : ℕ) (values scores : List (List K))
    (hs : Shaped b c values scores) (hsc : ∀ r ∈ scores, 0 ≤ r.getD c 0 ∧ r.getD c 0 ≤ 1) (delta : K)
    (hd : mcPatch .additive b c values scores = some delta) :
    sqErr (patchValues .additive eta delta c b values) scores ≤ sqErr values scores := by
  have hd' : delta = mcDelta b c values scores := by simpa [mcPatch] using hd.symm
  have k1 := sqErr_patch eta delta b c values scores hs hsc
  have k2 := mcDelta_mul_count b c values scores hs
  rw [← k2, ← hd'] at k1
  have hn : (0 : K) ≤ (b.count true : ℕ) := Nat.cast_nonneg _
  have : 0 ≤ eta * (2 - eta) * delta ^ 2 * (b.count true : ℕ) := by
    have : 0 ≤ 2 - eta := by linarith
    positivity
  nlinarith

/-- **C19.** Calibration with additive patches, a step size in (0, 1] and scores in [0, 1] never stops because the
calibration loss increased, for both the one-dimensional and the top-label multicalibrator. -/
theorem C19_training_loss_never_increases (m : Method K)
    (hm : m = multicalibrator .additive ∨ m = topLabelMulticalibrator .additive) (p : Params K)
    (hpt : p.cfg.ptype = .additive) (h0 : 0 < p.cfg.eta) (h1 : p.cfg.eta ≤ 1) (n : ℕ) (d val : Data K)
    (hd : WellShaped p.nDims d) (hsc : AllProb d.scores) :
    (loop m p n (initState m d val)).2 ≠ some .lossIncreased := by
  have hpatch : m.getPatch = mcPatch .additive := by rcases hm with rfl | rfl <;> rfl
  have key : ∀ (n : ℕ) (s : State K), WellShaped p.nDims s.data → AllProb s.data.scores →
      s.oldLoss = m.loss s.data.values s.data.scores → (loop m p n s).2 ≠ some .lossIncreased := by
    intro n
    induction n with
    | zero => intro s _ _ _; simp [loop]
    | succ n ih =>
      intro s hws hps hold
      have hround : (Multivalid.round m p s).2 ≠ some .lossIncreased ∧ ((Multivalid.round m p s).2 = none →
          WellShaped p.nDims (Multivalid.round m p s).1.data ∧ AllProb (Multivalid.round m p s).1.data.scores ∧
          (Multivalid.round m p s).1.oldLoss =
            m.loss (Multivalid.round m p s).1.data.values (Multivalid.round m p s).1.data.scores) := by
        unfold Multivalid.round
        dsimp only
        split
        · simp
        split
        · simp
        next cell hcell =>
        split
        · simp
        next delta hdelta =>
        have hc := (mem_grid.1 (bestCell_mem hcell)).2.2.2
        have hbl := cellB_length p.cfg.nBuckets cell s.data.groups s.data.values hws.g
        have hshape : Shaped (cellB p.cfg.nBuckets cell s.data.groups s.data.values) cell.c s.data.values s.data.scores :=
          ⟨hbl.symm, by rw [hbl, hws.s], fun r hr => by rw [hws.rowV r hr]; exact hc,
            fun r hr => by rw [hws.rowS r hr]; exact hc⟩
        have hcol : ∀ r ∈ s.data.scores, 0 ≤ r.getD cell.c 0 ∧ r.getD cell.c 0 ≤ 1 := by
          intro r hr
          have hlt : cell.c < r.length := by rw [hws.rowS r hr]; exact hc
          rw [List.getD_eq_getElem?_getD, List.getElem?_eq_getElem hlt]
          exact hps r hr _ (List.getElem_mem hlt)
        rw [hpatch] at hdelta
        have hle := sqErr_patch_le p.cfg.eta h0 h1 _ cell.c _ _ hshape hcol delta hdelta
        have hl : (patchValues p.cfg.ptype p.cfg.eta delta cell.c
            (cellB p.cfg.nBuckets cell s.data.groups s.data.values) s.data.values).length = s.data.values.length := by
          simp [patchValues, hbl]
        have hrows := patchValues_rows p.cfg.ptype p.cfg.eta delta cell.c p.nDims
          (cellB p.cfg.nBuckets cell s.data.groups s.data.values) s.data.values hws.rowV
        have hnot : gtN (m.loss (patchValues p.cfg.ptype p.cfg.eta delta cell.c
            (cellB p.cfg.nBuckets cell s.data.groups s.data.values) s.data.values) s.data.scores) s.oldLoss = false := by
          rw [hold, hpt]
          rcases hm with rfl | rfl
          · simpa [multicalibrator, mcLoss1d, gtN] using hle
          · have e1 := sum_lengths p.nDims _ hws.rowV
            have e2 := sum_lengths p.nDims _ hrows
            rw [hl] at e2
            rw [hpt] at e2
            simp only [topLabelMulticalibrator, mcLoss2d]
            rw [e1, e2]
            split
            · rfl
            · simp only [gtN, decide_eq_false_iff_not, not_lt]
              exact div_le_div_of_nonneg_right hle (Nat.cast_nonneg _)
        rw [hnot]
        simp only [Bool.false_eq_true, if_false]
        split
        · simp
        split
        · simp
        split
        · simp
        · exact ⟨by simp, fun _ => ⟨⟨hws.g.trans hl.symm, hws.s.trans hl.symm, hrows, hws.rowS⟩, hps, rfl⟩⟩
      unfold loop
      split
      · next heq => rw [heq] at hround; exact hround.1
      · next heq =>
        rw [heq] at hround
        obtain ⟨i1, i2, i3⟩ := hround.2 rfl
        exact ih _ i1 i2 i3
  exact key n _ hd hsc rfl

/-! ### C20 -/

/-- **C20.** The cell patched in a round maximises the calibration error over all cells of the grid (bucket type, group,
bucket, class) which contain at least the fraction `min_prob_b` of the data; it is itself such a cell, unless every such
cell has calibration error at most 0. -/
theorem C20_worst_cell (m : Method K) (p : Params K) (d : Data K) (cell : Cell K) (h : bestCell m p d = some cell) :
    (cell.tau ∈ p.taus ∧ cell.g < p.nGroups ∧ cell.v ∈ linspace (0 : K) 1 p.cfg.nBuckets ∧ cell.c < p.nDims) ∧
    ∀ tau ∈ p.taus, ∀ g < p.nGroups, ∀ v ∈ linspace (0 : K) 1 p.cfg.nBuckets, ∀ c < p.nDims,
      p.minProbB ≤ probB (getBs p.cfg.nBuckets tau g v c d.groups d.values) →
      m.calibErr (getBs p.cfg.nBuckets tau g v c d.groups d.values) c d.values d.scores ≤
          m.calibErr (getBs p.cfg.nBuckets cell.tau cell.g cell.v cell.c d.groups d.values) cell.c d.values d.scores ∧
        p.minProbB ≤ probB (getBs p.cfg.nBuckets cell.tau cell.g cell.v cell.c d.groups d.values) ∨
      m.calibErr (getBs p.cfg.nBuckets tau g v c d.groups d.values) c d.values d.scores ≤ 0 := by
  refine ⟨mem_grid.1 (bestCell_mem h), ?_⟩
  intro tau ht g hg v hv c hc hprob
  unfold bestCell at h
  dsimp only at h
  set cells := grid p.taus p.nGroups (linspace (0 : K) 1 p.cfg.nBuckets) p.nDims with hcells
  have hmem : (⟨tau, g, v, c⟩ : Cell K) ∈ cells := mem_grid.2 ⟨ht, hg, hv, hc⟩
  have hne : cells.map (cellScore m p d) ≠ [] := by
    intro he; rw [List.map_eq_nil_iff] at he; rw [he] at hmem; simp at hmem
  obtain ⟨M, hM, hmax, _⟩ := argmax_spec _ hne
  rw [List.getElem?_map, h] at hM
  have hMeq : cellScore m p d cell = M := by simpa using hM
  have hle := hmax _ (List.mem_map_of_mem hmem)
  rw [← hMeq] at hle
  unfold cellScore at hle
  dsimp only [cellB] at hle
  rw [if_pos hprob] at hle
  by_cases hb : probB (getBs p.cfg.nBuckets cell.tau cell.g cell.v cell.c d.groups d.values) ≥ p.minProbB
  · rw [if_pos hb] at hle; exact Or.inl ⟨hle, hb⟩
  · rw [if_neg hb] at hle; exact Or.inr hle

example : (bestCell (multicalibrator .additive) ⟨⟨2, 1, .additive⟩, [1, 2], 1, 1, 0, 0, 0⟩
    ⟨[[true], [true]], [[0], [1]], [[1], [1]]⟩ : Option (Cell ℚ)) = some ⟨2, 0, 0, 0⟩ := by decide +kernel

/-- **C20.** The convergence flag does not bound the calibration error: with a relative tolerance, calibration stops as
converged while a cell of the grid has a calibration error larger than `atol`. -/
theorem C20_converged_calibrated_false :
    ∃ (p : Params ℚ) (n : ℕ) (d val : Data ℚ) (st : Status ℚ) (ps : List (Patch ℚ)) (out : List (List ℚ)),
      calibrateSplit (multicalibrator .additive) p n d val = (st, ps) ∧ st.converged = true ∧
      applyPatches p.cfg ps d.groups d.values = .ok out ∧
      ∃ cell ∈ grid p.taus p.nGroups (linspace (0 : ℚ) 1 p.cfg.nBuckets) p.nDims,
        p.atol < mcErr (cellB p.cfg.nBuckets cell d.groups out) cell.c out d.scores := by
  refine ⟨⟨⟨2, 1, .additive⟩, [1], 1, 1, 0, 1 / 100, 0⟩, 5, ⟨[[true], [true]], [[0], [0]], [[1], [1]]⟩,
    ⟨[[true]], [[0]], [[1]]⟩, ⟨0, [some 1, some 0], true⟩, [], [[0], [0]], by decide +kernel, rfl, rfl,
    ⟨1, 0, 0, 0⟩, by decide +kernel, by decide +kernel⟩

/-! ### Concrete cases that meet the hypotheses of the theorems above -/

example := C19_squared_error_decrease (K := ℚ) (1 / 2) [true, false, true] 0 [[1 / 4], [0], [1 / 2]] [[1 / 2], [1], [3 / 4]] ⟨rfl, rfl, by simp, by simp⟩
  (by decide +kernel) (by decide) (1 / 4) (by decide +kernel)
example := C19_squared_error_exact (K := ℚ) (1 / 2) [true, false, true] 0 [[1 / 4], [0], [1 / 2]] [[1 / 2], [1], [3 / 4]] ⟨rfl, rfl, by simp, by simp⟩
  (by decide) (by decide +kernel) (1 / 4) (by decide +kernel)
example := C19_training_loss_never_increases (K := ℚ) (multicalibrator .additive) (Or.inl rfl) ⟨⟨2, 1, .additive⟩, [1, 2], 1, 1, 0, 0, 0⟩ rfl (by norm_num)
  (by norm_num) 7 ⟨[[true], [true]], [[0], [1]], [[1], [1]]⟩ ⟨[[true]], [[1 / 2]], [[0]]⟩ ⟨rfl, rfl, by simp, by simp⟩ (by simp [AllProb])

end Verif.Props
