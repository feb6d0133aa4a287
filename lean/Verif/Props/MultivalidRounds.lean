import Verif.Props.MultivalidError
import Mathlib.Algebra.BigOperators.Group.List.Basic
import Mathlib.Algebra.Order.BigOperators.Group.List

/-! Property C95: what a whole run of calibration rounds achieves. -/
set_option linter.unusedSectionVars false

namespace Verif.Props

open Verif.Multivalid Verif.ArrayOps

variable {K : Type*} [Field K] [LinearOrder K] [IsStrictOrderedRing K]

/-! ### Specification -/

/-- The data after the first `i` stored patches. -/
def afterPatches (cfg : Config K) (ps : List (Patch K)) (d : Data K) (i : ℕ) : Data K :=
  { d with values := replay cfg d.groups d.values (ps.take i) }

/-- The rows changed by a patch. -/
def patchedRows (nBuckets : ℕ) (q : Patch K) (d : Data K) : List Bool :=
  getBs nBuckets q.tau q.g q.v q.c d.groups d.values

/-- How many stored patches change at least one row of a data set. -/
def touching (cfg : Config K) (ps : List (Patch K)) (d : Data K) : ℕ :=
  ((List.range ps.length).filter fun i : ℕ =>
    match ps[i]? with
    | some q => (patchedRows cfg.nBuckets q (afterPatches cfg ps d i)).any id
    | none => false).length

/-! ### Lemmas -/

/-- Data after one patch. -/
def stepData (cfg : Config K) (q : Patch K) (d : Data K) : Data K :=
  { d with values := applyPatch cfg d.groups d.values q }

/-- What is known of a round which stores the patch `q`. -/
structure Stored (m : Method K) (p : Params K) (d val : Data K) (q : Patch K) : Prop where
  cell : bestCell m p d = some ⟨q.tau, q.g, q.v, q.c⟩
  delta : m.getPatch (patchedRows p.cfg.nBuckets q d) q.c d.values d.scores = some q.delta
  atol : leN (m.loss (stepData p.cfg q val).values val.scores) p.atol = false
  mono : gtN (m.loss (stepData p.cfg q val).values val.scores) (m.loss val.values val.scores) = false
  rtol : (patchedRows p.cfg.nBuckets q val).any id = true →
    leN (relDecrease (m.loss val.values val.scores) (m.loss (stepData p.cfg q val).values val.scores)) p.rtol = false

/-- All the patches of a list are stored one after the other. -/
def Trace (m : Method K) (p : Params K) : Data K → Data K → List (Patch K) → Prop
  | _, _, [] => True
  | d, val, q :: qs => Stored m p d val q ∧ Trace m p (stepData p.cfg q d) (stepData p.cfg q val) qs

theorem round_stored (m : Method K) (p : Params K) (s s' : State K)
    (hl : lastLoss s.valLosses = m.loss s.val.values s.val.scores) (h : Multivalid.round m p s = (s', none)) :
    ∃ q, s'.patches = s.patches ++ [q] ∧ s'.data = stepData p.cfg q s.data ∧ s'.val = stepData p.cfg q s.val ∧
      lastLoss s'.valLosses = m.loss s'.val.values s'.val.scores ∧ Stored m p s.data s.val q := by
  unfold Multivalid.round at h
  dsimp only at h
  split at h
  · cases h
  split at h
  · cases h
  next cell hcell =>
  split at h
  · cases h
  next delta hdelta =>
  split at h
  · cases h
  split at h
  · cases h
  next hat =>
  split at h
  · cases h
  next hvi =>
  split at h
  · cases h
  next hr =>
  simp only [Prod.mk.injEq, and_true] at h
  subst h
  refine ⟨⟨cell.tau, cell.g, cell.v, cell.c, delta⟩, rfl, rfl, rfl, ?_, hcell, hdelta, Bool.eq_false_iff.2 hat, ?_, ?_⟩
  · simp [lastLoss]
  · rw [hl] at hvi; exact Bool.eq_false_iff.2 hvi
  · intro ht
    rw [hl] at hr
    have hr' := Bool.eq_false_iff.2 hr
    rw [show (cellB p.cfg.nBuckets cell s.val.groups s.val.values).any id = true from ht, Bool.true_and] at hr'
    exact hr'

theorem round_stopped (m : Method K) (p : Params K) (s s' : State K) (o : Stop)
    (h : Multivalid.round m p s = (s', some o)) : s'.patches = s.patches := by
  unfold Multivalid.round at h
  dsimp only at h
  repeat' split at h
  all_goals first
    | (cases h; rfl)
    | (cases h)

theorem loop_trace (m : Method K) (p : Params K) (n : ℕ) (s : State K)
    (hl : lastLoss s.valLosses = m.loss s.val.values s.val.scores) :
    ∃ qs, (loop m p n s).1.patches = s.patches ++ qs ∧ Trace m p s.data s.val qs := by
  induction n generalizing s with
  | zero => exact ⟨[], by simp [loop], trivial⟩
  | succ n ih =>
    generalize hr : Multivalid.round m p s = r
    obtain ⟨s', o⟩ := r
    cases o with
    | some o =>
      refine ⟨[], ?_, trivial⟩
      unfold loop
      rw [hr]
      simpa using round_stopped m p s s' o hr
    | none =>
      obtain ⟨q, h1, h2, h3, h4, h5⟩ := round_stored m p s s' hl hr
      obtain ⟨qs, i1, i2⟩ := ih s' h4
      refine ⟨q :: qs, ?_, h5, ?_⟩
      · unfold loop
        rw [hr]
        dsimp only
        rw [i1, h1, List.append_assoc]; rfl
      · rw [← h2, ← h3]; exact i2

theorem calibrate_trace (m : Method K) (p : Params K) (n : ℕ) (d val : Data K) (st : Status K) (ps : List (Patch K))
    (h : calibrateSplit m p n d val = (st, ps)) : Trace m p d val ps := by
  unfold calibrateSplit at h
  simp only [Prod.mk.injEq] at h
  obtain ⟨qs, h1, h2⟩ := loop_trace m p n (initState m d val) rfl
  rw [← h.2, h1]
  exact h2

theorem after_zero (cfg : Config K) (ps : List (Patch K)) (d : Data K) : afterPatches cfg ps d 0 = d := rfl

theorem after_succ (cfg : Config K) (q : Patch K) (ps : List (Patch K)) (d : Data K) (i : ℕ) :
    afterPatches cfg (q :: ps) d (i + 1) = afterPatches cfg ps (stepData cfg q d) i := rfl

theorem trace_get (m : Method K) (p : Params K) (d val : Data K) (ps : List (Patch K)) (h : Trace m p d val ps) (i : ℕ)
    (q : Patch K) (hq : ps[i]? = some q) : Stored m p (afterPatches p.cfg ps d i) (afterPatches p.cfg ps val i) q := by
  induction ps generalizing d val i with
  | nil => simp at hq
  | cons q' ps ih =>
    cases i with
    | zero =>
      simp only [List.getElem?_cons_zero, Option.some.injEq] at hq
      subst hq; exact h.1
    | succ i =>
      rw [after_succ, after_succ]
      exact ih _ _ h.2 i (by simpa using hq)

theorem stepData_shaped (cfg : Config K) (q : Patch K) (n : ℕ) (d : Data K) (h : WellShaped n d) :
    WellShaped n (stepData cfg q d) := by
  have hl : (applyPatch cfg d.groups d.values q).length = d.values.length := by
    simp [applyPatch, patchValues, getBs, h.g]
  exact ⟨h.g.trans hl.symm, h.s.trans hl.symm, patchValues_rows _ _ _ _ _ _ _ h.rowV, h.rowS⟩

theorem sqErr_nonneg (values scores : List (List K)) : 0 ≤ sqErr values scores := by
  unfold sqErr
  apply List.sum_nonneg
  intro x hx
  rw [List.mem_iff_getElem] at hx
  obtain ⟨i, hi, rfl⟩ := hx
  rw [List.getElem_zipWith]
  apply List.sum_nonneg
  intro y hy
  rw [List.mem_iff_getElem] at hy
  obtain ⟨j, hj, rfl⟩ := hy
  rw [List.getElem_zipWith]
  positivity

/-- One stored additive patch lowers the squared error by `eta (2 - eta)` times the number of rows times the calibration
error of its cell. -/
theorem stored_decrease (m : Method K) (hpatch : m.getPatch = mcPatch .additive) (p : Params K)
    (hpt : p.cfg.ptype = .additive) (d val : Data K) (hd : WellShaped p.nDims d) (hsc : AllProb d.scores) (q : Patch K)
    (h : Stored m p d val q) :
    p.cfg.eta * (2 - p.cfg.eta) * (d.values.length : K) *
        mcErr (patchedRows p.cfg.nBuckets q d) q.c d.values d.scores ≤
      sqErr d.values d.scores - sqErr (stepData p.cfg q d).values d.scores := by
  have hc : q.c < p.nDims := (mem_grid.1 (bestCell_mem h.cell)).2.2.2
  have hbl : (patchedRows p.cfg.nBuckets q d).length = d.values.length := by simp [patchedRows, getBs, hd.g]
  have hshape : Shaped (patchedRows p.cfg.nBuckets q d) q.c d.values d.scores :=
    ⟨hbl.symm, by rw [hbl, hd.s], fun r hr => by rw [hd.rowV r hr]; exact hc,
      fun r hr => by rw [hd.rowS r hr]; exact hc⟩
  have hcol : ∀ r ∈ d.scores, 0 ≤ r.getD q.c 0 ∧ r.getD q.c 0 ≤ 1 := by
    intro r hr
    have hlt : q.c < r.length := by rw [hd.rowS r hr]; exact hc
    rw [List.getD_eq_getElem?_getD, List.getElem?_eq_getElem hlt]
    exact hsc r hr _ (List.getElem_mem hlt)
  have hdel := h.delta
  rw [hpatch] at hdel
  have hd' : q.delta = mcDelta (patchedRows p.cfg.nBuckets q d) q.c d.values d.scores := by
    simpa [mcPatch] using hdel.symm
  have k1 := sqErr_patch p.cfg.eta q.delta _ q.c d.values d.scores hshape hcol
  have k2 := mcDelta_mul_count _ q.c d.values d.scores hshape
  rw [← k2, ← hd'] at k1
  have e1 : (stepData p.cfg q d).values =
      patchValues .additive p.cfg.eta q.delta q.c (patchedRows p.cfg.nBuckets q d) d.values := by
    show applyPatch p.cfg d.groups d.values q = _
    unfold applyPatch; rw [hpt]; rfl
  rw [e1]
  have e2 : (d.values.length : K) * mcErr (patchedRows p.cfg.nBuckets q d) q.c d.values d.scores =
      (((patchedRows p.cfg.nBuckets q d).count true : ℕ) : K) * q.delta ^ 2 := by
    unfold mcErr probB
    rw [hbl, ← hd']
    rcases Nat.eq_zero_or_pos d.values.length with h0 | h0
    · have : (patchedRows p.cfg.nBuckets q d).count true = 0 := by
        have := List.count_le_length (a := true) (l := patchedRows p.cfg.nBuckets q d)
        omega
      rw [this]; simp
    · have : (d.values.length : K) ≠ 0 := by exact_mod_cast h0.ne'
      field_simp
  rw [mul_assoc, e2]
  linarith [k1]

/-- Sum of the calibration errors of the patched cells, each measured just before its patch. -/
def errorSum (p : Params K) (ps : List (Patch K)) (d : Data K) : K :=
  match ps with
  | [] => 0
  | q :: qs => mcErr (patchedRows p.cfg.nBuckets q d) q.c d.values d.scores + errorSum p qs (stepData p.cfg q d)

theorem errorSum_eq (p : Params K) (ps : List (Patch K)) (d : Data K) :
    errorSum p ps d = ((List.range ps.length).map fun i : ℕ =>
      match ps[i]? with
      | some q => mcErr (patchedRows p.cfg.nBuckets q (afterPatches p.cfg ps d i)) q.c (afterPatches p.cfg ps d i).values
          d.scores
      | none => 0).sum := by
  induction ps generalizing d with
  | nil => simp [errorSum]
  | cons q ps ih =>
    rw [List.length_cons, List.range_succ_eq_map, List.map_cons, List.sum_cons, List.map_map]
    unfold errorSum
    rw [ih]
    rfl

theorem trace_decrease (m : Method K) (hpatch : m.getPatch = mcPatch .additive) (p : Params K)
    (hpt : p.cfg.ptype = .additive) (ps : List (Patch K)) (d val : Data K) (hd : WellShaped p.nDims d)
    (hsc : AllProb d.scores) (h : Trace m p d val ps) :
    p.cfg.eta * (2 - p.cfg.eta) * (d.values.length : K) * errorSum p ps d ≤
      sqErr d.values d.scores - sqErr (replay p.cfg d.groups d.values ps) d.scores := by
  induction ps generalizing d val with
  | nil => simp [errorSum, replay]
  | cons q ps ih =>
    have h1 := stored_decrease m hpatch p hpt d val hd hsc q h.1
    have h2 := ih (stepData p.cfg q d) (stepData p.cfg q val) (stepData_shaped _ _ _ _ hd) hsc h.2
    have hl : (stepData p.cfg q d).values.length = d.values.length := by
      simp [stepData, applyPatch, patchValues, getBs, hd.g]
    rw [hl] at h2
    have e : sqErr (replay p.cfg (stepData p.cfg q d).groups (stepData p.cfg q d).values ps) (stepData p.cfg q d).scores =
        sqErr (replay p.cfg d.groups d.values (q :: ps)) d.scores := rfl
    rw [e] at h2
    have e2 : (stepData p.cfg q d).scores = d.scores := rfl
    rw [e2] at h2
    unfold errorSum
    rw [mul_add]
    linarith

theorem exists_le_avg (l : List K) (hne : l ≠ []) : ∃ (i : ℕ) (x : K), l[i]? = some x ∧ x * (l.length : K) ≤ l.sum := by
  by_contra hcon
  push Not at hcon
  have key : ∀ l' : List K, ∀ c : K, l' ≠ [] → (∀ x ∈ l', c < x) → c * (l'.length : K) < l'.sum := by
    intro l' c h h2
    induction l' with
    | nil => exact absurd rfl h
    | cons y l' ih =>
      have hy := h2 y (by simp)
      by_cases h0 : l' = []
      · subst h0; simpa using hy
      · have := ih h0 (fun x hx => h2 x (by simp [hx]))
        simp only [List.length_cons, Nat.cast_add, Nat.cast_one, List.sum_cons]
        linarith
  have hpos : (0 : K) < (l.length : K) := by
    exact_mod_cast List.length_pos_of_ne_nil hne
  have := key l (l.sum / (l.length : K)) hne (by
    intro x hx
    obtain ⟨i, hi⟩ := List.getElem?_of_mem hx
    rw [div_lt_iff₀ hpos]
    exact hcon i x hi)
  rw [div_mul_cancel₀ _ hpos.ne'] at this
  exact lt_irrefl _ this

/-! ### C95 -/

/-- **C95.** With additive patches and scores in [0, 1], the calibration errors of the patched cells, each measured
just before its patch, add up to at most the total squared error removed, divided by `eta (2 - eta)` times the number of
rows. -/
theorem C95_total_error (m : Method K)
    (hm : m = multicalibrator .additive ∨ m = topLabelMulticalibrator .additive) (p : Params K)
    (hpt : p.cfg.ptype = .additive) (n : ℕ) (d val : Data K) (hd : WellShaped p.nDims d) (hsc : AllProb d.scores)
    (st : Status K) (ps : List (Patch K)) (h : calibrateSplit m p n d val = (st, ps)) :
    p.cfg.eta * (2 - p.cfg.eta) * (d.values.length : K) * ((List.range ps.length).map fun i : ℕ =>
      match ps[i]? with
      | some q => mcErr (patchedRows p.cfg.nBuckets q (afterPatches p.cfg ps d i)) q.c (afterPatches p.cfg ps d i).values
          d.scores
      | none => 0).sum ≤
      sqErr d.values d.scores - sqErr (replay p.cfg d.groups d.values ps) d.scores := by
  have hpatch : m.getPatch = mcPatch .additive := by rcases hm with rfl | rfl <;> rfl
  rw [← errorSum_eq]
  exact trace_decrease m hpatch p hpt ps d val hd hsc (calibrate_trace m p n d val st ps h)

/-- **C95.** If calibration stored `k > 0` patches, then before one of them every cell of the grid with at least the
fraction `min_prob_b` of the data had a calibration error of at most
`(initial squared error) / (eta (2 - eta) · k · rows)`: the calibration error goes to zero as one over the number of
rounds, whatever the data. -/
theorem C95_some_round_calibrated (m : Method K)
    (hm : m = multicalibrator .additive ∨ m = topLabelMulticalibrator .additive) (p : Params K)
    (hpt : p.cfg.ptype = .additive) (h0 : 0 < p.cfg.eta) (h1 : p.cfg.eta ≤ 1) (n : ℕ) (d val : Data K)
    (hd : WellShaped p.nDims d) (hsc : AllProb d.scores) (hne : d.values ≠ []) (st : Status K) (ps : List (Patch K))
    (h : calibrateSplit m p n d val = (st, ps)) (hps : ps ≠ []) :
    ∃ i < ps.length, ∀ tau ∈ p.taus, ∀ g < p.nGroups, ∀ v ∈ linspace (0 : K) 1 p.cfg.nBuckets, ∀ c < p.nDims,
      p.minProbB ≤ probB (getBs p.cfg.nBuckets tau g v c d.groups (afterPatches p.cfg ps d i).values) →
      mcErr (getBs p.cfg.nBuckets tau g v c d.groups (afterPatches p.cfg ps d i).values) c
          (afterPatches p.cfg ps d i).values d.scores ≤
        sqErr d.values d.scores / (p.cfg.eta * (2 - p.cfg.eta) * (ps.length : K) * (d.values.length : K)) := by
  have herr : m.calibErr = mcErr := by rcases hm with rfl | rfl <;> rfl
  have htot := C95_total_error m hm p hpt n d val hd hsc st ps h
  have htr := calibrate_trace m p n d val st ps h
  set l := (List.range ps.length).map fun i : ℕ =>
      match ps[i]? with
      | some q => mcErr (patchedRows p.cfg.nBuckets q (afterPatches p.cfg ps d i)) q.c (afterPatches p.cfg ps d i).values
          d.scores
      | none => 0 with hl
  have hlen : l.length = ps.length := by simp [hl]
  have hlne : l ≠ [] := by
    intro he; rw [he] at hlen; exact hps (List.eq_nil_of_length_eq_zero hlen.symm)
  obtain ⟨i, x, hx, hle⟩ := exists_le_avg l hlne
  have hi : i < ps.length := by
    have := (List.getElem?_eq_some_iff.1 hx).1
    omega
  have hq : ps[i]? = some ps[i] := List.getElem?_eq_getElem hi
  have hxe : x = mcErr (patchedRows p.cfg.nBuckets ps[i] (afterPatches p.cfg ps d i)) ps[i].c
      (afterPatches p.cfg ps d i).values d.scores := by
    rw [hl, List.getElem?_map, List.getElem?_range hi] at hx
    simp only [Option.map_some, Option.some.injEq, hq] at hx
    exact hx.symm
  have hkpos : (0 : K) < (ps.length : K) := by exact_mod_cast List.length_pos_of_ne_nil hps
  have hNpos : (0 : K) < (d.values.length : K) := by exact_mod_cast List.length_pos_of_ne_nil hne
  have hee : 0 < p.cfg.eta * (2 - p.cfg.eta) := mul_pos h0 (by linarith)
  have hden : 0 < p.cfg.eta * (2 - p.cfg.eta) * (ps.length : K) * (d.values.length : K) :=
    mul_pos (mul_pos hee hkpos) hNpos
  have hsq := sqErr_nonneg (replay p.cfg d.groups d.values ps) d.scores
  have hxb : x ≤ sqErr d.values d.scores / (p.cfg.eta * (2 - p.cfg.eta) * (ps.length : K) * (d.values.length : K)) := by
    rw [le_div_iff₀ hden]
    rw [hlen] at hle
    have hc : 0 < p.cfg.eta * (2 - p.cfg.eta) * (d.values.length : K) := mul_pos hee hNpos
    have := mul_le_mul_of_nonneg_left hle hc.le
    linarith
  have hst := trace_get m p d val ps htr i ps[i] hq
  refine ⟨i, hi, ?_⟩
  intro tau ht g hg v hv c hc hprob
  have hworst := (C20_worst_cell m p _ _ hst.cell).2 tau ht g hg v hv c hc hprob
  rw [herr] at hworst
  rcases hworst with ⟨hw, _⟩ | hw
  · refine le_trans hw (le_trans (le_of_eq ?_) hxb)
    rw [hxe]; rfl
  · refine le_trans hw (div_nonneg (sqErr_nonneg _ _) hden.le)

theorem sq_diff_le_one {x y : K} (hx : 0 ≤ x ∧ x ≤ 1) (hy : 0 ≤ y ∧ y ≤ 1) : (x - y) ^ 2 ≤ 1 := by
  nlinarith [hx.1, hx.2, hy.1, hy.2]

theorem sqErr_le (n : ℕ) (values scores : List (List K)) (hv : AllProb values) (hs : AllProb scores)
    (hr : ∀ r ∈ values, r.length = n) : sqErr values scores ≤ (values.length : K) * (n : K) := by
  have row : ∀ v s : List K, (∀ x ∈ v, 0 ≤ x ∧ x ≤ 1) → (∀ x ∈ s, 0 ≤ x ∧ x ≤ 1) →
      (List.zipWith (fun x y => (x - y) ^ 2) v s).sum ≤ (v.length : K) := by
    intro v
    induction v with
    | nil => intro s _ _; simp
    | cons x v ih =>
      intro s hv hs
      cases s with
      | nil =>
        simp only [List.zipWith_nil_right, List.sum_nil]
        exact Nat.cast_nonneg _
      | cons y s =>
        have h1 := sq_diff_le_one (hv x (by simp)) (hs y (by simp))
        have h2 := ih s (fun z hz => hv z (by simp [hz])) (fun z hz => hs z (by simp [hz]))
        simp only [List.zipWith_cons_cons, List.sum_cons, List.length_cons, Nat.cast_add, Nat.cast_one]
        linarith
  unfold sqErr
  induction values generalizing scores with
  | nil => simp
  | cons v values ih =>
    have hn : (0 : K) ≤ (n : K) := Nat.cast_nonneg _
    cases scores with
    | nil =>
      simp only [List.zipWith_nil_right, List.sum_nil]
      positivity
    | cons s scores =>
      have h1 := row v s (hv v (by simp)) (hs s (by simp))
      rw [hr v (by simp)] at h1
      have h2 := ih scores (fun r hx => hv r (by simp [hx])) (fun r hx => hs r (by simp [hx]))
        (fun r hx => hr r (by simp [hx]))
      simp only [List.zipWith_cons_cons, List.sum_cons, List.length_cons, Nat.cast_add, Nat.cast_one]
      linarith

/-- **C95.** In particular, with values and scores in [0, 1]: if every round still found a cell (with at least the
fraction `min_prob_b` of the data) whose calibration error exceeds `alpha`, then the number of stored patches is at most
`(number of classes) / (eta (2 - eta) alpha)`. -/
theorem C95_round_bound (m : Method K)
    (hm : m = multicalibrator .additive ∨ m = topLabelMulticalibrator .additive) (p : Params K)
    (hpt : p.cfg.ptype = .additive) (h0 : 0 < p.cfg.eta) (h1 : p.cfg.eta ≤ 1) (n : ℕ) (d val : Data K)
    (hd : WellShaped p.nDims d) (hv : AllProb d.values) (hsc : AllProb d.scores) (hne : d.values ≠ []) (st : Status K)
    (ps : List (Patch K)) (h : calibrateSplit m p n d val = (st, ps)) (alpha : K)
    (hbad : ∀ i < ps.length, ∃ tau ∈ p.taus, ∃ g < p.nGroups, ∃ v ∈ linspace (0 : K) 1 p.cfg.nBuckets, ∃ c < p.nDims,
      p.minProbB ≤ probB (getBs p.cfg.nBuckets tau g v c d.groups (afterPatches p.cfg ps d i).values) ∧
      alpha < mcErr (getBs p.cfg.nBuckets tau g v c d.groups (afterPatches p.cfg ps d i).values) c
          (afterPatches p.cfg ps d i).values d.scores) :
    p.cfg.eta * (2 - p.cfg.eta) * alpha * (ps.length : K) ≤ (p.nDims : K) := by
  by_cases hps : ps = []
  · subst hps
    simp
  obtain ⟨i, hi, hcal⟩ := C95_some_round_calibrated m hm p hpt h0 h1 n d val hd hsc hne st ps h hps
  obtain ⟨tau, ht, g, hg, v, hv', c, hc, hp, hgt⟩ := hbad i hi
  have := lt_of_lt_of_le hgt (hcal tau ht g hg v hv' c hc hp)
  have hkpos : (0 : K) < (ps.length : K) := by exact_mod_cast List.length_pos_of_ne_nil hps
  have hNpos : (0 : K) < (d.values.length : K) := by exact_mod_cast List.length_pos_of_ne_nil hne
  have hee : 0 < p.cfg.eta * (2 - p.cfg.eta) := mul_pos h0 (by linarith)
  rw [lt_div_iff₀ (mul_pos (mul_pos hee hkpos) hNpos)] at this
  have hb := sqErr_le p.nDims d.values d.scores hv hsc hd.rowV
  have h2 : (p.cfg.eta * (2 - p.cfg.eta) * alpha * (ps.length : K)) * (d.values.length : K) ≤
      (p.nDims : K) * (d.values.length : K) := by linarith
  exact le_of_mul_le_mul_right h2 hNpos

/-- The losses which `calibrate` records along the stored patches are numbers. -/
def LossesDefined (m : Method K) (cfg : Config K) (ps : List (Patch K)) (val : Data K) : Prop :=
  ∀ i ≤ ps.length, ∃ x, m.loss (afterPatches cfg ps val i).values val.scores = some x

theorem touching_cons (cfg : Config K) (q : Patch K) (ps : List (Patch K)) (d : Data K) :
    touching cfg (q :: ps) d =
      (if (patchedRows cfg.nBuckets q d).any id then 1 else 0) + touching cfg ps (stepData cfg q d) := by
  unfold touching
  rw [List.length_cons, List.range_succ_eq_map, List.filter_cons, List.filter_map, apply_ite List.length,
    List.length_cons, List.length_map]
  simp only [List.getElem?_cons_zero, after_zero]
  have e : (List.range ps.length).filter ((fun i : ℕ => match (q :: ps)[i]? with
      | some q' => (patchedRows cfg.nBuckets q' (afterPatches cfg (q :: ps) d i)).any id
      | none => false) ∘ Nat.succ) = (List.range ps.length).filter (fun i : ℕ => match ps[i]? with
      | some q' => (patchedRows cfg.nBuckets q' (afterPatches cfg ps (stepData cfg q d) i)).any id
      | none => false) := rfl
  rw [e]
  by_cases ht : (patchedRows cfg.nBuckets q d).any id = true
  · refine (if_pos ht).trans ?_
    rw [show (if (patchedRows cfg.nBuckets q d).any id then 1 else 0) = 1 from if_pos ht]; omega
  · refine (if_neg ht).trans ?_
    rw [show (if (patchedRows cfg.nBuckets q d).any id then 1 else 0) = 0 from if_neg ht]; omega

theorem trace_val (m : Method K) (p : Params K) (ha : 0 ≤ p.atol) (hr0 : 0 ≤ p.rtol) (ps : List (Patch K)) (d val : Data K)
    (h : Trace m p d val ps) (hl : LossesDefined m p.cfg ps val) (x : K) (hx : m.loss val.values val.scores = some x)
    (hxa : p.atol < x) :
    ∃ y, m.loss (replay p.cfg val.groups val.values ps) val.scores = some y ∧ p.atol < y ∧
      y ≤ (1 - p.rtol) ^ touching p.cfg ps val * x ∧
      y + p.rtol * p.atol * (touching p.cfg ps val : K) ≤ x := by
  induction ps generalizing d val x with
  | nil => exact ⟨x, hx, hxa, by simp [touching], by simp [touching]⟩
  | cons q ps ih =>
    obtain ⟨x1, hx1⟩ := hl 1 (by simp)
    have hx1' : m.loss (stepData p.cfg q val).values (stepData p.cfg q val).scores = some x1 := hx1
    have hs := h.1
    have h1 := hs.atol
    rw [show m.loss (stepData p.cfg q val).values val.scores = some x1 from hx1] at h1
    have h1' : p.atol < x1 := by simpa [leN] using h1
    have h2 := hs.mono
    rw [show m.loss (stepData p.cfg q val).values val.scores = some x1 from hx1, hx] at h2
    have h2' : x1 ≤ x := by simpa [gtN] using h2
    have hl' : LossesDefined m p.cfg ps (stepData p.cfg q val) := by
      intro i hi
      exact hl (i + 1) (by simpa using hi)
    obtain ⟨y, hy, hya, hyb, hyc⟩ := ih (stepData p.cfg q d) (stepData p.cfg q val) h.2 hl' x1 hx1' h1'
    refine ⟨y, hy, hya, ?_⟩
    have hypos : 0 < y := lt_of_le_of_lt ha hya
    have hxpos : 0 < x := lt_of_le_of_lt ha hxa
    have hx1pos : 0 < x1 := lt_of_le_of_lt ha h1'
    have hpow : 0 < (1 - p.rtol) ^ touching p.cfg ps (stepData p.cfg q val) := by
      by_contra hneg
      push Not at hneg
      have := mul_nonneg_of_nonpos_of_nonpos hneg (neg_nonpos.2 hx1pos.le)
      nlinarith
    rw [touching_cons]
    by_cases ht : (patchedRows p.cfg.nBuckets q val).any id = true
    · have h3 := hs.rtol ht
      rw [show m.loss (stepData p.cfg q val).values val.scores = some x1 from hx1, hx] at h3
      have h3' : p.rtol < (x - x1) / x := by simpa [relDecrease, leN] using h3
      rw [lt_div_iff₀ hxpos] at h3'
      rw [if_pos ht]
      constructor
      · rw [add_comm, pow_succ, mul_assoc]
        refine hyb.trans (mul_le_mul_of_nonneg_left ?_ hpow.le)
        linarith
      · push_cast
        have : p.rtol * p.atol ≤ p.rtol * x := mul_le_mul_of_nonneg_left hxa.le hr0
        linarith
    · rw [if_neg ht, Nat.zero_add]
      constructor
      · exact hyb.trans (mul_le_mul_of_nonneg_left h2' hpow.le)
      · linarith

/-- **C95.** Every stored patch which changes a row of the validation data removes more than the fraction `rtol` of the
validation loss, and no stored patch brings it down to `atol`.  With `k` such patches the final validation loss is above
`atol`, at most `(1 - rtol) ^ k` times the initial one, and so `k` is less than `(initial loss - atol) / (rtol · atol)`. -/
theorem C95_validation_rounds (m : Method K) (p : Params K) (ha : 0 ≤ p.atol) (hr0 : 0 ≤ p.rtol) (n : ℕ)
    (d val : Data K) (st : Status K) (ps : List (Patch K)) (h : calibrateSplit m p n d val = (st, ps)) (hps : ps ≠ [])
    (hl : LossesDefined m p.cfg ps val) :
    ∃ x y, m.loss val.values val.scores = some x ∧ m.loss (replay p.cfg val.groups val.values ps) val.scores = some y ∧
      p.atol < y ∧ y ≤ (1 - p.rtol) ^ touching p.cfg ps val * x ∧
      p.rtol * p.atol * (touching p.cfg ps val : K) < x - p.atol := by
  have htr := calibrate_trace m p n d val st ps h
  obtain ⟨x, hx⟩ := hl 0 (Nat.zero_le _)
  rw [after_zero] at hx
  have hxa : p.atol < x := by
    cases ps with
    | nil => exact absurd rfl hps
    | cons q ps =>
      obtain ⟨x1, hx1⟩ := hl 1 (by simp)
      have e1 : m.loss (stepData p.cfg q val).values val.scores = some x1 := hx1
      have h1 := htr.1.atol
      have h2 := htr.1.mono
      rw [e1] at h1 h2
      rw [hx] at h2
      have h1' : p.atol < x1 := by simpa [leN] using h1
      have h2' : x1 ≤ x := by simpa [gtN] using h2
      linarith
  obtain ⟨y, hy, hya, hyb, hyc⟩ := trace_val m p ha hr0 ps d val htr hl x hx hxa
  exact ⟨x, y, hx, hy, hya, hyb, by linarith⟩

/-- **C95.** For one-dimensional values the recorded losses are always numbers. -/
theorem C95_validation_rounds_1d (pt : PatchType) (p : Params K) (ha : 0 ≤ p.atol) (hr0 : 0 ≤ p.rtol) (n : ℕ)
    (d val : Data K) (st : Status K) (ps : List (Patch K)) (h : calibrateSplit (multicalibrator pt) p n d val = (st, ps))
    (hps : ps ≠ []) :
    p.atol < sqErr (replay p.cfg val.groups val.values ps) val.scores ∧
    sqErr (replay p.cfg val.groups val.values ps) val.scores ≤
      (1 - p.rtol) ^ touching p.cfg ps val * sqErr val.values val.scores ∧
    p.rtol * p.atol * (touching p.cfg ps val : K) < sqErr val.values val.scores - p.atol := by
  obtain ⟨x, y, hx, hy, h1, h2, h3⟩ := C95_validation_rounds _ p ha hr0 n d val st ps h hps (fun _ _ => ⟨_, rfl⟩)
  have ex : x = sqErr val.values val.scores := by
    simpa [multicalibrator, mcLoss1d] using hx.symm
  have ey : y = sqErr (replay p.cfg val.groups val.values ps) val.scores := by
    simpa [multicalibrator, mcLoss1d] using hy.symm
  subst ex; subst ey
  exact ⟨h1, h2, h3⟩

-- two stored patches, both changing the validation row: the loss falls from 1 to 49/256
example : calibrateSplit (K := ℚ) (multicalibrator .additive) ⟨⟨2, 1 / 2, .additive⟩, [1, 2], 1, 1, 0, 1 / 10, 1 / 4⟩ 2
    ⟨[[true], [true]], [[0], [1 / 2]], [[1], [1]]⟩ ⟨[[true]], [[0]], [[1]]⟩ =
    (⟨2, [some 1, some (25 / 64), some (49 / 256)], false⟩, [⟨1, 0, 0, 0, 3 / 4⟩, ⟨1, 0, 0, 0, 3 / 8⟩]) ∧
    touching (K := ℚ) ⟨2, 1 / 2, .additive⟩ [⟨1, 0, 0, 0, 3 / 4⟩, ⟨1, 0, 0, 0, 3 / 8⟩] ⟨[[true]], [[0]], [[1]]⟩ = 2 ∧
    (49 / 256 : ℚ) ≤ (1 - 1 / 4) ^ 2 * 1 := by
  refine ⟨by decide +kernel, by decide +kernel, by norm_num⟩

-- the hypotheses of the round bound
example : WellShaped (K := ℚ) 1 ⟨[[true], [true]], [[0], [1 / 2]], [[1], [1]]⟩ := ⟨rfl, rfl, by simp, by simp⟩

/-- **C95, failure.** A patch whose cell holds no validation row is stored without any progress on the validation data:
the tolerance does not limit their number. Here the stored patch leaves the validation loss exactly as it was, although
`rtol` asks for a decrease by half. -/
theorem C95_untouched_progress_false :
    ∃ (p : Params ℚ) (d val : Data ℚ) (st : Status ℚ) (ps : List (Patch ℚ)), 0 < p.atol ∧ p.rtol = 1 / 2 ∧
      calibrateSplit (multicalibrator .additive) p 1 d val = (st, ps) ∧ ps.length = 1 ∧ touching p.cfg ps val = 0 ∧
      st.losses = [some 1, some 1] :=
  ⟨⟨⟨2, 1, .additive⟩, [0], 1, 1, 0, 1 / 10, 1 / 2⟩, ⟨[[true]], [[0]], [[1]]⟩, ⟨[[true]], [[1]], [[0]]⟩,
    ⟨1, [some 1, some 1], false⟩, [⟨0, 0, 0, 0, 1⟩], by norm_num, rfl, by decide +kernel, rfl, by decide +kernel, rfl⟩

/-! ### Concrete cases that meet the hypotheses of the theorems above -/

/-- The run of the example above. -/
theorem exRun : calibrateSplit (K := ℚ) (multicalibrator .additive) ⟨⟨2, 1 / 2, .additive⟩, [1, 2], 1, 1, 0, 1 / 10, 1 / 4⟩ 2
    ⟨[[true], [true]], [[0], [1 / 2]], [[1], [1]]⟩ ⟨[[true]], [[0]], [[1]]⟩ =
    (⟨2, [some 1, some (25 / 64), some (49 / 256)], false⟩, [⟨1, 0, 0, 0, 3 / 4⟩, ⟨1, 0, 0, 0, 3 / 8⟩]) := by decide +kernel

example := C95_total_error (K := ℚ) _ (Or.inl rfl) _ rfl _ _ _ ⟨rfl, rfl, by simp, by simp⟩ (by simp [AllProb]) _ _ exRun
example := C95_some_round_calibrated (K := ℚ) _ (Or.inl rfl) _ rfl (by norm_num) (by norm_num) _ _ _ ⟨rfl, rfl, by simp, by simp⟩ (by simp [AllProb]) (by simp)
  _ _ exRun (by simp)
example := C95_round_bound (K := ℚ) _ (Or.inl rfl) _ rfl (by norm_num) (by norm_num) _ _ _ ⟨rfl, rfl, by simp, by simp⟩ (by simp [AllProb]; norm_num)
  (by simp [AllProb]) (by simp) _ _ exRun (1 / 100) (by
    intro i hi
    refine ⟨1, by simp, 0, by norm_num, 0, by decide +kernel, 0, by norm_num, ?_⟩
    match i, hi with
    | 0, _ => decide +kernel
    | 1, _ => decide +kernel)
example := C95_validation_rounds (K := ℚ) _ _ (by norm_num) (by norm_num) _ _ _ _ _ exRun (by simp) (by
  intro i hi
  match i, hi with
  | 0, _ => exact ⟨1, by decide +kernel⟩
  | 1, _ => exact ⟨25 / 64, by decide +kernel⟩
  | 2, _ => exact ⟨49 / 256, by decide +kernel⟩)

end Verif.Props
