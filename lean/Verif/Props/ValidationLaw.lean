import Mathlib.Data.List.GetD
import Verif.Props.BatchMVPLaw
import Verif.Props.MultivalidRounds
import Verif.Model.MultivalidEntry

/-!
Property C136: what the validation losses reported by the iterative multivalid methods say about new rows.
-/
set_option linter.unusedSectionVars false

namespace Verif.Props.ValidationLaw

open Verif.Props.MonteCarlo Verif.Props.MetricLaw Verif.ArrayOps MeasureTheory ProbabilityTheory
open Verif.Multivalid
open Verif.Props.MultivalidCells (FirstMax argmax_iff)

/-! ## Specification -/

/-- Mean squared difference of two rows with `D` entries. -/
noncomputable def sqLoss (D : ℕ) (v s : List ℝ) : ℝ := (∑ j : Fin D, (v.getD j 0 - s.getD j 0) ^ 2) / D

/-- Pinball loss of a threshold at level `q`. -/
noncomputable def pinLoss (q : ℝ) (v s : List ℝ) : ℝ := max (q * (s.getD 0 0 - v.getD 0 0)) ((1 - q) * (v.getD 0 0 - s.getD 0 0))

/-- The values of a row with groups `g` after a list of patches: the row in the cell of a patch gets its entry moved, others stay. -/
def rowAfter {K : Type*} [Field K] [LinearOrder K] [IsStrictOrderedRing K] (cfg : Config K) (g : List Bool) (ps : List (Patch K)) (r : List K) : List K :=
  ps.foldl (fun r q => patchRow cfg.ptype cfg.eta q.delta q.c (getB cfg.nBuckets q.tau q.g q.v q.c g r) r) r

section rows
variable {K : Type} [Field K] [LinearOrder K] [IsStrictOrderedRing K]

theorem replay_one (cfg : Config K) (ps : List (Patch K)) (g : List Bool) (r : List K) :
    replay cfg [g] [r] ps = [rowAfter cfg g ps r] := by
  unfold replay rowAfter
  induction ps generalizing r with
  | nil => rfl
  | cons q ps ih => rw [List.foldl_cons, List.foldl_cons, ← ih]; rfl

/-- **C136.** `rowAfter` is what `apply_patches` returns for a new row given on its own. -/
theorem C136_new_row (cfg : Config K) (ps : List (Patch K)) (g : List Bool) (r : List K) (hr : ∀ x ∈ r, 0 ≤ x ∧ x ≤ 1) :
    applyPatches cfg ps [g] [r] = .ok [rowAfter cfg g ps r] := by
  unfold applyPatches
  by_cases h : ps = []
  · rw [if_pos h, h]; rfl
  · have hv : valuesOk [r] = true := (valuesOk_iff _).2 (by intro r' h'; rw [List.mem_singleton] at h'; subst h'; exact hr)
    rw [if_neg h, hv, replay_one]
    rfl

/-- The patches stored by a run on the data `d`, for as many rounds as wanted, if nothing ever stops it. -/
def free (m : Method K) (p : Params K) : ℕ → Data K → List (Patch K)
  | 0, _ => []
  | k + 1, d =>
    match bestCell m p d with
    | none => []
    | some cell =>
      match m.getPatch (cellB p.cfg.nBuckets cell d.groups d.values) cell.c d.values d.scores with
      | none => []
      | some delta => ⟨cell.tau, cell.g, cell.v, cell.c, delta⟩ :: free m p k (stepData p.cfg ⟨cell.tau, cell.g, cell.v, cell.c, delta⟩ d)

theorem trace_free (m : Method K) (p : Params K) (d val : Data K) (ps : List (Patch K)) (h : Trace m p d val ps) (i : ℕ) (hi : i ≤ ps.length) :
    ps.take i = free m p i d := by
  induction ps generalizing d val i with
  | nil => simp at hi; subst hi; rfl
  | cons q ps ih =>
    cases i with
    | zero => rfl
    | succ i =>
      have h1 := h.1.cell
      have h2 : m.getPatch (cellB p.cfg.nBuckets ⟨q.tau, q.g, q.v, q.c⟩ d.groups d.values) q.c d.values d.scores = some q.delta := h.1.delta
      rw [free, h1]
      dsimp only
      rw [h2]
      dsimp only
      rw [List.take_succ_cons, ih _ _ h.2 i (by simpa using hi)]

/-- **C136.** The validation data decide when to stop, not what to store: two runs on the same calibration data with different validation data
store lists of patches of which one begins with the other. -/
theorem C136_prefix (m : Method K) (p : Params K) (T T' : ℕ) (d val val' : Data K) (st st' : Status K) (ps ps' : List (Patch K))
    (h : calibrateSplit m p T d val = (st, ps)) (h' : calibrateSplit m p T' d val' = (st', ps')) (hle : ps.length ≤ ps'.length) :
    ps <+: ps' := by
  have h1 := trace_free m p d val ps (calibrate_trace m p T d val st ps h) ps.length le_rfl
  have h2 := trace_free m p d val' ps' (calibrate_trace m p T' d val' st' ps' h') ps.length hle
  rw [List.take_length] at h1
  rw [h1, ← h2]
  exact List.take_prefix _ _

end rows

variable {Ω 𝒳 : Type} [MeasurableSpace Ω] [MeasurableSpace 𝒳] {n : ℕ}

/-- The validation data of the drawn rows. -/
def dataOf (X : Fin n → Ω → 𝒳) (grp : 𝒳 → List Bool) (vals scs : 𝒳 → List ℝ) (ω : Ω) : Data ℝ :=
  ⟨MetricLaw.rowsOf X grp ω, MetricLaw.rowsOf X vals ω, MetricLaw.rowsOf X scs ω⟩

/-! ## Measurability -/

theorem rowAfter_length (cfg : Config ℝ) (g : List Bool) (ps : List (Patch ℝ)) (r : List ℝ) : (rowAfter cfg g ps r).length = r.length := by
  unfold rowAfter
  induction ps generalizing r with
  | nil => rfl
  | cons q ps ih =>
    rw [List.foldl_cons, ih]
    unfold patchRow
    split <;> simp

theorem rowAfter_prob (cfg : Config ℝ) (g : List Bool) (ps : List (Patch ℝ)) (r : List ℝ) (hr : ∀ x ∈ r, 0 ≤ x ∧ x ≤ 1) :
    ∀ x ∈ rowAfter cfg g ps r, 0 ≤ x ∧ x ≤ 1 := by
  have := allProb_replay cfg [g] [r] ps (by intro r' h'; rw [List.mem_singleton] at h'; subst h'; exact hr)
  rw [replay_one] at this
  exact this _ (by simp)

theorem measurable_argmax {D : ℕ} (hD : 0 < D) (f : 𝒳 → List ℝ) (hl : ∀ x, (f x).length = D) (hf : ∀ c, Measurable fun x => (f x).getD c 0) (c : ℕ) :
    MeasurableSet {x | argmax (f x) = c} := by
  have e : {x | argmax (f x) = c} = {_x | c < D} ∩ ⋂ j : Fin D, ({x | (f x).getD j 0 ≤ (f x).getD c 0} ∩
      {x | (j : ℕ) < c → (f x).getD j 0 < (f x).getD c 0}) := by
    ext x
    have hne : f x ≠ [] := by intro h; have := hl x; rw [h] at this; simp at this; omega
    simp only [Set.mem_ofPred_eq, argmax_iff _ hne, FirstMax, hl x, Set.mem_inter_iff, Set.mem_iInter]
    refine and_congr_right fun _ => ⟨fun h j => ?_, fun h j y hy => ?_⟩
    · refine h j ((f x).getD j 0) ?_
      rw [List.getD_eq_getElem?_getD, List.getElem?_eq_getElem (by rw [hl x]; exact j.2)]
      rfl
    · have hj : j < D := by rw [← hl x]; exact (List.getElem?_eq_some_iff.1 hy).1
      have := h ⟨j, hj⟩
      simp only [List.getD_eq_getElem?_getD, hy, Option.getD_some] at this ⊢
      exact this
  rw [e]
  refine (MeasurableSet.const _).inter (MeasurableSet.iInter fun j => (measurableSet_le (hf _) (hf _)).inter ?_)
  by_cases hj : (j : ℕ) < c
  · simp only [hj, true_imp_iff]
    exact measurableSet_lt (hf _) (hf _)
  · simp only [hj, false_imp_iff]
    exact MeasurableSet.univ

theorem measurable_rowAfter {D : ℕ} (hD : 0 < D) (cfg : Config ℝ) (grp : 𝒳 → List Bool) (hgrp : ∀ g, MeasurableSet {x | (grp x).getD g false = true})
    (ps : List (Patch ℝ)) (f : 𝒳 → List ℝ) (hl : ∀ x, (f x).length = D) (hf : ∀ c, Measurable fun x => (f x).getD c 0) (j : ℕ) :
    Measurable fun x => (rowAfter cfg (grp x) ps (f x)).getD j 0 := by
  induction ps generalizing f with
  | nil => exact hf j
  | cons q ps ih =>
    refine ih (fun x => patchRow cfg.ptype cfg.eta q.delta q.c (getB cfg.nBuckets q.tau q.g q.v q.c (grp x) (f x)) (f x)) ?_ ?_
    · intro x; unfold patchRow; split <;> simp [hl]
    · intro c
      have hB : MeasurableSet {x | getB cfg.nBuckets q.tau q.g q.v q.c (grp x) (f x) = true} := by
        unfold getB
        simp only [Bool.and_eq_true, BatchMVPLaw.near_iff, decide_eq_true_eq]
        exact ((BatchMVPLaw.measurable_near _ _ _ _ (hf _)).inter (hgrp _)).inter (measurable_argmax hD f hl hf _)
      have hE : Measurable fun x => patchEntry cfg.ptype cfg.eta q.delta ((f x).getD q.c 0) := by
        unfold patchEntry clip
        cases cfg.ptype
        · exact ((((hf q.c).add_const _).max measurable_const).min measurable_const)
        · exact ((((hf q.c).mul_const _).max measurable_const).min measurable_const)
      have e : (fun x => (patchRow cfg.ptype cfg.eta q.delta q.c (getB cfg.nBuckets q.tau q.g q.v q.c (grp x) (f x)) (f x)).getD c 0) =
          fun x => if x ∈ {x | getB cfg.nBuckets q.tau q.g q.v q.c (grp x) (f x) = true} then
            (if c = q.c ∧ c < D then patchEntry cfg.ptype cfg.eta q.delta ((f x).getD q.c 0) else (f x).getD c 0) else (f x).getD c 0 := by
        funext x
        unfold patchRow
        simp only [Set.mem_ofPred_eq]
        by_cases h : getB cfg.nBuckets q.tau q.g q.v q.c (grp x) (f x) = true
        · rw [if_pos h, if_pos h, List.getD_eq_getElem?_getD, List.getElem?_set]
          by_cases hc : q.c = c
          · subst hc
            by_cases hlt : q.c < D
            · simp [hlt, hl]
            · simp [hlt, hl, List.getD_eq_getElem?_getD]
          · have : c ≠ q.c := fun h => hc h.symm
            simp [hc, this, List.getD_eq_getElem?_getD]
        · rw [if_neg h, if_neg h]
      rw [e]
      refine Measurable.ite hB ?_ (hf c)
      by_cases hc : c = q.c ∧ c < D
      · simp only [if_pos hc]; exact hE
      · simp only [hc, if_false]; exact hf c

/-! ## Losses as averages -/

/-- The loss of a method is `scale` times an average over the rows. -/
def RowLoss (m : Method ℝ) (n D : ℕ) (ℓ : List ℝ → List ℝ → ℝ) (scale : ℝ) : Prop :=
  ∀ vs ss : Fin n → List ℝ, (∀ i, (vs i).length = D) → (∀ i, (ss i).length = D) →
    m.loss (List.ofFn vs) (List.ofFn ss) = some (scale * ((∑ i, ℓ (vs i) (ss i)) / n))

theorem zip_sum {D : ℕ} (f : ℝ → ℝ → ℝ) (v s : List ℝ) (hv : v.length = D) (hs : s.length = D) :
    (List.zipWith f v s).sum = ∑ j : Fin D, f (v.getD j 0) (s.getD j 0) := by
  have : List.zipWith f v s = List.ofFn fun j : Fin D => f (v.getD j 0) (s.getD j 0) := by
    apply List.ext_getElem
    · simp [hv, hs]
    · intro i h1 h2
      simp only [List.getElem_zipWith, List.getElem_ofFn]
      rw [List.getD_eq_getElem _ _ (by simp at h1; omega), List.getD_eq_getElem _ _ (by simp at h1; omega)]
  rw [this, List.sum_ofFn]

theorem sqErr_rows {D : ℕ} (hD : 0 < D) (vs ss : Fin n → List ℝ) (hv : ∀ i, (vs i).length = D) (hs : ∀ i, (ss i).length = D) :
    sqErr (List.ofFn vs) (List.ofFn ss) = D * ∑ i, sqLoss D (vs i) (ss i) := by
  unfold sqErr
  have : List.zipWith (fun v s => (List.zipWith (fun x y : ℝ => (x - y) ^ 2) v s).sum) (List.ofFn vs) (List.ofFn ss) =
      List.ofFn fun i => (D : ℝ) * sqLoss D (vs i) (ss i) := by
    apply List.ext_getElem
    · simp
    · intro i h1 h2
      simp only [List.getElem_zipWith, List.getElem_ofFn]
      rw [zip_sum _ _ _ (hv _) (hs _)]
      unfold sqLoss
      have : (D : ℝ) ≠ 0 := by exact_mod_cast hD.ne'
      field_simp
  rw [this, List.sum_ofFn, Finset.mul_sum]

theorem rowLoss_1d (hn : 0 < n) (pt : PatchType) : RowLoss (multicalibrator pt) n 1 (sqLoss 1) n := by
  intro vs ss hv hs
  show some (sqErr _ _) = _
  rw [sqErr_rows one_pos vs ss hv hs]
  have : (n : ℝ) ≠ 0 := by exact_mod_cast hn.ne'
  congr 1
  field_simp
  push_cast; ring

theorem rowLoss_2d (hn : 0 < n) {D : ℕ} (hD : 0 < D) (pt : PatchType) : RowLoss (topLabelMulticalibrator pt) n D (sqLoss D) 1 := by
  intro vs ss hv hs
  show mcLoss2d _ _ = _
  have hlen : ((List.ofFn vs).map List.length).sum = n * D := by
    rw [List.map_ofFn, List.sum_ofFn]
    simp [hv]
  unfold mcLoss2d
  rw [hlen]
  dsimp only
  rw [if_neg (Nat.mul_pos hn hD).ne', sqErr_rows hD vs ss hv hs]
  have h1 : (n : ℝ) ≠ 0 := by exact_mod_cast hn.ne'
  have h2 : (D : ℝ) ≠ 0 := by exact_mod_cast hD.ne'
  congr 1
  push_cast
  field_simp

theorem rowLoss_mvp (hn : 0 < n) (q : ℝ) (B : ℕ) : RowLoss (batchMVP q B) n 1 (pinLoss q) 1 := by
  intro vs ss hv hs
  show pinball q _ _ = _
  unfold pinball
  have : List.zipWith (fun v s : ℝ => let diff := s - v
      (if s > v then diff * q else 0) - (if s ≤ v then diff * (1 - q) else 0)) (col (List.ofFn vs) 0) (col (List.ofFn ss) 0) =
      List.ofFn fun i => pinLoss q (vs i) (ss i) := by
    apply List.ext_getElem
    · simp [col]
    · intro i h1 h2
      simp only [col, List.getElem_zipWith, List.getElem_map, List.getElem_ofFn]
      unfold pinLoss
      generalize (vs _).getD 0 0 = v
      generalize (ss _).getD 0 0 = s
      by_cases h : s ≤ v
      · rw [if_neg (not_lt.2 h), if_pos h, max_eq_right (by nlinarith)]; ring
      · push Not at h
        rw [if_pos h, if_neg (not_le.2 h), max_eq_left (by nlinarith)]; ring
  dsimp only at this ⊢
  rw [this]
  have hne : (List.ofFn fun i => pinLoss q (vs i) (ss i)) ≠ [] := by
    intro h; have := congrArg List.length h; simp at this; omega
  rw [if_neg hne, List.sum_ofFn, List.length_ofFn, one_mul]

theorem sqLoss_mem {D : ℕ} (v s : List ℝ) (hv : ∀ x ∈ v, 0 ≤ x ∧ x ≤ 1) (hs : ∀ x ∈ s, 0 ≤ x ∧ x ≤ 1) : sqLoss D v s ∈ Set.Icc 0 1 := by
  unfold sqLoss
  refine ⟨div_nonneg (Finset.sum_nonneg fun _ _ => sq_nonneg _) (Nat.cast_nonneg _), ?_⟩
  refine div_le_one_of_le₀ ?_ (Nat.cast_nonneg _)
  calc _ ≤ ∑ _j : Fin D, (1 : ℝ) := Finset.sum_le_sum fun j _ => sq_diff_le_one (getD_prob hv _) (getD_prob hs _)
    _ = D := by simp

theorem pinLoss_mem (q : ℝ) (h0 : 0 ≤ q) (h1 : q ≤ 1) (v s : List ℝ) (hv : ∀ x ∈ v, 0 ≤ x ∧ x ≤ 1) (hs : ∀ x ∈ s, 0 ≤ x ∧ x ≤ 1) :
    pinLoss q v s ∈ Set.Icc 0 1 := by
  unfold pinLoss
  obtain ⟨a1, a2⟩ := getD_prob hv 0
  obtain ⟨b1, b2⟩ := getD_prob hs 0
  generalize v.getD 0 0 = v at *
  generalize s.getD 0 0 = s at *
  constructor
  · rcases le_total s v with h | h
    · exact le_max_of_le_right (mul_nonneg (by linarith) (by linarith))
    · exact le_max_of_le_left (mul_nonneg h0 (by linarith))
  · exact max_le (by nlinarith) (by nlinarith)

/-- A method with the loss of one row and the factor between the reported loss and the mean loss of the validation rows: the one-dimensional
multicalibrator reports a sum, the others report means. -/
def Reported (n dims : ℕ) (m : Method ℝ) (ℓ : List ℝ → List ℝ → ℝ) (scale : ℝ) : Prop :=
  (dims = 1 ∧ (∃ pt, m = multicalibrator pt) ∧ ℓ = sqLoss 1 ∧ scale = n) ∨
  ((∃ pt, m = topLabelMulticalibrator pt) ∧ ℓ = sqLoss dims ∧ scale = 1) ∨
  (dims = 1 ∧ ∃ q B, 0 ≤ q ∧ q ≤ 1 ∧ m = batchMVP q B ∧ ℓ = pinLoss q ∧ scale = 1)

/-- **C136.** Which loss the entry points report: BatchMVP the mean pinball loss at the requested coverage, the top-label method the mean over rows of the squared
distance to the one-hot target divided by the number of classes, the other two the sum of squared errors. -/
theorem C136_entry (hn : 0 < n) (c : Verif.MultivalidEntry.Call ℝ) :
    (c.kind = .mvp → RowLoss c.method n 1 (pinLoss c.coverage) 1) ∧
    (∀ D, 0 < D → c.kind = .topLabel D → RowLoss c.method n D (sqLoss D) 1) ∧
    (c.kind = .base ∨ c.kind = .binary → RowLoss c.method n 1 (sqLoss 1) n) := by
  unfold Verif.MultivalidEntry.Call.method
  refine ⟨fun h => ?_, fun D hD h => ?_, fun h => ?_⟩
  · rw [h]; exact rowLoss_mvp hn _ _
  · rw [h]; exact rowLoss_2d hn hD _
  · rcases h with h | h <;> rw [h] <;> exact rowLoss_1d hn _

/-- Measurable rows with `dims` values and scores in [0,1]. -/
structure Rows (dims : ℕ) (grp : 𝒳 → List Bool) (vals scs : 𝒳 → List ℝ) : Prop where
  grp : ∀ g, MeasurableSet {x | (grp x).getD g false = true}
  vlen : ∀ x, (vals x).length = dims
  slen : ∀ x, (scs x).length = dims
  vprob : ∀ x, ∀ y ∈ vals x, 0 ≤ y ∧ y ≤ 1
  sprob : ∀ x, ∀ y ∈ scs x, 0 ≤ y ∧ y ≤ 1
  vmeas : ∀ c, Measurable fun x => (vals x).getD c 0
  smeas : ∀ c, Measurable fun x => (scs x).getD c 0

theorem measurable_sqLoss (D : ℕ) (f g : 𝒳 → List ℝ) (hf : ∀ c, Measurable fun x => (f x).getD c 0) (hg : ∀ c, Measurable fun x => (g x).getD c 0) :
    Measurable fun x => sqLoss D (f x) (g x) := by
  unfold sqLoss
  refine Measurable.div_const (Finset.measurable_sum _ fun j _ => ?_) _
  exact Measurable.pow_const (Measurable.sub (hf j) (hg j)) 2

theorem measurable_pinLoss (q : ℝ) (f g : 𝒳 → List ℝ) (hf : ∀ c, Measurable fun x => (f x).getD c 0) (hg : ∀ c, Measurable fun x => (g x).getD c 0) :
    Measurable fun x => pinLoss q (f x) (g x) := by
  unfold pinLoss
  exact (((hg 0).sub (hf 0)).const_mul q).max (((hf 0).sub (hg 0)).const_mul (1 - q))

theorem reported_props (hn : 0 < n) {dims : ℕ} (hd : 0 < dims) {m : Method ℝ} {ℓ : List ℝ → List ℝ → ℝ} {scale : ℝ} (hm : Reported n dims m ℓ scale) :
    RowLoss m n dims ℓ scale ∧ (∀ v s : List ℝ, (∀ x ∈ v, 0 ≤ x ∧ x ≤ 1) → (∀ x ∈ s, 0 ≤ x ∧ x ≤ 1) → ℓ v s ∈ Set.Icc 0 1) ∧
      (∀ f g : 𝒳 → List ℝ, (∀ c, Measurable fun x => (f x).getD c 0) → (∀ c, Measurable fun x => (g x).getD c 0) →
        Measurable fun x => ℓ (f x) (g x)) ∧ 0 < scale := by
  rcases hm with ⟨rfl, ⟨pt, rfl⟩, rfl, rfl⟩ | ⟨⟨pt, rfl⟩, rfl, rfl⟩ | ⟨rfl, q, B, h0, h1, rfl, rfl, rfl⟩
  · exact ⟨rowLoss_1d hn pt, sqLoss_mem, measurable_sqLoss 1, by exact_mod_cast hn⟩
  · exact ⟨rowLoss_2d hn hd pt, sqLoss_mem, measurable_sqLoss dims, one_pos⟩
  · exact ⟨rowLoss_mvp hn q B, pinLoss_mem q h0 h1, measurable_pinLoss q, one_pos⟩

section law
variable {X : Fin n → Ω → 𝒳} {Q : Measure 𝒳} {μ : Measure Ω} [IsProbabilityMeasure μ] (D : Draws X Q μ)
include D

/-- All recorded losses of stored patches, for a method whose loss is an average. -/
theorem losses_near (hn : 0 < n) {dims : ℕ} (hd : 0 < dims) (m : Method ℝ) (ℓ : List ℝ → List ℝ → ℝ) (scale : ℝ) (hm : RowLoss m n dims ℓ scale)
    (hℓ : ∀ v s : List ℝ, (∀ x ∈ v, 0 ≤ x ∧ x ≤ 1) → (∀ x ∈ s, 0 ≤ x ∧ x ≤ 1) → ℓ v s ∈ Set.Icc 0 1)
    (hℓm : ∀ f g : 𝒳 → List ℝ, (∀ c, Measurable fun x => (f x).getD c 0) → (∀ c, Measurable fun x => (g x).getD c 0) →
      Measurable fun x => ℓ (f x) (g x))
    (p : Params ℝ) (d : Data ℝ) (T : ℕ) (grp : 𝒳 → List Bool) (hgrp : ∀ g, MeasurableSet {x | (grp x).getD g false = true})
    (vals scs : 𝒳 → List ℝ) (hvl : ∀ x, (vals x).length = dims) (hsl : ∀ x, (scs x).length = dims)
    (hv : ∀ x, ∀ y ∈ vals x, 0 ≤ y ∧ y ≤ 1) (hs : ∀ x, ∀ y ∈ scs x, 0 ≤ y ∧ y ≤ 1)
    (hvm : ∀ c, Measurable fun x => (vals x).getD c 0) (hsm : ∀ c, Measurable fun x => (scs x).getD c 0) (ε : ℝ) (hε : 0 ≤ ε) :
    ∃ bad : Set Ω, μ.real bad ≤ (T + 1) * (2 * Real.exp (-2 * n * ε ^ 2)) ∧ ∀ ω ∉ bad, ∀ (st : Status ℝ) (ps : List (Patch ℝ)),
      calibrateSplit m p T d (dataOf X grp vals scs ω) = (st, ps) → ∃ l : ℕ → ℝ, (∀ i ≤ ps.length, st.losses[i]? = some (some (scale * l i)) ∧
        |l i - ∫ x, ℓ (rowAfter p.cfg (grp x) (ps.take i) (vals x)) (scs x) ∂Q| < ε) ∧ ∀ i < ps.length, scale * l (i + 1) ≤ scale * l i := by
  set g : ℕ → 𝒳 → ℝ := fun i x => ℓ (rowAfter p.cfg (grp x) (free m p i d) (vals x)) (scs x) with hg
  set E : ℕ → Set Ω := fun i => {ω | ε ≤ |avg X (g i) id ω - ∫ x, g i x ∂Q|} with hE
  refine ⟨{ω | ∃ i ∈ List.range (T + 1), ω ∈ E i}, ?_, ?_⟩
  · have := BatchMVPLaw.union_list μ (List.range (T + 1)) E (2 * Real.exp (-2 * n * ε ^ 2)) fun i _ => by
      have hh := hoeffding D hn (g i) (hℓm _ _ (measurable_rowAfter hd p.cfg grp hgrp _ vals hvl hvm) hsm) 0 1 one_pos
        (fun x => hℓ _ _ (rowAfter_prob _ _ _ _ (hv x)) (hs x)) ε hε
      rw [sub_zero, one_pow, div_one] at hh
      exact hh
    rw [List.length_range] at this
    push_cast at this
    exact this
  · intro ω hω st ps hc
    have hT := (C17_round_count _ _ _ _ _ _ _ hc).2.1
    have hav : AllProb (dataOf X grp vals scs ω).values := by
      intro r hr
      simp only [dataOf, MetricLaw.rowsOf, List.mem_ofFn] at hr
      obtain ⟨k, rfl⟩ := hr
      exact hv _
    have hfree : ∀ i ≤ ps.length, ps.take i = free m p i d := trace_free m p d _ ps (calibrate_trace m p T d _ st ps hc)
    have hloss : ∀ i ≤ ps.length, m.loss (replay p.cfg (dataOf X grp vals scs ω).groups (dataOf X grp vals scs ω).values (ps.take i))
        (dataOf X grp vals scs ω).scores = some (scale * avg X (g i) id ω) := by
      intro i hi
      have hout : replay p.cfg (dataOf X grp vals scs ω).groups (dataOf X grp vals scs ω).values (ps.take i) =
          List.ofFn fun k => rowAfter p.cfg (grp (X k ω)) (free m p i d) (vals (X k ω)) := by
        rw [hfree i hi]
        apply List.ext_getElem?
        intro k
        by_cases hk : k < n
        · rw [C18_rowwise p.cfg (free m p i d) (dataOf X grp vals scs ω).groups (dataOf X grp vals scs ω).values k (grp (X ⟨k, hk⟩ ω))
            (vals (X ⟨k, hk⟩ ω)) (by simp [dataOf, MetricLaw.rowsOf, hk]) (by simp [dataOf, MetricLaw.rowsOf, hk]), replay_one]
          simp [hk]
        · rw [List.getElem?_eq_none (by rw [replay_length _ _ _ _ (by simp [dataOf, MetricLaw.rowsOf])]; simp [dataOf, MetricLaw.rowsOf]; omega),
            List.getElem?_eq_none (by simp; omega)]
      rw [hout]
      exact hm (fun k => rowAfter p.cfg (grp (X k ω)) (free m p i d) (vals (X k ω))) (fun k => scs (X k ω))
        (fun k => by rw [rowAfter_length]; exact hvl _) (fun k => hsl _)
    refine ⟨fun i => avg X (g i) id ω, fun i hi => ⟨?_, ?_⟩, fun i hi => ?_⟩
    · obtain ⟨out, ho, hl⟩ := C17_replay_losses m p T d _ st ps hc hav (by simp [dataOf, MetricLaw.rowsOf]) i hi
      have h1 : out = replay p.cfg (dataOf X grp vals scs ω).groups (dataOf X grp vals scs ω).values (ps.take i) := by
        unfold applyPatches at ho
        split at ho
        · next h0 => cases ho; rw [h0]; rfl
        · rw [(valuesOk_iff _).2 hav] at ho
          simp only [Bool.not_true, Bool.false_eq_true, if_false] at ho
          rw [if_neg (by simp [dataOf, MetricLaw.rowsOf])] at ho
          cases ho; rfl
      rw [hl, h1, hloss i hi]
    · rw [hfree i hi]
      have : ω ∉ E i := fun h => hω ⟨i, by simp; omega, h⟩
      simpa [hE] using this
    · exact C17_losses_nonincreasing m p T d _ st ps hc _ (Or.inr rfl) i hi _ _ (hloss i hi.le) (hloss (i + 1) hi)

/-- **C136.** Run a multicalibrator, a top-label multicalibrator or BatchMVP on any calibration data, with `n` independent validation rows. Except
with probability `2 (n_rounds + 1) exp(-2 n ε²)`, for every `i` up to the number of stored patches the `i`-th reported loss (for
one-dimensional values: divided by `n`) is within `ε` of the expected loss of a new row after the first `i` patches. -/
theorem C136_losses (hn : 0 < n) {dims : ℕ} (hd : 0 < dims) (m : Method ℝ) (ℓ : List ℝ → List ℝ → ℝ) (scale : ℝ) (hm : Reported n dims m ℓ scale)
    (p : Params ℝ) (d : Data ℝ) (T : ℕ) (grp : 𝒳 → List Bool) (vals scs : 𝒳 → List ℝ) (hr : Rows dims grp vals scs) (ε : ℝ) (hε : 0 ≤ ε) :
    ∃ bad : Set Ω, μ.real bad ≤ (T + 1) * (2 * Real.exp (-2 * n * ε ^ 2)) ∧ ∀ ω ∉ bad, ∀ (st : Status ℝ) (ps : List (Patch ℝ)),
      calibrateSplit m p T d (dataOf X grp vals scs ω) = (st, ps) → ∀ i ≤ ps.length, ∃ l, st.losses[i]? = some (some (scale * l)) ∧
        |l - ∫ x, ℓ (rowAfter p.cfg (grp x) (ps.take i) (vals x)) (scs x) ∂Q| < ε := by
  obtain ⟨h1, h2, h3, h4⟩ := reported_props (𝒳 := 𝒳) hn hd hm
  obtain ⟨bad, hb, h⟩ := losses_near D hn hd m ℓ scale h1 h2 h3 p d T grp hr.grp vals scs hr.vlen hr.slen hr.vprob hr.sprob hr.vmeas hr.smeas ε hε
  refine ⟨bad, hb, fun ω hω st ps hc i hi => ?_⟩
  obtain ⟨l, hl, -⟩ := h ω hω st ps hc
  exact ⟨l i, hl i hi⟩

/-- **C136.** Except with the same probability, the stored patches do not raise the expected loss of a new row by `2 ε` or more. -/
theorem C136_no_worse (hn : 0 < n) {dims : ℕ} (hd : 0 < dims) (m : Method ℝ) (ℓ : List ℝ → List ℝ → ℝ) (scale : ℝ) (hm : Reported n dims m ℓ scale)
    (p : Params ℝ) (d : Data ℝ) (T : ℕ) (grp : 𝒳 → List Bool) (vals scs : 𝒳 → List ℝ) (hr : Rows dims grp vals scs) (ε : ℝ) (hε : 0 ≤ ε) :
    ∃ bad : Set Ω, μ.real bad ≤ (T + 1) * (2 * Real.exp (-2 * n * ε ^ 2)) ∧ ∀ ω ∉ bad, ∀ (st : Status ℝ) (ps : List (Patch ℝ)),
      calibrateSplit m p T d (dataOf X grp vals scs ω) = (st, ps) →
        ∫ x, ℓ (rowAfter p.cfg (grp x) ps (vals x)) (scs x) ∂Q < ∫ x, ℓ (vals x) (scs x) ∂Q + 2 * ε := by
  obtain ⟨h1, h2, h3, h4⟩ := reported_props (𝒳 := 𝒳) hn hd hm
  obtain ⟨bad, hb, h⟩ := losses_near D hn hd m ℓ scale h1 h2 h3 p d T grp hr.grp vals scs hr.vlen hr.slen hr.vprob hr.sprob hr.vmeas hr.smeas ε hε
  refine ⟨bad, hb, fun ω hω st ps hc => ?_⟩
  obtain ⟨l, hl, hmono⟩ := h ω hω st ps hc
  have hle : ∀ i ≤ ps.length, l i ≤ l 0 := by
    intro i
    induction i with
    | zero => exact fun _ => le_rfl
    | succ i ih => exact fun hi => (le_of_mul_le_mul_left (hmono i hi) h4).trans (ih (by omega))
  have a := (hl 0 (by omega)).2
  have b := (hl ps.length le_rfl).2
  rw [List.take_length] at b
  have c := hle ps.length le_rfl
  rw [abs_lt] at a b
  have e : ∫ x, ℓ (rowAfter p.cfg (grp x) (ps.take 0) (vals x)) (scs x) ∂Q = ∫ x, ℓ (vals x) (scs x) ∂Q := rfl
  rw [e] at a
  linarith [a.1, b.2, a.2, b.1]

end law

/-- One bucket around 0, one group, default step 1, no tolerance. -/
noncomputable def oneCell : Params ℝ := ⟨⟨1, 1, .additive⟩, [0], 1, 1, 0, 0, 0⟩

/-- One calibration row with value 0 and score 3/4. -/
noncomputable def oneRow : Data ℝ := ⟨[[true]], [[0]], [[3 / 4]]⟩

/-- Scores 1 and 0. -/
noncomputable def bitScore (b : Bool) : List ℝ := [if b then 1 else 0]

theorem oneRow_run (k : ℕ) :
    calibrateSplit (multicalibrator .additive) oneCell 1 oneRow
      ⟨List.replicate (k + 1) [true], List.replicate (k + 1) [0], List.replicate (k + 1) [1]⟩ =
      (⟨1, [some ((k + 1 : ℕ) * (0 - 1) ^ 2), some ((k + 1 : ℕ) * (3 / 4 - 1) ^ 2)], false⟩, [⟨0, 0, 0, 0, 3 / 4⟩]) := by
  have hk : (0 : ℝ) < (k : ℝ) + 1 := by positivity
  have hgrid : grid oneCell.taus oneCell.nGroups (linspace (0 : ℝ) 1 oneCell.cfg.nBuckets) oneCell.nDims = [⟨0, 0, 0, 0⟩] := by
    simp [grid, oneCell, linspace, List.range_succ]
  have hcellB : ∀ j : ℕ, cellB 1 (⟨0, 0, 0, 0⟩ : Cell ℝ) (List.replicate j [true]) (List.replicate j [0]) = List.replicate j true := by
    intro j
    unfold cellB getBs
    rw [List.zipWith_replicate']
    congr 1
    simp [getB, inBucket, argmax, argmaxFrom]
  have hb1 : cellB 1 (⟨0, 0, 0, 0⟩ : Cell ℝ) [[true]] [[0]] = [true] := hcellB 1
  have hpatch : ∀ j : ℕ, patchValues .additive (1 : ℝ) (3 / 4) 0 (List.replicate j true) (List.replicate j [0]) = List.replicate j [3 / 4] := by
    intro j
    unfold patchValues
    rw [List.zipWith_replicate']
    congr 1
    simp [patchRow, patchEntry, clip]
    norm_num
  have hp1 : patchValues .additive (1 : ℝ) (3 / 4) 0 [true] [[0]] = [[3 / 4]] := hpatch 1
  have hsq : ∀ (j : ℕ) (a b : ℝ), sqErr (List.replicate j [a]) (List.replicate j [b]) = j * (a - b) ^ 2 := by
    intro j a b
    unfold sqErr
    rw [List.zipWith_replicate']
    simp
  have hbest : bestCell (multicalibrator .additive) oneCell oneRow = some ⟨0, 0, 0, 0⟩ := by
    unfold bestCell
    dsimp only
    rw [hgrid]
    rfl
  have hdelta : mcDelta [true] 0 [[0]] [[(3 / 4 : ℝ)]] = 3 / 4 := by
    simp [mcDelta, probB, maskedMean, col]
  unfold calibrateSplit loop Multivalid.round initState
  dsimp only
  rw [hgrid, hbest]
  dsimp only
  have e1 : (oneCell.cfg.nBuckets) = 1 := rfl
  have e2 : oneCell.cfg.ptype = .additive := rfl
  have e3 : oneCell.cfg.eta = 1 := rfl
  have e4 : oneRow.groups = [[true]] := rfl
  have e5 : oneRow.values = [[0]] := rfl
  have e6 : oneRow.scores = [[3 / 4]] := rfl
  have e7 : oneCell.atol = 0 := rfl
  have e8 : oneCell.rtol = 0 := rfl
  have e9 : oneCell.minProbB = 0 := rfl
  have hget : (multicalibrator (K := ℝ) .additive).getPatch [true] 0 [[0]] [[3 / 4]] = some (3 / 4) := congrArg some hdelta
  have hl : ∀ v s : List (List ℝ), (multicalibrator (K := ℝ) .additive).loss v s = some (sqErr v s) := fun _ _ => rfl
  rw [e1, e2, e3, e4, e5, e6, e7, e8, e9, hb1, hget]
  dsimp only
  rw [hcellB, hpatch, hp1]
  simp only [hl, hsq]
  have s1 : sqErr [[(3 / 4 : ℝ)]] [[3 / 4]] = 0 := by have := hsq 1 (3 / 4) (3 / 4); simpa using this
  have s2 : sqErr [[(0 : ℝ)]] [[3 / 4]] = 9 / 16 := by have := hsq 1 0 (3 / 4); norm_num at this ⊢; exact this
  rw [s1, s2]
  have c0 : ([⟨0, 0, 0, 0⟩] : List (Cell ℝ)).any (fun cell => decide (probB (K := ℝ) (cellB 1 cell [[true]] [[0]]) ≥ 0)) = true := by
    rw [List.any_cons, hb1]
    simp [probB]
  rw [c0]
  have c1 : gtN (some (0 : ℝ)) (some (9 / 16)) = false := by simp [gtN]; norm_num
  have c2 : leN (some (((k + 1 : ℕ) : ℝ) * (3 / 4 - 1) ^ 2)) 0 = false := by
    simp only [leN, decide_eq_false_iff_not, not_le]; push_cast; positivity
  have c3 : gtN (some (((k + 1 : ℕ) : ℝ) * (3 / 4 - 1) ^ 2)) (lastLoss [some (((k + 1 : ℕ) : ℝ) * (0 - 1) ^ 2)]) = false := by
    simp only [gtN, lastLoss, List.getLastD, List.getLast, decide_eq_false_iff_not, not_lt]
    push_cast; nlinarith
  have c4 : leN (relDecrease (lastLoss [some (((k + 1 : ℕ) : ℝ) * (0 - 1) ^ 2)]) (some (((k + 1 : ℕ) : ℝ) * (3 / 4 - 1) ^ 2))) 0 = false := by
    simp only [relDecrease, leN, lastLoss, List.getLastD, List.getLast, decide_eq_false_iff_not, not_le]
    push_cast
    refine div_pos ?_ ?_ <;> nlinarith
  rw [c1, c2, c3, c4, Bool.and_false]
  simp only [Bool.not_true, Bool.false_eq_true, if_false, loop, List.nil_append, List.cons_append, List.length_cons, List.length_nil, zero_add, convergedOf]

/-- **C136, without enough data.** False of the code: that the reported losses describe new rows, whatever the number of validation rows. Let
all values be 0 and scores be 1 with probability `θ` and 0 otherwise; calibrated with one row of score 3/4, with probability at least `θ ^ n`
the run stores a patch, with a validation loss going down from `n` to `n / 16`, although the expected loss of a new row goes
from `θ` to `9/16 - θ/2`. -/
theorem C136_small_false {X : Fin n → Ω → Bool} {Q : Measure Bool} {μ : Measure Ω} [IsProbabilityMeasure μ] (D : Draws X Q μ) (hn : 0 < n) :
    Q.real {true} ^ n ≤ μ.real {ω | ∃ (st : Status ℝ) (ps : List (Patch ℝ)),
      calibrateSplit (multicalibrator .additive) oneCell 1 oneRow (dataOf X (fun _ => [true]) (fun _ => [0]) bitScore ω) = (st, ps) ∧
      st.losses = [some (n : ℝ), some (n / 16)] ∧
      ∫ x, sqLoss 1 [0] (bitScore x) ∂Q = Q.real {true} ∧
      ∫ x, sqLoss 1 (rowAfter oneCell.cfg [true] ps [0]) (bitScore x) ∂Q = 9 / 16 - Q.real {true} / 2} := by
  have : Nonempty (Fin n) := ⟨⟨0, hn⟩⟩
  have hQ : IsProbabilityMeasure Q := prob_law D
  have hprob : Q.real {true} ^ n = μ.real (⋂ i ∈ (Finset.univ : Finset (Fin n)), X i ⁻¹' {true}) := by
    unfold Measure.real
    rw [D.indep.measure_inter_preimage_eq_mul Finset.univ fun i _ => measurableSet_singleton true, ENNReal.toReal_prod]
    have : ∀ i, μ (X i ⁻¹' {true}) = Q {true} := by
      intro i
      rw [← D.law i, Measure.map_apply (D.meas i) (measurableSet_singleton true)]
    simp [this]
  rw [hprob]
  refine measureReal_mono ?_ (measure_ne_top _ _)
  intro ω hω
  have hall : ∀ i, X i ω = true := by simpa using hω
  obtain ⟨k, rfl⟩ : ∃ k, n = k + 1 := ⟨n - 1, by omega⟩
  have hdata : dataOf X (fun _ => [true]) (fun _ => [0]) bitScore ω =
      ⟨List.replicate (k + 1) [true], List.replicate (k + 1) [0], List.replicate (k + 1) [1]⟩ := by
    unfold dataOf MetricLaw.rowsOf
    simp only [hall, bitScore, if_true, List.ofFn_const]
  have hint : ∀ f : Bool → ℝ, ∫ x, f x ∂Q = f true * Q.real {true} + f false * (1 - Q.real {true}) := by
    intro f
    have h1 : Q.real {false} = 1 - Q.real {true} := by
      rw [← probReal_compl_eq_one_sub (measurableSet_singleton true)]
      congr 1
      ext b; cases b <;> simp
    rw [integral_fintype (Integrable.of_finite), Fintype.sum_bool, h1, smul_eq_mul, smul_eq_mul]
    ring
  have hrow : rowAfter oneCell.cfg [true] [⟨0, 0, 0, 0, 3 / 4⟩] [0] = [(3 / 4 : ℝ)] := by
    simp [rowAfter, oneCell, patchRow, patchEntry, getB, inBucket, argmax, argmaxFrom, clip]
    norm_num
  have hrun := oneRow_run k
  rw [← hdata] at hrun
  refine ⟨_, _, hrun, ?_, ?_, ?_⟩
  · push_cast
    norm_num
    ring
  · rw [hint]
    simp [sqLoss, bitScore]
  · rw [hrow, hint]
    simp [sqLoss, bitScore]
    ring

/-! ## Examples -/

/-- Two runs on the same two calibration rows: with a validation row of score 5/8 one patch is stored, with one of score 9/10 two patches. -/
example : (calibrateSplit (K := ℚ) (multicalibrator .additive) ⟨⟨2, 1 / 2, .additive⟩, [1], 1, 1, 0, 0, 0⟩ 5
      ⟨[[true], [true]], [[0], [0]], [[1], [1]]⟩ ⟨[[true]], [[0]], [[5 / 8]]⟩).2 = [⟨1, 0, 0, 0, 1⟩] ∧
    (calibrateSplit (K := ℚ) (multicalibrator .additive) ⟨⟨2, 1 / 2, .additive⟩, [1], 1, 1, 0, 0, 0⟩ 2
      ⟨[[true], [true]], [[0], [0]], [[1], [1]]⟩ ⟨[[true]], [[0]], [[9 / 10]]⟩).2 = [⟨1, 0, 0, 0, 1⟩, ⟨1, 0, 0, 0, 1 / 2⟩] := by
  constructor <;> decide +kernel

/-- The rows of `C136_small_false` are as the theorems suppose, and the three methods are covered. -/
example : Rows 1 (fun _ : Bool => [true]) (fun _ => [0]) bitScore ∧ Reported 100 1 (multicalibrator .additive) (sqLoss 1) (100 : ℕ) ∧
    Reported 100 3 (topLabelMulticalibrator .multiplicative) (sqLoss 3) 1 ∧ Reported 100 1 (batchMVP (9 / 10) 100) (pinLoss (9 / 10)) 1 :=
  ⟨⟨fun g => MeasurableSet.const _, fun _ => rfl, fun _ => rfl, by simp, by intro x y h; cases x <;> simp [bitScore] at h <;> simp [h],
    fun c => measurable_const, fun c => measurable_of_finite _⟩, Or.inl ⟨rfl, ⟨_, rfl⟩, rfl, rfl⟩, Or.inr (Or.inl ⟨⟨_, rfl⟩, rfl, rfl⟩),
    Or.inr (Or.inr ⟨rfl, 9 / 10, 100, by norm_num, by norm_num, rfl, rfl, rfl⟩)⟩

/-- With 10 rounds and 1000 validation rows, all reported losses are within 1/10 of the losses of a new row with probability above 99.9%. -/
example : ((10 : ℕ) + 1 : ℝ) * (2 * Real.exp (-2 * (1000 : ℕ) * (1 / 10) ^ 2)) < 1 / 1000 := by
  have h : Real.exp (-2 * (1000 : ℕ) * (1 / 10 : ℝ) ^ 2) = (Real.exp 1 ^ 20)⁻¹ := by
    rw [← Real.exp_nat_mul, ← Real.exp_neg]; norm_num
  rw [h]
  have h2 : (2 : ℝ) ^ 20 < Real.exp 1 ^ 20 := pow_lt_pow_left₀ (by linarith [Real.exp_one_gt_d9]) (by norm_num) (by norm_num)
  rw [show ((10 : ℕ) + 1 : ℝ) * (2 * (Real.exp 1 ^ 20)⁻¹) = 22 / Real.exp 1 ^ 20 by push_cast; ring, div_lt_iff₀ (by positivity)]
  norm_num at h2 ⊢
  linarith

/-! ### Concrete cases that meet the hypotheses of the theorems above -/

example := C136_new_row (K := ℚ) ⟨2, 1 / 2, .additive⟩ [⟨1, 0, 0, 0, 1⟩] [true] [1 / 4] (by decide +kernel)
example := C136_prefix (K := ℚ) (multicalibrator .additive) ⟨⟨2, 1 / 2, .additive⟩, [1], 1, 1, 0, 0, 0⟩ 5 2
  ⟨[[true], [true]], [[0], [0]], [[1], [1]]⟩ ⟨[[true]], [[0]], [[5 / 8]]⟩ ⟨[[true]], [[0]], [[9 / 10]]⟩ _ _ _ _ rfl rfl (by decide +kernel)

theorem bitRows : Rows 1 (fun _ : Bool => [true]) (fun _ => [0]) bitScore :=
  ⟨fun g => MeasurableSet.const _, fun _ => rfl, fun _ => rfl, by simp, by intro x y h; cases x <;> simp [bitScore] at h <;> simp [h],
    fun c => measurable_const, fun c => measurable_of_finite _⟩

theorem bitDraws : Draws (fun (i : Fin 100) (ω : Fin 100 → Bool) => ω i) (Measure.dirac true) (Measure.pi fun _ => Measure.dirac true) where
  meas i := measurable_pi_apply i
  indep := iIndepFun_pi (X := fun _ x => x) fun _ => aemeasurable_id
  law i := (measurePreserving_eval (fun _ => Measure.dirac true) i).map_eq

example := C136_losses bitDraws (by norm_num) (dims := 1) one_pos (multicalibrator .additive) (sqLoss 1) (100 : ℕ) (Or.inl ⟨rfl, ⟨_, rfl⟩, rfl, rfl⟩)
  ⟨⟨2, 1 / 2, .additive⟩, [1], 1, 1, 0, 0, 0⟩ ⟨[[true], [true]], [[0], [0]], [[1], [1]]⟩ 5 _ _ _ bitRows (1 / 5) (by norm_num)
example := C136_no_worse bitDraws (by norm_num) (dims := 1) one_pos (multicalibrator .additive) (sqLoss 1) (100 : ℕ) (Or.inl ⟨rfl, ⟨_, rfl⟩, rfl, rfl⟩)
  ⟨⟨2, 1 / 2, .additive⟩, [1], 1, 1, 0, 0, 0⟩ ⟨[[true], [true]], [[0], [0]], [[1], [1]]⟩ 5 _ _ _ bitRows (1 / 5) (by norm_num)

end Verif.Props.ValidationLaw
