import Verif.Model.MultivalidEntry
import Verif.Props.Multivalid
import Verif.Lemmas.ConformalClassification
import Verif.Lemmas.ConformalRegression
import Mathlib.Tactic.Linarith
import Mathlib.Tactic.FieldSimp
import Mathlib.Tactic.Positivity
import Mathlib.Data.Rat.Floor
import Mathlib.Algebra.BigOperators.Field

/-! Property C91: what the entry points of the multivalid methods accept, and what they do with their defaults. -/
set_option linter.unusedSectionVars false

namespace Verif.Props.MultivalidEntry

open Verif.Multivalid Verif.MultivalidEntry Verif.ArrayOps Verif.Props

variable {K : Type} [Field K] [LinearOrder K] [IsStrictOrderedRing K]

/-! ### Specification -/

/-- Documented scores: one-dimensional; in the unit interval, or integer labels (both labels present in the binary case). -/
def ScoresGood (kind : Kind) (s : Scores K) : Prop :=
  s.ndim = 1 ∧
  match kind with
  | .binary => s.isInt = true ∧ (∀ y ∈ s.vals, y = 0 ∨ y = 1) ∧ (0 : K) ∈ s.vals ∧ (1 : K) ∈ s.vals
  | .topLabel n => s.isInt = true ∧ n ≠ 0
  | _ => ∀ y ∈ s.vals, 0 ≤ y ∧ y ≤ 1

/-- Documented values. -/
def ValuesGood (kind : Kind) (a : Arr K) : Prop :=
  AllProb a.rows ∧
  match kind with
  | .mvp => True
  | .topLabel _ => a.ndim = 2
  | _ => a.ndim = 1

/-- Documented groups: a two-dimensional array of booleans. -/
def GroupsGood (g : Groups) : Prop := g.ndim = 2 ∧ g.isBool = true

/-- The arguments of a call of `calibrate` without test data that are to be accepted. -/
structure Accepted (c : Call K) (z : ℕ → ℕ → K) : Prop where
  coverage : c.kind = .mvp → 0 ≤ c.coverage ∧ c.coverage ≤ 1
  rounds : 1 ≤ c.nRounds
  eta : 0 < c.eta ∧ c.eta ≤ 1
  split : 0 < c.split ∧ c.split ≤ 1
  minProb : ∀ m, c.minProbB = some m → 0 ≤ m ∧ m ≤ 1
  buckets : c.nBuckets ≠ 0
  patch : c.patchType = "additive" ∨ c.patchType = "multiplicative"
  types : ∀ t ∈ c.bucketTypes, t = "=" ∨ t = ">=" ∨ t = "<="
  scores : ScoresGood c.kind c.scores
  groups : ∀ g, c.groups = some g → GroupsGood g
  values : ValuesGood c.kind (initValues c.kind z c.values (initGroups c.groups c.scores.vals.length).length)

/-! ### The checks decide the specification -/

theorem checkScores_iff (kind : Kind) (s : Scores K) : checkScores kind s = .ok () ↔ ScoresGood kind s := by
  unfold checkScores ScoresGood
  by_cases h : s.ndim = 1
  · rw [if_neg (by simpa using h)]
    cases kind with
    | base => simp [h]
    | mvp => simp [h]
    | topLabel n => cases hi : s.isInt <;> by_cases hn : n = 0 <;> simp [h, hn]
    | binary =>
      by_cases h1 : (∀ y ∈ s.vals, y = 0 ∨ y = 1) ∧ (0 : K) ∈ s.vals ∧ (1 : K) ∈ s.vals
      · have : (!(s.vals.all fun y => decide (y = 0 ∨ y = 1)) || !s.vals.contains 0 || !s.vals.contains 1) = false := by
          simp only [Bool.or_eq_false_iff, Bool.not_eq_false', List.all_eq_true, decide_eq_true_eq, List.contains_iff_mem]
          exact ⟨⟨h1.1, h1.2.1⟩, h1.2.2⟩
        simp only [this]
        cases hi : s.isInt
        · simp
        · simpa [h] using h1
      · have : (!(s.vals.all fun y => decide (y = 0 ∨ y = 1)) || !s.vals.contains 0 || !s.vals.contains 1) = true := by
          by_contra hc
          rw [Bool.not_eq_true] at hc
          simp only [Bool.or_eq_false_iff, Bool.not_eq_false', List.all_eq_true, decide_eq_true_eq,
            List.contains_iff_mem] at hc
          exact h1 ⟨hc.1.1, hc.1.2, hc.2⟩
        simp only [this, if_true]
        constructor
        · intro hc; cases hc
        · intro hc; exact absurd hc.2.2 h1
  · rw [if_pos (by simpa using h)]
    constructor
    · intro hc; cases hc
    · intro hc; exact absurd hc.1 h

theorem goodArr_iff (n : ℕ) (a : Arr K) : goodArr n a = true ↔ a.ndim = n ∧ AllProb a.rows := by
  simp [goodArr, valuesOk_iff]

theorem checkValues_iff (kind : Kind) (a : Arr K) : checkValues kind (some a) none = .ok () ↔ ValuesGood kind a := by
  unfold checkValues ValuesGood
  cases kind with
  | mvp => by_cases h : AllProb a.rows <;> simp [h, valuesOk_iff]
  | base =>
    simp only [Option.all_some, Option.all_none, Bool.not_true]
    rw [and_comm, ← goodArr_iff]
    cases goodArr 1 a <;> simp
  | binary =>
    simp only [Option.all_some, Option.all_none, Bool.not_true, Bool.or_false]
    rw [and_comm, ← goodArr_iff]
    cases goodArr 1 a <;> simp
  | topLabel n =>
    simp only [Option.all_some, Option.all_none, Bool.not_true, Bool.or_false]
    rw [and_comm, ← goodArr_iff]
    cases goodArr 2 a <;> simp

theorem checkGroups_iff (groups : Option Groups) :
    checkGroups groups none = .ok () ↔ ∀ g, groups = some g → GroupsGood g := by
  unfold checkGroups GroupsGood
  cases groups with
  | none => simp
  | some g => by_cases h : g.ndim = 2 <;> cases h2 : g.isBool <;> simp [h, h2]

theorem nDims_ne (c : Call K) (h : ScoresGood c.kind c.scores) : nDims c.kind ≠ 0 := by
  unfold ScoresGood at h
  cases hk : c.kind with
  | topLabel n => rw [hk] at h; exact h.2.2
  | _ => decide

theorem minProb_mem (c : Call K) (h1 : ∀ m, c.minProbB = some m → 0 ≤ m ∧ m ≤ 1)
    (ha : c.nBuckets ≠ 0) (hb : nDims c.kind ≠ 0) : 0 ≤ c.params.minProbB ∧ c.params.minProbB ≤ 1 := by
  unfold Call.params
  cases hm : c.minProbB with
  | some m => simpa using h1 m hm
  | none =>
    simp only [Option.getD_none]
    have hn : (1 : K) ≤ (c.nBuckets : K) * (nDims c.kind : K) := by
      rw [← Nat.cast_mul]
      exact_mod_cast Nat.one_le_iff_ne_zero.2 (Nat.mul_ne_zero ha hb)
    exact ⟨by positivity, by rw [div_le_one (by linarith)]; exact hn⟩

/-- The result of the calibration loop (of C16–C20) on the first `⌈split · n⌉` rows of the permuted data, validated on the
others. -/
def loopResult [FloorRing K] (c : Call K) (perm : List ℕ) (z : ℕ → ℕ → K) : Status K × List (Patch K) :=
  calibrateSplit c.method c.params c.nRounds
    ((c.data z).pick (perm.take (⌈c.split * (c.scores.vals.length : K)⌉).toNat))
    ((c.data z).pick (perm.drop (⌈c.split * (c.scores.vals.length : K)⌉).toNat))

/-- Is there a cell of probability at least `min_prob_b` among the calibration rows? -/
def CellExists [FloorRing K] (c : Call K) (perm : List ℕ) (z : ℕ → ℕ → K) : Prop :=
  ∃ cell ∈ grid c.params.taus c.params.nGroups (linspace 0 1 c.nBuckets) (nDims c.kind),
    c.params.minProbB ≤ probB (cellB c.nBuckets cell
      ((c.data z).pick (perm.take (⌈c.split * (c.scores.vals.length : K)⌉).toNat)).groups
      ((c.data z).pick (perm.take (⌈c.split * (c.scores.vals.length : K)⌉).toNat)).values)

theorem somePatch_iff [FloorRing K] (c : Call K) (perm : List ℕ) (z : ℕ → ℕ → K) :
    somePatch c.params (c.calib perm z) = true ↔ CellExists c perm z := by
  unfold somePatch CellExists Call.calib
  simp only [List.any_eq_true, decide_eq_true_eq, ge_iff_le]
  rfl

/-- **C91.** Without test data `calibrate` succeeds exactly on the documented arguments (and, for batch MVP with multiplicative
patches, if no patch is computed), and then it is the calibration loop. -/
theorem C91_accepts [FloorRing K] (c : Call K) (perm : List ℕ) (z zTest : ℕ → ℕ → K) (h1 : c.testGroups = none)
    (h2 : c.testValues = none) :
    (∀ r, calibrateCall c perm z zTest = .ok r ↔ (Accepted c z ∧
        ¬(c.kind = .mvp ∧ c.patchType = "multiplicative" ∧ CellExists c perm z)) ∧
      r = ((loopResult c perm z).1, (loopResult c perm z).2, none)) := by
  intro r
  have hbad : badOptions c = false := by simp [badOptions, h1, h2]
  have hlen : ((c.data z).scores.length : K) = (c.scores.vals.length : K) := by
    unfold Call.data scoreRows; cases c.kind <;> simp
  have hd : (c.data z).values = (initValues c.kind z c.values (initGroups c.groups c.scores.vals.length).length).rows := rfl
  constructor
  · intro h
    unfold calibrateCall at h
    by_cases g1 : c.kind = .mvp ∧ (c.coverage < 0 ∨ c.coverage > 1)
    · rw [if_pos g1] at h; cases h
    rw [if_neg g1] at h
    by_cases g2 : c.nRounds < 1 ∨ badOptions c = true
    · rw [if_pos g2] at h; cases h
    rw [if_neg g2] at h
    by_cases g2' : c.eta ≤ 0 ∨ c.eta > 1 ∨ c.split ≤ 0 ∨ c.split > 1
    · rw [if_pos g2'] at h; cases h
    rw [if_neg g2'] at h
    by_cases g3 : (c.minProbB.any fun m => decide (m < 0 ∨ m > 1)) = true
    · rw [if_pos g3] at h; cases h
    rw [if_neg g3] at h
    by_cases g4 : c.patchType ≠ "additive" ∧ c.patchType ≠ "multiplicative"
    · rw [if_pos g4] at h; cases h
    rw [if_neg g4] at h
    obtain ⟨_, e1, h⟩ := bind_ok.mp h
    obtain ⟨_, e4, h⟩ := bind_ok.mp h
    obtain ⟨_, e2, h⟩ := bind_ok.mp h
    obtain ⟨_, e3, h⟩ := bind_ok.mp h
    obtain ⟨_, e7, h⟩ := bind_ok.mp h
    obtain ⟨_, e8, h⟩ := bind_ok.mp h
    obtain ⟨_, e6, h⟩ := bind_ok.mp h
    obtain ⟨p, e5, h⟩ := bind_ok.mp h
    rw [h1] at e2
    rw [h2] at e3
    have a1 := (checkScores_iff _ _).1 e1
    have a2 := (checkGroups_iff _).1 e2
    have a3 := (checkValues_iff _ _).1 e3
    unfold calibrate at e5
    by_cases k1 : c.nRounds < 1
    · rw [if_pos k1] at e5; cases e5
    rw [if_neg k1] at e5
    by_cases k2 : c.params.cfg.eta ≤ 0 ∨ c.params.cfg.eta > 1
    · rw [if_pos k2] at e5; cases e5
    rw [if_neg k2] at e5
    by_cases k3 : c.split ≤ 0 ∨ c.split > 1
    · rw [if_pos k3] at e5; cases e5
    rw [if_neg k3] at e5
    by_cases k4 : c.params.minProbB < 0 ∨ c.params.minProbB > 1
    · rw [if_pos k4] at e5; cases e5
    rw [if_neg k4] at e5
    by_cases k5 : (!valuesOk (c.data z).values) = true
    · rw [if_pos k5] at e5; cases e5
    rw [if_neg k5] at e5
    simp only [hlen] at e5
    simp only [h1, h2, Option.isSome_none, Bool.or_self] at h
    push Not at k2 k3
    refine ⟨⟨⟨?_, by omega, k2, k3, ?_, ?_, ?_, ?_, a1, a2, a3⟩, ?_⟩, ?_⟩
    · intro hk
      have : ¬(c.coverage < 0 ∨ c.coverage > 1) := fun hh => g1 ⟨hk, hh⟩
      push Not at this
      exact this
    · intro m hm
      simp only [hm, Option.any_some, decide_eq_true_eq] at g3
      push Not at g3
      exact g3
    · intro hm
      unfold bucketsDefined at e8
      rw [if_pos hm] at e8; cases e8
    · by_cases ha : c.patchType = "additive"
      · exact Or.inl ha
      · exact Or.inr (by by_contra hb; exact g4 ⟨ha, hb⟩)
    · intro t ht
      unfold checkTypes at e7
      by_cases g5 : (!(c.bucketTypes.all fun t => ["=", ">=", "<="].contains t)) = true
      · rw [if_pos g5] at e7; cases e7
      simp only [Bool.not_eq_true', Bool.not_eq_false, List.all_eq_true] at g5
      simpa using g5 t ht
    · rintro ⟨hk, hm, hx⟩
      unfold patchTypeDefined at e6
      rw [if_pos ⟨hk, hm, (somePatch_iff c perm z).2 hx⟩] at e6; cases e6
    · cases e5
      cases h
      rfl
  · rintro ⟨⟨ha, hx⟩, rfl⟩
    unfold calibrateCall
    rw [if_neg, if_neg, if_neg, if_neg, if_neg]
    · have e1 := (checkScores_iff _ _).2 ha.scores
      have e2 := (checkGroups_iff _).2 ha.groups
      have e3 := (checkValues_iff _ _).2 ha.values
      have hdim := nDims_ne c ha.scores
      have e4 : minProbDefined c = .ok () := by
        unfold minProbDefined
        rw [if_neg]
        rintro ⟨hn, hz⟩
        exact Nat.mul_ne_zero_iff.2 ⟨ha.buckets, hdim⟩ hz
      have e7 : checkTypes c = .ok () := by
        unfold checkTypes
        rw [if_neg]
        simp only [Bool.not_eq_true', Bool.not_eq_false, List.all_eq_true]
        intro t ht; simpa using ha.types t ht
      have e8 : bucketsDefined c.nBuckets = .ok () := by
        unfold bucketsDefined
        rw [if_neg ha.buckets]
      have e6 : patchTypeDefined c (c.calib perm z) = .ok () := by
        unfold patchTypeDefined
        rw [if_neg]
        rintro ⟨hk, hm, hs⟩
        exact hx ⟨hk, hm, (somePatch_iff c perm z).1 hs⟩
      have hp := minProb_mem c ha.minProb ha.buckets hdim
      have e5 : calibrate c.method c.params c.nRounds c.split perm (c.data z) = .ok (loopResult c perm z) := by
        unfold calibrate loopResult
        rw [if_neg (by have := ha.rounds; omega), if_neg (by push Not; exact ha.eta), if_neg (by push Not; exact ha.split),
          if_neg (by push Not; exact hp), if_neg]
        · simp only [hlen]
        · rw [hd]; simpa [valuesOk_iff] using ha.values.1
      simp only [bind, Except.bind, e1, h1, h2, e2, e3, e4, e5, e6, e7, e8, Option.isSome_none, Bool.or_self]
      rfl
    · rintro ⟨hx, hy⟩
      rcases ha.patch with h | h
      · exact hx h
      · exact hy h
    · cases hm : c.minProbB with
      | none => simp
      | some m => simpa using ha.minProb m hm
    · have := ha.eta
      have := ha.split
      push Not
      exact ⟨ha.eta.1, ha.eta.2, ha.split.1, ha.split.2⟩
    · rw [hbad]; have := ha.rounds; simp; omega
    · rintro ⟨hk, hh⟩
      have := ha.coverage hk
      rcases hh with hh | hh <;> linarith [this.1, this.2]

/-- **C91.** Batch MVP with multiplicative patches and otherwise documented arguments raises `NotImplementedError` as soon as a
patch is to be computed; without a cell of sufficient probability it returns no patch. -/
theorem C91_mvp_multiplicative [FloorRing K] (c : Call K) (perm : List ℕ) (z zTest : ℕ → ℕ → K) (h1 : c.testGroups = none)
    (h2 : c.testValues = none) (ha : Accepted c z) (hk : c.kind = .mvp) (hm : c.patchType = "multiplicative") :
    (CellExists c perm z → calibrateCall c perm z zTest = .error "NotImplementedError") ∧
    (¬CellExists c perm z → ∃ l, calibrateCall c perm z zTest = .ok (⟨0, [l], false⟩, [], none)) := by
  have hbad : badOptions c = false := by simp [badOptions, h1, h2]
  have hdim := nDims_ne c ha.scores
  constructor
  · intro hx
    unfold calibrateCall
    rw [if_neg, if_neg, if_neg, if_neg, if_neg]
    · have e1 := (checkScores_iff _ _).2 ha.scores
      have e2 := (checkGroups_iff _).2 ha.groups
      have e3 := (checkValues_iff _ _).2 ha.values
      have e4 : minProbDefined c = .ok () := by
        unfold minProbDefined
        rw [if_neg]
        rintro ⟨hn, hz⟩
        exact Nat.mul_ne_zero_iff.2 ⟨ha.buckets, hdim⟩ hz
      have e7 : checkTypes c = .ok () := by
        unfold checkTypes
        rw [if_neg]
        simp only [Bool.not_eq_true', Bool.not_eq_false, List.all_eq_true]
        intro t ht; simpa using ha.types t ht
      have e8 : bucketsDefined c.nBuckets = .ok () := by
        unfold bucketsDefined
        rw [if_neg ha.buckets]
      have e6 : patchTypeDefined c (c.calib perm z) = .error "NotImplementedError" := by
        unfold patchTypeDefined
        rw [if_pos ⟨hk, hm, (somePatch_iff c perm z).2 hx⟩]
      simp only [bind, Except.bind, e1, h1, h2, e2, e3, e4, e6, e7, e8]
    · rintro ⟨hx, hy⟩
      exact hy hm
    · cases hm : c.minProbB with
      | none => simp
      | some m => simpa using ha.minProb m hm
    · push Not
      exact ⟨ha.eta.1, ha.eta.2, ha.split.1, ha.split.2⟩
    · rw [hbad]; have := ha.rounds; simp; omega
    · rintro ⟨hk, hh⟩
      have := ha.coverage hk
      rcases hh with hh | hh <;> linarith [this.1, this.2]
  · intro hx
    have h := (C91_accepts c perm z zTest h1 h2 _).2 ⟨⟨ha, fun hh => hx hh.2.2⟩, rfl⟩
    have hr : loopResult c perm z = (⟨0, [c.method.loss
        ((c.data z).pick (perm.drop (⌈c.split * (c.scores.vals.length : K)⌉).toNat)).values
        ((c.data z).pick (perm.drop (⌈c.split * (c.scores.vals.length : K)⌉).toNat)).scores], false⟩, []) := by
      unfold loopResult calibrateSplit
      obtain ⟨n, hn⟩ : ∃ n, c.nRounds = n + 1 := ⟨c.nRounds - 1, by have := ha.rounds; omega⟩
      have hround : ∀ s : State K, s.data = c.calib perm z → Multivalid.round c.method c.params s = (s, some .noCells) := by
        intro s hs
        have : somePatch c.params (c.calib perm z) = false := by
          rw [Bool.eq_false_iff]; exact fun hh => hx ((somePatch_iff c perm z).1 hh)
        unfold somePatch at this
        unfold Multivalid.round
        simp only [hs, this]
        rfl
      rw [hn, loop, hround _ rfl]
      rfl
    rw [hr] at h
    exact ⟨_, h⟩

/-! ### `apply_patches` -/

/-- **C91.** `apply_patches` with a stored patch: the patches are replayed on the given values, or on the initial values when only
groups are given; the groups default to a single group with all rows; the result consists of probabilities. -/
theorem C91_apply (kind : Kind) (cfg : Config K) (ps : List (Patch K)) (hps : ps ≠ []) (z : ℕ → ℕ → K)
    (groups : Option Groups) (values : Option (Arr K)) (out : Option (List (List K)))
    (h : applyCall kind cfg ps z groups values = .ok out) :
    ∃ v, v = initValues kind z values ((groups.map fun g => g.rows.length).getD 0) ∧
      out = some (replay cfg (initGroups groups v.rows.length) v.rows ps) ∧ AllProb v.rows ∧
      ∀ o, out = some o → AllProb o := by
  unfold applyCall at h
  by_cases h0 : groups.isNone = true ∧ values.isNone = true
  · rw [if_pos h0] at h; cases h
  rw [if_neg h0, if_neg hps] at h
  obtain ⟨_, e1, h⟩ := bind_ok.mp h
  obtain ⟨_, e2, h⟩ := bind_ok.mp h
  obtain ⟨o, e3, h⟩ := bind_ok.mp h
  have a1 := ((checkValues_iff _ _).1 e1).1
  refine ⟨_, rfl, ?_, a1, ?_⟩
  · unfold applyPatches at e3
    rw [if_neg hps] at e3
    by_cases h4 : (!valuesOk (initValues kind z values ((groups.map fun g => g.rows.length).getD 0)).rows) = true
    · rw [if_pos h4] at e3; cases e3
    rw [if_neg h4] at e3
    split at e3
    · cases e3
    · cases e3; cases h; rfl
  · intro o' ho
    cases h
    cases ho
    exact C16_apply_patches_prob cfg ps _ _ _ a1 e3

/-- **C91.** The test values returned by `calibrate` are those of `apply_patches` with the patches it stored. -/
theorem C91_test_values [FloorRing K] (c : Call K) (perm : List ℕ) (z zTest : ℕ → ℕ → K) (st : Status K)
    (ps : List (Patch K)) (t : Option (Option (List (List K)))) (h : calibrateCall c perm z zTest = .ok (st, ps, t)) :
    (t = none ↔ c.testGroups = none ∧ c.testValues = none) ∧
    ∀ o, t = some o → applyCall c.kind c.params.cfg ps zTest c.testGroups c.testValues = .ok o := by
  unfold calibrateCall at h
  split at h
  · cases h
  split at h
  · cases h
  split at h
  · cases h
  split at h
  · cases h
  split at h
  · cases h
  obtain ⟨_, -, h⟩ := bind_ok.mp h
  obtain ⟨_, -, h⟩ := bind_ok.mp h
  obtain ⟨_, -, h⟩ := bind_ok.mp h
  obtain ⟨_, -, h⟩ := bind_ok.mp h
  obtain ⟨_, -, h⟩ := bind_ok.mp h
  obtain ⟨_, -, h⟩ := bind_ok.mp h
  obtain ⟨_, -, h⟩ := bind_ok.mp h
  obtain ⟨p, -, h⟩ := bind_ok.mp h
  by_cases hs : (c.testGroups.isSome || c.testValues.isSome) = true
  · rw [if_pos hs] at h
    obtain ⟨o, e, h⟩ := bind_ok.mp h
    cases h
    refine ⟨?_, ?_⟩
    · constructor
      · intro hh; cases hh
      · rintro ⟨a, b⟩; simp [a, b] at hs
    · intro o' ho; cases ho; exact e
  · rw [if_neg hs] at h
    cases h
    refine ⟨?_, fun o ho => by cases ho⟩
    simpa using hs

/-- Groups of two rows, one group. -/
def twoRows : Groups := ⟨2, true, [[true], [true]]⟩

/-- **C91 (does not hold).** With test groups but no values, `apply_patches` should return calibrated values; it returns nothing
when no patch is stored. -/
theorem C91_no_patches_false :
    applyCall (K := ℚ) .base ⟨10, 1, .additive⟩ [] (fun _ _ => 0) (some twoRows) none = .ok none ∧
    applyCall (K := ℚ) .base ⟨10, 1, .additive⟩ [⟨0, 0, 0, 0, 1 / 2⟩] (fun _ _ => 0) (some twoRows) none =
      .ok (some [[1 / 2], [1 / 2]]) := by
  decide +kernel

/-! ### Initial values -/

/-- **C91.** The initial values of the binary method are probabilities as long as no normal variate exceeds 50 in size. -/
theorem C91_init_binary (z : ℕ → ℕ → K) (size : ℕ) (hz : ∀ i, |z i 0| ≤ 50) :
    ValuesGood .binary (initValues .binary z none size) ∧ (initValues .binary z none size).rows.length = size := by
  refine ⟨⟨?_, rfl⟩, by simp [initValues]⟩
  intro r hr x hx
  simp only [initValues, List.mem_map, List.mem_range] at hr
  obtain ⟨i, -, rfl⟩ := hr
  rw [List.mem_singleton] at hx
  have := abs_le.1 (hz i)
  subst hx
  constructor <;> linarith [this.1, this.2]

theorem sum_nonneg' (l : List K) (h : ∀ x ∈ l, 0 ≤ x) : 0 ≤ l.sum := List.sum_nonneg h

theorem le_sum (l : List K) (h : ∀ x ∈ l, 0 ≤ x) (x : K) (hx : x ∈ l) : x ≤ l.sum := List.single_le_sum h x hx

/-- **C91.** A row of initial values of the top-label method is a probability vector as long as its raw entries stay within
`[-2, 2]` and are not all lost to the reflection. -/
theorem C91_init_top_label (n : ℕ) (z : ℕ → K) (hz : ∀ c < n, |1 / (n : K) + 1 / 100 * z c| ≤ 2)
    (hpos : ∃ c < n, 0 < |1 / (n : K) + 1 / 100 * z c| ∧ |1 / (n : K) + 1 / 100 * z c| < 2) :
    (topRow n z).sum = 1 ∧ (∀ x ∈ topRow n z, 0 ≤ x ∧ x ≤ 1) ∧ (topRow n z).length = n := by
  set w : List K := (((List.range n).map fun c => |1 / (n : K) + 1 / 100 * z c|).map fun x => x - 2 * max 0 (x - 1)) with hw
  have hrow : topRow n z = w.map fun x => x / w.sum := rfl
  have hnn : ∀ x ∈ w, 0 ≤ x := by
    intro x hx
    simp only [hw, List.map_map, List.mem_map, List.mem_range, Function.comp] at hx
    obtain ⟨c, hc, rfl⟩ := hx
    have h1 := hz c hc
    have h2 := abs_nonneg (1 / (n : K) + 1 / 100 * z c)
    rcases max_cases (0 : K) (|1 / (n : K) + 1 / 100 * z c| - 1) with h | h <;> rw [h.1] <;> linarith
  have hs : 0 < w.sum := by
    obtain ⟨c, hc, h1, h2⟩ := hpos
    refine lt_of_lt_of_le ?_ (le_sum w hnn (|1 / (n : K) + 1 / 100 * z c| - 2 * max 0 (|1 / (n : K) + 1 / 100 * z c| - 1)) ?_)
    · rcases max_cases (0 : K) (|1 / (n : K) + 1 / 100 * z c| - 1) with h | h <;> rw [h.1] <;> linarith
    · simp only [hw, List.map_map, List.mem_map, List.mem_range, Function.comp]
      exact ⟨c, hc, rfl⟩
  refine ⟨?_, ?_, by simp [hrow, hw]⟩
  · rw [hrow]
    have : (w.map fun x => x / w.sum) = w.map fun x => x * (w.sum)⁻¹ := by simp [div_eq_mul_inv]
    rw [this, List.sum_map_mul_right]
    simp [hs.ne']
  · intro x hx
    rw [hrow, List.mem_map] at hx
    obtain ⟨y, hy, rfl⟩ := hx
    exact ⟨div_nonneg (hnn y hy) hs.le, by rw [div_le_one hs]; exact le_sum w hnn y hy⟩

/-! ### Scores -/

/-- **C91.** Top-label scores: the row of a target in range has its only 1 at the target. -/
theorem C91_one_hot (n : ℕ) (s : Scores K) (i t : ℕ) (ht : t < n) (hi : s.vals[i]? = some (t : K)) :
    ∃ row, (scoreRows (.topLabel n) s)[i]? = some row ∧ row.length = n ∧
      ∀ j < n, row[j]? = some (if j = t then 1 else 0) := by
  refine ⟨(List.range n).map fun j : ℕ => if (t : K) = (j : K) then 1 else 0, ?_, by simp, ?_⟩
  · simp [scoreRows, hi]
  · intro j hj
    rw [List.getElem?_map, List.getElem?_range hj]
    simp [eq_comm]

/-- **C91 (does not hold).** Targets out of range are not refused by the top-label method: their score row is zero. -/
theorem C91_out_of_range_false :
    checkScores (K := ℚ) (.topLabel 2) ⟨1, true, [5, -1]⟩ = .ok () ∧
    scoreRows (K := ℚ) (.topLabel 2) ⟨1, true, [5, -1]⟩ = [[0, 0], [0, 0]] := by
  decide +kernel

/-- **C91.** Binary targets with a single label are refused, by `calibrate` and by `calibration_error` alike. -/
theorem C91_single_class [FloorRing K] (c : Call K) (hk : c.kind = .binary) (y : K) (hy : ∀ x ∈ c.scores.vals, x = y)
    (perm : List ℕ) (z zTest : ℕ → ℕ → K) (pt : PatchType) (q : Option K) :
    (∀ r, calibrateCall c perm z zTest ≠ .ok r) ∧
    ∀ r, calibrationErrorCall .binary q pt z c.scores c.groups c.values c.nBuckets ≠ .ok r := by
  have hno : checkScores .binary c.scores ≠ .ok () := by
    intro h
    obtain ⟨-, -, -, h0, h1⟩ := (checkScores_iff _ _).1 h
    exact zero_ne_one ((hy _ h0).trans (hy _ h1).symm)
  constructor
  · intro r h
    unfold calibrateCall at h
    split at h
    · cases h
    split at h
    · cases h
    split at h
    · cases h
    split at h
    · cases h
    split at h
    · cases h
    obtain ⟨u, e, h⟩ := bind_ok.mp h
    rw [hk] at e
    exact hno e
  · intro r h
    unfold calibrationErrorCall at h
    obtain ⟨u, e, h⟩ := bind_ok.mp h
    exact hno e

/-- **C91 (does not hold).** `calibration_error` documents its thresholds as optional; the batch-MVP method raises a `TypeError`
without them, whatever the other (accepted) arguments. -/
theorem C91_mvp_error_false (q : Option K) (pt : PatchType) (z : ℕ → ℕ → K) (s : Scores K) (groups : Option Groups) (n : ℕ)
    (hs : ScoresGood .mvp s) (hg : ∀ g, groups = some g → GroupsGood g) :
    calibrationErrorCall .mvp q pt z s groups none n = .error "TypeError" := by
  unfold calibrationErrorCall
  simp only [bind, Except.bind, (checkScores_iff _ _).2 hs, (checkGroups_iff _).2 hg]
  rfl

/-- The other methods fill in the initial values. -/
theorem C91_error_defaults (kind : Kind) (hk : kind ≠ .mvp) (pt : PatchType) (q : Option K) (z : ℕ → ℕ → K) (s : Scores K)
    (groups : Option Groups) (n : ℕ) (hn : n ≠ 0) (hs : ScoresGood kind s) (hg : ∀ g, groups = some g → GroupsGood g) :
    ∃ r, calibrationErrorCall kind q pt z s groups none n = .ok r ∧
      r.length = ((initGroups groups s.vals.length).head?.map List.length).getD 0 ∧ ∀ e ∈ r, e.length = nDims kind := by
  unfold calibrationErrorCall
  simp only [bind, Except.bind, (checkScores_iff _ _).2 hs, (checkGroups_iff _).2 hg, bucketsDefined, if_neg hn]
  cases kind with
  | mvp => exact absurd rfl hk
  | _ =>
    refine ⟨_, rfl, by simp, ?_⟩
    intro e he
    obtain ⟨j, -, rfl⟩ := List.mem_map.1 he
    simp

/-! ### Conformal sets of the batch-MVP classifier -/

/-- The loop over sizes is a row-wise map. -/
theorem sizeLoop_eq (c : List (List Bool)) :
    (ConformalClassification.unique (ConformalClassification.sizes c)).foldl (ConformalClassification.stepSize c)
      (List.replicate c.length none) = c.map fun r => some (ConformalClassification.whereTrue r 0) := by
  obtain ⟨h1, h2⟩ := ConformalClassification.foldl_stepSize c
    (ConformalClassification.unique (ConformalClassification.sizes c)) (List.replicate c.length none) (by simp)
  apply List.ext_getElem?
  intro i
  by_cases hi : i < c.length
  · have hc : c[i]? = some c[i] := List.getElem?_eq_getElem hi
    have hm : c[i].count true ∈ ConformalClassification.unique (ConformalClassification.sizes c) := by
      unfold ConformalClassification.unique
      rw [List.mem_mergeSort, List.mem_dedup]
      exact List.mem_map.2 ⟨c[i], List.getElem_mem hi, rfl⟩
    rw [h2 i _ hc, if_pos hm, List.getElem?_map, hc]
    rfl
  · rw [List.getElem?_eq_none (by omega), List.getElem?_eq_none (by simpa using hi)]

/-- **C91.** `conformal_set`: refused unless scores are a matrix, thresholds a vector and the sizes agree; otherwise one set per
row, the classes, ascending, whose score is at most the threshold of the row. -/
theorem C91_mvp_sets (sn tn : ℕ) (scores : List (List K)) (th : List K) :
    ((∃ r, mvpConformalSet sn tn scores th = .ok r) ↔ sn = 2 ∧ tn = 1 ∧ scores.length = th.length) ∧
    ∀ r, mvpConformalSet sn tn scores th = .ok r → r.length = scores.length ∧
      ∀ (i : ℕ) (row : List K) (t : K), scores[i]? = some row → th[i]? = some t →
        ∃ S : List ℕ, r[i]? = some (some S) ∧ S.Pairwise (· < ·) ∧ ∀ j, j ∈ S ↔ ∃ x, row[j]? = some x ∧ x ≤ t := by
  unfold mvpConformalSet
  by_cases h1 : sn = 2
  swap
  · rw [if_pos h1]
    refine ⟨⟨?_, fun h => absurd h.1 h1⟩, ?_⟩
    · rintro ⟨r, h⟩; cases h
    · intro r h; cases h
  rw [if_neg (by simpa using h1)]
  by_cases h2 : tn = 1
  swap
  · rw [if_pos h2]
    refine ⟨⟨?_, fun h => absurd h.2.1 h2⟩, ?_⟩
    · rintro ⟨r, h⟩; cases h
    · intro r h; cases h
  rw [if_neg (by simpa using h2)]
  by_cases h3 : scores.length = th.length
  swap
  · rw [if_pos h3]
    refine ⟨⟨?_, fun h => absurd h.2.2 h3⟩, ?_⟩
    · rintro ⟨r, h⟩; cases h
    · intro r h; cases h
  rw [if_neg (by simpa using h3)]
  refine ⟨⟨fun _ => ⟨h1, h2, h3⟩, fun _ => ⟨_, rfl⟩⟩, ?_⟩
  intro r hr
  simp only [sizeLoop_eq, Except.ok.injEq] at hr
  subst hr
  refine ⟨by simp [h3], ?_⟩
  intro i row t hrow ht
  refine ⟨ConformalClassification.whereTrue (row.map fun s => decide (s ≤ t)) 0, ?_,
    ConformalClassification.sorted_whereTrue _ _, ?_⟩
  · rw [List.getElem?_map, List.getElem?_zipWith]; simp [hrow, ht]
  · intro j
    rw [ConformalClassification.mem_whereTrue]
    simp

/-- **C91.** Every refusal of `conformal_set` is a `ValueError`. -/
theorem C91_mvp_refused (sn tn : ℕ) (scores : List (List K)) (th : List K) (h : ¬(sn = 2 ∧ tn = 1 ∧ scores.length = th.length)) :
    mvpConformalSet sn tn scores th = .error "ValueError" := by
  unfold mvpConformalSet
  by_cases h1 : sn = 2 <;> by_cases h2 : tn = 1 <;> by_cases h3 : scores.length = th.length <;> simp_all

/-- Thresholds with two axes. -/
example : mvpConformalSet (K := ℚ) 2 2 [[1/4, 3/4]] [1/2] = .error "ValueError" := C91_mvp_refused 2 2 _ _ (by simp)

/-- **C91.** Larger thresholds give larger sets. -/
theorem C91_mvp_sets_mono (scores : List (List K)) (th th' : List K) (r r' : List (Option (List ℕ)))
    (h : mvpConformalSet 2 1 scores th = .ok r) (h' : mvpConformalSet 2 1 scores th' = .ok r') (i : ℕ) (t t' : K)
    (ht : th[i]? = some t) (ht' : th'[i]? = some t') (htt : t ≤ t') (S S' : List ℕ) (hS : r[i]? = some (some S))
    (hS' : r'[i]? = some (some S')) : ∀ j ∈ S, j ∈ S' := by
  have hl := ((C91_mvp_sets 2 1 scores th).1.1 ⟨r, h⟩).2.2
  have hi : i < scores.length := by
    rw [hl]; by_contra hc; rw [List.getElem?_eq_none (by omega)] at ht; cases ht
  obtain ⟨T, e1, -, m1⟩ := ((C91_mvp_sets 2 1 scores th).2 r h).2 i _ t (List.getElem?_eq_getElem hi) ht
  obtain ⟨T', e2, -, m2⟩ := ((C91_mvp_sets 2 1 scores th').2 r' h').2 i _ t' (List.getElem?_eq_getElem hi) ht'
  rw [hS] at e1; rw [hS'] at e2
  cases e1; cases e2
  intro j hj
  obtain ⟨x, hx, hxt⟩ := (m1 j).1 hj
  exact (m2 j).2 ⟨x, hx, hxt.trans htt⟩

/-- **C91 (does not hold).** Calibrated top-label probabilities need not sum to one: replaying a patch moves one class only. -/
theorem C91_normalized_false :
    applyCall (K := ℚ) (.topLabel 2) ⟨2, 1, .additive⟩ [⟨1, 0, 0, 0, 1 / 4⟩] (fun _ _ => 0) none
      (some ⟨2, [[1 / 2, 1 / 2]]⟩) = .ok (some [[3 / 4, 1 / 2]]) := by
  decide +kernel

/-! ### Examples -/

/-- A call that is accepted. -/
def exCall : Call ℚ :=
  { kind := .binary, scores := ⟨1, true, [0, 1, 1]⟩, groups := none, values := none, testGroups := none, testValues := none
    atol := 1 / 10, rtol := 0, minProbB := none, nBuckets := 4, nRounds := 3, eta := 1, split := 2 / 3
    bucketTypes := ["=", "<="], patchType := "additive", coverage := 0 }

theorem exCall_accepted : Accepted exCall (fun _ _ => 0) where
  coverage := by intro h; cases h
  rounds := by decide
  eta := by norm_num [exCall]
  split := by norm_num [exCall]
  minProb := by intro m h; cases h
  buckets := by decide
  patch := Or.inl rfl
  types := by decide
  scores := ⟨rfl, rfl, by decide +kernel, by decide +kernel, by decide +kernel⟩
  groups := by intro g h; cases h
  values := (C91_init_binary (fun _ _ => (0 : ℚ)) 3 (by norm_num)).1

/-- The same data for batch MVP with multiplicative patches. -/
def exMvp : Call ℚ := { exCall with kind := .mvp, patchType := "multiplicative" }

theorem exMvp_cell : CellExists exMvp [0, 1, 2] (fun _ _ => 0) :=
  (somePatch_iff _ _ _).1 (by decide +kernel)

example : mvpConformalSet (K := ℚ) 2 1 [[1/4, 3/4], [1/2, 1/2], [1, 1]] [1/2, 1/2, 1/2] =
    .ok [some [0], some [0, 1], some []] := by
  unfold mvpConformalSet
  simp only [sizeLoop_eq]
  decide +kernel

example : (topRow 2 (fun _ => (0 : ℚ))) = [1/2, 1/2] := by decide +kernel

/-! ### Concrete cases that meet the hypotheses of the theorems above -/

example := C91_accepts exCall [0, 1, 2] (fun _ _ => 0) (fun _ _ => 0) rfl rfl

theorem exMvp_accepted : Accepted exMvp (fun _ _ => 0) where
  coverage := fun _ => by norm_num [exMvp, exCall]
  rounds := by decide
  eta := by norm_num [exMvp, exCall]
  split := by norm_num [exMvp, exCall]
  minProb := by intro m h; cases h
  buckets := by decide
  patch := Or.inr rfl
  types := by decide
  scores := ⟨rfl, by simp [exMvp, exCall]⟩
  groups := by intro g h; cases h
  values := ⟨by simp [initValues, exMvp, exCall, AllProb], by simp [exMvp, exCall]⟩

example := (C91_mvp_multiplicative exMvp [0, 1, 2] (fun _ _ => 0) (fun _ _ => 0) rfl rfl exMvp_accepted rfl rfl).1 exMvp_cell
example : ∃ o, applyCall .binary ⟨4, 1, .additive⟩ [⟨0, 0, (1 / 2 : ℚ), 0, 1 / 4⟩] (fun _ _ => 0) none (some ⟨1, [[1 / 2], [1 / 4]]⟩) = .ok o ∧
    ∀ q, o = some q → AllProb q := by
  obtain ⟨o, h⟩ : ∃ o, applyCall .binary ⟨4, 1, .additive⟩ [⟨0, 0, (1 / 2 : ℚ), 0, 1 / 4⟩] (fun _ _ => 0) none
      (some ⟨1, [[1 / 2], [1 / 4]]⟩) = .ok o := ⟨some [[1 / 2 + 1 / 4], [1 / 4]], by decide +kernel⟩
  obtain ⟨_, _, _, _, h4⟩ := C91_apply .binary ⟨4, 1, .additive⟩ [⟨0, 0, (1 / 2 : ℚ), 0, 1 / 4⟩] (by simp) (fun _ _ => 0) none _ o h
  exact ⟨o, h, h4⟩
example := C91_init_top_label 2 (fun _ => (0 : ℚ)) (by norm_num [abs_of_pos]) ⟨0, by norm_num, by norm_num [abs_of_pos]⟩
example := C91_one_hot 3 (⟨1, true, [0, 2]⟩ : Scores ℚ) 1 2 (by norm_num) (by norm_num)
example := C91_single_class { exCall with scores := ⟨1, true, [1, 1]⟩ } rfl 1 (by simp) [0, 1] (fun _ _ => 0) (fun _ _ => 0) .additive none
example := C91_mvp_error_false none .additive (fun _ _ => (0 : ℚ)) ⟨1, false, [1 / 2, 1]⟩ none 4 ⟨rfl, by norm_num⟩ (by simp)
example := C91_error_defaults .binary (by simp) .additive none (fun _ _ => (0 : ℚ)) ⟨1, true, [0, 1, 1]⟩ (some ⟨2, true, [[true], [true], [false]]⟩) 4
  (by norm_num) ⟨rfl, rfl, by simp, by simp, by simp⟩ (by rintro g h; cases h; exact ⟨rfl, rfl⟩)
example : ∀ j ∈ [0], j ∈ [0, 1] :=
  C91_mvp_sets_mono (K := ℚ) [[1 / 4, 3 / 4], [1 / 2, 1 / 2]] [1 / 2, 1 / 2] [3 / 4, 1 / 2] [some [0], some [0, 1]] [some [0, 1], some [0, 1]]
    (by unfold mvpConformalSet; simp only [sizeLoop_eq]; decide +kernel) (by unfold mvpConformalSet; simp only [sizeLoop_eq]; decide +kernel)
    0 (1 / 2) (3 / 4) rfl rfl (by norm_num) _ _ rfl rfl

example := C91_init_binary (K := ℚ) (fun i _ => if i = 0 then 3 else -2) 4 (by
  intro i
  split_ifs <;> norm_num [abs_of_neg])

end Verif.Props.MultivalidEntry
