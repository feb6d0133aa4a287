import Verif.Props.MultivalidEntry

/-! Property C91, continued: exceptions, defaults and test data. -/
set_option linter.unusedSectionVars false

namespace Verif.Props.MultivalidEntry

open Verif.Multivalid Verif.MultivalidEntry Verif.Props

variable {K : Type} [Field K] [LinearOrder K] [IsStrictOrderedRing K]

/-! ### Lemmas -/

theorem bind_error {α β : Type} {x : Except String α} {f : α → Except String β} {e : String}
    (h : (x >>= f) = .error e) : x = .error e ∨ ∃ a, x = .ok a ∧ f a = .error e := by
  cases x with
  | error e' => left; simpa [bind, Except.bind] using h
  | ok a => right; exact ⟨a, rfl, h⟩

theorem checkScores_error (kind : Kind) (s : Scores K) (e : String) (h : checkScores kind s = .error e) :
    e = "ValueError" := by
  unfold checkScores at h
  split at h
  · cases h; rfl
  · split at h
    · split at h
      · cases h; rfl
      · split at h <;> cases h; rfl
    · split at h
      · cases h; rfl
      · split at h <;> cases h; rfl
    · split at h <;> cases h; rfl

theorem checkGroups_error (groups test : Option Groups) (e : String) (h : checkGroups groups test = .error e) :
    e = "ValueError" := by
  unfold checkGroups at h
  split at h <;> cases h; rfl

theorem checkValues_error (kind : Kind) (a : Arr K) (test : Option (Arr K)) (e : String)
    (h : checkValues kind (some a) test = .error e) : e = "ValueError" := by
  unfold checkValues at h
  cases kind <;> dsimp only at h <;> repeat' split at h
  all_goals first | (cases h; rfl) | (cases h)

theorem applyCall_error (kind : Kind) (cfg : Config K) (ps : List (Patch K)) (z : ℕ → ℕ → K) (groups : Option Groups)
    (values : Option (Arr K)) (e : String) (h : applyCall kind cfg ps z groups values = .error e) :
    e = "ValueError" ∨ e = "TypeError" ∧ ∃ g a, groups = some g ∧ values = some a ∧ g.rows.length ≠ a.rows.length := by
  unfold applyCall at h
  split at h
  · cases h; exact Or.inl rfl
  split at h
  · cases h
  next hps =>
  rcases bind_error h with h | ⟨_, -, h⟩
  · exact Or.inl (checkValues_error _ _ _ _ h)
  rcases bind_error h with h | ⟨_, -, h⟩
  · exact Or.inl (checkGroups_error _ _ _ h)
  rcases bind_error h with h | ⟨_, -, h⟩
  · unfold applyPatches at h
    rw [if_neg hps] at h
    split at h
    · cases h; exact Or.inl rfl
    split at h
    · next hl =>
      cases h
      right
      refine ⟨rfl, ?_⟩
      cases groups with
      | none => exact absurd (by simp [initGroups]) hl
      | some g =>
        cases values with
        | some a => exact ⟨g, a, rfl, rfl, hl⟩
        | none =>
          exfalso
          apply hl
          cases kind <;> simp [initGroups, initValues]
    · cases h
  · cases h

/-! ### Exceptions -/

/-- **C91.** A call of `calibrate` that is refused raises `ValueError`, with three exceptions: without buckets a division
by zero is tried, multiplicative patches are not implemented for batch MVP, and test groups and test values
with different numbers of rows cannot be combined. -/
theorem C91_exceptions [FloorRing K] (c : Call K) (perm : List ℕ) (z zTest : ℕ → ℕ → K) (e : String)
    (h : calibrateCall c perm z zTest = .error e) :
    e = "ValueError" ∨
    (e = "ZeroDivisionError" ∧ c.nBuckets = 0) ∨
    (e = "NotImplementedError" ∧ c.kind = .mvp ∧ c.patchType = "multiplicative") ∨
    (e = "TypeError" ∧ ∃ g a, c.testGroups = some g ∧ c.testValues = some a ∧ g.rows.length ≠ a.rows.length) := by
  unfold calibrateCall at h
  split at h
  · cases h; exact Or.inl rfl
  split at h
  · cases h; exact Or.inl rfl
  split at h
  · cases h; exact Or.inl rfl
  split at h
  · cases h; exact Or.inl rfl
  split at h
  · cases h; exact Or.inl rfl
  rcases bind_error h with h | ⟨_, e1, h⟩
  · exact Or.inl (checkScores_error _ _ _ h)
  have hdim := nDims_ne c ((checkScores_iff _ _).1 e1)
  rcases bind_error h with h | ⟨_, -, h⟩
  · unfold minProbDefined at h
    split at h
    · next hm =>
      cases h
      right; left
      refine ⟨rfl, ?_⟩
      rcases Nat.mul_eq_zero.1 hm.2 with h0 | h0
      · exact h0
      · exact absurd h0 hdim
    · cases h
  rcases bind_error h with h | ⟨_, -, h⟩
  · exact Or.inl (checkGroups_error _ _ _ h)
  rcases bind_error h with h | ⟨_, -, h⟩
  · exact Or.inl (checkValues_error _ _ _ _ h)
  rcases bind_error h with h | ⟨_, -, h⟩
  · unfold checkTypes at h
    split at h
    · cases h; exact Or.inl rfl
    · cases h
  rcases bind_error h with h | ⟨_, -, h⟩
  · unfold bucketsDefined at h
    split at h
    · next h0 => cases h; exact Or.inr (Or.inl ⟨rfl, h0⟩)
    · cases h
  rcases bind_error h with h | ⟨_, -, h⟩
  · unfold patchTypeDefined at h
    split at h
    · next hk => cases h; exact Or.inr (Or.inr (Or.inl ⟨rfl, hk.1, hk.2.1⟩))
    · cases h
  rcases bind_error h with h | ⟨r, -, h⟩
  · unfold calibrate at h
    repeat' split at h
    all_goals first | (cases h; exact Or.inl rfl) | (cases h)
  split at h
  · rcases bind_error h with h | ⟨_, -, h⟩
    · rcases applyCall_error _ _ _ _ _ _ _ h with h | h
      · exact Or.inl h
      · exact Or.inr (Or.inr (Or.inr h))
    · cases h
  · cases h

/-- **C91.** `apply_patches` raises `ValueError` for arguments it refuses, apart from groups and values with different numbers
of rows. -/
theorem C91_apply_exceptions (kind : Kind) (cfg : Config K) (ps : List (Patch K)) (z : ℕ → ℕ → K) (groups : Option Groups)
    (values : Option (Arr K)) (e : String) (h : applyCall kind cfg ps z groups values = .error e) :
    e = "ValueError" ∨ e = "TypeError" ∧ ∃ g a, groups = some g ∧ values = some a ∧ g.rows.length ≠ a.rows.length :=
  applyCall_error kind cfg ps z groups values e h

/-- **C91.** `calibration_error` of batch MVP before `calibrate` fails with a `TypeError` (the coverage is not known). -/
theorem C91_mvp_error_before (pt : PatchType) (z : ℕ → ℕ → K) (s : Scores K) (groups : Option Groups) (a : Arr K) (n : ℕ)
    (hn : n ≠ 0) (hs : ScoresGood .mvp s) (hg : ∀ g, groups = some g → GroupsGood g) (ha : AllProb a.rows) :
    calibrationErrorCall .mvp none pt z s groups (some a) n = .error "TypeError" := by
  unfold calibrationErrorCall
  simp only [bind, Except.bind, (checkScores_iff _ _).2 hs, (checkGroups_iff _).2 hg,
    (checkValues_iff .mvp a).2 ⟨ha, trivial⟩, bucketsDefined, if_neg hn]

/-- **C91.** After `calibrate` it returns one number per group; the coverage is the one given to `calibrate`. -/
theorem C91_mvp_error_after (q : K) (pt : PatchType) (z : ℕ → ℕ → K) (s : Scores K) (groups : Option Groups) (a : Arr K)
    (n : ℕ) (hn : n ≠ 0) (hs : ScoresGood .mvp s) (hg : ∀ g, groups = some g → GroupsGood g) (ha : AllProb a.rows) :
    ∃ r, calibrationErrorCall .mvp (some q) pt z s groups (some a) n = .ok r ∧
      r = ((List.range (((initGroups groups s.vals.length).head?.map List.length).getD 0)).map fun j =>
        [calibrationError (batchMVP q n) n ⟨initGroups groups s.vals.length, a.rows, s.vals.map fun y => [y]⟩ j 0]) := by
  unfold calibrationErrorCall
  simp only [bind, Except.bind, (checkScores_iff _ _).2 hs, (checkGroups_iff _).2 hg,
    (checkValues_iff .mvp a).2 ⟨ha, trivial⟩, bucketsDefined, if_neg hn]
  exact ⟨_, rfl, rfl⟩

/-! ### Defaults -/

/-- **C91.** What the loop works with: the named patch type, one score column (or one per class for the top-label method), one
group per column of `groups` (a single group without them), and by default `min_prob_b = 1 / (buckets · columns)`. -/
theorem C91_parameters (c : Call K) :
    (c.patchType = "additive" → c.params.cfg.ptype = .additive) ∧
    (c.patchType = "multiplicative" → c.params.cfg.ptype = .multiplicative) ∧
    (∀ z, ∀ r ∈ (c.data z).scores, r.length = c.params.nDims) ∧
    (c.groups = none → c.params.nGroups = 1) ∧
    (∀ g n, c.groups = some g → g.rows ≠ [] → (∀ r ∈ g.rows, r.length = n) → c.params.nGroups = n) ∧
    (c.minProbB = none → 0 < c.nBuckets → (∀ n, c.kind ≠ .topLabel n) → c.params.minProbB * (c.nBuckets : K) = 1) ∧
    (∀ n, c.minProbB = none → 0 < c.nBuckets → 0 < n → c.kind = .topLabel n →
      c.params.minProbB * ((c.nBuckets : K) * (n : K)) = 1) ∧
    (∀ m, c.minProbB = some m → c.params.minProbB = m) := by
  refine ⟨?_, ?_, ?_, ?_, ?_, ?_, ?_, ?_⟩
  · intro h; simp [Call.params, Call.ptype, h]
  · intro h; simp [Call.params, Call.ptype, h]
  · intro z r hr
    simp only [Call.data, scoreRows] at hr
    cases hk : c.kind with
    | topLabel n =>
      rw [hk] at hr
      obtain ⟨y, -, rfl⟩ := List.mem_map.1 hr
      simp [Call.params, hk, nDims]
    | _ =>
      rw [hk] at hr
      obtain ⟨y, -, rfl⟩ := List.mem_map.1 hr
      simp [Call.params, hk, nDims]
  · intro h; simp [Call.params, h]
  · intro g n h hne hr
    cases hg : g.rows with
    | nil => exact absurd hg hne
    | cons r rs => simp [Call.params, h, hg, hr r (by simp [hg])]
  · intro hm hb hk
    have hb' : (c.nBuckets : K) ≠ 0 := by exact_mod_cast hb.ne'
    cases hk' : c.kind with
    | topLabel n => exact absurd hk' (hk n)
    | _ => simp [Call.params, hm, hk', nDims, hb']
  · intro n hm hb hn hk
    have hb' : (c.nBuckets : K) ≠ 0 := by exact_mod_cast hb.ne'
    have hn' : (n : K) ≠ 0 := by exact_mod_cast hn.ne'
    simp only [Call.params, hm, hk, nDims, Option.getD_none]
    field_simp
  · intro m hm; simp [Call.params, hm]

/-- **C91.** The initial values: zero (multicalibration, batch MVP), one half plus a hundredth of a normal variate (binary). -/
theorem C91_initial_values (z : ℕ → ℕ → K) (size i : ℕ) (hi : i < size) :
    (initValues .base z none size).rows[i]? = some [0] ∧ (initValues .mvp z none size).rows[i]? = some [0] ∧
    ∃ x, (initValues .binary z none size).rows[i]? = some [x] ∧ 100 * (x - 1 / 2) = z i 0 := by
  refine ⟨?_, ?_, 1 / 2 + 1 / 100 * z i 0, ?_, ?_⟩
  · simp [initValues, hi]
  · simp [initValues, hi]
  · simp only [initValues]
    rw [List.getElem?_map, List.getElem?_range hi]; rfl
  · ring

/-! ### Test data -/

/-- **C91.** The optional arguments are consistent exactly if no test data are given, or test groups are given just when groups
are and test values just when values are. -/
theorem C91_options (c : Call K) :
    badOptions c = false ↔ (c.testGroups = none ∧ c.testValues = none) ∨
      ((c.testGroups = none ↔ c.groups = none) ∧ (c.testValues = none ↔ c.values = none)) := by
  unfold badOptions
  cases c.testGroups <;> cases c.testValues <;> cases c.groups <;> cases c.values <;> simp

/-- Test values that are accepted. -/
def TestValuesGood (kind : Kind) (a : Arr K) : Prop :=
  match kind with
  | .base => a.ndim = 1 ∧ AllProb a.rows
  | .binary => a.ndim = 1 ∧ AllProb a.rows
  | .topLabel _ => a.ndim = 2 ∧ AllProb a.rows
  | .mvp => AllProb a.rows

theorem checkGroups_both (groups test : Option Groups) :
    checkGroups groups test = .ok () ↔
      (∀ g, groups = some g → GroupsGood g) ∧ ∀ g, test = some g → GroupsGood g := by
  unfold checkGroups GroupsGood
  cases groups with
  | none =>
    cases test with
    | none => simp
    | some g => by_cases h : g.ndim = 2 <;> cases h2 : g.isBool <;> simp [h, h2]
  | some g' =>
    cases test with
    | none => by_cases h : g'.ndim = 2 <;> cases h2 : g'.isBool <;> simp [h, h2]
    | some g =>
      by_cases h : g.ndim = 2 <;> cases h2 : g.isBool <;> by_cases h3 : g'.ndim = 2 <;> cases h4 : g'.isBool <;>
        simp [h, h2, h3, h4]

theorem checkValues_both (kind : Kind) (a : Arr K) (test : Option (Arr K)) (ha : ValuesGood kind a)
    (ht : ∀ b, test = some b → TestValuesGood kind b) : checkValues kind (some a) test = .ok () := by
  have h0 := (checkValues_iff kind a).2 ha
  cases test with
  | none => exact h0
  | some b =>
    have hb := ht b rfl
    unfold checkValues at h0 ⊢
    cases kind with
    | mvp => exact h0
    | base =>
      have e : valuesOk b.rows = true := (valuesOk_iff _).2 hb.2
      have e1 : goodArr 1 a = true := (goodArr_iff 1 a).2 ⟨ha.2, ha.1⟩
      simp [e, e1]
    | binary =>
      have e : goodArr 1 b = true := (goodArr_iff 1 b).2 hb
      have e1 : goodArr 1 a = true := (goodArr_iff 1 a).2 ⟨ha.2, ha.1⟩
      simp [e, e1]
    | topLabel n =>
      have e : goodArr 2 b = true := (goodArr_iff 2 b).2 hb
      have e1 : goodArr 2 a = true := (goodArr_iff 2 a).2 ⟨ha.2, ha.1⟩
      simp [e, e1]

/-- **C91.** With test groups and test values given besides groups and values, well formed and of equal length, `calibrate`
succeeds on the documented arguments: the status and patches are those without test data, and the test values returned are the
given ones with the stored patches applied. -/
theorem C91_test_data [FloorRing K] (c : Call K) (perm : List ℕ) (z zTest : ℕ → ℕ → K) (g tg : Groups) (v tv : Arr K)
    (hg : c.groups = some g) (hv : c.values = some v) (htg : c.testGroups = some tg) (htv : c.testValues = some tv)
    (hacc : Accepted c z) (hpt : ¬(c.kind = .mvp ∧ c.patchType = "multiplicative")) (hgg : GroupsGood tg) (hvg : TestValuesGood c.kind tv) (hl : tg.rows.length = tv.rows.length) :
    ∃ st ps, calibrateCall { c with testGroups := none, testValues := none } perm z zTest = .ok (st, ps, none) ∧
      calibrateCall c perm z zTest = .ok (st, ps, some (some (replay c.params.cfg tg.rows tv.rows ps))) := by
  have hacc0 : Accepted { c with testGroups := none, testValues := none } z :=
    ⟨hacc.coverage, hacc.rounds, hacc.eta, hacc.split, hacc.minProb, hacc.buckets, hacc.patch, hacc.types, hacc.scores,
      hacc.groups, hacc.values⟩
  have h0 := (C91_accepts { c with testGroups := none, testValues := none } perm z zTest rfl rfl _).2 ⟨⟨hacc0, fun hh => hpt ⟨hh.1, hh.2.1⟩⟩, rfl⟩
  refine ⟨_, _, h0, ?_⟩
  set st := loopResult { c with testGroups := none, testValues := none } perm z with hst
  unfold calibrateCall at h0 ⊢
  have hbad : badOptions c = false := by simp [badOptions, hg, hv, htg, htv]
  have hbad0 : badOptions { c with testGroups := none, testValues := none } = false := by simp [badOptions]
  rw [hbad0] at h0
  rw [hbad]
  dsimp only at h0
  by_cases c1 : c.kind = .mvp ∧ (c.coverage < 0 ∨ c.coverage > 1)
  · rw [if_pos c1] at h0; cases h0
  rw [if_neg c1] at h0 ⊢
  by_cases c2 : c.nRounds < 1 ∨ false = true
  · rw [if_pos c2] at h0; cases h0
  rw [if_neg c2] at h0 ⊢
  by_cases c2' : c.eta ≤ 0 ∨ c.eta > 1 ∨ c.split ≤ 0 ∨ c.split > 1
  · rw [if_pos c2'] at h0; cases h0
  rw [if_neg c2'] at h0 ⊢
  by_cases c3 : (c.minProbB.any fun m => decide (m < 0 ∨ m > 1)) = true
  · rw [if_pos c3] at h0; cases h0
  rw [if_neg c3] at h0 ⊢
  by_cases c4 : c.patchType ≠ "additive" ∧ c.patchType ≠ "multiplicative"
  · rw [if_pos c4] at h0; cases h0
  rw [if_neg c4] at h0 ⊢
  obtain ⟨_, e1, h0⟩ := bind_ok.mp h0
  obtain ⟨_, e4, h0⟩ := bind_ok.mp h0
  obtain ⟨_, e2, h0⟩ := bind_ok.mp h0
  obtain ⟨_, e3, h0⟩ := bind_ok.mp h0
  obtain ⟨_, e7, h0⟩ := bind_ok.mp h0
  obtain ⟨_, e8, h0⟩ := bind_ok.mp h0
  obtain ⟨_, e6, h0⟩ := bind_ok.mp h0
  obtain ⟨r, e5, h0⟩ := bind_ok.mp h0
  have e2' : checkGroups c.groups c.testGroups = .ok () :=
    (checkGroups_both _ _).2 ⟨hacc.groups, fun g' hg' => by rw [htg] at hg'; cases hg'; exact hgg⟩
  have e3' : checkValues c.kind (some (initValues c.kind z c.values (initGroups c.groups c.scores.vals.length).length))
      c.testValues = .ok () :=
    checkValues_both _ _ _ hacc.values (fun b hb => by rw [htv] at hb; cases hb; exact hvg)
  have e4' : minProbDefined c = .ok () := e4
  have e5' : calibrate c.method c.params c.nRounds c.split perm (c.data z) = .ok r := e5
  have e6' : patchTypeDefined c (c.calib perm z) = .ok () := e6
  have e7' : checkTypes c = .ok () := e7
  have e8' : bucketsDefined c.nBuckets = .ok () := e8
  have hr : r = st := by
    simp only [Option.isSome_none, Bool.or_self, Bool.false_eq_true, if_false, Except.ok.injEq, Prod.mk.injEq] at h0
    exact Prod.ext h0.1 h0.2.1
  have hprob : AllProb tv.rows := by
    unfold TestValuesGood at hvg
    cases hk : c.kind <;> rw [hk] at hvg
    · exact hvg.2
    · exact hvg.2
    · exact hvg.2
    · exact hvg
  have happ : applyCall c.kind c.params.cfg st.2 zTest c.testGroups c.testValues =
      .ok (some (replay c.params.cfg tg.rows tv.rows st.2)) := by
    unfold applyCall
    rw [htg, htv]
    rw [if_neg (by simp)]
    by_cases hps : st.2 = []
    · rw [if_pos hps, hps]; rfl
    rw [if_neg hps]
    have a1 : checkValues c.kind (some (initValues c.kind zTest (some tv) ((Option.map (fun g => g.rows.length) (some tg)).getD 0)))
        none = .ok () := by
      apply (checkValues_iff _ _).2
      unfold TestValuesGood at hvg
      unfold ValuesGood
      refine ⟨hprob, ?_⟩
      cases hk : c.kind <;> rw [hk] at hvg
      · exact hvg.1
      · exact hvg.1
      · exact hvg.1
      · trivial
    have a2 : checkGroups (some tg) none = .ok () := (checkGroups_iff _).2 (fun g' hg' => by cases hg'; exact hgg)
    have a3 : applyPatches c.params.cfg st.2 (initGroups (some tg) (initValues c.kind zTest (some tv)
        ((Option.map (fun g => g.rows.length) (some tg)).getD 0)).rows.length)
        (initValues c.kind zTest (some tv) ((Option.map (fun g => g.rows.length) (some tg)).getD 0)).rows =
        .ok (replay c.params.cfg tg.rows tv.rows st.2) := by
      unfold applyPatches
      rw [if_neg hps]
      have : valuesOk tv.rows = true := (valuesOk_iff _).2 hprob
      simp [initValues, initGroups, this, hl]
    simp only [bind, Except.bind, a1, a2, a3]
  subst hr
  simp only [bind, Except.bind, e1, e2', e3', e4', e5', e6', e7', e8', happ]
  simp [htg]

/-- The exception raised. -/
def errorOf {α : Type} : Except String α → Option String
  | .error e => some e
  | .ok _ => none

/-- A call with test data. -/
def exTest : Call ℚ :=
  { exCall with
    kind := .base
    scores := ⟨1, false, [0, 1, 1]⟩
    groups := some ⟨2, true, [[true], [true], [true]]⟩
    values := some ⟨1, [[0], [0], [0]]⟩
    testGroups := some twoRows
    testValues := some ⟨1, [[0], [1]]⟩ }

example : errorOf (calibrateCall exTest [0, 1, 2] (fun _ _ => 0) (fun _ _ => 0)) = none := by decide +kernel

-- and some that are refused
example : errorOf (calibrateCall { exCall with nBuckets := 0 } [0, 1, 2] (fun _ _ => 0) (fun _ _ => 0)) =
      some "ZeroDivisionError" ∧
    errorOf (calibrateCall { exCall with kind := .mvp, patchType := "multiplicative" } [0, 1, 2] (fun _ _ => 0)
      (fun _ _ => 0)) = some "NotImplementedError" ∧
    errorOf (calibrateCall { exCall with eta := 2 } [0, 1, 2] (fun _ _ => 0) (fun _ _ => 0)) = some "ValueError" := by
  decide +kernel

/-! ### Fewer scores than rows -/

theorem pick_take {α : Type} (l : List α) (n : ℕ) (idx : List ℕ) (h : ∀ i ∈ idx, i < n) :
    Multivalid.pick (l.take n) idx = Multivalid.pick l idx := by
  unfold Multivalid.pick
  apply List.filterMap_congr
  intro i hi
  rw [List.getElem?_take_of_lt (h i hi)]

/-- **C91, failure.** Numbers of rows are not compared: with more rows of groups and values than scores, `calibrate` silently
uses the first rows only, and returns what it returns without the others. -/
theorem C91_extra_rows_false [FloorRing K] (c : Call K) (perm : List ℕ) (z zTest : ℕ → ℕ → K) (h1 : c.testGroups = none)
    (h2 : c.testValues = none) (g : Groups) (v : Arr K) (hg : c.groups = some g) (hv : c.values = some v)
    (hn : c.scores.vals ≠ []) (hp : ∀ i ∈ perm, i < c.scores.vals.length) (r)
    (h : calibrateCall c perm z zTest = .ok r) :
    calibrateCall { c with
      groups := some ⟨g.ndim, g.isBool, g.rows.take c.scores.vals.length⟩
      values := some ⟨v.ndim, v.rows.take c.scores.vals.length⟩ } perm z zTest = .ok r := by
  generalize hN : c.scores.vals.length = N at hp
  have hN0 : N ≠ 0 := fun h => hn (List.length_eq_zero_iff.mp (hN.trans h))
  generalize hc' : ({ c with
      groups := some ⟨g.ndim, g.isBool, g.rows.take N⟩
      values := some ⟨v.ndim, v.rows.take N⟩ } : Call K) = c'
  obtain ⟨⟨hacc, hm⟩, hr⟩ := (C91_accepts c perm z zTest h1 h2 r).1 h
  have ek : c'.kind = c.kind := by rw [← hc']
  have eparams : c'.params = c.params := by
    have : (g.rows.take N).head? = g.rows.head? := by
      cases g.rows with
      | nil => simp
      | cons a l => cases N with
        | zero => exact absurd rfl hN0
        | succ N => simp
    rw [← hc']
    unfold Call.params
    simp only [hg, Option.map_some, this]
    rfl
  have hpick : ∀ idx : List ℕ, (∀ i ∈ idx, i ∈ perm) → (c'.data z).pick idx = (c.data z).pick idx := by
    intro idx hidx
    have hlt : ∀ i ∈ idx, i < N := fun i hi => hp i (hidx i hi)
    rw [← hc']
    unfold Call.data Data.pick
    simp only [hg, hv, initGroups, initValues, pick_take _ N idx hlt]
  have esc : c'.scores = c.scores := by rw [← hc']
  have esplit : c'.split = c.split := by rw [← hc']
  have hloop : loopResult c' perm z = loopResult c perm z := by
    have e1 : c'.method = c.method := by rw [← hc']; rfl
    have e2 : c'.nRounds = c.nRounds := by rw [← hc']
    unfold loopResult
    rw [hpick _ (fun i hi => List.mem_of_mem_take hi), hpick _ (fun i hi => List.mem_of_mem_drop hi), e1, e2, eparams, esc, esplit]
  refine (C91_accepts c' perm z zTest (by rw [← hc']; exact h1) (by rw [← hc']; exact h2) r).2 ⟨⟨?_, ?_⟩, by rw [hloop]; exact hr⟩
  · rw [← hc']
    refine ⟨hacc.coverage, hacc.rounds, hacc.eta, hacc.split, hacc.minProb, hacc.buckets, hacc.patch, hacc.types, hacc.scores,
      ?_, ?_⟩
    · intro g' hg'
      cases hg'
      exact hacc.groups g hg
    · have := hacc.values
      simp only [hv, initValues] at this ⊢
      refine ⟨fun r hr => this.1 r (List.mem_of_mem_take hr), this.2⟩
  · rw [ek]
    intro ⟨a, b, d⟩
    refine hm ⟨a, ?_, ?_⟩
    · rw [← b, ← hc']
    · have en : c'.nBuckets = c.nBuckets := by rw [← hc']
      unfold CellExists at d ⊢
      rw [hpick _ (fun i hi => List.mem_of_mem_take hi), eparams, en, ek, esc, esplit] at d
      exact d

example : errorOf (calibrateCall { exTest with
      groups := some ⟨2, true, [[true], [true], [true], [false]]⟩
      values := some ⟨1, [[0], [0], [0], [1 / 2]]⟩
      testGroups := none
      testValues := none } [0, 1, 2] (fun _ _ => 0) (fun _ _ => 0)) = none := by decide +kernel

/-! ### Concrete cases that meet the hypotheses of the theorems above -/

example := C91_exceptions { exCall with nBuckets := 0 } [0, 1, 2] (fun _ _ => 0) (fun _ _ => 0) "ZeroDivisionError"
example := C91_mvp_error_before (K := ℚ) .additive (fun _ _ => 0) ⟨1, false, [0, 1 / 2, 1]⟩ none ⟨1, [[0], [1], [1 / 2]]⟩ 5 (by decide)
  ⟨rfl, by simp; norm_num⟩ (by simp) (by simp [AllProb]; norm_num)
example := C91_mvp_error_after (K := ℚ) (9 / 10) .additive (fun _ _ => 0) ⟨1, false, [0, 1 / 2, 1]⟩ none ⟨1, [[0], [1], [1 / 2]]⟩ 5 (by decide)
  ⟨rfl, by simp; norm_num⟩ (by simp) (by simp [AllProb]; norm_num)
example := C91_initial_values (K := ℚ) (fun i _ => i) 3 2 (by decide)

end Verif.Props.MultivalidEntry
