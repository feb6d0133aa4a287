import Verif.Model.Multivalid
import Verif.Lemmas.ArrayOps
import Mathlib.Tactic.NormNum
import Mathlib.Tactic.Ring

/-! Properties C16–C18: iterative multivalid methods, patch application and the calibration loop. -/
set_option linter.unusedSectionVars false

namespace Verif.Props

open Verif.Multivalid Verif.ArrayOps

variable {K : Type*} [Field K] [LinearOrder K] [IsStrictOrderedRing K]

/-! ### C16 -/

/-- Specification: every entry is a probability. -/
def AllProb (values : List (List K)) : Prop := ∀ r ∈ values, ∀ x ∈ r, 0 ≤ x ∧ x ≤ 1

theorem valuesOk_iff (values : List (List K)) : valuesOk values = true ↔ AllProb values := by
  simp [valuesOk, AllProb]

theorem patchEntry_mem (pt : PatchType) (eta delta x : K) : 0 ≤ patchEntry pt eta delta x ∧ patchEntry pt eta delta x ≤ 1 := by
  cases pt <;> exact clip_mem _ _ _ zero_le_one

theorem allProb_applyPatch (cfg : Config K) (groups : List (List Bool)) (values : List (List K)) (p : Patch K)
    (h : AllProb values) : AllProb (applyPatch cfg groups values p) := by
  intro r hr x hx
  unfold applyPatch patchValues at hr
  rw [List.mem_iff_getElem] at hr
  obtain ⟨i, hi, rfl⟩ := hr
  rw [List.getElem_zipWith] at hx
  unfold patchRow at hx
  have hv : i < values.length := by rw [List.length_zipWith] at hi; omega
  split at hx
  · rcases List.mem_or_eq_of_mem_set hx with h1 | h1
    · exact h _ (List.getElem_mem hv) x h1
    · rw [h1]; exact patchEntry_mem _ _ _ _
  · exact h _ (List.getElem_mem hv) x hx

theorem allProb_replay (cfg : Config K) (groups : List (List Bool)) (values : List (List K)) (ps : List (Patch K))
    (h : AllProb values) : AllProb (replay cfg groups values ps) := by
  unfold replay
  induction ps generalizing values with
  | nil => exact h
  | cons p ps ih => exact ih _ (allProb_applyPatch cfg groups values p h)

/-- **C16.** `apply_patches` maps probabilities to probabilities, for any stored patches (even hand-made ones), any
step size and both patch types. -/
theorem C16_apply_patches_prob (cfg : Config K) (ps : List (Patch K)) (groups : List (List Bool))
    (values out : List (List K)) (h : AllProb values) (hout : applyPatches cfg ps groups values = .ok out) :
    AllProb out := by
  unfold applyPatches at hout
  split at hout
  · cases hout; exact h
  split at hout
  · cases hout
  split at hout
  · cases hout
  · cases hout; exact allProb_replay _ _ _ _ h

/-- **C16.** Once at least one patch is stored, `apply_patches` accepts exactly the probability arrays. -/
theorem C16_accepts_iff (cfg : Config K) (ps : List (Patch K)) (hps : ps ≠ []) (groups : List (List Bool))
    (values : List (List K)) (hlen : groups.length = values.length) :
    (∃ out, applyPatches cfg ps groups values = .ok out) ↔ AllProb values := by
  rw [← valuesOk_iff]
  unfold applyPatches
  rw [if_neg hps]
  by_cases hv : valuesOk values = true
  · simp [hv, hlen]
  · simp [hv]

example : applyPatches (K := ℚ) ⟨4, 1, .additive⟩ [⟨1, 0, 1 / 2, 0, 3⟩, ⟨2, 0, 0, 0, - 1 / 10⟩]
    [[true], [true], [false]] [[1 / 2], [0], [9 / 10]] = .ok [[1], [0], [9 / 10]] := by decide +kernel

/-- The values held by the calibration loop are probabilities in every reachable state. -/
theorem round_allProb (m : Method K) (p : Params K) (s : State K) (h1 : AllProb s.data.values)
    (h2 : AllProb s.val.values) :
    AllProb (round m p s).1.data.values ∧ AllProb (round m p s).1.val.values := by
  unfold Multivalid.round
  dsimp only
  split
  · exact ⟨h1, h2⟩
  split
  · exact ⟨h1, h2⟩
  next cell _ =>
  split
  · exact ⟨h1, h2⟩
  next delta _ =>
  have k1 := allProb_applyPatch p.cfg s.data.groups s.data.values ⟨cell.tau, cell.g, cell.v, cell.c, delta⟩ h1
  have k2 := allProb_applyPatch p.cfg s.val.groups s.val.values ⟨cell.tau, cell.g, cell.v, cell.c, delta⟩ h2
  split
  · exact ⟨k1, k2⟩
  split
  · exact ⟨k1, k2⟩
  split
  · exact ⟨k1, k2⟩
  split
  · exact ⟨k1, k2⟩
  · exact ⟨k1, k2⟩

/-- **C16.** In every round of calibration, whatever the method's error, patch and loss functions, the calibration and
validation values are probabilities. -/
theorem C16_calibrate_prob (m : Method K) (p : Params K) (n : ℕ) (d val : Data K) (h1 : AllProb d.values)
    (h2 : AllProb val.values) :
    AllProb (loop m p n (initState m d val)).1.data.values ∧ AllProb (loop m p n (initState m d val)).1.val.values := by
  have key : ∀ (n : ℕ) (s : State K), AllProb s.data.values → AllProb s.val.values →
      AllProb (loop m p n s).1.data.values ∧ AllProb (loop m p n s).1.val.values := by
    intro n
    induction n with
    | zero => intro s h1 h2; exact ⟨h1, h2⟩
    | succ n ih =>
      intro s h1 h2
      have hr := round_allProb m p s h1 h2
      unfold loop
      split
      · next s' stop heq => rw [heq] at hr; exact hr
      · next s' heq => rw [heq] at hr; exact ih s' hr.1 hr.2
  exact key n _ h1 h2

/-- **C16, failure.** Multiplicative patches divide by the mean value of the cell: with admissible data (all values 0)
the first round produces a NaN patch. -/
theorem C16_multiplicative_nan_false :
    ∃ (p : Params ℚ) (d val : Data ℚ), AllProb d.values ∧ AllProb val.values ∧ p.cfg.ptype = .multiplicative ∧
      (loop (multicalibrator .multiplicative) p 1 (initState (multicalibrator .multiplicative) d val)).2 = some .nan := by
  refine ⟨⟨⟨2, 1, .multiplicative⟩, [1, 2], 1, 1, 0, 0, 0⟩, ⟨[[true]], [[0]], [[1]]⟩, ⟨[[true]], [[0]], [[1]]⟩, ?_, ?_, rfl, ?_⟩
  · simp [AllProb]
  · simp [AllProb]
  · decide +kernel

/-! ### C18 -/

theorem replay_length (cfg : Config K) (groups : List (List Bool)) (values : List (List K)) (ps : List (Patch K))
    (h : groups.length = values.length) : (replay cfg groups values ps).length = values.length := by
  unfold replay
  induction ps generalizing values with
  | nil => rfl
  | cons p ps ih =>
    rw [List.foldl_cons, ih]
    · simp [applyPatch, patchValues, getBs, h]
    · simp [applyPatch, patchValues, getBs, h]

theorem applyPatch_getElem? (cfg : Config K) (groups : List (List Bool)) (values : List (List K)) (p : Patch K)
    (i : ℕ) (g : List Bool) (r : List K) (hg : groups[i]? = some g) (hr : values[i]? = some r) :
    (applyPatch cfg groups values p)[i]? =
      some (patchRow cfg.ptype cfg.eta p.delta p.c (getB cfg.nBuckets p.tau p.g p.v p.c g r) r) := by
  simp [applyPatch, patchValues, getBs, List.getElem?_zipWith, hg, hr]

/-- **C18.** The patched value of a row is what `apply_patches` gives on that row alone. -/
theorem C18_rowwise (cfg : Config K) (ps : List (Patch K)) (groups : List (List Bool)) (values : List (List K)) (i : ℕ)
    (g : List Bool) (r : List K) (hg : groups[i]? = some g) (hr : values[i]? = some r) :
    (replay cfg groups values ps)[i]? = (replay cfg [g] [r] ps)[0]? := by
  unfold replay
  induction ps generalizing values r with
  | nil => simpa using hr
  | cons p ps ih =>
    rw [List.foldl_cons, List.foldl_cons]
    rw [ih _ _ (applyPatch_getElem? cfg groups values p i g r hg hr)]
    rfl

/-- **C18.** Splitting a batch: patching a concatenation is concatenating the patched parts. -/
theorem C18_append (cfg : Config K) (ps : List (Patch K)) (g₁ g₂ : List (List Bool)) (v₁ v₂ : List (List K))
    (h : g₁.length = v₁.length) :
    replay cfg (g₁ ++ g₂) (v₁ ++ v₂) ps = replay cfg g₁ v₁ ps ++ replay cfg g₂ v₂ ps := by
  unfold replay
  induction ps generalizing v₁ v₂ with
  | nil => rfl
  | cons p ps ih =>
    rw [List.foldl_cons, List.foldl_cons, List.foldl_cons, ← ih]
    · congr 1
      unfold applyPatch patchValues getBs
      rw [List.zipWith_append h, List.zipWith_append (by simp [h])]
    · simp [applyPatch, patchValues, getBs, h]

/-- **C18.** Selecting rows (sub-setting, permuting, repeating) commutes with patching. -/
theorem C18_select (cfg : Config K) (ps : List (Patch K)) (groups : List (List Bool)) (values : List (List K))
    (h : groups.length = values.length) (idx : List ℕ) :
    replay cfg (pick groups idx) (pick values idx) ps = pick (replay cfg groups values ps) idx := by
  induction idx with
  | nil =>
    show replay cfg [] [] ps = []
    apply List.eq_nil_of_length_eq_zero
    exact replay_length cfg [] [] ps rfl
  | cons i idx ih =>
    unfold pick at ih ⊢
    have hl := replay_length cfg groups values ps h
    by_cases hi : i < values.length
    · have e1 : groups[i]? = some (groups[i]'(by omega)) := by rw [List.getElem?_eq_getElem]
      have e2 : values[i]? = some values[i] := by rw [List.getElem?_eq_getElem]
      have e3 := C18_rowwise cfg ps groups values i _ _ e1 e2
      have e4 : (replay cfg groups values ps)[i]? = some ((replay cfg groups values ps)[i]'(by omega)) := by
        rw [List.getElem?_eq_getElem]
      rw [List.filterMap_cons_some e1, List.filterMap_cons_some e2, List.filterMap_cons_some e4, ← ih]
      have := C18_append cfg ps [groups[i]'(by omega)] (idx.filterMap fun i => groups[i]?) [values[i]]
        (idx.filterMap fun i => values[i]?) rfl
      rw [List.singleton_append, List.singleton_append] at this
      rw [this]
      have hone : (replay cfg [groups[i]'(by omega)] [values[i]] ps) = [(replay cfg groups values ps)[i]'(by omega)] := by
        have hlen1 := replay_length cfg [groups[i]'(by omega)] [values[i]] ps rfl
        obtain ⟨a, ha⟩ := List.length_eq_one_iff.1 hlen1
        rw [ha] at e3 ⊢
        rw [e4] at e3
        simpa using e3.symm
      rw [hone]; rfl
    · have e1 : groups[i]? = none := List.getElem?_eq_none (by omega)
      have e2 : values[i]? = none := List.getElem?_eq_none (by omega)
      have e4 : (replay cfg groups values ps)[i]? = none := List.getElem?_eq_none (by omega)
      rw [List.filterMap_cons_none e1, List.filterMap_cons_none e2, List.filterMap_cons_none e4, ih]

/-- **C18.** Without patches the input is returned unchanged, with no validation. -/
theorem C18_no_patches (cfg : Config K) (groups : List (List Bool)) (values : List (List K)) :
    applyPatches cfg [] groups values = .ok values := rfl

example : replay (K := ℚ) ⟨4, 1, .additive⟩ [[true], [false]] [[1 / 2], [1 / 2]] [⟨1, 0, 1 / 2, 0, 1 / 4⟩] =
    [[3 / 4], [1 / 2]] := by decide +kernel

/-! ### C17 -/

/-- What the loop maintains, relative to the initial data. -/
structure Inv (m : Method K) (p : Params K) (d val : Data K) (s : State K) : Prop where
  dg : s.data.groups = d.groups
  ds : s.data.scores = d.scores
  vg : s.val.groups = val.groups
  vs : s.val.scores = val.scores
  dv : s.data.values = replay p.cfg d.groups d.values s.patches
  vv : s.val.values = replay p.cfg val.groups val.values s.patches
  len : s.valLosses.length = s.patches.length + 1
  losses : ∀ i ≤ s.patches.length,
    s.valLosses[i]? = some (m.loss (replay p.cfg val.groups val.values (s.patches.take i)) val.scores)
  old : s.oldLoss = m.loss (replay p.cfg d.groups d.values s.patches) d.scores
  monoTrain : ∀ i < s.patches.length, gtN (m.loss (replay p.cfg d.groups d.values (s.patches.take (i + 1))) d.scores)
    (m.loss (replay p.cfg d.groups d.values (s.patches.take i)) d.scores) = false
  monoVal : ∀ i < s.patches.length,
    gtN (m.loss (replay p.cfg val.groups val.values (s.patches.take (i + 1))) val.scores)
      (m.loss (replay p.cfg val.groups val.values (s.patches.take i)) val.scores) = false

theorem inv_init (m : Method K) (p : Params K) (d val : Data K) : Inv m p d val (initState m d val) where
  dg := rfl
  ds := rfl
  vg := rfl
  vs := rfl
  dv := rfl
  vv := rfl
  len := rfl
  losses := by
    intro i hi
    obtain rfl : i = 0 := by simpa [initState] using hi
    rfl
  old := rfl
  monoTrain := by intro i hi; simp [initState] at hi
  monoVal := by intro i hi; simp [initState] at hi

theorem replay_snoc (cfg : Config K) (groups : List (List Bool)) (values : List (List K)) (ps : List (Patch K))
    (q : Patch K) : replay cfg groups values (ps ++ [q]) = applyPatch cfg groups (replay cfg groups values ps) q := by
  unfold replay; rw [List.foldl_append]; rfl

theorem lastLoss_eq (l : List (Option K)) (n : ℕ) (h : l.length = n + 1) (x : Option K) (hx : l[n]? = some x) :
    lastLoss l = x := by
  unfold lastLoss
  rw [List.getLastD_eq_getLast?, List.getLast?_eq_getElem?, h]
  simp [hx]

/-- The possible outcomes of one round from a state satisfying the invariant. -/
theorem round_inv (m : Method K) (p : Params K) (d val : Data K) (s : State K) (hs : Inv m p d val s) :
    ((round m p s).2 = none ∧ Inv m p d val (round m p s).1 ∧
      (round m p s).1.patches.length = s.patches.length + 1) ∨
    ((round m p s).2 ≠ none ∧ (round m p s).1.patches = s.patches ∧
      ∃ extra, (round m p s).1.valLosses = s.valLosses ++ extra ∧ extra.length ≤ 1 ∧
        (convergedOf (round m p s).2 = true → ∃ x, extra = [x] ∧
          (leN x p.atol = true ∨ leN (relDecrease (lastLoss s.valLosses) x) p.rtol = true)) ∧
        (leN (lastLoss extra) p.atol = true →
          convergedOf (round m p s).2 = true ∨ (round m p s).2 = some .lossIncreased)) := by
  unfold Multivalid.round
  dsimp only
  split
  · exact Or.inr ⟨by simp, rfl, [], by simp, by simp, by simp [convergedOf], by simp [lastLoss, leN]⟩
  split
  · exact Or.inr ⟨by simp, rfl, [], by simp, by simp, by simp [convergedOf], by simp [lastLoss, leN]⟩
  next cell _ =>
  split
  · exact Or.inr ⟨by simp, rfl, [], by simp, by simp, by simp [convergedOf], by simp [lastLoss, leN]⟩
  next delta _ =>
  split
  · next hgt =>
    exact Or.inr ⟨by simp, rfl, [_], rfl, by simp, by simp [convergedOf], by simp⟩
  next hgt =>
  split
  · next hat => exact Or.inr ⟨by simp, rfl, [_], rfl, by simp, fun _ => ⟨_, rfl, Or.inl hat⟩, by simp [convergedOf]⟩
  next hat =>
  split
  · exact Or.inr ⟨by simp, rfl, [_], rfl, by simp, by simp [convergedOf], fun h => absurd h hat⟩
  next hvi =>
  split
  · next hr =>
    rw [Bool.and_eq_true] at hr
    exact Or.inr ⟨by simp, rfl, [_], rfl, by simp, fun _ => ⟨_, rfl, Or.inr hr.2⟩, fun h => absurd h hat⟩
  · left
    refine ⟨rfl, ?_, by simp⟩
    set q : Patch K := ⟨cell.tau, cell.g, cell.v, cell.c, delta⟩ with hq
    have hdv : patchValues p.cfg.ptype p.cfg.eta delta cell.c (cellB p.cfg.nBuckets cell s.data.groups s.data.values)
        s.data.values = replay p.cfg d.groups d.values (s.patches ++ [q]) := by
      rw [replay_snoc, ← hs.dv, ← hs.dg]; rfl
    have hvv : patchValues p.cfg.ptype p.cfg.eta delta cell.c (cellB p.cfg.nBuckets cell s.val.groups s.val.values)
        s.val.values = replay p.cfg val.groups val.values (s.patches ++ [q]) := by
      rw [replay_snoc, ← hs.vv, ← hs.vg]; rfl
    rw [hdv, hs.ds] at hgt
    rw [hvv, hs.vs] at hvi
    have hlast : lastLoss s.valLosses = m.loss (replay p.cfg val.groups val.values s.patches) val.scores := by
      apply lastLoss_eq _ _ hs.len
      have := hs.losses s.patches.length le_rfl
      rwa [List.take_length] at this
    constructor
    · exact hs.dg
    · exact hs.ds
    · exact hs.vg
    · exact hs.vs
    · exact hdv
    · exact hvv
    · simp [hs.len]
    · intro i hi
      dsimp only at hi ⊢
      rw [List.length_append, List.length_singleton] at hi
      rcases Nat.lt_or_ge i (s.patches.length + 1) with h | h
      · rw [List.getElem?_append_left (by rw [hs.len]; exact h), hs.losses i (by omega),
          List.take_append_of_le_length (by omega)]
      · obtain rfl : i = s.patches.length + 1 := by omega
        rw [List.getElem?_append_right (by rw [hs.len]), hs.len]
        rw [List.take_of_length_le (by simp), hvv, hs.vs]
        simp
    · dsimp only; rw [hdv, hs.ds]
    · intro i hi
      dsimp only at hi ⊢
      rw [List.length_append, List.length_singleton] at hi
      rcases Nat.lt_or_ge i s.patches.length with h | h
      · rw [List.take_append_of_le_length (by omega), List.take_append_of_le_length (by omega)]
        exact hs.monoTrain i h
      · obtain rfl : i = s.patches.length := by omega
        rw [List.take_of_length_le (by simp), List.take_append_of_le_length le_rfl, List.take_length, ← hs.old]
        simpa using hgt
    · intro i hi
      dsimp only at hi ⊢
      rw [List.length_append, List.length_singleton] at hi
      rcases Nat.lt_or_ge i s.patches.length with h | h
      · rw [List.take_append_of_le_length (by omega), List.take_append_of_le_length (by omega)]
        exact hs.monoVal i h
      · obtain rfl : i = s.patches.length := by omega
        rw [List.take_of_length_le (by simp), List.take_append_of_le_length le_rfl, List.take_length, ← hlast]
        simpa using hvi

/-- Outcome of the whole loop: there is a state satisfying the invariant with the final patches, of which the recorded
losses are an extension by at most one entry. -/
theorem loop_spec (m : Method K) (p : Params K) (d val : Data K) (n : ℕ) (s : State K) (hs : Inv m p d val s) :
    ∃ s0, Inv m p d val s0 ∧ (loop m p n s).1.patches = s0.patches ∧
      s0.patches.length ≤ s.patches.length + n ∧
      ∃ extra, (loop m p n s).1.valLosses = s0.valLosses ++ extra ∧ extra.length ≤ 1 ∧
        (convergedOf (loop m p n s).2 = true → ∃ x, extra = [x] ∧
          (leN x p.atol = true ∨ leN (relDecrease (lastLoss s0.valLosses) x) p.rtol = true)) := by
  induction n generalizing s with
  | zero => exact ⟨s, hs, rfl, by omega, [], by simp [loop], by simp, by simp [loop, convergedOf]⟩
  | succ n ih =>
    unfold loop
    rcases round_inv m p d val s hs with ⟨h1, h2, h3⟩ | ⟨h1, h2, extra, h3, h4, h5, _⟩
    · generalize hr : round m p s = r at h1 h2 h3
      obtain ⟨s', o⟩ := r
      dsimp only at h1; subst h1
      obtain ⟨s0, i1, i2, i3, i4⟩ := ih s' h2
      exact ⟨s0, i1, i2, by dsimp only at h3; omega, i4⟩
    · generalize hr : round m p s = r at h1 h2 h3 h5
      obtain ⟨s', o⟩ := r
      dsimp only at h1 h2 h3 h5
      cases o with
      | none => exact absurd rfl h1
      | some stop => exact ⟨s, hs, h2, by omega, extra, h3, h4, h5⟩

/-- A round that stops with a recorded loss and without convergence raised one of the two losses. -/
theorem round_discarded (m : Method K) (p : Params K) (d val : Data K) (s : State K) (hs : Inv m p d val s)
    (hlen : (round m p s).1.valLosses.length = s.valLosses.length + 1) (h2 : (round m p s).2 ≠ none)
    (hc : convergedOf (round m p s).2 = false) :
    ∃ q, (round m p s).1.valLosses = s.valLosses ++
        [m.loss (replay p.cfg val.groups val.values (s.patches ++ [q])) val.scores] ∧
      (gtN (m.loss (replay p.cfg d.groups d.values (s.patches ++ [q])) d.scores)
          (m.loss (replay p.cfg d.groups d.values s.patches) d.scores) = true ∨
        gtN (m.loss (replay p.cfg val.groups val.values (s.patches ++ [q])) val.scores)
          (m.loss (replay p.cfg val.groups val.values s.patches) val.scores) = true) := by
  revert hlen h2 hc
  have hlast : lastLoss s.valLosses = m.loss (replay p.cfg val.groups val.values s.patches) val.scores := by
    apply lastLoss_eq _ _ hs.len
    have := hs.losses s.patches.length le_rfl
    rwa [List.take_length] at this
  unfold Multivalid.round
  dsimp only
  split
  · intro h; simp at h
  split
  · intro h; simp at h
  next cell _ =>
  split
  · intro h; simp at h
  next delta _ =>
  have hdv : patchValues p.cfg.ptype p.cfg.eta delta cell.c (cellB p.cfg.nBuckets cell s.data.groups s.data.values)
      s.data.values =
        replay p.cfg d.groups d.values (s.patches ++ [⟨cell.tau, cell.g, cell.v, cell.c, delta⟩]) := by
    rw [replay_snoc, ← hs.dv, ← hs.dg]; rfl
  have hvv : patchValues p.cfg.ptype p.cfg.eta delta cell.c (cellB p.cfg.nBuckets cell s.val.groups s.val.values)
      s.val.values =
        replay p.cfg val.groups val.values (s.patches ++ [⟨cell.tau, cell.g, cell.v, cell.c, delta⟩]) := by
    rw [replay_snoc, ← hs.vv, ← hs.vg]; rfl
  rw [hdv, hvv, hs.ds, hs.vs, hs.old, hlast]
  split
  · next hgt => intro _ _ _; exact ⟨_, rfl, Or.inl hgt⟩
  split
  · intro _ _ h; exact absurd h (by simp [convergedOf])
  split
  · next hgt => intro _ _ _; exact ⟨_, rfl, Or.inr hgt⟩
  split
  · intro _ _ h; exact absurd h (by simp [convergedOf])
  · intro _ h; exact absurd rfl h

/-- The same for the whole loop. -/
theorem loop_discarded (m : Method K) (p : Params K) (d val : Data K) (n : ℕ) (s : State K)
    (hs : Inv m p d val s)
    (hlen : (loop m p n s).1.valLosses.length = (loop m p n s).1.patches.length + 2)
    (hc : convergedOf (loop m p n s).2 = false) :
    ∃ q, (loop m p n s).1.valLosses[(loop m p n s).1.patches.length + 1]? = some
        (m.loss (replay p.cfg val.groups val.values ((loop m p n s).1.patches ++ [q])) val.scores) ∧
      (gtN (m.loss (replay p.cfg d.groups d.values ((loop m p n s).1.patches ++ [q])) d.scores)
          (m.loss (replay p.cfg d.groups d.values (loop m p n s).1.patches) d.scores) = true ∨
        gtN (m.loss (replay p.cfg val.groups val.values ((loop m p n s).1.patches ++ [q])) val.scores)
          (m.loss (replay p.cfg val.groups val.values (loop m p n s).1.patches) val.scores) = true) := by
  induction n generalizing s with
  | zero => have := hs.len; simp only [loop] at hlen; omega
  | succ n ih =>
    unfold loop at hlen hc ⊢
    have hd := round_discarded m p d val s hs
    rcases round_inv m p d val s hs with ⟨h1, h2, h3⟩ | ⟨h1, h2, extra, h3, h4, -, _⟩
    · generalize hr : round m p s = r at h1 h2 h3 hlen hc ⊢
      obtain ⟨s', o⟩ := r
      dsimp only at h1; subst h1
      exact ih s' h2 hlen hc
    · generalize hr : round m p s = r at h1 h2 h3 hlen hc hd ⊢
      obtain ⟨s', o⟩ := r
      cases o with
      | none => exact absurd rfl h1
      | some stop =>
        dsimp only at h2 h3 hlen hc hd ⊢
        rw [h2, ← hs.len] at *
        obtain ⟨q, hq, hor⟩ := hd (by have := hs.len; omega) h1 hc
        refine ⟨q, ?_, hor⟩
        rw [hq, List.getElem?_append_right (by rw [hs.len])]
        simp

/-- **C17.** `n_rounds` in the status is the number of stored patches, and never exceeds the requested maximum; the
recorded losses have one entry per stored patch plus the initial one, plus at most one for a discarded last round. -/
theorem C17_round_count (m : Method K) (p : Params K) (n : ℕ) (d val : Data K) (st : Status K) (ps : List (Patch K))
    (h : calibrateSplit m p n d val = (st, ps)) :
    st.nRounds = ps.length ∧ ps.length ≤ n ∧ ps.length + 1 ≤ st.losses.length ∧ st.losses.length ≤ ps.length + 2 := by
  unfold calibrateSplit at h
  obtain ⟨s0, hinv, hp, hlen, extra, hl, hle, _⟩ := loop_spec m p d val n _ (inv_init m p d val)
  simp only [Prod.mk.injEq] at h
  obtain ⟨rfl, rfl⟩ := h
  refine ⟨rfl, ?_, ?_, ?_⟩
  · rw [hp]; simpa [initState] using hlen
  · dsimp only; rw [hp, hl, List.length_append, hinv.len]; omega
  · dsimp only; rw [hp, hl, List.length_append, hinv.len]; omega

/-- **C17.** Replaying the first `i` stored patches with `apply_patches` on the validation part of the data gives
values whose loss is exactly the `i`-th recorded loss. -/
theorem C17_replay_losses (m : Method K) (p : Params K) (n : ℕ) (d val : Data K) (st : Status K) (ps : List (Patch K))
    (h : calibrateSplit m p n d val = (st, ps)) (hv : AllProb val.values) (hg : val.groups.length = val.values.length)
    (i : ℕ) (hi : i ≤ ps.length) :
    ∃ out, applyPatches p.cfg (ps.take i) val.groups val.values = .ok out ∧
      st.losses[i]? = some (m.loss out val.scores) := by
  unfold calibrateSplit at h
  obtain ⟨s0, hinv, hp, hlen, extra, hl, hle, _⟩ := loop_spec m p d val n _ (inv_init m p d val)
  simp only [Prod.mk.injEq] at h
  obtain ⟨rfl, rfl⟩ := h
  rw [hp] at hi ⊢
  refine ⟨replay p.cfg val.groups val.values (s0.patches.take i), ?_, ?_⟩
  · unfold applyPatches
    split
    · next h0 => rw [h0]; rfl
    · rw [(valuesOk_iff _).2 hv]; simp [hg]
  · dsimp only
    rw [hl, List.getElem?_append_left (by rw [hinv.len]; omega)]
    exact hinv.losses i hi

/-- **C17.** Each stored patch does not increase the loss, neither on the calibration part nor on the validation part. -/
theorem C17_losses_nonincreasing (m : Method K) (p : Params K) (n : ℕ) (d val : Data K) (st : Status K)
    (ps : List (Patch K)) (h : calibrateSplit m p n d val = (st, ps)) (D : Data K) (hD : D = d ∨ D = val)
    (i : ℕ) (hi : i < ps.length) (x y : K)
    (hx : m.loss (replay p.cfg D.groups D.values (ps.take i)) D.scores = some x)
    (hy : m.loss (replay p.cfg D.groups D.values (ps.take (i + 1))) D.scores = some y) : y ≤ x := by
  unfold calibrateSplit at h
  obtain ⟨s0, hinv, hp, hlen, extra, hl, hle, _⟩ := loop_spec m p d val n _ (inv_init m p d val)
  simp only [Prod.mk.injEq] at h
  obtain ⟨rfl, rfl⟩ := h
  rw [hp] at hi hx hy
  rcases hD with rfl | rfl
  · have := hinv.monoTrain i hi
    rw [hx, hy] at this
    simpa [gtN] using this
  · have := hinv.monoVal i hi
    rw [hx, hy] at this
    simpa [gtN] using this

/-- **C17/C20.** `converged=True` means: one more loss than stored patches was recorded, and that last loss is at most
`atol`, or its relative decrease is at most `rtol`. -/
theorem C17_converged_meaning (m : Method K) (p : Params K) (n : ℕ) (d val : Data K) (st : Status K)
    (ps : List (Patch K)) (h : calibrateSplit m p n d val = (st, ps)) (hc : st.converged = true) :
    ∃ prev last, st.losses[ps.length]? = some prev ∧ st.losses[ps.length + 1]? = some last ∧
      st.losses.length = ps.length + 2 ∧
      ((∃ x, last = some x ∧ x ≤ p.atol) ∨ ∃ x y, prev = some x ∧ last = some y ∧ (x - y) / x ≤ p.rtol) := by
  unfold calibrateSplit at h
  obtain ⟨s0, hinv, hp, hlen, extra, hl, hle, hcon⟩ := loop_spec m p d val n _ (inv_init m p d val)
  simp only [Prod.mk.injEq] at h
  obtain ⟨rfl, rfl⟩ := h
  obtain ⟨x, rfl, hx⟩ := hcon hc
  have hprev := hinv.losses s0.patches.length le_rfl
  refine ⟨m.loss (replay p.cfg val.groups val.values (List.take s0.patches.length s0.patches)) val.scores, x, ?_, ?_, ?_, ?_⟩
  · dsimp only; rw [hl, hp, List.getElem?_append_left (by rw [hinv.len]; omega)]; exact hprev
  · dsimp only
    rw [hl, hp, List.getElem?_append_right (by rw [hinv.len]), hinv.len]; simp
  · dsimp only; rw [hl, hp, List.length_append, hinv.len]; rfl
  · rw [lastLoss_eq _ _ hinv.len _ hprev] at hx
    rcases hx with hx | hx
    · left
      cases x with
      | none => simp [leN] at hx
      | some x => exact ⟨x, rfl, by simpa [leN] using hx⟩
    · right
      generalize m.loss (replay p.cfg val.groups val.values (List.take s0.patches.length s0.patches)) val.scores = prev at hx
      cases prev with
      | none => cases x <;> simp [relDecrease, leN] at hx
      | some y =>
        cases x with
        | none => simp [relDecrease, leN] at hx
        | some x => exact ⟨y, x, rfl, rfl, by simpa [relDecrease, leN] using hx⟩

/-- **C17.** Conversely, a last round that was discarded (there is one more loss than patches and initial loss) is only
not reported as convergence if its patch raised the loss on the calibration part or on the validation part. -/
theorem C17_not_converged (m : Method K) (p : Params K) (n : ℕ) (d val : Data K) (st : Status K)
    (ps : List (Patch K)) (h : calibrateSplit m p n d val = (st, ps)) (hc : st.converged = false)
    (hlen : st.losses.length = ps.length + 2) :
    ∃ q, st.losses[ps.length + 1]? = some (m.loss (replay p.cfg val.groups val.values (ps ++ [q])) val.scores) ∧
      ∃ D, (D = d ∨ D = val) ∧ ∃ x y, m.loss (replay p.cfg D.groups D.values ps) D.scores = some x ∧
        m.loss (replay p.cfg D.groups D.values (ps ++ [q])) D.scores = some y ∧ x < y := by
  unfold calibrateSplit at h
  simp only [Prod.mk.injEq] at h
  obtain ⟨rfl, rfl⟩ := h
  obtain ⟨q, hq, hor⟩ := loop_discarded m p d val n _ (inv_init m p d val) hlen hc
  refine ⟨q, hq, ?_⟩
  have gt : ∀ a b : Option K, gtN a b = true → ∃ x y, b = some x ∧ a = some y ∧ x < y := by
    intro a b h
    cases a <;> cases b <;> simp [gtN] at h ⊢
    exact h
  rcases hor with h | h
  · exact ⟨d, Or.inl rfl, gt _ _ h⟩
  · exact ⟨val, Or.inr rfl, gt _ _ h⟩

/-- Hypotheses of `C17_not_converged`: the patch of the first round helps the calibration data and hurts the validation
data. -/
example : ∃ st ps, calibrateSplit (multicalibrator .additive) (⟨⟨2, 1, .additive⟩, [1], 1, 1, 0, 1 / 100, 0⟩ : Params ℚ) 5
      ⟨[[true], [true]], [[0], [0]], [[1], [1]]⟩ ⟨[[true], [true]], [[0], [0]], [[0], [1 / 4]]⟩ = (st, ps) ∧
    st.converged = false ∧ st.losses.length = ps.length + 2 :=
  ⟨_, _, rfl, by decide +kernel, by decide +kernel⟩

/-- **C17, failure.** The patch that achieves the tolerance is not stored: `calibrate` reports convergence with a last
loss within `atol`, while replaying the stored patches on the very same validation data leaves the loss above it. -/
theorem C17_converged_values_replayed_false :
    ∃ (p : Params ℚ) (n : ℕ) (d val : Data ℚ) (st : Status ℚ) (ps : List (Patch ℚ)) (out : List (List ℚ)) (x : ℚ),
      AllProb d.values ∧ AllProb val.values ∧ 0 ≤ p.atol ∧
      calibrateSplit (multicalibrator .additive) p n d val = (st, ps) ∧ st.converged = true ∧
      st.losses.getLast? = some (some 0) ∧
      applyPatches p.cfg ps val.groups val.values = .ok out ∧ mcLoss1d out val.scores = some x ∧ p.atol < x := by
  refine ⟨⟨⟨2, 1, .additive⟩, [1], 1, 1, 0, 1 / 100, 0⟩, 5, ⟨[[true], [true]], [[0], [0]], [[1], [1]]⟩,
    ⟨[[true]], [[0]], [[1]]⟩, ⟨0, [some 1, some 0], true⟩, [], [[0]], 1, ?_, ?_, ?_, ?_, rfl, rfl, rfl, ?_, ?_⟩
  · simp [AllProb]
  · simp [AllProb]
  · norm_num
  · decide +kernel
  · decide +kernel
  · norm_num

/-- **C17, failure.** With one-dimensional values and no validation data (the accepted setting `split=1`) the recorded
"mean" squared error is an empty sum, so calibration claims convergence in its first round and stores nothing, for every
data set. -/
theorem C17_split_one_stores_nothing (pt : PatchType) (p : Params K) (n : ℕ) (d : Data K) (hat : 0 ≤ p.atol) :
    (calibrateSplit (multicalibrator pt) p n d ⟨[], [], []⟩).2 = [] := by
  unfold calibrateSplit
  dsimp only
  cases n with
  | zero => rfl
  | succ n =>
    have hround : ∀ s : State K, s.val = ⟨[], [], []⟩ → s.patches = [] →
        (round (multicalibrator pt) p s).2 ≠ none ∧ (round (multicalibrator pt) p s).1.patches = [] := by
      intro s hv hp
      unfold Multivalid.round
      dsimp only
      split
      · exact ⟨by simp, hp⟩
      split
      · exact ⟨by simp, hp⟩
      split
      · exact ⟨by simp, hp⟩
      split
      · exact ⟨by simp, hp⟩
      split
      · exact ⟨by simp, hp⟩
      next hle =>
      exfalso
      apply hle
      rw [hv]
      simp only [patchValues, List.zipWith_nil_right, multicalibrator, mcLoss1d, sqErr, List.sum_nil, leN,
        decide_eq_true_eq]
      exact hat
    have := hround (initState (multicalibrator pt) d ⟨[], [], []⟩) rfl rfl
    unfold loop
    split
    · next heq => rw [heq] at this; exact this.2
    · next heq => rw [heq] at this; exact absurd rfl this.1

-- a run that stores patches and stops at the round limit
example : calibrateSplit (K := ℚ) (multicalibrator .additive) ⟨⟨2, 1 / 2, .additive⟩, [1, 2], 1, 1, 0, 0, 0⟩ 2
    ⟨[[true], [true]], [[0], [1 / 2]], [[1], [1]]⟩ ⟨[[true]], [[0]], [[1]]⟩ =
    (⟨2, [some 1, some (25 / 64), some (49 / 256)], false⟩, [⟨1, 0, 0, 0, 3 / 4⟩, ⟨1, 0, 0, 0, 3 / 8⟩]) := by
  decide +kernel

/-! ### Concrete cases that meet the hypotheses of the theorems above -/

example := C16_apply_patches_prob (K := ℚ) ⟨4, 1, .additive⟩ [⟨1, 0, 1 / 2, 0, 3⟩, ⟨2, 0, 0, 0, - 1 / 10⟩] [[true], [true], [false]]
  [[1 / 2], [0], [9 / 10]] [[1], [0], [9 / 10]] (by norm_num [AllProb]) (by decide +kernel)
example := C16_calibrate_prob (K := ℚ) (multicalibrator .additive) ⟨⟨2, 1 / 2, .additive⟩, [1, 2], 1, 1, 0, 0, 0⟩ 2
  ⟨[[true], [true]], [[0], [1 / 2]], [[1], [1]]⟩ ⟨[[true]], [[0]], [[1]]⟩ (by norm_num [AllProb]) (by norm_num [AllProb])
example := C18_rowwise (K := ℚ) ⟨4, 1, .additive⟩ [⟨1, 0, 1 / 2, 0, 1 / 4⟩] [[true], [false]] [[1 / 2], [1 / 3]] 1 [false] [1 / 3] rfl rfl
example := C18_append (K := ℚ) ⟨4, 1, .additive⟩ [⟨1, 0, 1 / 2, 0, 1 / 4⟩] [[true]] [[false]] [[1 / 2]] [[1 / 3]] rfl
example := C18_select (K := ℚ) ⟨4, 1, .additive⟩ [⟨1, 0, 1 / 2, 0, 1 / 4⟩] [[true], [false]] [[1 / 2], [1 / 3]] rfl [1, 0, 1]

/-- A run of two rounds that does not converge. -/
theorem exSplit : calibrateSplit (K := ℚ) (multicalibrator .additive) ⟨⟨2, 1 / 2, .additive⟩, [1, 2], 1, 1, 0, 0, 0⟩ 2
    ⟨[[true], [true]], [[0], [1 / 2]], [[1], [1]]⟩ ⟨[[true]], [[0]], [[1]]⟩ =
    (⟨2, [some 1, some (25 / 64), some (49 / 256)], false⟩, [⟨1, 0, 0, 0, 3 / 4⟩, ⟨1, 0, 0, 0, 3 / 8⟩]) := by decide +kernel

example := C17_round_count _ _ _ _ _ _ _ exSplit
example := C17_replay_losses _ _ _ _ _ _ _ exSplit (by norm_num [AllProb]) rfl 1 (by simp)
example := C17_losses_nonincreasing _ _ _ _ _ _ _ exSplit _ (.inr rfl) 0 (by simp) 1 (25 / 64) (by decide +kernel) (by decide +kernel)
example := C17_converged_meaning (K := ℚ) (multicalibrator .additive) ⟨⟨2, 1, .additive⟩, [1], 1, 1, 0, 1 / 100, 0⟩ 5
  ⟨[[true], [true]], [[0], [0]], [[1], [1]]⟩ ⟨[[true]], [[0]], [[1]]⟩ ⟨0, [some 1, some 0], true⟩ [] (by decide +kernel) rfl

end Verif.Props
