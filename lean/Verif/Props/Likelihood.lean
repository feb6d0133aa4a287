import Mathlib.Algebra.Order.Field.Basic
import Mathlib.Algebra.BigOperators.Ring.List
import Mathlib.Data.Rat.Cast.CharZero
import Mathlib.Data.Nat.Cast.Order.Ring
import Mathlib.Tactic.FieldSimp
import Mathlib.Tactic.Ring
import Mathlib.Tactic.Linarith
import Mathlib.Tactic.LinearCombination
import Verif.Model.Likelihood

/-!
# Batched log joint probability (C51), its auxiliary outputs (C70), and state splitting (C71)
-/

set_option linter.unusedSectionVars false

namespace Verif.Props

open Verif.Likelihood

/-! ## C51 -/

section weights
variable {K : Type} [Field K] [LinearOrder K] [IsStrictOrderedRing K]

theorem weighted_size (n : ℕ) (b : List K) (hb : b ≠ []) :
    (b.length : K) * weighted n b = n * b.sum := by
  have : (b.length : K) ≠ 0 := by
    have := List.length_pos_iff.mpr hb
    exact_mod_cast this.ne'
  unfold weighted
  field_simp

/-- The value of a call as a function of the rows of its batch. -/
def jointOf (logPrior : K) (n : ℕ) (b : List K) : K := weighted n b + logPrior

/-- **C51.** Over an epoch of equally sized batches the mean of the batched log joint is the full-data log
joint: the sum over all points of the log-likelihood, plus the log prior once. -/
theorem C51_epoch (logPrior : K) (batches : List (List K)) (size : ℕ) (hsize : 0 < size)
    (hne : batches ≠ []) (hb : ∀ b ∈ batches, b.length = size) :
    (batches.map (jointOf logPrior batches.flatten.length)).sum / batches.length =
    batches.flatten.sum + logPrior := by
  have hlen : batches.flatten.length = batches.length * size := by
    clear hne
    induction batches with
    | nil => simp
    | cons b t ih =>
      simp only [List.flatten_cons, List.length_append, List.length_cons]
      rw [ih fun x hx => hb x (List.mem_cons_of_mem _ hx), hb b List.mem_cons_self]
      ring
  have hk : (batches.length : K) ≠ 0 := by
    have := List.length_pos_iff.mpr hne
    exact_mod_cast this.ne'
  have hs : (size : K) ≠ 0 := by exact_mod_cast hsize.ne'
  generalize hN : batches.flatten.length = N at hlen ⊢
  have hsum : (batches.map (jointOf logPrior N)).sum =
      (N : K) / size * batches.flatten.sum + batches.length * logPrior := by
    clear hN hne hk hlen
    induction batches with
    | nil => simp
    | cons b t ih =>
      simp only [List.map_cons, List.sum_cons, List.flatten_cons, List.sum_append, List.length_cons]
      rw [ih fun x hx => hb x (List.mem_cons_of_mem _ hx)]
      unfold jointOf weighted
      rw [hb b List.mem_cons_self]
      push_cast
      ring
  rw [hsum, hlen]
  push_cast
  field_simp

/-- **C51, any batches.** Weighting each batch by its share of the data recovers the full-data log joint
whatever the batch sizes. -/
theorem C51_size_weighted (logPrior : K) (batches : List (List K)) (hne : batches.flatten ≠ [])
    (hb : ∀ b ∈ batches, b ≠ []) :
    (batches.map fun b => (b.length : K) / batches.flatten.length *
      jointOf logPrior batches.flatten.length b).sum = batches.flatten.sum + logPrior := by
  have hN : (batches.flatten.length : K) ≠ 0 := by
    have := List.length_pos_iff.mpr hne
    exact_mod_cast this.ne'
  generalize hN' : batches.flatten.length = N at hN ⊢
  have : (batches.map fun b => (b.length : K) / N * jointOf logPrior N b).sum =
      batches.flatten.sum + (batches.flatten.length : K) / N * logPrior := by
    clear hN' hne
    induction batches with
    | nil => simp
    | cons b t ih =>
      simp only [List.map_cons, List.sum_cons, List.flatten_cons, List.sum_append, List.length_append]
      rw [ih fun x hx => hb x (List.mem_cons_of_mem _ hx)]
      have h1 := weighted_size N b (hb b List.mem_cons_self)
      have h2 : (b.length : K) / N * jointOf logPrior N b = b.sum + (b.length : K) / N * logPrior := by
        unfold jointOf
        rw [mul_add, div_mul_eq_mul_div, h1]
        field_simp
      rw [h2]
      push_cast
      ring
  rw [this, hN', div_self hN, one_mul]

/-- **C51, one batch.** With the whole data in one batch the batched log joint is the full-data one. -/
theorem C51_full (logPrior : K) (rows : List K) (hne : rows ≠ []) :
    jointOf logPrior rows.length rows = rows.sum + logPrior := by
  have := C51_epoch logPrior [rows] rows.length (List.length_pos_iff.mpr hne) (by simp) (by simp)
  simpa using this

/-- **C51 is false with a smaller last batch.** Three points in batches of two: the epoch mean gives the
last point twice the weight of the others. -/
theorem C51_ragged_false :
    (([[1, 2], [6]] : List (List ℚ)).map (jointOf 0 3)).sum / 2 = 45 / 4 ∧
    ([[1, 2], [6]] : List (List ℚ)).flatten.sum = 9 := by
  decide +kernel

example : (([[1, 2], [6, 3]] : List (List ℚ)).map (jointOf 5 4)).sum / 2 = 12 + 5 := by decide +kernel

end weights

/-! ## C70 the call -/

section call
variable {O M CM P K : Type} [Field K]

/-- The calls that are allowed: state is asked for exactly when training with state, and precomputed
outputs come only outside training. -/
def Allowed (c : Call O M CM P) : Prop :=
  (∀ s ∈ c.aux, s = "outputs" ∨ s = "mutable" ∨ s = "calib_mutable") ∧
  (c.outputs ≠ none → c.train = false) ∧
  ("mutable" ∈ c.aux ↔ c.train = true ∧ c.mutable ≠ none)

theorem guards_none (c : Call O M CM P) : guards c = none ↔ Allowed c := by
  unfold guards Allowed
  have hany : c.aux.any (fun s => !["outputs", "mutable", "calib_mutable"].contains s) = false ↔
      ∀ s ∈ c.aux, s = "outputs" ∨ s = "mutable" ∨ s = "calib_mutable" := by
    rw [List.any_eq_false]
    simp only [List.contains_cons, List.contains_nil, Bool.or_false, Bool.not_eq_true',
      Bool.not_eq_false, Bool.or_eq_true, beq_iff_eq]
  by_cases h1 : c.aux.any (fun s => !["outputs", "mutable", "calib_mutable"].contains s) = true
  · rw [if_pos h1]
    constructor
    · intro h; cases h
    · intro h
      rw [hany.mpr h.1] at h1
      cases h1
  · rw [if_neg h1]
    have h1' := hany.mp (by simpa using h1)
    by_cases hm : "mutable" ∈ c.aux <;> cases ht : c.train <;> cases ho : c.outputs <;>
      cases hs : c.mutable <;> simp_all

/-- **C70, guards.** A call is refused by the argument checks exactly when it is not an allowed one. -/
theorem C70_guards (manager : Option (Option (P → Bool → Option CM → O → O × CM)))
    (forward : Bool → Option M → O × M) (ll : O → List K) (n : ℕ) (c : Call O M CM P) :
    (¬ Allowed c → ∃ e, logJoint manager forward ll n c = .error e ∧ (e = "TypeError" ∨ e = "ValueError")) ∧
    (Allowed c → guards c = none) := by
  refine ⟨fun h => ?_, (guards_none c).mpr⟩
  have hg : guards c ≠ none := fun h' => h ((guards_none c).mp h')
  obtain ⟨e, he⟩ := Option.ne_none_iff_exists'.mp hg
  refine ⟨e, by unfold logJoint; rw [he], ?_⟩
  unfold guards at he
  split_ifs at he <;> simp_all

/-- The outputs before calibration. -/
def rawOutputs (forward : Bool → Option M → O × M) (c : Call O M CM P) : O :=
  match c.outputs with
  | some o => o
  | none => (forward c.train c.mutable).1

/-- The calibrated outputs. -/
def finalOutputs (cal : Option (P → Bool → Option CM → O → O × CM)) (forward : Bool → Option M → O × M)
    (c : Call O M CM P) (p : P) (cm : Option CM) : O :=
  match cal with
  | none => rawOutputs forward c
  | some f => (f p (c.aux.contains "calib_mutable") cm (rawOutputs forward c)).1

/-- The state left by the calibrator, if it has any. -/
def finalState (cal : Option (P → Bool → Option CM → O → O × CM)) (forward : Bool → Option M → O × M)
    (c : Call O M CM P) (p : P) (cm : Option CM) : Option CM :=
  match cal, cm with
  | some f, some m => some (f p true (some m) (rawOutputs forward c)).2
  | _, _ => none

/-- **C70, result.** An allowed call, with a calibration manager and the calibrator's parameters, and
(if the calibrator has state) its state as initialised, returns the weighted sum of the log-probabilities
of the calibrated outputs; the auxiliary dictionary has exactly the entries asked for: the calibrated
outputs, the model state updated by this forward pass, and the calibrator state updated by it. -/
theorem C70_result (cal : Option (P → Bool → Option CM → O → O × CM))
    (forward : Bool → Option M → O × M) (ll : O → List K) (n : ℕ) (c : Call O M CM P) (p : P)
    (cm : Option CM) (ha : Allowed c) (hp : c.calibParams = some p) (hcm : c.calibMutable = cm.map .frozen)
    (hcal : cal = none → cm = none) (hll : ll (finalOutputs cal forward c p cm) ≠ []) :
    logJoint (some cal) forward ll n c = .ok
      (weighted n (ll (finalOutputs cal forward c p cm)),
        if c.aux = [] then none else some
          { outputs := if "outputs" ∈ c.aux then some (finalOutputs cal forward c p cm) else none
            mutable := if "mutable" ∈ c.aux then some (forward true c.mutable).2 else none
            calibMutable := if "calib_mutable" ∈ c.aux then
              some ((finalState cal forward c p cm).map .wrapped) else none }) := by
  have hg := (guards_none c).mpr ha
  obtain ⟨-, h2, h3⟩ := ha
  unfold logJoint
  rw [hg]
  simp only
  -- the model part
  have hmodel : ∃ ms b, modelPart forward c =
      .ok (.plain (rawOutputs forward c), ms, b) ∧
      ("mutable" ∈ c.aux → ms = some (forward true c.mutable).2) := by
    unfold modelPart modelApply rawOutputs
    by_cases hm : "mutable" ∈ c.aux <;> cases ht : c.train <;> cases ho : c.outputs <;>
      cases hs : c.mutable <;> simp_all
  obtain ⟨ms, b, hmp, hms⟩ := hmodel
  rw [hmp]
  simp only [bind, Except.bind]
  have hcalib : calibPart (some cal) forward c
      (.plain (rawOutputs forward c)) b =
      .ok (finalOutputs cal forward c p cm, if "calib_mutable" ∈ c.aux then
              some ((finalState cal forward c p cm).map .wrapped) else none) := by
    unfold calibPart calibApply finalOutputs finalState
    rw [hp, hcm]
    by_cases hw : "calib_mutable" ∈ c.aux
    · have hw' : c.aux.contains "calib_mutable" = true := by simpa using hw
      cases cal with
      | none => simp [hcal rfl, hw]
      | some f => cases cm <;> simp [hw]
    · have hw' : c.aux.contains "calib_mutable" = false := by simpa using hw
      cases cal with
      | none => simp [hcal rfl, hw]
      | some f => cases cm <;> simp [hw]
  rw [hcalib]
  simp only
  rw [if_neg (by simpa [List.length_eq_zero_iff] using hll)]
  by_cases hempty : c.aux = []
  · rw [if_pos (by simp [hempty]), if_pos hempty]
  · rw [if_neg (by simpa using hempty), if_neg hempty]
    by_cases hm : "mutable" ∈ c.aux
    · simp [hm, hms hm]
    · simp [hm]

/-- **C70, precomputed outputs.** Passing the outputs that the model produces outside training gives the
same value as letting the call compute them. -/
theorem C70_precomputed (cal : Option (P → Bool → Option CM → O → O × CM))
    (forward : Bool → Option M → O × M) (ll : O → List K) (n : ℕ) (c : Call O M CM P)
    (ht : c.train = false) (hn : c.outputs = none) :
    logJoint (some cal) forward ll n { c with outputs := some (forward false c.mutable).1 } =
    logJoint (some cal) forward ll n c := by
  have hgn : ∀ o : O, guards { c with outputs := some o } = guards c := by
    intro o
    unfold guards
    by_cases hm : "mutable" ∈ c.aux <;> simp [ht, hn, hm]
  unfold logJoint
  rw [hgn]
  cases hg : guards c with
  | some e => rfl
  | none =>
    obtain ⟨-, -, h3⟩ := (guards_none c).mp hg
    have hm : "mutable" ∉ c.aux := fun h => by simpa [ht] using (h3.mp h).1
    have hm' : c.aux.contains "mutable" = false := by simpa using hm
    have h1 : modelPart forward { c with outputs := some (forward false c.mutable).1 } =
        .ok (.plain (forward false c.mutable).1, c.mutable, false) := rfl
    have h2 : modelPart forward c = .ok (.plain (forward false c.mutable).1, c.mutable, true) := by
      unfold modelPart modelApply
      rw [hn]
      simp only [hm', ht]
      cases c.mutable <;> rfl
    rw [h1, h2]
    rfl

/-- **C70, sign.** With a list given for `return_aux`, the negative log joint is the negation of the log
joint and has the same auxiliary objects. -/
theorem C70_negative (aux : List String) (v : K) (a : Option (Aux O M CM)) :
    negJoint (some aux) (.ok (v, a)) = .ok (-v, a) := rfl

/-- **C51 for the call.** The joint adds the log prior to the likelihood value once, whatever the weight. -/
theorem C51_prior (logPrior v : K) (a : Option (Aux O M CM)) :
    joint logPrior (.ok (v, a)) = .ok (v + logPrior, a) := rfl

end call

/-- **C70 is false for the default arguments** of the negative log joint: without `return_aux` it raises a
`TypeError` instead of returning a number. -/
theorem C70_negative_default_false :
    negJoint none (logJoint (some none) (fun _ _ => ([1], ())) (fun o : List ℚ => o) 1
      ({} : Call (List ℚ) Unit Unit Unit)) = .error "TypeError" := by
  decide +kernel

/-- **C70 is false for unknown auxiliary names.** The documented `AttributeError` is never raised: adding
strings to 0 raises a `TypeError`. -/
theorem C70_unknown_aux_false :
    logJoint (some none) (fun _ _ => ([1], ())) (fun o : List ℚ => o) 1
      ({ aux := ["output"] } : Call (List ℚ) Unit Unit Unit) = .error "TypeError" := by
  decide +kernel

/-- **C70 is false without a calibration manager.** Although the code tests for `None`, precomputed
outputs then make it read an unbound variable, and a training call with state hands a tuple to the output
layer; only plain calls work. -/
theorem C70_no_manager_false :
    let f : Bool → Option ℕ → List ℚ × ℕ := fun _ m => ([1], m.getD 0 + 1)
    logJoint (P := Unit) (CM := Unit) none f id 1 { outputs := some [1] } = .error "UnboundLocalError" ∧
    logJoint (P := Unit) (CM := Unit) none f id 1
      { aux := ["mutable"], train := true, mutable := some 0 } = .error "AttributeError" ∧
    logJoint (P := Unit) (CM := Unit) none f id 1 {} = .ok (1, none) := by
  intro f
  refine ⟨?_, ?_, ?_⟩ <;> decide +kernel

/-- **C70 is false for calibrators with state.** The state returned by one calibration step is not accepted
by the next one: it is wrapped in an extra dictionary. -/
theorem C70_calib_state_false :
    let f : Unit → Bool → Option ℕ → List ℚ → List ℚ × ℕ := fun _ _ m o => (o, m.getD 0 + 1)
    let call : CalibVal ℕ → Except String (ℚ × Option (Aux (List ℚ) Unit ℕ)) := fun s =>
      logJoint (some (some f)) (fun _ _ => ([1], ())) id 1
        { aux := ["calib_mutable"], calibParams := some (), calibMutable := some s }
    ∃ s, call (.frozen 0) = .ok (1, some { calibMutable := some (some s) }) ∧
      call s = .error "AttributeError" := by
  refine ⟨.wrapped 1, ?_, ?_⟩ <;> decide +kernel

/-- A training call with state: two rows out of ten data points. -/
example : logJoint (P := Unit) (CM := Unit) (some none)
    (fun train m => (if train then [1, 2] else [3, 4], m.getD 0 + 1)) (fun o : List ℚ => o) 10
    { aux := ["outputs", "mutable"], train := true, mutable := some 7 } =
    .ok (15, some { outputs := some [1, 2], mutable := some 8 }) := by decide +kernel

/-! ## C71 state -/

section state
variable {V : Type}

theorem Dict.get_filter (d : Dict V) (k : String) (hk : k ≠ "params") :
    Dict.get (d.filter (·.1 ≠ "params")) k = Dict.get d k := by
  unfold Dict.get
  congr 1
  induction d with
  | nil => rfl
  | cons a t ih =>
    rw [List.filter_cons, List.find?_cons]
    by_cases h : a.1 = "params"
    · rw [if_neg (by simp [h]), ih]
      simp [h, Ne.symm hk]
    · rw [if_pos (by simp [h]), List.find?_cons, ih]

/-- **C71, calibrators.** Splitting a calibrator's variables into parameters and state loses nothing: the
entry of every collection is found in one of the two, parameters only in the first and others only in the
second; names and their order are kept. -/
theorem C71_split (d : Dict (Option (Dict V))) (name : String) (vars : Dict V)
    (h : d.get name = some (some vars)) :
    (splitState d).1.get name = some (vars.get "params") ∧
    (∃ st, (splitState d).2.get name = some st ∧
      (∀ k ≠ "params", (st.getD []).get k = vars.get k) ∧ (st.getD []).get "params" = none ∧
      (st = none ↔ ∀ k v, (k, v) ∈ vars → k = "params")) ∧
    (splitState d).1.map (·.1) = d.map (·.1) ∧ (splitState d).2.map (·.1) = d.map (·.1) := by
  have hget : ∀ {W : Type} (f : Option (Dict V) → W),
      Dict.get (d.map fun p => (p.1, f p.2)) name = some (f (some vars)) := by
    intro W f
    unfold Dict.get at h ⊢
    induction d with
    | nil => simp at h
    | cons a t ih =>
      rw [List.map_cons, List.find?_cons]
      rw [List.find?_cons] at h
      by_cases ha : a.1 = name
      · simp only [ha, decide_true] at h ⊢
        simp only [Option.map_some, Option.some.injEq] at h ⊢
        rw [h]
      · simp only [ha, decide_false] at h ⊢
        exact ih h
  refine ⟨?_, ?_, ?_, ?_⟩
  · have := hget (fun v => match v with
      | some vars => if vars.isEmpty then none else vars.get "params"
      | none => none)
    refine Eq.trans this ?_
    congr 1
    simp only
    cases vars with
    | nil => rfl
    | cons a t => rfl
  · have := hget (fun v => match v with
      | some vars => let rest := List.filter (fun p : String × V => p.1 ≠ "params") vars; if rest.isEmpty then none else some rest
      | none => none)
    unfold splitState
    refine ⟨_, this, ?_, ?_, ?_⟩
    · intro k hk
      simp only
      by_cases he : (vars.filter (·.1 ≠ "params")).isEmpty = true
      · rw [if_pos he, ← Dict.get_filter vars k hk, List.isEmpty_iff.mp he]
        rfl
      · rw [if_neg he]
        exact Dict.get_filter vars k hk
    · simp only
      split_ifs
      · rfl
      · unfold Dict.get
        rw [Option.getD_some, Option.map_eq_none_iff, List.find?_eq_none]
        intro x hx
        simpa using (List.mem_filter.mp hx).2
    · simp only
      constructor
      · intro hnone k v hkv
        by_contra hk
        split_ifs at hnone with he
        have : (k, v) ∈ vars.filter (·.1 ≠ "params") := List.mem_filter.mpr ⟨hkv, by simpa using hk⟩
        rw [List.isEmpty_iff.mp he] at this
        cases this
      · intro hall
        rw [if_pos]
        rw [List.isEmpty_iff, List.filter_eq_nil_iff]
        intro a ha
        simpa using hall a.1 a.2 ha
  · simp [splitState, List.map_map, Function.comp_def]
  · simp [splitState, List.map_map, Function.comp_def]

/-- **C71, no calibrator.** Without a calibrator both parts are empty entries. -/
theorem C71_none (name : String) :
    splitState ([(name, none)] : Dict (Option (Dict V))) = ([(name, none)], [(name, none)]) := rfl

/-- **C71, models.** The state part is absent exactly when no network has any collection but its
parameters, and otherwise has an entry for each network with exactly its other collections; the parameter part has
for each network its own `"params"` collection. -/
theorem C71_model (d : Dict (Dict V)) :
    ((splitModel d).2 = none ↔ ∀ name vars, (name, vars) ∈ d → ∀ k v, (k, v) ∈ vars → k = "params") ∧
    (∀ s, (splitModel d).2 = some s → s.map (·.1) = d.map (·.1) ∧
      ∀ i : ℕ, ∀ name vars, d[i]? = some (name, vars) → ∃ rest, s[i]? = some (name, rest) ∧
        ∀ k v, (k, v) ∈ rest ↔ (k, v) ∈ vars ∧ k ≠ "params") ∧
    (splitModel d).1.map (·.1) = d.map (·.1) ∧
    (∀ i : ℕ, ∀ name vars, d[i]? = some (name, vars) → ∃ p, (splitModel d).1[i]? = some (name, p) ∧
      (∀ v, p = some v → ("params", v) ∈ vars) ∧ (p = none ↔ ∀ k v, (k, v) ∈ vars → k ≠ "params")) := by
  unfold splitModel
  simp only
  refine ⟨?_, ?_, by simp [List.map_map, Function.comp_def], ?_⟩
  · constructor
    · intro h name vars hd k v hkv
      split_ifs at h with hall
      rw [List.all_eq_true] at hall
      have := hall (name, vars.filter (·.1 ≠ "params")) (List.mem_map.mpr ⟨_, hd, rfl⟩)
      rw [List.isEmpty_iff, List.filter_eq_nil_iff] at this
      simpa using this (k, v) hkv
    · intro h
      rw [if_pos]
      rw [List.all_eq_true]
      intro x hx
      obtain ⟨⟨name, vars⟩, hd, rfl⟩ := List.mem_map.mp hx
      rw [List.isEmpty_iff, List.filter_eq_nil_iff]
      rintro ⟨k, v⟩ hkv
      simpa using h name vars hd k v hkv
  · intro s hs
    split_ifs at hs
    obtain rfl := Option.some.inj hs
    refine ⟨by simp [List.map_map, Function.comp_def], ?_⟩
    intro i name vars hi
    refine ⟨vars.filter (·.1 ≠ "params"), by rw [List.getElem?_map, hi]; rfl, ?_⟩
    intro k v
    simp [List.mem_filter]
  · intro i name vars hi
    refine ⟨vars.get "params", by rw [List.getElem?_map, hi]; rfl, ?_, ?_⟩
    · intro v hv
      unfold Dict.get at hv
      rw [Option.map_eq_some_iff] at hv
      obtain ⟨⟨k, w⟩, hf, rfl⟩ := hv
      have hk : k = "params" := by simpa using List.find?_some hf
      rw [← hk]
      exact List.mem_of_find?_eq_some hf
    · unfold Dict.get
      rw [Option.map_eq_none_iff, List.find?_eq_none]
      constructor
      · intro h k v hkv
        simpa using h (k, v) hkv
      · rintro h ⟨k, v⟩ hkv
        simpa using h k v hkv

end state

section regression
variable {O M : Type}

/-- **C71, regression without state.** A regression model without collections other than parameters
returns just the concatenated outputs, in and out of training. -/
theorem C71_regression_stateless (fm fl : Bool → Option M → O × M) (cat : O → O → O) (train frozen : Bool) :
    regressionApply fm fl cat train frozen none =
      .ok (.plain (cat (fm train none).1 (fl train none).1)) := by
  unfold regressionApply regressionAux
  cases train <;> simp

end regression

/-- **C71 is false for regression models with state.** The state as initialised is a `FrozenDict`, which
is refused; with a plain dictionary the updated state of the model is stored in place of that of the
log-variance model, and a call outside training returns state too. -/
theorem C71_regression_state_false :
    let fm : Bool → Option ℕ → List ℚ × ℕ := fun _ m => ([1], m.getD 0 + 1)
    let fl : Bool → Option ℕ → List ℚ × ℕ := fun _ m => ([2], m.getD 0 + 10)
    regressionApply fm fl (· ++ ·) true true (some (some 0, some 0)) = .error "TypeError" ∧
    regressionApply fm fl (· ++ ·) true false (some (some 0, some 0)) =
      .ok (.pair [1, 2] (some 1, some (some 1))) ∧
    regressionApply fm fl (· ++ ·) false false (some (some 0, none)) =
      .ok (.pair [1, 2] (some 0, none)) := by
  decide +kernel

example : (splitState [("output_calibrator", some [("params", 1), ("batch_stats", 2)])] :
    Dict (Option ℕ) × Dict (Option (Dict ℕ))) =
    ([("output_calibrator", some 1)], [("output_calibrator", some [("batch_stats", 2)])]) := by
  decide +kernel

/-! ### Concrete cases that meet the hypotheses of the theorems above -/

example := C51_epoch (K := ℚ) 5 [[1, 2], [6, 3]] 2 (by decide) (by simp) (by simp)
example := C51_size_weighted (K := ℚ) 5 [[1, 2], [6]] (by simp) (by simp)
example := C51_full (K := ℚ) 5 [1, 2, 6] (by simp)
example := C70_result (K := ℚ) (M := ℕ) (CM := ℕ) (P := ℚ) (some fun p _ m o => (o.map (p * ·), m.getD 0 + 1))
  (fun train m => (if train then [1, 2] else [3, 4], m.getD 0 + 1)) (fun o : List ℚ => o) 10
  { aux := ["outputs", "mutable"], train := true, mutable := some 7, calibParams := some 3, calibMutable := some (.frozen 2) } 3 (some 2)
  (by simp [Allowed]) rfl rfl (by simp) (by simp [finalOutputs, rawOutputs])
example := C70_precomputed (K := ℚ) (M := ℕ) (CM := ℕ) (P := ℚ) (some fun p _ m o => (o.map (p * ·), m.getD 0 + 1))
  (fun train m => (if train then [1, 2] else [3, 4], m.getD 0 + 1)) (fun o : List ℚ => o) 10
  { calibParams := some 3, calibMutable := some (.frozen 2) } rfl rfl
example := C71_split (V := ℕ) [("model", none), ("output_calibrator", some [("params", 1), ("batch_stats", 2)])] "output_calibrator"
  [("params", 1), ("batch_stats", 2)] (by decide)

end Verif.Props
