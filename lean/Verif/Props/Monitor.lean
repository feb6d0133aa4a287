import Verif.Model.Monitor

/-!
Property C132: which monitoring configurations are accepted, and which then run.
-/
set_option linter.unusedSectionVars false

namespace Verif.Props.Monitor

open Verif.Monitor

/-- **C132.** A monitor is made exactly if metrics are absent or a tuple of callables, and the uncertainty function absent or callable; otherwise a ValueError is raised. -/
theorem C132_accepted (m : Metrics) (u : Option Obj) :
    ((∃ r, monitorInit m u = .ok r) ↔ (m = .none ∨ ∃ l, m = .tuple l ∧ ∀ o ∈ l, o.callable = true) ∧ ∀ o, u = some o → o.callable = true) ∧
    ((∃ r, monitorInit m u = .ok r) ∨ monitorInit m u = .error "ValueError") ∧ (∀ r, monitorInit m u = .ok r → m = (match r with
      | none => .none
      | some l => .tuple l)) := by
  unfold monitorInit
  cases m with
  | none =>
    cases u with
    | none => simp
    | some o => cases h : o.callable <;> simp [h]
  | other => simp
  | tuple l =>
    by_cases hl : l.all (·.callable) = true
    · have hl' : ∀ o ∈ l, o.callable = true := by simpa using hl
      dsimp only
      rw [if_pos hl]
      have hex : ∃ l', Metrics.tuple l = Metrics.tuple l' ∧ ∀ o ∈ l', o.callable = true := ⟨l, rfl, hl'⟩
      cases u with
      | none => simpa using hl'
      | some o => cases h : o.callable <;> simp [hl', h] <;> simpa using hl'
    · have hl' : ¬ ∀ o ∈ l, o.callable = true := by simpa using hl
      dsimp only
      rw [if_neg hl]
      refine ⟨?_, Or.inr rfl, by simp⟩
      constructor
      · rintro ⟨r, hr⟩; cases hr
      · rintro ⟨h | ⟨l', h, h2⟩, -⟩
        · cases h
        · injection h with h; subst h; exact absurd h2 hl'

/-- The names of metrics which all have one. -/
theorem names_spec (ms : List Obj) :
    (∀ l, names ms = .ok l ↔ ms.map (·.name) = l.map some) ∧ ((∃ o ∈ ms, o.name = none) ↔ names ms = .error "AttributeError") := by
  induction ms with
  | nil =>
    refine ⟨fun l => ?_, by simp [names]⟩
    cases l <;> simp [names]
  | cons o ms ih =>
    unfold names
    cases ho : o.name with
    | none =>
      refine ⟨fun l => ?_, by simp [ho]⟩
      cases l <;> simp [ho]
    | some n =>
      cases hn : names ms with
      | error e =>
        refine ⟨fun l => ?_, ?_⟩
        · cases l with
          | nil => simp
          | cons a l =>
            simp only [List.map_cons, ho, List.cons.injEq, reduceCtorEq, false_iff, not_and]
            intro _ h
            rw [(ih.1 l).2 h] at hn
            cases hn
        · rw [hn] at ih
          simpa [ho] using ih.2
      | ok l' =>
        refine ⟨fun l => ?_, ?_⟩
        · have := (ih.1 l').1 hn
          cases l with
          | nil => simp
          | cons a l =>
            simp only [List.map_cons, ho, List.cons.injEq, Except.ok.injEq, Option.some.injEq, this]
            constructor
            · rintro ⟨rfl, rfl⟩; exact ⟨rfl, rfl⟩
            · rintro ⟨rfl, h⟩; exact ⟨rfl, List.map_injective_iff.2 (Option.some_injective _) h⟩
        · rw [hn] at ih
          simpa [ho] using ih.2

/-- The names of the metrics of a configuration. -/
def NameOf (c : Config) (n : String) : Prop := ∃ ms o, c.metrics = some ms ∧ o ∈ ms ∧ o.name = some n

/-- All metrics have a name. -/
def Named (c : Config) : Prop := ∀ ms, c.metrics = some ms → ∀ o ∈ ms, o.name ≠ none

theorem train_spec (c : Config) :
    ((c.disabled = true ∨ Named c) ↔ ∃ t, trainKeys c.disabled c.metrics = .ok t) ∧
    (¬ (c.disabled = true ∨ Named c) ↔ trainKeys c.disabled c.metrics = .error "AttributeError") ∧
    ∀ t, trainKeys c.disabled c.metrics = .ok t → ∀ k, k ∈ t ↔ k = "loss" ∨ (c.disabled = false ∧ NameOf c k) := by
  unfold trainKeys NameOf Named
  cases hd : c.disabled with
  | true => simp
  | false =>
    cases hm : c.metrics with
    | none => simp
    | some ms =>
      have h := names_spec ms
      cases hn : names ms with
      | error e =>
        have hex : ∃ o ∈ ms, o.name = none := by
          by_contra hno
          push Not at hno
          have : ∃ l : List String, ms.map (·.name) = l.map some := by
            clear hn h hm
            induction ms with
            | nil => exact ⟨[], rfl⟩
            | cons o ms ih =>
              obtain ⟨l, hl⟩ := ih fun o ho => hno o (by simp [ho])
              obtain ⟨n, hnn⟩ := Option.ne_none_iff_exists'.1 (hno o (by simp))
              exact ⟨n :: l, by simp [hnn, hl]⟩
          obtain ⟨l, hl⟩ := this
          rw [(h.1 l).2 hl] at hn
          cases hn
        have he := h.2.1 hex
        rw [hn] at he
        injection he with he
        subst he
        simp only [Bool.false_eq_true, false_or, Option.some.injEq, forall_eq', hn]
        obtain ⟨o, ho, hoo⟩ := hex
        refine ⟨?_, ?_, ?_⟩
        · constructor
          · intro hall; exact absurd hoo (hall o ho)
          · rintro ⟨t, ht⟩; cases ht
        · exact ⟨fun _ => rfl, fun _ hall => hall o ho hoo⟩
        · intro t ht; cases ht
      | ok l =>
        have hl := (h.1 l).1 hn
        have hall : ∀ o ∈ ms, o.name ≠ none := by
          intro o ho hoo
          have : names ms = .error "AttributeError" := h.2.1 ⟨o, ho, hoo⟩
          rw [hn] at this
          cases this
        have hmem : ∀ k, k ∈ l ↔ ∃ o ∈ ms, o.name = some k := by
          intro k
          have : some k ∈ ms.map (·.name) ↔ some k ∈ l.map some := by rw [hl]
          simp only [List.mem_map, Option.some.injEq, exists_eq_right] at this
          exact this.symm
        simp only [Bool.false_eq_true, false_or, Option.some.injEq, forall_eq', hn]
        refine ⟨⟨fun _ => ⟨_, rfl⟩, fun _ => hall⟩, ⟨fun h => absurd hall h, fun h => by cases h⟩, ?_⟩
        intro t ht k
        injection ht with ht
        subst ht
        simp [hmem]

theorem val_spec (c : Config) :
    (Named c ↔ ∃ t, valKeys c.metrics = .ok t) ∧ (¬ Named c ↔ valKeys c.metrics = .error "AttributeError") ∧
    ∀ t, valKeys c.metrics = .ok t → ∀ k, k ∈ t ↔ k = "val_loss" ∨ ∃ n, k = "val_" ++ n ∧ NameOf c n := by
  have h := train_spec { c with disabled := false }
  have hn : Named { c with disabled := false } ↔ Named c := Iff.rfl
  have hno : ∀ k, NameOf { c with disabled := false } k ↔ NameOf c k := fun k => Iff.rfl
  simp only [Bool.false_eq_true, false_or, hn, hno, true_and] at h
  unfold trainKeys at h
  unfold valKeys
  cases hm : c.metrics with
  | none =>
    have h1 : Named c := by intro ms h; rw [hm] at h; cases h
    have h2 : ∀ k, ¬ NameOf c k := by rintro k ⟨ms, o, h, -⟩; rw [hm] at h; cases h
    simp [h1, h2]
  | some ms =>
    rw [hm] at h
    simp only at h
    cases hk : names ms with
    | error e =>
      rw [hk] at h
      obtain ⟨h1, h2, -⟩ := h
      simp only [Except.map, reduceCtorEq, exists_false, iff_false] at h1
      have h2' := h2.1 h1
      simp only [hk]
      refine ⟨by simp [Except.map, h1], ⟨fun _ => ?_, fun _ => h1⟩, fun t ht => by cases ht⟩
      simpa [Except.map] using h2'
    | ok l =>
      rw [hk] at h
      obtain ⟨h1, h2, h3⟩ := h
      have hN : Named c := h1.2 ⟨_, rfl⟩
      simp only [hk]
      refine ⟨⟨fun _ => ⟨_, rfl⟩, fun _ => hN⟩, ⟨fun h => absurd hN h, fun h => by cases h⟩, ?_⟩
      intro t ht k
      injection ht with ht
      subst ht
      have hmem : ∀ n, n ∈ l ↔ NameOf c n := by
        intro n
        have h4 := h3 _ rfl n
        constructor
        · intro hn
          have hl := ((names_spec ms).1 l).1 hk
          have : some n ∈ ms.map (·.name) := by rw [hl]; exact List.mem_map_of_mem hn
          obtain ⟨o, ho, hoo⟩ := List.mem_map.1 this
          exact ⟨ms, o, hm, ho, hoo⟩
        · rintro ⟨ms', o, hm', ho, hoo⟩
          rw [hm] at hm'
          injection hm' with hm'
          subst hm'
          have hl := ((names_spec ms).1 l).1 hk
          have : some n ∈ l.map some := by rw [← hl, ← hoo]; exact List.mem_map_of_mem ho
          simpa using this
      simp only [List.mem_cons, List.mem_map, hmem]
      constructor
      · rintro (h | ⟨n, h1, h2⟩)
        · exact Or.inl h
        · exact Or.inr ⟨n, h2.symm, h1⟩
      · rintro (h | ⟨n, h1, h2⟩)
        · exact Or.inl h
        · exact Or.inr ⟨n, h2, h1.symm⟩

/-- The keys of validations. -/
def ValKey (c : Config) (k : String) : Prop := k = "val_loss" ∨ ∃ n, k = "val_" ++ n ∧ NameOf c n

/-- The keys of training. -/
def TrainKey (c : Config) (k : String) : Prop := k = "loss" ∨ (c.disabled = false ∧ NameOf c k)

/-- Early stopping is on for a positive patience. -/
def Patient (c : Config) : Prop := ∃ p : ℤ, c.patience = some p ∧ 0 < p

theorem active_iff (c : Config) : active c.patience = true ↔ Patient c := by
  unfold active Patient
  cases c.patience <;> simp

/-- What goes wrong in the first epoch, in the order in which it does. -/
noncomputable def failure (c : Config) (hasVal : Bool) : Option String := by
  classical
  exact if ¬ (c.disabled = true ∨ Named c) then some "AttributeError"
    else if hasVal = true ∧ c.every = none then some "TypeError"
    else if hasVal = true ∧ (∃ k, c.every = some k ∧ 0 < k) then
      if ¬ Named c then some "AttributeError"
      else if Patient c ∧ ¬ ValKey c c.monitor then some "KeyError" else none
    else none

/-- Whether epochs are validated. -/
def Validated (c : Config) (hasVal : Bool) : Prop := hasVal = true ∧ ∃ k, c.every = some k ∧ 0 < k

theorem epoch_error (c : Config) (hasVal : Bool) (x : String) (h : failure c hasVal = some x) : epoch c hasVal 0 = .error x := by
  unfold failure at h
  obtain ⟨t1, t2, t3⟩ := train_spec c
  obtain ⟨v1, v2, v3⟩ := val_spec c
  unfold epoch
  by_cases h1 : c.disabled = true ∨ Named c
  · rw [if_neg (not_not.2 h1)] at h
    obtain ⟨t, ht⟩ := t1.1 h1
    simp only [bind, Except.bind, ht]
    by_cases h2 : hasVal = true ∧ c.every = none
    · rw [if_pos h2] at h
      injection h with h
      subst h
      simp [shouldValidate, h2.1, h2.2]
    · rw [if_neg h2] at h
      by_cases h3 : hasVal = true ∧ ∃ k, c.every = some k ∧ 0 < k
      · rw [if_pos h3] at h
        obtain ⟨hv, k, hk, hk0⟩ := h3
        have hs : shouldValidate hasVal c.every 0 = .ok true := by simp [shouldValidate, hv, hk, hk0]
        simp only [hs, if_true]
        by_cases h4 : Named c
        · rw [if_neg (not_not.2 h4)] at h
          obtain ⟨w, hw⟩ := v1.1 h4
          simp only [hw]
          by_cases h5 : Patient c ∧ ¬ ValKey c c.monitor
          · rw [if_pos h5] at h
            injection h with h
            subst h
            have : ¬ c.monitor ∈ w := fun hm => h5.2 ((v3 w hw _).1 hm)
            simp [(active_iff c).2 h5.1, this]
          · rw [if_neg h5] at h; cases h
        · rw [if_pos h4] at h
          injection h with h
          subst h
          simp only [v2.1 h4]
      · rw [if_neg h3] at h; cases h
  · rw [if_pos h1] at h
    injection h with h
    subst h
    simp only [bind, Except.bind, t2.1 h1]

theorem epoch_ok (c : Config) (hasVal : Bool) (h : failure c hasVal = none) (e : ℕ) :
    ∃ t v, epoch c hasVal e = .ok (t, v) ∧ (∀ k, k ∈ t ↔ TrainKey c k) ∧
      (∀ w, v = some w → Validated c hasVal ∧ ∀ k, k ∈ w ↔ ValKey c k) ∧ (e = 0 → Validated c hasVal → v.isSome = true) := by
  unfold failure at h
  obtain ⟨t1, t2, t3⟩ := train_spec c
  obtain ⟨v1, v2, v3⟩ := val_spec c
  unfold epoch
  by_cases h1 : c.disabled = true ∨ Named c
  swap
  · rw [if_pos h1] at h; cases h
  rw [if_neg (not_not.2 h1)] at h
  obtain ⟨t, ht⟩ := t1.1 h1
  simp only [bind, Except.bind, ht]
  by_cases h2 : hasVal = true ∧ c.every = none
  · rw [if_pos h2] at h; cases h
  rw [if_neg h2] at h
  by_cases h3 : hasVal = true ∧ ∃ k, c.every = some k ∧ 0 < k
  · rw [if_pos h3] at h
    have hval : Validated c hasVal := h3
    obtain ⟨hv, k, hk, hk0⟩ := h3
    have hs : shouldValidate hasVal c.every e = .ok (decide (0 < k ∧ (e : ℤ) % k = 0)) := by simp [shouldValidate, hv, hk]
    simp only [hs]
    by_cases h4 : Named c
    swap
    · rw [if_pos h4] at h; cases h
    rw [if_neg (not_not.2 h4)] at h
    obtain ⟨w, hw⟩ := v1.1 h4
    by_cases h5 : Patient c ∧ ¬ ValKey c c.monitor
    · rw [if_pos h5] at h; cases h
    have h6 : ¬ ((active c.patience && !(w.contains c.monitor)) = true) := by
      intro hc
      simp only [Bool.and_eq_true, Bool.not_eq_true', List.contains_eq_mem, decide_eq_false_iff_not] at hc
      exact h5 ⟨(active_iff c).1 hc.1, fun hm => hc.2 ((v3 w hw _).2 hm)⟩
    by_cases h7 : 0 < k ∧ (e : ℤ) % k = 0
    · refine ⟨t, some w, ?_, t3 t ht, ?_, fun _ _ => rfl⟩
      · simp only [h7, and_self, decide_true, if_true, hw]
        rw [if_neg h6]; rfl
      · intro w' hw'
        injection hw' with hw'
        subst hw'
        exact ⟨hval, v3 w hw⟩
    · refine ⟨t, none, ?_, t3 t ht, by simp, ?_⟩
      · simp only [h7, decide_false, Bool.false_eq_true, if_false]; rfl
      · rintro rfl -
        exact absurd ⟨hk0, by simp⟩ h7
  · have hs : shouldValidate hasVal c.every e = .ok false := by
      unfold shouldValidate
      cases hasVal with
      | false => simp
      | true =>
        cases he : c.every with
        | none => exact absurd ⟨rfl, he⟩ h2
        | some k =>
          have : ¬ 0 < k := fun hk => h3 ⟨rfl, k, he, hk⟩
          simp [this]
    refine ⟨t, none, ?_, t3 t ht, by simp, fun _ hv => absurd hv h3⟩
    simp only [hs, Bool.false_eq_true, if_false]; rfl

theorem epochs_ok (c : Config) (hasVal : Bool) (stops : ℕ → Bool) (h : failure c hasVal = none) (n e : ℕ) :
    ∃ t v, epochs c hasVal stops n e = .ok (t, v) ∧ (∀ k ∈ t, TrainKey c k) ∧ (∀ k ∈ v, Validated c hasVal ∧ ValKey c k) ∧
      (0 < n → ∀ k, TrainKey c k → k ∈ t) ∧ (0 < n → e = 0 → Validated c hasVal → ∀ k, ValKey c k → k ∈ v) := by
  induction n generalizing e with
  | zero => exact ⟨[], [], rfl, by simp, by simp, by simp, by simp⟩
  | succ n ih =>
    obtain ⟨t, v, h1, h2, h3, h4⟩ := epoch_ok c hasVal h e
    have hv : ∀ k ∈ v.getD [], Validated c hasVal ∧ ValKey c k := by
      intro k hk
      cases v with
      | none => simp at hk
      | some w => exact ⟨(h3 w rfl).1, ((h3 w rfl).2 k).1 hk⟩
    have hv' : e = 0 → Validated c hasVal → ∀ k, ValKey c k → k ∈ v.getD [] := by
      intro he hval k hk
      have := h4 he hval
      cases v with
      | none => cases this
      | some w => exact ((h3 w rfl).2 k).2 hk
    unfold epochs
    simp only [bind, Except.bind, h1]
    by_cases hs : (v.isSome && active c.patience && stops e) = true
    · rw [if_pos hs]
      exact ⟨t, v.getD [], rfl, fun k hk => (h2 k).1 hk, hv, fun _ k hk => (h2 k).2 hk, fun _ => hv'⟩
    · rw [if_neg hs]
      obtain ⟨t', v', i1, i2, i3, -, -⟩ := ih (e + 1)
      rw [i1]
      refine ⟨t ++ t', v.getD [] ++ v', rfl, ?_, ?_, ?_, ?_⟩
      · intro k hk
        rcases List.mem_append.1 hk with hk | hk
        · exact (h2 k).1 hk
        · exact i2 k hk
      · intro k hk
        rcases List.mem_append.1 hk with hk | hk
        · exact hv k hk
        · exact i3 k hk
      · intro _ k hk; exact List.mem_append_left _ ((h2 k).2 hk)
      · intro _ he hval k hk; exact List.mem_append_left _ (hv' he hval k hk)

/-- **C132, status.** If nothing goes wrong in the first epoch and no key of training is one of a validation made, a fit of at least one epoch reports the loss and (unless disabled) every metric, and if epochs are validated these
with `val_` in front, and nothing else; whether and when it stops early. -/
theorem C132_status (c : Config) (hasVal : Bool) (stops : ℕ → Bool) (n : ℕ) (hn : 0 < n) (h : failure c hasVal = none)
    (hd : Validated c hasVal → ∀ k, TrainKey c k → ¬ ValKey c k) :
    ∃ s, status c hasVal stops n = .ok s ∧ ∀ k, k ∈ s ↔ (k = "loss" ∨ (c.disabled = false ∧ NameOf c k)) ∨
      ((hasVal = true ∧ ∃ i, c.every = some i ∧ 0 < i) ∧ (k = "val_loss" ∨ ∃ m, k = "val_" ++ m ∧ NameOf c m)) := by
  obtain ⟨t, v, h1, h2, h3, h4, h5⟩ := epochs_ok c hasVal stops h n 0
  refine ⟨t ++ v, ?_, ?_⟩
  · unfold status
    simp only [bind, Except.bind, h1]
    rw [if_neg]
    · rfl
    · intro hc
      simp only [List.any_eq_true, List.contains_eq_mem, decide_eq_true_eq] at hc
      obtain ⟨k, hk, hk'⟩ := hc
      exact hd (h3 k hk').1 k (h2 k hk) (h3 k hk').2
  · intro k
    rw [List.mem_append]
    constructor
    · rintro (hk | hk)
      · exact Or.inl (h2 k hk)
      · exact Or.inr (h3 k hk)
    · rintro (hk | ⟨hv, hk⟩)
      · exact Or.inl (h4 hn k hk)
      · exact Or.inr (h5 hn rfl hv k hk)

/-- **C132, failures.** A fit of at least one epoch whose first epoch fails raises that exception. One whose training and validation share a key raises a TypeError after all its epochs. These are all. -/
theorem C132_failures (c : Config) (hasVal : Bool) (stops : ℕ → Bool) (n : ℕ) (hn : 0 < n) :
    (∀ x, failure c hasVal = some x → status c hasVal stops n = .error x) ∧
    (failure c hasVal = none → Validated c hasVal → (∃ k, TrainKey c k ∧ ValKey c k) →
      status c hasVal stops n = .error "TypeError" ∧ ∃ r, epochs c hasVal stops n 0 = .ok r) := by
  constructor
  · intro x hx
    obtain ⟨m, rfl⟩ : ∃ m, n = m + 1 := ⟨n - 1, by omega⟩
    have := epoch_error c hasVal x hx
    unfold status epochs
    simp only [bind, Except.bind, this]
  · intro h hv ⟨k, hk1, hk2⟩
    obtain ⟨t, v, h1, -, -, h4, h5⟩ := epochs_ok c hasVal stops h n 0
    refine ⟨?_, _, h1⟩
    unfold status
    simp only [bind, Except.bind, h1]
    rw [if_pos]
    simp only [List.any_eq_true, List.contains_eq_mem, decide_eq_true_eq]
    exact ⟨k, h4 hn k hk1, h5 hn rfl hv k hk2⟩

/-- **C132 (false).** `eval_every_n_epochs=None`, documented to disable validation, raises a TypeError in the first epoch if validation data are given; 0 does disable it. -/
theorem C132_none_false (c : Config) (stops : ℕ → Bool) (n : ℕ) (hn : 0 < n) (hm : c.metrics = none) :
    status { c with every := none } true stops n = .error "TypeError" ∧
    ∃ s, status { c with every := some 0 } true stops n = .ok s ∧ ∀ k, k ∈ s ↔ k = "loss" := by
  have hN : ∀ e, Named { c with every := e } := by intro e ms h; rw [show ({ c with every := e } : Config).metrics = c.metrics from rfl, hm] at h; cases h
  have hno : ∀ e k, ¬ NameOf { c with every := e } k := by
    rintro e k ⟨ms, o, h, -⟩; rw [show ({ c with every := e } : Config).metrics = c.metrics from rfl, hm] at h; cases h
  constructor
  · apply (C132_failures { c with every := none } true stops n hn).1
    unfold failure
    rw [if_neg (by simp [hN]), if_pos ⟨rfl, rfl⟩]
  · have hf : failure { c with every := some 0 } true = none := by
      unfold failure
      rw [if_neg (by simp [hN]), if_neg (by simp), if_neg]
      rintro ⟨-, k, hk, hk0⟩
      injection hk with hk
      subst hk
      exact absurd hk0 (lt_irrefl 0)
    have hnv : ¬ Validated { c with every := some 0 } true := by
      rintro ⟨-, k, hk, hk0⟩
      injection hk with hk
      subst hk
      exact absurd hk0 (lt_irrefl 0)
    obtain ⟨s, h1, h2⟩ := C132_status { c with every := some 0 } true stops n hn hf (fun h => absurd h hnv)
    refine ⟨s, h1, fun k => ?_⟩
    rw [h2]
    constructor
    · rintro ((h | ⟨-, h⟩) | ⟨h, -⟩)
      · exact h
      · exact absurd h (hno _ k)
      · exact absurd h hnv
    · exact fun h => Or.inl (Or.inl h)

/-- **C132 (false).** Being accepted by the constructor is not enough: a callable without name, like a `functools.partial`, passes it and raises an AttributeError in the first epoch. -/
theorem C132_nameless_false (ms : List Obj) (o : Obj) (ho : o ∈ ms) (hno : o.name = none) (hc : ∀ o ∈ ms, o.callable = true) (c : Config) (hasVal : Bool) (stops : ℕ → Bool) (n : ℕ) (hn : 0 < n)
    (hd : c.disabled = false) :
    monitorInit (.tuple ms) none = .ok (some ms) ∧ status { c with metrics := some ms } hasVal stops n = .error "AttributeError" := by
  constructor
  · unfold monitorInit
    dsimp only
    rw [if_pos (by simpa using hc)]
  · apply (C132_failures { c with metrics := some ms } hasVal stops n hn).1
    unfold failure
    rw [if_pos]
    rintro (h | h)
    · rw [hd] at h; cases h
    · exact h ms rfl o ho hno

/-- **C132 (false).** Metrics called `m` and `val_m` train for all epochs, and then the fit raises a TypeError and nothing is returned. -/
theorem C132_collision_false (m : String) (c : Config) (i : ℤ) (hi : 0 < i) (hd : c.disabled = false) (hp : c.patience = none) (he : c.every = some i) (stops : ℕ → Bool) (n : ℕ) (hn : 0 < n) :
    let c' := { c with metrics := some [⟨true, some m⟩, ⟨true, some ("val_" ++ m)⟩] }
    status c' true stops n = .error "TypeError" ∧ ∃ r, epochs c' true stops n 0 = .ok r := by
  intro c'
  have hN : Named c' := by
    intro ms h o ho
    injection h with h
    subst h
    simp at ho
    rcases ho with rfl | rfl <;> simp
  refine (C132_failures c' true stops n hn).2 ?_ ⟨rfl, i, he, hi⟩ ⟨"val_" ++ m, Or.inr ⟨hd, _, ⟨true, some ("val_" ++ m)⟩, rfl, by simp, rfl⟩, Or.inr ⟨m, rfl, _, ⟨true, some m⟩, rfl, by simp, rfl⟩⟩
  unfold failure
  rw [if_neg (by simp [hN]), if_neg (by rintro ⟨-, h⟩; rw [show c'.every = c.every from rfl, he] at h; cases h), if_pos ⟨rfl, i, he, hi⟩, if_neg (not_not.2 hN), if_neg]
  rintro ⟨⟨q, h, -⟩, -⟩
  rw [show c'.patience = c.patience from rfl, hp] at h
  cases h

/-- **C132, step sizes.** A float of at least 0 is a constant schedule, a function is used as it is. -/
theorem C132_step (x : ℝ) (hx : 0 ≤ x) (f : ℕ → ℝ) :
    (∃ g, stepSchedule (.float x) = .ok g ∧ ∀ t, g t = x) ∧ stepSchedule (.fn f) = .ok f ∧ (∀ y < 0, stepSchedule (.float y) = .error "ValueError") ∧ stepSchedule .other = .error "ValueError" := by
  refine ⟨?_, rfl, ?_, rfl⟩
  · unfold stepSchedule SGMCMC.constantSchedule
    dsimp only
    rw [if_neg (not_not.2 (ge_iff_le.2 hx))]
    exact ⟨_, rfl, fun t => rfl⟩
  · intro y hy
    unfold stepSchedule SGMCMC.constantSchedule
    dsimp only
    rw [if_pos (fun h => absurd hy (not_lt.2 h))]

/-- **C132 (false).** A whole number as step size, 1 for 1.0, is refused although a number is as good as a float. -/
theorem C132_int_false (z : ℤ) : stepSchedule (.int z) = .error "ValueError" := rfl

/-! ## Examples -/

example : status ⟨some [⟨true, some "accuracy"⟩], false, some 1, some 2, "val_accuracy"⟩ true (fun _ => false) 2 =
    .ok ["loss", "accuracy", "loss", "accuracy", "val_loss", "val_accuracy", "val_loss", "val_accuracy"] := by decide +kernel

example : status ⟨some [⟨true, some "accuracy"⟩], false, some 1, some 2, "accuracy"⟩ true (fun _ => false) 2 = .error "KeyError" := by decide +kernel

example : status ⟨some [⟨true, some "accuracy"⟩], false, some 1, some 2, "accuracy"⟩ false (fun _ => false) 1 = .ok ["loss", "accuracy"] := by decide +kernel

/-! ### Concrete cases that meet the hypotheses of the theorems above -/

/-- One metric, validation in every epoch, early stopping on it. -/
def exConfig : Config := ⟨some [⟨true, some "accuracy"⟩], false, some 1, some 2, "val_accuracy"⟩

theorem exConfig_names (k : String) : NameOf exConfig k ↔ k = "accuracy" := by
  constructor
  · rintro ⟨ms, o, h, ho, hk⟩
    cases h
    rw [List.mem_singleton] at ho
    subst ho
    exact (Option.some.inj hk).symm
  · rintro rfl
    exact ⟨_, _, rfl, List.mem_singleton.2 rfl, rfl⟩

theorem exConfig_fine : failure exConfig true = none := by
  have hN : Named exConfig := by intro ms h o ho; cases h; rw [List.mem_singleton] at ho; subst ho; simp
  unfold failure
  rw [if_neg (not_not.2 (.inr hN)), if_neg (by simp [exConfig]), if_pos ⟨rfl, 1, rfl, by decide⟩, if_neg (not_not.2 hN), if_neg]
  rintro ⟨-, h⟩
  exact h (.inr ⟨"accuracy", rfl, (exConfig_names _).2 rfl⟩)

example := C132_status exConfig true (fun _ => false) 2 (by decide) exConfig_fine (by
  rintro - k (rfl | ⟨-, h⟩) (h' | ⟨m, h', hm⟩)
  · simp at h'
  · rw [exConfig_names] at hm; subst hm; revert h'; decide
  · rw [exConfig_names] at h; subst h; simp at h'
  · rw [exConfig_names] at h hm; subst h hm; revert h'; decide)
example := C132_failures exConfig true (fun _ => false) 2 (by decide)
example := C132_none_false { exConfig with metrics := none } (fun _ => false) 2 (by decide) rfl
example := C132_nameless_false [⟨true, some "accuracy"⟩, ⟨true, none⟩] ⟨true, none⟩ (by simp) rfl (by simp) exConfig true (fun _ => false) 2
  (by decide) rfl
example := C132_collision_false "accuracy" { exConfig with patience := none } 1 (by decide) rfl rfl rfl (fun _ => false) 2 (by decide)
example := C132_step (1 / 100) (by norm_num) (fun t => 1 / (t + 1))

end Verif.Props.Monitor
