import Verif.Model.Checkpoint
import Verif.Props.Frozen
import Mathlib.Tactic.Ring
import Mathlib.Tactic.Linarith

/-!
C86: train states written to disk and read back, over any number of sessions.
-/

set_option linter.unusedSectionVars false

namespace Verif.Props.Checkpoint
open Verif.Nested Verif.Ckpt Verif.Props

variable {P M C O G D : Type}

/-- A state as its class makes it: the class's own name; an `OutputCalibState` has mutable objects and lacks the fields of posteriors. -/
structure Made (s : State P M C O G D) : Prop where
  name : s.name = encodeName s.cls.name
  calib : s.cls = .outputCalib → s.mutbl.isSome = true ∧ s.calibParams = none ∧ s.calibMutable = none

/-- Everything a user reads off a state, apart from the optimizer, is the same. -/
structure SameContent (s s' : State P M C O G D) : Prop where
  cls : s'.cls = s.cls
  step : s'.step = s.step
  params : s'.params = s.params
  mutbl : s'.mutbl = s.mutbl
  calibParams : s'.calibParams = s.calibParams
  calibMutable : s'.calibMutable = s.calibMutable

/-! ## Names -/

theorem nameOf_stored (s : String) : nameOf (encodeName s).stored = s.toList := by
  unfold nameOf encodeName Enc.stored
  have : (toStateDict (s.toList.map Char.toNat)).map (fun kv => Char.ofNat kv.2) =
      ((toStateDict (s.toList.map Char.toNat)).map Prod.snd).map Char.ofNat := by
    rw [List.map_map]; rfl
  rw [this, toStateDict_values, List.map_map]
  conv_rhs => rw [← List.map_id s.toList]
  exact List.map_congr_left fun c _ => Char.ofNat_toNat c

theorem classOf_name (c : Cls) (hc : c ∈ posteriorClasses) : classOf c.name.toList = .ok c := by
  revert c; decide +kernel

/-- The name field of a state whose class is still known: the tuple of the class, or its dictionary. -/
def Spells (c : Cls) (e : Enc) : Prop := e = encodeName c.name ∨ e = .dict (encodeName c.name).stored

theorem Spells.nameOf {c : Cls} {e : Enc} (h : Spells c e) : nameOf e.stored = c.name.toList := by
  rcases h with h | h
  · rw [h, nameOf_stored]
  · rw [h]; exact nameOf_stored _

theorem Spells.stored {c : Cls} {e : Enc} (h : Spells c e) : e.stored = (encodeName c.name).stored := by
  rcases h with h | h
  · rw [h]
  · rw [h]; rfl

theorem Spells.compiled {c : Cls} {e : Enc} (h : Spells c e) (hl : c.name.length ≤ 10) : Spells c e.compiled := by
  rcases h with h | h
  · left; rw [h]; rfl
  · right
    rw [h]
    unfold Enc.compiled Enc.stored encodeName
    simp only
    rw [toStateDict_sorted _ (by rw [List.length_map, String.length_toList]; exact hl)]

/-! ## One round trip -/

/-- The state after a restart with an optimizer. -/
def reloaded (t : Tx P O G) (s : State P M C O G D) : State P M C O G D :=
  { s with
    opt := some (.obj (t.init s.params))
    tx := some t
    acc := none
    scale := s.scale.map fun o => .raw o.val
    name := .dict (encodeName s.cls.name).stored }

/-- The state after a step. -/
def stepped (jit : Bool) (t : Tx P O G) (o : O) (g : G) (s : State P M C O G D) : State P M C O G D :=
  { s with
    params := (t.update g (s.params, o)).1
    opt := some (.obj (t.update g (s.params, o)).2)
    step := s.step + 1
    name := if jit then s.name.compiled else s.name }

/-- Reading back a state whose name is intact. -/
theorem restore_save (tx : Option (Tx P O G)) (s : State P M C O G D) (hc : s.cls ∈ posteriorClasses) (hn : Spells s.cls s.name)
    (hm : s.cls = .outputCalib → s.mutbl.isSome = true ∧ s.calibParams = none ∧ s.calibMutable = none) :
    restorePosterior tx (save s) = .ok
      { s with opt := match tx with
                 | none => s.opt.map fun o => .raw o.val
                 | some t => some (.obj (t.init s.params)),
               tx := tx, acc := none, scale := s.scale.map fun o => .raw o.val, name := .dict (encodeName s.cls.name).stored } := by
  have h1 : classOf (nameOf (save s).name) = .ok s.cls := by
    have : (save s).name = s.name.stored := rfl
    rw [this, hn.nameOf, classOf_name _ hc]
  unfold restorePosterior
  simp only [bind, Except.bind, h1]
  have ho : optOf tx (save s) = match tx with
                 | none => s.opt.map fun o => .raw o.val
                 | some t => some (.obj (t.init s.params)) := by
    cases tx with
    | none => simp [optOf, save, Option.map_map, Function.comp_def]
    | some t => rfl
  by_cases hcls : s.cls = .outputCalib
  · obtain ⟨h2, h3, h4⟩ := hm hcls
    obtain ⟨m, hm'⟩ := Option.isSome_iff_exists.1 h2
    rw [if_pos hcls]
    unfold outputCalibFromDict
    have e1 : (save s).mutbl = some m := hm'
    have e2 : (save s).calibParams = none := by simp [save, hcls]
    rw [e1, e2]
    simp only [Except.ok.injEq]
    rw [ho]
    cases s
    simp_all [save, Option.map_map, Function.comp_def, hn.stored]
  · rw [if_neg hcls]
    unfold posteriorFromDict
    have e1 : (save s).calibParams = some s.calibParams := by simp [save, hcls]
    have e2 : (save s).calibMutable = some s.calibMutable := by simp [save, hcls]
    rw [e1, e2]
    simp only [Except.ok.injEq]
    rw [ho]
    cases s
    simp_all [save, Option.map_map, Function.comp_def, hn.stored]

/-- **C86.** A state written to disk and read back without an optimizer has the class, step, parameters, mutable and calibration
objects, and the content of the optimizer state and of the dynamic scale it had; accumulated gradients are not stored. -/
theorem C86_round_trip (s : State P M C O G D) (hc : s.cls ∈ posteriorClasses) (h : Made s) :
    ∃ s', restorePosterior (none : Option (Tx P O G)) (save s) = .ok s' ∧ SameContent s s' ∧ s'.opt.map Rep.val = s.opt.map Rep.val ∧
      s'.scale.map Rep.val = s.scale.map Rep.val ∧ s'.acc = none := by
  refine ⟨_, restore_save none s hc (Or.inl h.name) h.calib, ⟨rfl, rfl, rfl, rfl, rfl, rfl⟩, ?_, ?_, rfl⟩
  · rw [Option.map_map]; rfl
  · rw [Option.map_map]; rfl

/-- **C86.** Read back with an optimizer the same holds, but the optimizer starts afresh from the parameters read, whatever its state was
when the checkpoint was written; the step goes on from where it was. -/
theorem C86_round_trip_optimizer (t : Tx P O G) (s : State P M C O G D) (hc : s.cls ∈ posteriorClasses) (h : Made s) :
    ∃ s', restorePosterior (some t) (save s) = .ok s' ∧ SameContent s s' ∧ s'.opt = some (.obj (t.init s.params)) ∧ s'.acc = none := by
  exact ⟨_, restore_save (some t) s hc (Or.inl h.name) h.calib, ⟨rfl, rfl, rfl, rfl, rfl, rfl⟩, rfl, rfl⟩

/-! ## Many sessions -/

/-- The gradients applied in a sequence of events. -/
def grads : List (Event P O G) → List G
  | [] => []
  | .step g :: es => g :: grads es
  | .reload _ :: es => grads es

/-- A state that can be trained: an optimizer with its state. -/
def Trainable (s : State P M C O G D) : Prop := s.scale = none ∧ s.tx.isSome = true ∧ ∃ o, s.opt = some (.obj o)

/-- The invariant of `C86_resume`. -/
structure Inv (s₀ s : State P M C O G D) : Prop where
  cls : s.cls = s₀.cls
  name : Spells s₀.cls s.name
  mutbl : s.mutbl = s₀.mutbl
  calibParams : s.calibParams = s₀.calibParams
  calibMutable : s.calibMutable = s₀.calibMutable
  trainable : Trainable s

theorem event_step {jit : Bool} {g : G} {s : State P M C O G D} (h : Trainable s) :
    ∃ t o, s.tx = some t ∧ s.opt = some (.obj o) ∧ trainStep jit g s = .ok (stepped jit t o g s) := by
  obtain ⟨h1, h2, o, h3⟩ := h
  obtain ⟨t, ht⟩ := Option.isSome_iff_exists.1 h2
  refine ⟨t, o, ht, h3, ?_⟩
  unfold trainStep stepped
  simp [h1, ht, h3]

/-- **C86.** Training may be interrupted by writing to disk and restarting from there any number of times: for classes with names of
at most ten characters, or without compilation, no restart fails; the class, mutable and calibration objects stay, and the step counts
the updates of all sessions. -/
theorem C86_resume (jit : Bool) (s : State P M C O G D) (hc : s.cls ∈ posteriorClasses) (h : Made s) (ht : Trainable s)
    (hl : s.cls.name.length ≤ 10 ∨ jit = false) (es : List (Event P O G)) :
    ∃ s', events jit s es = .ok s' ∧ s'.cls = s.cls ∧ s'.mutbl = s.mutbl ∧ s'.calibParams = s.calibParams ∧
      s'.calibMutable = s.calibMutable ∧ s'.step = s.step + (grads es).length := by
  suffices H : ∀ (es : List (Event P O G)) (s₁ : State P M C O G D), Inv s s₁ →
      ∃ s', events jit s₁ es = .ok s' ∧ Inv s s' ∧ s'.step = s₁.step + (grads es).length by
    obtain ⟨s', h1, h2, h3⟩ := H es s ⟨rfl, Or.inl h.name, rfl, rfl, rfl, ht⟩
    exact ⟨s', h1, h2.cls, h2.mutbl, h2.calibParams, h2.calibMutable, h3⟩
  intro es
  induction es with
  | nil => intro s₁ hi; exact ⟨s₁, rfl, hi, rfl⟩
  | cons e es ih =>
    intro s₁ hi
    cases e with
    | step g =>
      obtain ⟨t, o, h1, h2, h3⟩ := event_step (jit := jit) (g := g) hi.trainable
      have hn : Spells s.cls (if jit then s₁.name.compiled else s₁.name) := by
        rcases hl with hl | hl
        · cases jit
          · exact hi.name
          · exact hi.name.compiled hl
        · rw [hl]; exact hi.name
      obtain ⟨s', e1, e2, e3⟩ := ih (stepped jit t o g s₁)
        ⟨hi.cls, hn, hi.mutbl, hi.calibParams, hi.calibMutable, hi.trainable.1, hi.trainable.2.1, _, rfl⟩
      refine ⟨s', ?_, e2, ?_⟩
      · unfold events event
        simp only [bind, Except.bind, h3]
        exact e1
      · rw [e3]
        simp only [grads, List.length_cons, stepped]
        ring
    | reload t =>
      have h1 : restorePosterior (some t) (save s₁) = .ok (reloaded t s₁) := restore_save (some t) s₁ (by rw [hi.cls]; exact hc) (by rw [hi.cls]; exact hi.name)
        (by rw [hi.cls, hi.mutbl, hi.calibParams, hi.calibMutable]; exact h.calib)
      obtain ⟨s', e1, e2, e3⟩ := ih (reloaded t s₁)
        ⟨hi.cls, by unfold reloaded; rw [hi.cls]; exact Or.inr rfl, hi.mutbl, hi.calibParams, hi.calibMutable, by simp [reloaded, hi.trainable.1], rfl, _, rfl⟩
      refine ⟨s', ?_, e2, e3⟩
      unfold events event
      simp only [bind, Except.bind, h1]
      exact e1

/-- **C86.** With an optimizer without state (plain gradient descent) restarts leave no trace: the parameters are those of an
uninterrupted run. -/
theorem C86_resume_memoryless (jit : Bool) (t : Tx P Unit G) (s : State P M C Unit G D) (hc : s.cls ∈ posteriorClasses) (h : Made s)
    (ht : Trainable s) (htx : s.tx = some t) (hl : s.cls.name.length ≤ 10 ∨ jit = false) (es : List (Event P Unit G))
    (he : ∀ e ∈ es, ∀ t', e = .reload t' → t' = t) :
    ∃ s', events jit s es = .ok s' ∧ s'.params = (grads es).foldl (fun p g => (t.update g (p, ())).1) s.params := by
  suffices H : ∀ (es : List (Event P Unit G)) (s₁ : State P M C Unit G D), (∀ e ∈ es, ∀ t', e = .reload t' → t' = t) → Inv s s₁ →
      s₁.tx = some t →
      ∃ s', events jit s₁ es = .ok s' ∧ s'.params = (grads es).foldl (fun p g => (t.update g (p, ())).1) s₁.params from
    H es s he ⟨rfl, Or.inl h.name, rfl, rfl, rfl, ht⟩ htx
  intro es
  induction es with
  | nil => intro s₁ _ hi _; exact ⟨s₁, rfl, rfl⟩
  | cons e es ih =>
    intro s₁ he hi htx
    cases e with
    | step g =>
      obtain ⟨t', o, h1, h2, h3⟩ := event_step (jit := jit) (g := g) hi.trainable
      have : t' = t := by rw [htx] at h1; exact (Option.some.inj h1).symm
      subst this
      have hn : Spells s.cls (if jit then s₁.name.compiled else s₁.name) := by
        rcases hl with hl | hl
        · cases jit
          · exact hi.name
          · exact hi.name.compiled hl
        · rw [hl]; exact hi.name
      obtain ⟨s', e1, e2⟩ := ih (stepped jit t' o g s₁) (fun e he' => he e (List.mem_cons_of_mem _ he'))
        ⟨hi.cls, hn, hi.mutbl, hi.calibParams, hi.calibMutable, hi.trainable.1, hi.trainable.2.1, _, rfl⟩ htx
      refine ⟨s', ?_, e2⟩
      unfold events event
      simp only [bind, Except.bind, h3]
      exact e1
    | reload t' =>
      have ht' : t' = t := he _ List.mem_cons_self t' rfl
      subst ht'
      have h1 : restorePosterior (some t') (save s₁) = .ok (reloaded t' s₁) := restore_save (some t') s₁ (by rw [hi.cls]; exact hc) (by rw [hi.cls]; exact hi.name)
        (by rw [hi.cls, hi.mutbl, hi.calibParams, hi.calibMutable]; exact h.calib)
      obtain ⟨s', e1, e2⟩ := ih (reloaded t' s₁)
        (fun e he' => he e (List.mem_cons_of_mem _ he'))
        ⟨hi.cls, by unfold reloaded; rw [hi.cls]; exact Or.inr rfl, hi.mutbl, hi.calibParams, hi.calibMutable, by simp [reloaded, hi.trainable.1], rfl, _, rfl⟩ rfl
      refine ⟨s', ?_, e2⟩
      unfold events event
      simp only [bind, Except.bind, h1]
      exact e1

/-- A momentum optimizer on integers. -/
def momentum : Tx ℤ ℤ ℤ := ⟨fun _ => 0, fun g po => (po.1 - (po.2 + g), po.2 + g)⟩

/-- A fresh state of a class with the momentum optimizer. -/
def start (c : Cls) : State ℤ ℤ ℤ ℤ ℤ ℤ :=
  { cls := c, step := 0, params := 0, mutbl := some 7, calibParams := none, calibMutable := none, opt := some (.obj 0),
    tx := some momentum, acc := none, scale := none, name := encodeName c.name }

/-- **C86, a restart going on where training stopped, is false**: momentum (any optimizer state) is lost. -/
theorem C86_resume_false :
    (events true (start .map) [.step 1, .step 1]).map (·.params) = .ok (-3) ∧
      (events true (start .map) [.step 1, .reload momentum, .step 1]).map (·.params) = .ok (-2) := by
  constructor <;> rfl

/-! ## Classes with long names -/

/-- **C86, restarts of classes with names of more than ten characters, is false.** Resuming once works, but the checkpoint written after a
compiled step of the resumed run spells the name in the order `0, 1, 10, 11, …, 2, …` and cannot be read any more. -/
theorem C86_long_name_false (s : State P M C O G D) (hc : s.cls ∈ [Cls.outputCalib, .posterior, .laplace, .cyclicalSGLD]) (h : Made s)
    (hs : s.scale = none) (t t' : Tx P O G) (g : G) :
    (∃ s', events true s [.reload t, .step g] = .ok s') ∧ events true s [.reload t, .step g, .reload t'] = .error "KeyError" := by
  have hc' : s.cls ∈ posteriorClasses := by
    revert hc; generalize s.cls = c; revert c; decide +kernel
  have h1 : restorePosterior (some t) (save s) = .ok (reloaded t s) := restore_save (some t) s hc' (Or.inl h.name) h.calib
  have hname : ∀ c ∈ [Cls.outputCalib, .posterior, .laplace, .cyclicalSGLD],
      classOf (nameOf (Enc.dict (encodeName c.name).stored).compiled.stored) = .error "KeyError" := by decide +kernel
  have h2 : trainStep true g (reloaded t s) = .ok (stepped true t (t.init s.params) g (reloaded t s)) := by
    unfold trainStep
    simp [reloaded, hs, stepped]
  constructor
  · refine ⟨stepped true t (t.init s.params) g (reloaded t s), ?_⟩
    unfold events event
    simp only [bind, Except.bind, h1]
    unfold events event
    simp only [bind, Except.bind, h2]
    rfl
  · unfold events event
    simp only [bind, Except.bind, h1]
    unfold events event
    simp only [bind, Except.bind, h2]
    unfold events event restorePosterior
    have : (save (stepped true t (t.init s.params) g (reloaded t s))).name =
        (Enc.dict (encodeName s.cls.name).stored).compiled.stored := rfl
    simp only [bind, Except.bind, this, hname s.cls hc]

/-- What the damaged checkpoint spells. -/
example : String.ofList (nameOf (Enc.dict (encodeName "PosteriorState").stored).compiled.stored) = "PotatesteriorS" := by decide +kernel

/-- **C86.** An `OutputCalibModel` does not look at the name, so that its states can be restarted any number of times. -/
theorem C86_output_calib (tx : Option (Tx P O G)) (s : State P M C O G D) (hc : s.cls = .outputCalib) (m : M) (hm : s.mutbl = some m)
    (hcp : s.calibParams = none ∧ s.calibMutable = none) :
    ∃ s', restoreOutputCalib tx (save s) = .ok s' ∧ SameContent s s' := by
  refine ⟨{ s with opt := optOf tx (save s), tx := tx, acc := none, scale := (save s).scale.map .raw, name := .dict (save s).name }, ?_,
    ⟨rfl, rfl, rfl, rfl, rfl, rfl⟩⟩
  unfold restoreOutputCalib outputCalibFromDict
  have e1 : (save s).mutbl = some m := hm
  have e2 : (save s).calibParams = none := by simp [save, hc]
  rw [e1, e2]
  cases s
  simp_all [save]

/-- **C86, an `OutputCalibState` without mutable objects, is false**: `mutable=None`, the default of the class, can be written but not
read back. -/
theorem C86_output_calib_none_false (tx : Option (Tx P O G)) (s : State P M C O G D) (hc : s.cls = .outputCalib) (hm : s.mutbl = none)
    (hn : s.name = encodeName s.cls.name) :
    restoreOutputCalib tx (save s) = .error "TypeError" ∧ restorePosterior tx (save s) = .error "TypeError" := by
  have e1 : (save s).mutbl = none := hm
  have h0 : restoreOutputCalib tx (save s) = .error "TypeError" := by
    unfold restoreOutputCalib outputCalibFromDict
    rw [e1]
  refine ⟨h0, ?_⟩
  have h1 : classOf (nameOf (save s).name) = .ok s.cls := by
    have : (save s).name = s.name.stored := rfl
    rw [this, hn, nameOf_stored, hc]
    decide +kernel
  unfold restorePosterior
  simp only [bind, Except.bind, h1, if_pos hc]
  exact h0

/-- **C86.** States of a `CalibModel` come back as they were. -/
theorem C86_calib (tx : Option (Tx P O G)) (s : State P M C O G D) (hc : s.cls = .calib) :
    ∃ s', restoreCalib tx (save s) = .ok s' ∧ SameContent s s' := by
  refine ⟨{ s with opt := optOf tx (save s), tx := tx, acc := none, scale := (save s).scale.map .raw, name := .dict (save s).name }, ?_,
    ⟨rfl, rfl, rfl, rfl, rfl, rfl⟩⟩
  unfold restoreCalib calibFromDict posteriorFromDict
  have e1 : (save s).calibParams = some s.calibParams := by simp [save, hc]
  have e2 : (save s).calibMutable = some s.calibMutable := by simp [save, hc]
  rw [e1, e2, ← hc]
  rfl

/-- **C86.** Checkpoints of other classes: a posterior refuses those of a `CalibModel`; a `CalibModel` refuses those of an
`OutputCalibModel`; an `OutputCalibModel` refuses those of posteriors and of a `CalibModel`. -/
theorem C86_foreign (tx : Option (Tx P O G)) (s : State P M C O G D) (h : Made s) :
    (s.cls = .calib → restorePosterior tx (save s) = .error "KeyError") ∧
      (s.cls = .outputCalib → restoreCalib tx (save s) = .error "KeyError") ∧
      (s.cls ≠ .outputCalib → restoreOutputCalib tx (save s) = .error "TypeError") := by
  refine ⟨fun hc => ?_, fun hc => ?_, fun hc => ?_⟩
  · have h1 : classOf (nameOf (save s).name) = .error "KeyError" := by
      have : (save s).name = s.name.stored := rfl
      rw [this, h.name, nameOf_stored, hc]
      decide +kernel
    unfold restorePosterior
    simp only [bind, Except.bind, h1]
  · unfold restoreCalib calibFromDict posteriorFromDict
    have e1 : (save s).calibParams = none := by simp [save, hc]
    rw [e1]
  · unfold restoreOutputCalib outputCalibFromDict
    have e1 : (save s).calibParams = some s.calibParams := by simp [save, hc]
    rw [e1]
    cases (save s).mutbl <;> rfl

/-- **C86, refusing foreign checkpoints, is false**: a `CalibModel` takes the checkpoint of any posterior, whatever its parameters mean
(the means and log-variances of a Laplace approximation, say). -/
theorem C86_foreign_false (tx : Option (Tx P O G)) (s : State P M C O G D) (hc : s.cls ≠ .outputCalib) :
    ∃ s', restoreCalib tx (save s) = .ok s' ∧ s'.cls = .calib ∧ s'.params = s.params := by
  refine ⟨{ s with cls := .calib, opt := optOf tx (save s), tx := tx, acc := none, scale := (save s).scale.map .raw, name := .dict (save s).name }, ?_, rfl, rfl⟩
  unfold restoreCalib calibFromDict posteriorFromDict
  have e1 : (save s).calibParams = some s.calibParams := by simp [save, hc]
  have e2 : (save s).calibMutable = some s.calibMutable := by simp [save, hc]
  rw [e1, e2]
  rfl

/-! ## Half precision -/

/-- **C86, resuming a half-precision model, is false**: the dynamic scale comes back as a dictionary, which has no `value_and_grad`, so
that the first step after a restart raises. -/
theorem C86_scale_false (jit : Bool) (s : State P M C O G D) (hc : s.cls ∈ posteriorClasses) (h : Made s) (d : Rep D)
    (hs : s.scale = some d) (t : Tx P O G) (g : G) :
    (∃ s', events jit s [.reload t] = .ok s') ∧ events jit s [.reload t, .step g] = .error "AttributeError" := by
  have h1 : restorePosterior (some t) (save s) = .ok (reloaded t s) := restore_save (some t) s hc (Or.inl h.name) h.calib
  constructor
  · refine ⟨reloaded t s, ?_⟩
    unfold events event
    simp only [bind, Except.bind, h1]
    rfl
  · unfold events event
    simp only [bind, Except.bind, h1]
    unfold events event trainStep
    simp only [reloaded, hs, Option.map_some]
    rfl

/-! ## Examples -/

theorem start_made : Made (start .map) ∧ Trainable (start .map) ∧ (start .map).cls ∈ posteriorClasses ∧ (start .map).cls.name.length ≤ 10 :=
  ⟨⟨rfl, fun h => by cases h⟩, ⟨rfl, rfl, 0, rfl⟩, by decide +kernel, by decide +kernel⟩

example : (events true (start .map) [.step 1, .reload momentum, .step 2, .reload momentum, .step 3]).map
    (fun s => (s.cls, s.step, s.params)) = .ok (.map, 3, -6) := rfl

example : Made (start .outputCalib) ∧ (start .outputCalib).cls ∈ [Cls.outputCalib, .posterior, .laplace, .cyclicalSGLD] :=
  ⟨⟨rfl, fun _ => ⟨rfl, rfl, rfl⟩⟩, by decide +kernel⟩

/-- Names that survive: all but four. -/
example : posteriorClasses.filter (fun c => c.name.length ≤ 10) = [.map, .advi, .swag, .sghmc] := by decide +kernel

/-! ### Concrete cases that meet the hypotheses of the theorems above -/

theorem start_map_made : Made (start .map) := start_made.1

example := C86_round_trip (start .map) start_made.2.2.1 start_map_made
example := C86_round_trip_optimizer momentum (start .map) start_made.2.2.1 start_map_made
example := C86_resume true (start .map) start_made.2.2.1 start_map_made start_made.2.1 (.inl start_made.2.2.2)
  [.step 1, .reload momentum, .step 2]

/-- A fresh MAP state with plain gradient steps. -/
def plainStart : State ℤ ℤ ℤ Unit ℤ ℤ :=
  { cls := .map, step := 0, params := 0, mutbl := some 7, calibParams := none, calibMutable := none, opt := some (.obj ()),
    tx := some ⟨fun _ => (), fun g po => (po.1 - g, ())⟩, acc := none, scale := none, name := encodeName "MAPState" }

example := C86_resume_memoryless true ⟨fun _ => (), fun g po => (po.1 - g, ())⟩ plainStart (by decide +kernel) ⟨rfl, fun h => by cases h⟩
  ⟨rfl, rfl, (), rfl⟩ rfl (.inl (by decide +kernel)) [.step 1, .reload ⟨fun _ => (), fun g po => (po.1 - g, ())⟩, .step 2]
  (by simp)
example := C86_output_calib (some momentum) (start .outputCalib) rfl 7 rfl ⟨rfl, rfl⟩
example := C86_output_calib_none_false (M := ℤ) (some momentum) { start .outputCalib with mutbl := none } rfl rfl rfl
example := C86_calib (some momentum) (start .calib) rfl
example := (C86_foreign (some momentum) (start .calib) ⟨rfl, fun h => by cases h⟩).1 rfl
example := C86_foreign_false (some momentum) (start .map) (by decide)

end Verif.Props.Checkpoint
