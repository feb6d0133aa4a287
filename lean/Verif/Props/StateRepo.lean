import Verif.Model.StateRepo
import Verif.Props.Training
import Verif.Lemmas.ConformalRegression

/-!
# C33, C34: train state repositories
-/

set_option linter.unusedSectionVars false

namespace Verif.Props
open Verif.Training Verif.StateRepo

section repo
variable {A V : Type} [DecidableEq A]

/-- A call on a repository. -/
inductive Op (A V : Type) where
  | put (s : TS A V)
  | update (vars : List (A × V))
  | pull

/-- The repository after a call (keeping one checkpoint). -/
def applyOp (r : Repo (TS A V)) : Op A V → Except Err (Repo (TS A V))
  | .put s => put r s false 1
  | .update vars => update r vars false 1
  | .pull => (pull r false).map (·.1)

/-- Specification of `state.replace`: the named attributes get their (last) new value, all others
keep theirs. -/
def Replaced (s s' : TS A V) (vars : List (A × V)) : Prop :=
  s'.step = s.step ∧ s'.acc = s.acc ∧
  (∀ a, (∀ p ∈ vars, p.1 ≠ a) → s'.attr a = s.attr a) ∧
  (∀ pre a v post, vars = pre ++ (a, v) :: post → (∀ p ∈ post, p.1 ≠ a) → s'.attr a = v)

/-- Specification of an on-disk repository: what is on disk is a single state or none. `pull` takes
it away; `put` and `update` write a state without its accumulated gradients. -/
inductive DiskStep : Option (TS A V) → Op A V → Option (TS A V) → Prop
  | put (cur s) : DiskStep cur (.put s) (some { s with acc := none })
  | update (s s' vars) (h : Replaced s s' vars) :
      DiskStep (some s) (.update vars) (some { s' with acc := none })
  | pull (s) : DiskStep (some s) .pull none

/-- Specification of an in-memory repository: `pull` leaves the state in place, and accumulated
gradients are kept. -/
inductive MemStep : Option (TS A V) → Op A V → Option (TS A V) → Prop
  | put (cur s) : MemStep cur (.put s) (some s)
  | update (s s' vars) (h : Replaced s s' vars) : MemStep (some s) (.update vars) (some s')
  | pull (s) : MemStep (some s) .pull (some s)

/-- Runs of a specification. -/
inductive Runs (step : Option (TS A V) → Op A V → Option (TS A V) → Prop) :
    Option (TS A V) → List (Op A V) → Option (TS A V) → Prop
  | nil (c) : Runs step c [] c
  | cons (a b c o os) : step a o b → Runs step b os c → Runs step a (o :: os) c

theorem replace_spec (s : TS A V) (vars : List (A × V)) : Replaced s (s.replace vars) vars := by
  refine ⟨rfl, rfl, ?_, ?_⟩
  · intro a ha
    simp only [TS.replace]
    generalize s.attr a = v
    induction vars generalizing v with
    | nil => rfl
    | cons p l ih =>
      simp only [List.foldl_cons]
      rw [if_neg (ha p (by simp))]
      exact ih (fun q hq => ha q (by simp [hq])) v
  · rintro pre a v post rfl hpost
    simp only [TS.replace, List.foldl_append, List.foldl_cons, if_true]
    clear pre
    induction post generalizing v with
    | nil => rfl
    | cons p l ih =>
      simp only [List.foldl_cons]
      rw [if_neg (hpost p (by simp))]
      exact ih v (fun q hq => hpost q (by simp [hq]))

/-- Disk content after the operations: nothing there, or exactly one checkpoint. -/
def DiskHas (r : Repo (TS A V)) (c : Option (TS A V)) : Prop :=
  r.dirSet = true ∧
  match c with
  | none => r.ckpt = .absent ∨ r.ckpt = .dir []
  | some s => r.ckpt = .dir [(s.step, s)] ∧ s.acc = none

theorem saveCkpt_one {S : Type} (d : Dir S) (step : ℕ) (s : S) :
    saveCkpt d step s 1 true = some [(step, s)] := by
  unfold saveCkpt
  simp

theorem diskHas_get (r : Repo (TS A V)) (c : Option (TS A V)) (h : DiskHas r c) :
    (getState r false).toOption = c := by
  obtain ⟨h1, h2⟩ := h
  cases c with
  | none => rcases h2 with h2 | h2 <;> simp [getState, h1, h2, restore, restoreCkpt, Except.toOption]
  | some s => simp [getState, h1, h2.1, restore, restoreCkpt, Except.toOption]

theorem diskHas_put (r : Repo (TS A V)) (c : Option (TS A V)) (h : DiskHas r c) (s : TS A V) :
    ∃ r', put r s false 1 = .ok r' ∧ DiskHas r' (some { s with acc := none }) := by
  obtain ⟨h1, h2⟩ := h
  have hloc : r.ckpt = .absent ∨ ∃ d, r.ckpt = .dir d := by
    cases c with
    | none => rcases h2 with h2 | h2
              · exact Or.inl h2
              · exact Or.inr ⟨_, h2⟩
    | some s => exact Or.inr ⟨_, h2.1⟩
  rcases hloc with h3 | ⟨d, h3⟩
  · refine ⟨{ r with ckpt := .dir [(s.step, s.strip)] }, ?_, h1, rfl, rfl⟩
    simp only [put, Bool.false_eq_true, if_false, h1, if_true, h3, save]
    rw [saveCkpt_one]; rfl
  · refine ⟨{ r with ckpt := .dir [(s.step, s.strip)] }, ?_, h1, rfl, rfl⟩
    simp only [put, Bool.false_eq_true, if_false, h1, if_true, h3, save]
    rw [saveCkpt_one]; rfl

theorem diskHas_pull (r : Repo (TS A V)) (s : TS A V) (h : DiskHas r (some s)) :
    ∃ r', pull r false = .ok (r', s) ∧ DiskHas r' none := by
  obtain ⟨h1, h2, -⟩ := h
  refine ⟨{ r with ckpt := .dir [] }, ?_, h1, Or.inr rfl⟩
  simp only [pull, getState, Bool.false_eq_true, if_false, h1, if_true, h2, restore, restoreCkpt]
  rfl

theorem diskHas_none_get (r : Repo (TS A V)) (h : DiskHas r none) :
    ∃ e, getState r false = .error e := by
  have := diskHas_get r none h
  cases hg : getState r false with
  | error e => exact ⟨e, rfl⟩
  | ok s => rw [hg] at this; simp [Except.toOption] at this

theorem disk_step (r : Repo (TS A V)) (c : Option (TS A V)) (h : DiskHas r c) (o : Op A V) :
    (∀ r', applyOp r o = .ok r' → ∃ c', DiskStep c o c' ∧ DiskHas r' c') ∧
    ((∃ e, applyOp r o = .error e) → ∀ c', ¬ DiskStep c o c') := by
  cases o with
  | put s =>
    obtain ⟨r1, hp, hh⟩ := diskHas_put r c h s
    refine ⟨fun r' hr' => ?_, ?_⟩
    · simp only [applyOp] at hr'; rw [hp] at hr'
      simp only [Except.ok.injEq] at hr'; subst hr'
      exact ⟨_, .put c s, hh⟩
    · rintro ⟨e, he⟩; simp only [applyOp] at he; rw [hp] at he; simp at he
  | update vars =>
    cases c with
    | none =>
      obtain ⟨e, he⟩ := diskHas_none_get r h
      have hu : update r vars false 1 = .error e := by
        simp only [update, pull, he]; rfl
      refine ⟨fun r' hr' => ?_, fun _ c' hc' => ?_⟩
      · simp only [applyOp] at hr'; rw [hu] at hr'; simp at hr'
      · cases hc'
    | some s =>
      obtain ⟨r1, hp, hh⟩ := diskHas_pull r s h
      obtain ⟨r2, hp2, hh2⟩ := diskHas_put r1 none hh (s.replace vars)
      have hu : update r vars false 1 = .ok r2 := by
        simp only [update, hp]; exact hp2
      refine ⟨fun r' hr' => ?_, ?_⟩
      · simp only [applyOp] at hr'; rw [hu] at hr'
        simp only [Except.ok.injEq] at hr'; subst hr'
        exact ⟨_, .update s _ vars (replace_spec s vars), hh2⟩
      · rintro ⟨e, he⟩; simp only [applyOp] at he; rw [hu] at he; simp at he
  | pull =>
    cases c with
    | none =>
      obtain ⟨e, he⟩ := diskHas_none_get r h
      have hu : pull r false = .error e := by simp only [pull, he]; rfl
      refine ⟨fun r' hr' => ?_, fun _ c' hc' => ?_⟩
      · simp only [applyOp, hu] at hr'; simp [Except.map] at hr'
      · cases hc'
    | some s =>
      obtain ⟨r1, hp, hh⟩ := diskHas_pull r s h
      refine ⟨fun r' hr' => ?_, ?_⟩
      · simp only [applyOp, hp] at hr'; simp [Except.map] at hr'; subst hr'
        exact ⟨none, .pull s, hh⟩
      · rintro ⟨e, he⟩; simp only [applyOp, hp] at he; simp [Except.map] at he

/-- A fresh repository, on disk or in memory. -/
def freshRepo (onDisk : Bool) : Repo (TS A V) :=
  { dirSet := onDisk, ckpt := .absent, other := .absent, mem := none }

/-- **C33, on disk.** For every history of successful `put`, `update` and `pull` calls on an
initially empty checkpoint directory, `get` returns exactly the state the specification has: the
last state put, with every later update applied to the named attributes only (accumulated gradients
are not stored), and raises iff there is none. A call raises only if the specification does not
allow it (nothing stored). -/
theorem C33_disk_history (ops : List (Op A V)) (r : Repo (TS A V))
    (h : ops.foldlM applyOp (freshRepo true) = .ok r) :
    ∃ c, Runs DiskStep none ops c ∧ (getState r false).toOption = c ∧
      ∀ o e, applyOp r o = .error e → ∀ c', ¬ DiskStep c o c' := by
  have key : ∀ (ops : List (Op A V)) (r0 : Repo (TS A V)) (c0 : Option (TS A V)), DiskHas r0 c0 →
      ops.foldlM applyOp r0 = .ok r → ∃ c, Runs DiskStep c0 ops c ∧ DiskHas r c := by
    intro ops
    induction ops with
    | nil =>
      intro r0 c0 h0 h
      simp only [List.foldlM_nil, pure, Except.pure, Except.ok.injEq] at h
      subst h
      exact ⟨c0, .nil c0, h0⟩
    | cons o os ih =>
      intro r0 c0 h0 h
      rw [List.foldlM_cons] at h
      obtain ⟨r1, h1, h2⟩ := Verif.bind_ok.mp h
      obtain ⟨c1, hc1, hd1⟩ := (disk_step r0 c0 h0 o).1 r1 h1
      obtain ⟨c, hc, hd⟩ := ih r1 c1 hd1 h2
      exact ⟨c, .cons _ _ _ _ _ hc1 hc, hd⟩
  obtain ⟨c, hc, hd⟩ := key ops (freshRepo true) none ⟨rfl, Or.inl rfl⟩ h
  exact ⟨c, hc, diskHas_get r c hd, fun o e he => (disk_step r c hd o).2 ⟨e, he⟩⟩

/-- **C33, in memory.** The same without a checkpoint directory; here `pull` does not remove the
state and accumulated gradients are kept. -/
theorem C33_memory_history (ops : List (Op A V)) (r : Repo (TS A V))
    (h : ops.foldlM applyOp (freshRepo false) = .ok r) :
    ∃ c, Runs MemStep none ops c ∧ (getState r false).toOption = c := by
  have key : ∀ (ops : List (Op A V)) (r0 : Repo (TS A V)), r0.dirSet = false →
      ops.foldlM applyOp r0 = .ok r → Runs MemStep r0.mem ops r.mem ∧ r.dirSet = false := by
    intro ops
    induction ops with
    | nil =>
      intro r0 h0 h
      simp only [List.foldlM_nil, pure, Except.pure, Except.ok.injEq] at h
      subst h
      exact ⟨.nil _, h0⟩
    | cons o os ih =>
      intro r0 h0 h
      rw [List.foldlM_cons] at h
      obtain ⟨r1, h1, h2⟩ := Verif.bind_ok.mp h
      have hstep : MemStep r0.mem o r1.mem ∧ r1.dirSet = false := by
        cases o with
        | put s =>
          simp [applyOp, put, h0] at h1
          subst h1; exact ⟨.put _ s, rfl⟩
        | update vars =>
          cases hm : r0.mem with
          | none =>
            simp only [applyOp, update, pull, getState, Bool.false_eq_true, if_false, h0, hm] at h1
            cases h1
          | some s =>
            have : update r0 vars false 1 = .ok { r0 with mem := some (s.replace vars) } := by
              simp only [update, pull, getState, Bool.false_eq_true, if_false, h0, hm, put]
              show put r0 _ false 1 = _
              simp [put, h0]
            simp only [applyOp] at h1; rw [this] at h1
            simp only [Except.ok.injEq] at h1; subst h1
            exact ⟨.update s _ vars (replace_spec s vars), h0⟩
        | pull =>
          cases hm : r0.mem with
          | none =>
            simp only [applyOp, pull, getState, Bool.false_eq_true, if_false, h0, hm] at h1
            cases h1
          | some s =>
            simp only [applyOp, pull, getState, Bool.false_eq_true, if_false, h0, hm] at h1
            have : r0 = r1 := by cases h1; rfl
            subst this
            rw [hm]; exact ⟨.pull s, h0⟩
      obtain ⟨i1, i2⟩ := ih r1 hstep.2 h2
      exact ⟨.cons _ _ _ _ _ hstep.1 i1, i2⟩
  obtain ⟨h1, h2⟩ := key ops (freshRepo false) rfl h
  refine ⟨r.mem, h1, ?_⟩
  cases hm : r.mem <;> simp [getState, h2, hm, Except.toOption]

/-- **C33, extract.** `extract` returns exactly the requested attributes of the state `get` returns,
in the requested order. -/
theorem C33_extract (r : Repo (TS A V)) (keys : List A) (path : Bool) (s : TS A V)
    (h : getState r path = .ok s) : extract r keys path = .ok (keys.map fun k => (k, s.attr k)) := by
  simp only [extract, h]; rfl

/-- **C33, crash.** On disk, `update` is not atomic: at the point between the removal of the old
checkpoint and the writing of the new one (a crash there leaves `r'`), no state is available, for
every repository that holds a state. -/
theorem C33_crash_atomic_false (r : Repo (TS A V)) (s : TS A V)
    (h : DiskHas r (some s)) (vars : List (A × V)) :
    (∃ r'', update r vars false 1 = .ok r'' ∧
      (getState r'' false) = .ok { s.replace vars with acc := none }) ∧
    ∃ r', pull r false = .ok (r', s) ∧ ∃ e, getState r' false = .error e := by
  obtain ⟨r1, hp, hh⟩ := diskHas_pull r s h
  obtain ⟨r2, hp2, hh2⟩ := diskHas_put r1 none hh (s.replace vars)
  refine ⟨⟨r2, by simp only [update, hp]; exact hp2, ?_⟩, r1, hp, diskHas_none_get r1 hh⟩
  have := diskHas_get r2 _ hh2
  cases hg : getState r2 false with
  | error e => rw [hg] at this; simp [Except.toOption] at this
  | ok x => rw [hg] at this; simp [Except.toOption] at this; rw [this]

/-- **C33, explicit path.** With an explicit `checkpoint_path` naming a checkpoint file, the first
`update` works (it replaces the file by a directory of that name); every later `update` fails,
because the directory cannot be removed like a file. -/
theorem C33_explicit_path_false (r : Repo (TS A V)) (s : TS A V)
    (h : r.other = .file s) (v1 v2 : List (A × V)) :
    ∃ r', update r v1 true 1 = .ok r' ∧ getState r' true = .ok { s.replace v1 with acc := none } ∧
      update r' v2 true 1 = .error .isDirectory := by
  refine ⟨{ r with other := .dir [((s.replace v1).step, (s.replace v1).strip)] }, ?_, ?_, ?_⟩
  · simp only [update, pull, getState, if_true, h, restore, removeExplicit]
    show put { r with other := .absent } _ true 1 = _
    simp only [put, if_true, save, saveCkpt_one]
    rfl
  · simp [getState, restore, restoreCkpt, TS.strip]
  · simp [update, pull, getState, restore, restoreCkpt, removeExplicit]; rfl

/-- **C33, reading with an optimizer.** In memory, `get` with an optimizer is not a read: it
replaces the optimizer state stored in the repository. -/
theorem C33_get_with_optimizer (r : Repo (TS A V)) (reset : TS A V → TS A V) (s : TS A V)
    (hd : r.dirSet = false) (h : r.mem = some s) :
    ∃ r', getOpt r reset = .ok (r', reset s) ∧ getState r' false = .ok (reset s) := by
  refine ⟨{ r with mem := some (reset s) }, by simp [getOpt, h], by simp [getState, hd]⟩

/-- A small history on disk: put, update, put a state with a lower step, update. -/
example :
    (([.put ⟨5, some 1, fun _ => 0⟩, .update [(0, 7)], .put ⟨3, none, fun a => a⟩,
        .update [(1, 9), (1, 8)]] : List (Op (Fin 2) ℕ)).foldlM applyOp (freshRepo true)).bind
      (fun r => extract r [1, 0] false) = .ok [(1, 8), (0, 0)] := by
  decide +kernel

/-! ## C34 several states -/

/-- **C34.** Storing state `s` in slot `i` succeeds for every existing slot (on disk or in memory,
whatever is stored); afterwards slot `i` returns the new state (on disk without accumulated gradients) and every other slot returns what it
returned before. -/
theorem C34_put_get (m : List (Repo (TS A V))) (s : TS A V) (i : ℕ) (hi : i < m.length)
    (hm : ∀ r ∈ m, r.dirSet = false ∨ ∃ c, DiskHas r c) :
    ∃ m', multiPut m s i 1 = .ok m' ∧ m'.length = m.length ∧
      multiGet m' i = .ok (if m[i].dirSet then { s with acc := none } else s) ∧
      (∀ k, k ≠ i → multiGet m' k = multiGet m k) ∧
      (∀ r ∈ m', r.dirSet = false ∨ ∃ c, DiskHas r c) := by
  have hr := hm m[i] (List.getElem_mem hi)
  have hput : ∃ r', put m[i] s false 1 = .ok r' ∧
      getState r' false = .ok (if m[i].dirSet then { s with acc := none } else s) ∧
      (r'.dirSet = false ∨ ∃ c, DiskHas r' c) := by
    rcases hr with hr | ⟨c, hr⟩
    · exact ⟨{ m[i] with mem := some s }, by simp [put, hr], by simp [getState, hr],
        Or.inl hr⟩
    · obtain ⟨r', h1, h2⟩ := diskHas_put m[i] c hr s
      refine ⟨r', h1, ?_, Or.inr ⟨_, h2⟩⟩
      rw [if_pos hr.1]
      have := diskHas_get r' _ h2
      cases hg : getState r' false with
      | error e => rw [hg] at this; simp [Except.toOption] at this
      | ok x => rw [hg] at this; simp [Except.toOption] at this; rw [this]
  obtain ⟨r', h1, h2, h3⟩ := hput
  refine ⟨m.set i r', ?_, by simp, ?_, ?_, ?_⟩
  · simp [multiPut, List.getElem?_eq_getElem hi, h1, Except.map]
  · simpa [multiGet, hi] using h2
  · intro k hk
    unfold multiGet
    rw [List.getElem?_set_ne (Ne.symm hk)]
  · intro x hx
    rcases List.mem_or_eq_of_mem_set hx with hx | rfl
    · exact hm x hx
    · exact h3

/-- **C34, on disk and in memory.** The condition of `C34_put_get` holds initially. -/
theorem C34_init (size : ℕ) (onDisk : Bool) :
    (multiInit size onDisk : List (Repo (TS A V))).length = size ∧
    ∀ r ∈ (multiInit size onDisk : List (Repo (TS A V))), r.dirSet = false ∨ ∃ c, DiskHas r c := by
  refine ⟨by simp [multiInit], ?_⟩
  intro r hr
  simp [multiInit] at hr
  obtain ⟨_, rfl⟩ := hr
  cases onDisk
  · exact Or.inl rfl
  · exact Or.inr ⟨none, rfl, Or.inl rfl⟩

/-- **C34, updates are isolated.** A successful update of slot `i` leaves every other slot as it
was, and writes to slot `i` what the single repository would. -/
theorem C34_update_isolated (m m' : List (Repo (TS A V))) (vars : List (A × V)) (i keep : ℕ)
    (h : multiUpdate m vars i keep = .ok m') :
    m'.length = m.length ∧ (∀ k, k ≠ i → m'[k]? = m[k]?) ∧
      ∃ r r', m[i]? = some r ∧ m'[i]? = some r' ∧ update r vars false keep = .ok r' := by
  unfold multiUpdate at h
  split at h
  · simp at h
  · rename_i r hr
    cases hu : update r vars false keep with
    | error e => rw [hu] at h; simp [Except.map] at h
    | ok r' =>
      rw [hu] at h; simp [Except.map] at h; subst h
      have hi : i < m.length := (List.getElem?_eq_some_iff.mp hr).1
      exact ⟨by simp, fun k hk => List.getElem?_set_ne (Ne.symm hk), r, r', hr, by simp [hi], hu⟩

/-- **C34, updates of all slots.** A successful `update` without an index updates every slot. -/
theorem C34_update_all (m m' : List (Repo (TS A V))) (vars : List (A × V)) (keep : ℕ)
    (h : multiUpdateAll m vars keep = .ok m') :
    m'.length = m.length ∧ ∀ i, i < m.length →
      ∃ r r', m[i]? = some r ∧ m'[i]? = some r' ∧ update r vars false keep = .ok r' := by
  unfold multiUpdateAll at h
  have key : ∀ (k : ℕ) (m0 : List (Repo (TS A V))),
      (List.range k).foldlM (fun m' i => multiUpdate m' vars i keep) m = .ok m0 →
      m0.length = m.length ∧ (∀ i, k ≤ i → m0[i]? = m[i]?) ∧
      ∀ i, i < k → ∃ r r', m[i]? = some r ∧ m0[i]? = some r' ∧
        update r vars false keep = .ok r' := by
    intro k
    induction k with
    | zero =>
      intro m0 h0
      simp only [List.range_zero, List.foldlM_nil, pure, Except.pure, Except.ok.injEq] at h0
      subst h0; simp
    | succ k ih =>
      intro m0 h0
      rw [List.range_succ, List.foldlM_append] at h0
      obtain ⟨m1, h1, h2⟩ := Verif.bind_ok.mp h0
      simp only [List.foldlM_cons, List.foldlM_nil] at h2
      obtain ⟨m2, h3, h4⟩ := Verif.bind_ok.mp h2
      simp only [pure, Except.pure, Except.ok.injEq] at h4
      subst h4
      obtain ⟨i1, i2, i3⟩ := ih m1 h1
      obtain ⟨j1, j2, j3⟩ := C34_update_isolated m1 m2 vars k keep h3
      refine ⟨j1.trans i1, fun i hi => (j2 i (by omega)).trans (i2 i (by omega)), fun i hi => ?_⟩
      rcases Nat.lt_succ_iff_lt_or_eq.mp hi with hlt | rfl
      · obtain ⟨r, r', a, b, c⟩ := i3 i hlt
        exact ⟨r, r', a, (j2 i (by omega)).trans b, c⟩
      · obtain ⟨r, r', a, b, c⟩ := j3
        exact ⟨r, r', (i2 i le_rfl) ▸ a, b, c⟩
  obtain ⟨h1, -, h3⟩ := key m.length m' h
  exact ⟨h1, h3⟩

/-- **C34, order.** Reading or extracting over all slots returns the slots in order. -/
theorem C34_all_in_order (m : List (Repo (TS A V))) (keys : List A) (ss : List (TS A V))
    (h : multiGetAll m = .ok ss) :
    ss.length = m.length ∧ (∀ (i : ℕ) s, ss[i]? = some s → multiGet m i = .ok s) ∧
    multiExtractAll m keys = .ok (ss.map fun s => keys.map fun k => (k, s.attr k)) := by
  unfold multiGetAll at h
  have key : ∀ (l : List ℕ) (ss : List (TS A V)), l.mapM (multiGet m) = .ok ss →
      ss.length = l.length ∧ (∀ (n : ℕ) s, ss[n]? = some s → ∃ i, l[n]? = some i ∧ multiGet m i = .ok s) ∧
      l.mapM (multiExtract m keys) = .ok (ss.map fun s => keys.map fun k => (k, s.attr k)) := by
    intro l
    induction l with
    | nil =>
      intro ss hs
      simp only [List.mapM_nil, pure, Except.pure, Except.ok.injEq] at hs
      subst hs; simp [pure, Except.pure]
    | cons a l ih =>
      intro ss hs
      rw [List.mapM_cons] at hs
      obtain ⟨s, h1, h2⟩ := Verif.bind_ok.mp hs
      obtain ⟨ss', h3, h4⟩ := Verif.bind_ok.mp h2
      simp only [pure, Except.pure, Except.ok.injEq] at h4
      subst h4
      obtain ⟨i1, i2, i3⟩ := ih ss' h3
      refine ⟨by simp [i1], ?_, ?_⟩
      · intro n t ht
        cases n with
        | zero => simp at ht; subst ht; exact ⟨a, by simp, h1⟩
        | succ n => simpa using i2 n t (by simpa using ht)
      · rw [List.mapM_cons]
        have he : multiExtract m keys a = .ok (keys.map fun k => (k, s.attr k)) := by
          unfold multiGet at h1
          unfold multiExtract
          cases hma : m[a]? with
          | none => rw [hma] at h1; simp at h1
          | some r => rw [hma] at h1; exact C33_extract r keys false s h1
        rw [he, i3]; rfl
  obtain ⟨h1, h2, h3⟩ := key _ ss h
  refine ⟨by simpa using h1, fun i s hs => ?_, h3⟩
  obtain ⟨k, hk, hg⟩ := h2 i s hs
  rw [List.getElem?_range (by
    have := (List.getElem?_eq_some_iff.mp hs).1; simpa [h1] using this)] at hk
  simp at hk; subst hk; exact hg

/-- **C34: `put` without an index is broken.** The signature allows it, but for every non-empty repository, whatever the
state, it raises `AttributeError` and every slot is left as it was. -/
theorem C34_put_all_false (m : List (Repo (TS A V))) (s : TS A V) (keep : ℕ) (hm : m ≠ []) :
    (multiPutAll m s keep).2 = some .noAttribute ∧
    ∀ k, multiGet (multiPutAll m s keep).1 k = multiGet m k := by
  cases m with
  | nil => exact absurd rfl hm
  | cons r m => exact ⟨rfl, fun _ => rfl⟩

/-- **C34, pull.** `pull(i)` of a slot that keeps one state returns what `get(i)` returns. Afterwards a slot on disk is empty,
so that reading it raises, whereas a slot in memory still returns the state; every other slot is unchanged. -/
theorem C34_pull (m : List (Repo (TS A V))) (i : ℕ) (s : TS A V) (r : Repo (TS A V)) (hr : m[i]? = some r)
    (hdisk : r.dirSet = false ∨ ∃ c, DiskHas r c) (hg : multiGet m i = .ok s) :
    ∃ m', multiPull m i = .ok (m', s) ∧ m'.length = m.length ∧
      (∀ k, k ≠ i → multiGet m' k = multiGet m k) ∧
      (r.dirSet = true → multiGet m' i = .error .noCheckpoint) ∧
      (r.dirSet = false → multiGet m' i = .ok s) := by
  have hi : i < m.length := (List.getElem?_eq_some_iff.mp hr).1
  have hgr : getState r false = .ok s := by simpa [multiGet, hr] using hg
  have hp : ∃ r', pull r false = .ok (r', s) ∧ (r.dirSet = true → getState r' false = .error .noCheckpoint) ∧
      (r.dirSet = false → getState r' false = .ok s) := by
    rcases hdisk with h | ⟨c, h⟩
    · refine ⟨r, ?_, by simp [h], fun _ => hgr⟩
      simp [pull, hgr, h, bind, Except.bind]
    · have hd := h.1
      have hck := h.2
      cases hc : r.ckpt with
      | absent => simp [getState, hd, restore, hc] at hgr
      | file x => cases c <;> simp [hc] at hck
      | dir d =>
        refine ⟨{ r with ckpt := .dir d.dropLast }, ?_, fun _ => ?_, by simp [hd]⟩
        · simp [pull, hgr, hd, hc, bind, Except.bind]
        · have hl : d.dropLast = [] := by
            cases c with
            | none =>
              rcases hck with h' | h'
              · rw [hc] at h'; simp at h'
              · rw [hc] at h'; simp at h'; simp [h']
            | some x => rw [hc] at hck; simp at hck; simp [hck]
          simp [getState, hd, restore, hl, restoreCkpt]
  obtain ⟨r', h1, h2, h3⟩ := hp
  refine ⟨m.set i r', by simp [multiPull, hr, h1, Except.map], by simp, fun k hk => ?_, fun h => ?_, fun h => ?_⟩
  · unfold multiGet
    rw [List.getElem?_set_ne (Ne.symm hk)]
  · simpa [multiGet, hi] using h2 h
  · simpa [multiGet, hi] using h3 h

/-- **C34, pull of all slots.** `pull()` returns what `get()` returns, in slot order; afterwards every slot on disk is empty. -/
theorem C34_pull_all (m : List (Repo (TS A V))) (ss : List (TS A V))
    (hm : ∀ r ∈ m, r.dirSet = false ∨ ∃ c, DiskHas r c) (h : multiGetAll m = .ok ss) :
    ∃ m', multiPullAll m = .ok (m', ss) ∧ m'.length = m.length ∧
      ∀ (i : ℕ) r, m[i]? = some r → r.dirSet = true → multiGet m' i = .error .noCheckpoint := by
  obtain ⟨hlen, hget, -⟩ := C34_all_in_order m [] ss h
  have key : ∀ k, k ≤ m.length → ∃ m', (List.range k).foldlM
      (fun acc i => (multiPull acc.1 i).map fun q => (q.1, acc.2 ++ [q.2])) (m, ([] : List (TS A V))) =
        (.ok (m', ss.take k) : Except Err _) ∧ m'.length = m.length ∧ (∀ i, k ≤ i → m'[i]? = m[i]?) ∧
      ∀ (i : ℕ) r, i < k → m[i]? = some r → r.dirSet = true → multiGet m' i = .error .noCheckpoint := by
    intro k
    induction k with
    | zero => intro _; exact ⟨m, by simp [pure, Except.pure], rfl, fun _ _ => rfl, fun i r hi => absurd hi (by omega)⟩
    | succ k ih =>
      intro hk
      obtain ⟨m1, h1, h2, h3, h4⟩ := ih (by omega)
      have hk' : k < m.length := by omega
      have hs : ss[k]? = some (ss[k]'(by omega)) := List.getElem?_eq_getElem _
      have hg := hget k _ hs
      have hr : m1[k]? = some m[k] := by rw [h3 k le_rfl, List.getElem?_eq_getElem hk']
      have hg1 : multiGet m1 k = .ok (ss[k]'(by omega)) := by
        unfold multiGet at hg ⊢
        rw [h3 k le_rfl]; exact hg
      obtain ⟨m2, p1, p2, p3, p4, -⟩ := C34_pull m1 k _ m[k] hr (hm _ (List.getElem_mem hk')) hg1
      refine ⟨m2, ?_, p2.trans h2, fun i hi => ?_, fun i r hi hri hd => ?_⟩
      · rw [List.range_succ, List.foldlM_append, h1]
        simp only [bind, Except.bind, List.foldlM_cons, List.foldlM_nil, p1, Except.map, pure, Except.pure]
        rw [List.take_add_one, hs]; rfl
      · have hset : ∃ r', m2 = m1.set k r' := by
          unfold multiPull at p1
          rw [hr] at p1
          dsimp only at p1
          cases hp : pull m[k] false with
          | error e => rw [hp] at p1; simp [Except.map] at p1
          | ok t => rw [hp] at p1; simp [Except.map] at p1; exact ⟨t.1, p1.1.symm⟩
        obtain ⟨r', rfl⟩ := hset
        rw [List.getElem?_set_ne (by omega), h3 i (by omega)]
      · rcases Nat.lt_succ_iff_lt_or_eq.mp hi with hlt | rfl
        · rw [p3 i (by omega)]; exact h4 i r hlt hri hd
        · rw [List.getElem?_eq_getElem hk'] at hri
          exact p4 (by simpa using (Option.some.inj hri) ▸ hd)
  obtain ⟨m', k1, k2, -, k4⟩ := key m.length le_rfl
  refine ⟨m', ?_, k2, fun i r hr hd => k4 i r (List.getElem?_eq_some_iff.mp hr).1 hr hd⟩
  unfold multiPullAll
  rw [k1, ← hlen, List.take_length]

/-- Two slots on disk and two in memory: both are written and pulled; the slot on disk is empty then. -/
example :
    (do
      let m ← multiPut (multiInit 2 true) ⟨1, some 4, fun _ => 10⟩ 0 1
      let m ← multiPut m ⟨2, none, fun _ => 20⟩ 1 1
      let q ← multiPull m 1
      multiExtract q.1 [0] 0 : Except Err (List (Fin 2 × ℕ))) = .ok [(0, 10)] ∧
    (do
      let m ← multiPut (multiInit 2 true) ⟨2, none, fun _ => 20⟩ 1 1
      let q ← multiPull m 1
      multiExtract q.1 [0] 1 : Except Err (List (Fin 2 × ℕ))) = .error .noCheckpoint ∧
    (do
      let m ← multiPut (multiInit 2 false) ⟨2, none, fun _ => 20⟩ 1 1
      let q ← multiPull m 1
      multiExtract q.1 [0] 1 : Except Err (List (Fin 2 × ℕ))) = .ok [(0, 20)] ∧
    (do
      let m ← multiPut (multiInit 2 true) ⟨1, some 4, fun _ => 10⟩ 0 1
      let m ← multiPut m ⟨2, none, fun _ => 20⟩ 1 1
      let q ← multiPullAll m
      .ok (q.2.map fun s => s.attr 0) : Except Err (List ℕ)) = (.ok [10, 20] : Except Err (List ℕ)) := by
  decide +kernel

/-- Three slots on disk; slot 1 is written, then slots 0 and 2; slot 1 is updated. -/
example :
    (do
      let m ← multiPut (multiInit 3 true) ⟨1, some 4, fun _ => 10⟩ 1 1
      let m ← multiPut m ⟨2, none, fun _ => 20⟩ 0 1
      let m ← multiPut m ⟨3, none, fun _ => 30⟩ 2 1
      let m ← multiUpdate m [(0, 11)] 1 1
      multiExtractAll m [0, 1] : Except Err (List (List (Fin 2 × ℕ)))) =
    .ok [[(0, 20), (1, 20)], [(0, 11), (1, 10)], [(0, 30), (1, 30)]] := by
  decide +kernel

end repo

/-! ### Concrete cases that meet the hypotheses of the theorems above -/

/-- A repository on disk holding one state. -/
def exDisk : Repo (TS (Fin 2) ℕ) := ⟨true, .dir [(3, ⟨3, none, fun _ => 7⟩)], .absent, none⟩

theorem exDisk_has : DiskHas exDisk (some ⟨3, none, fun _ => 7⟩) := ⟨rfl, rfl, rfl⟩

/-- A repository in memory. -/
def exMem : Repo (TS (Fin 2) ℕ) := ⟨false, .absent, .absent, some ⟨1, some 4, fun _ => 5⟩⟩

/-- The calls of the history theorems all succeed. -/
example : ∃ r, ([.put ⟨5, some 1, fun _ => 0⟩, .update [(0, 7)], .pull, .put ⟨3, none, fun a => a⟩] : List (Op (Fin 2) ℕ)).foldlM applyOp
    (freshRepo true) = .ok r ∧ ∃ c, Runs DiskStep none
      ([.put ⟨5, some 1, fun _ => 0⟩, .update [(0, 7)], .pull, .put ⟨3, none, fun a => a⟩] : List (Op (Fin 2) ℕ)) c ∧
      (getState r false).toOption = c :=
  ⟨_, rfl, (C33_disk_history _ _ rfl).imp fun _ h => ⟨h.1, h.2.1⟩⟩
example : ∃ r, ([.put ⟨5, some 1, fun _ => 0⟩, .update [(0, 7)]] : List (Op (Fin 2) ℕ)).foldlM applyOp (freshRepo false) = .ok r ∧
    ∃ c, Runs MemStep none ([.put ⟨5, some 1, fun _ => 0⟩, .update [(0, 7)]] : List (Op (Fin 2) ℕ)) c ∧ (getState r false).toOption = c :=
  ⟨_, rfl, C33_memory_history _ _ rfl⟩
example := C33_extract exDisk [1, 0] false ⟨3, none, fun _ => 7⟩ rfl
example := C33_crash_atomic_false exDisk ⟨3, none, fun _ => 7⟩ exDisk_has [(0, 9)]
example := C33_explicit_path_false { exDisk with other := .file ⟨2, none, fun _ => 1⟩ } ⟨2, none, fun _ => 1⟩ rfl [(0, 9)] [(1, 8)]
example := C34_put_get [exDisk, exMem] ⟨9, some 1, fun a => a⟩ 1 (by simp)
  (by simp only [List.mem_cons, List.not_mem_nil, or_false, forall_eq_or_imp, forall_eq]; exact ⟨.inr ⟨_, exDisk_has⟩, .inl rfl⟩)
example : ∃ m', multiUpdate [exDisk, exMem] [(0, 9)] 0 1 = .ok m' ∧ m'[1]? = some exMem :=
  ⟨_, rfl, (C34_update_isolated [exDisk, exMem] _ [(0, 9)] 0 1 rfl).2.1 1 (by simp)⟩
example : ∃ m', multiUpdateAll [exDisk, exMem] [(0, 9)] 1 = .ok m' ∧ m'.length = 2 :=
  ⟨_, rfl, (C34_update_all [exDisk, exMem] _ [(0, 9)] 1 rfl).1⟩
example := C34_all_in_order [exDisk, exMem] [1, 0] [⟨3, none, fun _ => 7⟩, ⟨1, some 4, fun _ => 5⟩] rfl
example := C34_put_all_false [exDisk, exMem] ⟨9, some 1, fun a => a⟩ 1 (by simp)
example := C34_pull [exDisk, exMem] 0 ⟨3, none, fun _ => 7⟩ exDisk rfl (.inr ⟨_, exDisk_has⟩) rfl

end Verif.Props
