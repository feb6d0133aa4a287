import Verif.Model.Sagemaker

/-!
Property C131: which training job is submitted for a configuration.
-/
set_option linter.unusedSectionVars false

namespace Verif.Props.SagemakerJob

open Verif.Sagemaker

/-- Where a relative path of the configuration leads: `none` if there is no such entry or it is empty. -/
def place (base : Text) : Entry → Option Text
  | .text (c :: t) => some (base ++ c :: t)
  | _ => none

theorem channel_text (base : Text) (e : Entry) (he : e ≠ .null) : channel base e = .ok (place base e) := by
  cases e with
  | missing => rfl
  | null => exact absurd rfl he
  | text t => cases t <;> rfl

theorem channel_null (base : Text) : channel base .null = .error "TypeError" := rfl

/-- **C131, channels.** If the base path is a text and no relative path is null, then there is always one train channel, and a test or validation channel exactly if such a path is given and not empty. Each leads to
its path below the base path, which ends in a slash. -/
theorem C131_channels (c : Config) (b : Text) (hb : c.base = .text b) (h1 : c.train ≠ .null) (h2 : c.test ≠ .null) (h3 : c.validation ≠ .null) :
    ∃ base ch, inputChannels c = .ok ch ∧ (base = b ∨ base = b ++ ['/']) ∧ base.getLast? = some '/' ∧ (b.getLast? = some '/' → base = b) ∧
      ch.lookup "train" = some ((place base c.train).getD base) ∧ ch.lookup "test" = place base c.test ∧ ch.lookup "validation" = place base c.validation ∧
      (ch.map Prod.fst).Nodup ∧ ∀ k ∈ ch.map Prod.fst, k = "train" ∨ k = "test" ∨ k = "validation" := by
  have hrun : inputChannels c = .ok ([("train", (place (withSlash b) c.train).getD (withSlash b))] ++ ((place (withSlash b) c.test).map fun t => ("test", t)).toList ++
      ((place (withSlash b) c.validation).map fun t => ("validation", t)).toList) := by
    unfold inputChannels
    simp only [hb, entry, bind, Except.bind, channel_text _ _ h1, channel_text _ _ h2, channel_text _ _ h3, pure, Except.pure]
  refine ⟨withSlash b, _, hrun, ?_, ?_, ?_, ?_⟩
  · unfold withSlash; split <;> simp
  · unfold withSlash; split <;> simp_all
  · intro h; unfold withSlash; rw [if_pos h]
  · generalize place (withSlash b) c.test = t
    generalize place (withSlash b) c.validation = v
    cases t <;> cases v <;> simp [List.lookup]

/-- **C131 (false).** A relative path written as `~` (null), in the way the documentation writes entries without a value, raises a TypeError instead of being left out. -/
theorem C131_null_path_false (c : Config) (b : Text) (hb : c.base = .text b)
    (h : c.train = .null ∨ (c.train ≠ .null ∧ c.test = .null) ∨ (c.train ≠ .null ∧ c.test ≠ .null ∧ c.validation = .null)) : run c = .error "TypeError" := by
  have hc : inputChannels c = .error "TypeError" := by
    unfold inputChannels
    rcases h with h | ⟨h1, h⟩ | ⟨h1, h2, h⟩
    · simp only [hb, entry, bind, Except.bind, h, channel_null]
    · simp only [hb, entry, bind, Except.bind, channel_text _ _ h1, h, channel_null]
    · simp only [hb, entry, bind, Except.bind, channel_text _ _ h1, channel_text _ _ h2, h, channel_null]
  unfold run
  simp only [bind, Except.bind, hc]

/-- **C131, hyperparameters.** With the three sections present, every argument of task, model and method reaches the entrypoint with its value, and nothing else does; the job is refused with a TypeError exactly if two
sections share a name. -/
theorem C131_hparams (c : Config) (t m s : List (String × Text)) (ht : c.taskHparams = .items t) (hm : c.modelHparams = .items m) (hs : c.methodHparams = .items s)
    (nt : (t.map Prod.fst).Nodup) (nm : (m.map Prod.fst).Nodup) (ns : (s.map Prod.fst).Nodup) :
    (∀ h, hparams c = .ok h → ((h.map Prod.fst).Nodup ∧ ∀ k v, (k, v) ∈ h ↔ (k, v) ∈ t ∨ (k, v) ∈ m ∨ (k, v) ∈ s)) ∧
    (hparams c = .error "TypeError" ↔ ∃ k, (k ∈ t.map Prod.fst ∧ k ∈ m.map Prod.fst) ∨ (k ∈ t.map Prod.fst ∧ k ∈ s.map Prod.fst) ∨
      (k ∈ m.map Prod.fst ∧ k ∈ s.map Prod.fst)) ∧
    (hparams c = .error "TypeError" ∨ ∃ h, hparams c = .ok h) := by
  have hrun : hparams c = if ((t ++ m ++ s).map Prod.fst).Nodup then .ok (t ++ m ++ s) else .error "TypeError" := by
    unfold hparams
    simp only [ht, hm, hs, items, bind, Except.bind, pure, Except.pure]
  rw [hrun]
  by_cases h : ((t ++ m ++ s).map Prod.fst).Nodup
  · rw [if_pos h]
    refine ⟨?_, ?_, Or.inr ⟨_, rfl⟩⟩
    · intro r hr
      injection hr with hr
      subst hr
      exact ⟨h, fun k v => by simp [or_assoc]⟩
    · constructor
      · intro h; cases h
      · rintro ⟨k, hk⟩
        rw [List.map_append, List.map_append, List.nodup_append, List.nodup_append] at h
        obtain ⟨⟨-, -, h1⟩, -, h2⟩ := h
        rcases hk with ⟨a, b⟩ | ⟨a, b⟩ | ⟨a, b⟩
        · exact absurd rfl (h1 k a k b)
        · exact absurd rfl (h2 k (List.mem_append_left _ a) k b)
        · exact absurd rfl (h2 k (List.mem_append_right _ a) k b)
  · rw [if_neg h]
    refine ⟨by simp, ⟨fun _ => ?_, fun _ => rfl⟩, Or.inl rfl⟩
    by_contra hno
    push Not at hno
    apply h
    rw [List.map_append, List.map_append, List.nodup_append, List.nodup_append]
    refine ⟨⟨nt, nm, ?_⟩, ns, ?_⟩
    · rintro a ha b hb rfl; exact (hno a).1 ha hb
    · rintro a ha b hb rfl
      rcases List.mem_append.1 ha with ha | ha
      · exact (hno a).2.1 ha hb
      · exact (hno a).2.2 ha hb

/-- What an entry shows as, with `_` as `-`. -/
def plain : Entry → Text
  | .text t => t.map fun ch => if ch = '_' then '-' else ch
  | _ => "None".toList

theorem plain_shown (e : Entry) : dashes (shown e) = plain e := by
  cases e <;> rfl

/-- **C131, name.** The name of the job is "fortuna", task, method, model and, if it is not null, the suffix, joined with `-`; it has no underscore. -/
theorem C131_name (c : Config) (n : Text) (h : jobName c = .ok n) :
    n = "fortuna-".toList ++ plain c.taskName ++ ['-'] ++ plain c.methodName ++ ['-'] ++ plain c.modelName ++
      (if c.suffix = .null then [] else '-' :: plain c.suffix) ∧ '_' ∉ n := by
  have hd : ∀ t : Text, '_' ∉ dashes t := by
    intro t ht
    unfold dashes at ht
    obtain ⟨ch, -, hch⟩ := List.mem_map.1 ht
    by_cases h : ch = '_'
    · rw [if_pos h] at hch; exact absurd hch (by decide)
    · rw [if_neg h] at hch; exact h hch
  have ha : ∀ s t : Text, dashes (s ++ t) = dashes s ++ dashes t := fun s t => List.map_append
  have hp : dashes "fortuna-".toList = "fortuna-".toList := by decide
  have hm : dashes ['-'] = ['-'] := by decide
  unfold jobName at h
  cases h1 : entry c.taskName with
  | error e => rw [h1] at h; simp [bind, Except.bind] at h
  | ok a =>
    cases h2 : entry c.methodName with
    | error e => rw [h1, h2] at h; simp [bind, Except.bind] at h
    | ok b =>
      cases h3 : entry c.modelName with
      | error e => rw [h1, h2, h3] at h; simp [bind, Except.bind] at h
      | ok d =>
        have r : ∀ x y : Entry, entry x = .ok y → y = x := by
          intro x y hx; cases x <;> simp [entry] at hx <;> exact hx.symm
        have e1 := r _ _ h1
        have e2 := r _ _ h2
        have e3 := r _ _ h3
        subst e1 e2 e3
        cases h4 : entry c.suffix with
        | error e => rw [h1, h2, h3, h4] at h; simp [bind, Except.bind] at h
        | ok s =>
          have e4 := r _ _ h4
          rw [h1, h2, h3, h4] at h
          simp only [bind, Except.bind, pure, Except.pure] at h
          subst e4
          cases hs : c.suffix with
          | missing => rw [hs] at h4; simp [entry] at h4
          | null =>
            rw [hs] at h
            simp only [Except.ok.injEq] at h
            subst h
            refine ⟨?_, hd _⟩
            rw [ha, ha, ha, ha, ha, hp, hm, plain_shown, plain_shown, plain_shown]
            simp
          | text t =>
            rw [hs] at h
            simp only [Except.ok.injEq] at h
            subst h
            refine ⟨?_, ?_⟩
            · rw [ha, ha, ha, ha, ha, hp, hm, plain_shown, plain_shown, plain_shown]
              rfl
            · rw [List.mem_append]
              rintro (h | h)
              · exact hd _ h
              · exact hd _ h

/-- **C131, job.** A job is submitted exactly if channels, hyperparameters and name are, and there is an output path and a `hyperparams` section; it is a tuning job exactly if that section has a tuner. A model path is
passed on as the channel `loadmodel`. -/
theorem C131_run (c : Config) (j : Job) :
    run c = .ok j ↔ ∃ ch tuner, inputChannels c = .ok ch ∧ hparams c = .ok j.hparams ∧ jobName c = .ok j.name ∧ c.outputDataPath ≠ .missing ∧ c.hyperparams = some tuner ∧
      j.tuned = tuner ∧ j.channels = ch ++ (match c.modelPath with
        | .missing => []
        | .null => [("loadmodel", [])]
        | .text t => [("loadmodel", t)]) := by
  unfold run
  cases h1 : inputChannels c with
  | error e => simp [bind, Except.bind]
  | ok ch =>
    cases h2 : hparams c with
    | error e => simp [bind, Except.bind]
    | ok h =>
      cases h3 : jobName c with
      | error e => simp [bind, Except.bind]
      | ok n =>
        cases h4 : c.outputDataPath with
        | missing => simp [bind, Except.bind, entry]
        | null =>
          cases h5 : c.hyperparams with
          | none => simp [bind, Except.bind, entry]
          | some t =>
            obtain ⟨jc, jh, jn, jt⟩ := j
            cases h6 : c.modelPath <;> simp [bind, Except.bind, entry, pure, Except.pure] <;> tauto
        | text o =>
          cases h5 : c.hyperparams with
          | none => simp [bind, Except.bind, entry]
          | some t =>
            obtain ⟨jc, jh, jn, jt⟩ := j
            cases h6 : c.modelPath <;> simp [bind, Except.bind, entry, pure, Except.pure] <;> tauto

/-- **C131 (false).** A configuration with everything that the documentation says must be provided, and no more, is refused: it has no `hparams`. -/
theorem C131_minimal_false (b t m s : Text) :
    run { base := .text b, taskName := .text t, modelName := .text m, methodName := .text s } = .error "ConfigAttributeError" := rfl

/-- **C131 (false).** Each of `hparams` in task, model and method, the suffix, the output path and the section `hyperparams`, none of them documented as needed, is needed. -/
theorem C131_needed_false (c : Config) (b : Text) (hb : c.base = .text b) (h1 : c.train ≠ .null) (h2 : c.test ≠ .null) (h3 : c.validation ≠ .null)
    (h : c.taskHparams = .missing ∨ c.modelHparams = .missing ∨ c.methodHparams = .missing ∨ c.suffix = .missing ∨ c.outputDataPath = .missing ∨ c.hyperparams = none) :
    ∀ j, run c ≠ .ok j := by
  intro j hj
  obtain ⟨ch, tu, k1, k2, k3, k4, k5, -⟩ := (C131_run c j).1 hj
  rcases h with h | h | h | h | h | h
  · unfold hparams at k2; simp [h, items, bind, Except.bind] at k2
  · unfold hparams at k2; cases ht : c.taskHparams <;> simp [ht, h, items, bind, Except.bind] at k2
  · unfold hparams at k2; cases ht : c.taskHparams <;> cases hm : c.modelHparams <;> simp [ht, hm, h, items, bind, Except.bind] at k2
  · unfold jobName at k3
    cases ht : c.taskName <;> cases hm : c.methodName <;> cases hs : c.modelName <;> simp [ht, hm, hs, h, entry, bind, Except.bind] at k3
  · exact k4 h
  · rw [h] at k5; cases k5

/-- **C131 (false).** A tuner in the section `sagemaker`, where the documentation puts it, changes nothing. -/
theorem C131_tuner_false (c : Config) : run { c with sagemakerTuner := true } = run { c with sagemakerTuner := false } := rfl

/-- **C131 (false).** Different configurations can have the same job name: the dash and the underscore are not told apart, nor is the border between the names. -/
theorem C131_name_false : ∃ c c' : Config, (c.taskName ≠ c'.taskName ∧ c.methodName ≠ c'.methodName) ∧ (∃ n, jobName c = .ok n ∧ jobName c' = .ok n) :=
  ⟨{ taskName := .text "a_b".toList, methodName := .text "c".toList, modelName := .text "d".toList, suffix := .null },
    { taskName := .text "a".toList, methodName := .text "b_c".toList, modelName := .text "d".toList, suffix := .null }, by decide, _, rfl, by decide⟩

/-- **C131, error kinds.** A missing base path or job name part is a ConfigAttributeError, a null base path or null hyperparameters are an AttributeError. -/
theorem C131_errors (c : Config) :
    (c.base = .missing → run c = .error "ConfigAttributeError") ∧ (c.base = .null → run c = .error "AttributeError") ∧
    ∀ b : Text, c.base = .text b → c.train ≠ .null → c.test ≠ .null → c.validation ≠ .null →
      (c.taskHparams = .missing → run c = .error "ConfigAttributeError") ∧ (c.taskHparams = .null → run c = .error "AttributeError") ∧
      ∀ t, c.taskHparams = .items t →
        (c.modelHparams = .missing → run c = .error "ConfigAttributeError") ∧ (c.modelHparams = .null → run c = .error "AttributeError") ∧
        ∀ m, c.modelHparams = .items m →
          (c.methodHparams = .missing → run c = .error "ConfigAttributeError") ∧ (c.methodHparams = .null → run c = .error "AttributeError") ∧
          ∀ s, c.methodHparams = .items s → ((t ++ m ++ s).map Prod.fst).Nodup →
            (c.taskName = .missing ∨ c.methodName = .missing ∨ c.modelName = .missing ∨ c.suffix = .missing ∨ c.outputDataPath = .missing ∨
              c.hyperparams = none) → run c = .error "ConfigAttributeError" := by
  refine ⟨fun h => ?_, fun h => ?_, fun b hb h1 h2 h3 => ?_⟩
  · simp only [run, inputChannels, h, entry, bind, Except.bind]
  · simp only [run, inputChannels, h, entry, bind, Except.bind]
  obtain ⟨base, ch, hch, -⟩ := C131_channels c b hb h1 h2 h3
  refine ⟨fun h => ?_, fun h => ?_, fun t ht => ⟨fun h => ?_, fun h => ?_, fun m hm => ⟨fun h => ?_, fun h => ?_, fun s hs hn h => ?_⟩⟩⟩
  · simp only [run, hch, hparams, h, items, bind, Except.bind]
  · simp only [run, hch, hparams, h, items, bind, Except.bind]
  · simp only [run, hch, hparams, ht, h, items, bind, Except.bind]
  · simp only [run, hch, hparams, ht, h, items, bind, Except.bind]
  · simp only [run, hch, hparams, ht, hm, h, items, bind, Except.bind]
  · simp only [run, hch, hparams, ht, hm, h, items, bind, Except.bind]
  · have hp : hparams c = .ok (t ++ m ++ s) := by
      simp only [hparams, ht, hm, hs, items, bind, Except.bind, pure, Except.pure]
      rw [if_pos hn]
    simp only [run, hch, hp, bind, Except.bind]
    rcases h with h | h | h | h | h | h
    · simp only [jobName, h, entry, bind, Except.bind]
    · cases a : c.taskName <;> simp only [jobName, a, h, entry, bind, Except.bind]
    · cases a : c.taskName <;> cases b : c.methodName <;> simp only [jobName, a, b, h, entry, bind, Except.bind]
    · cases a : c.taskName <;> cases b : c.methodName <;> cases d : c.modelName <;> simp only [jobName, a, b, d, h, entry, bind, Except.bind]
    · cases hj : jobName c with
      | ok n => simp only [h, entry]
      | error e =>
        simp only
        cases a : c.taskName <;> cases b : c.methodName <;> cases d : c.modelName <;> cases f : c.suffix <;>
          simp [jobName, a, b, d, f, entry, bind, Except.bind, pure, Except.pure] at hj <;> rw [hj]
    · cases hj : jobName c with
      | ok n => cases g : c.outputDataPath <;> simp only [h, entry]
      | error e =>
        simp only
        cases a : c.taskName <;> cases b : c.methodName <;> cases d : c.modelName <;> cases f : c.suffix <;>
          simp [jobName, a, b, d, f, entry, bind, Except.bind, pure, Except.pure] at hj <;> rw [hj]

/-! ## Examples -/

/-- A configuration with all that is needed. -/
def full : Config :=
  { base := .text "s3://b".toList, test := .text "t".toList, taskName := .text "nli".toList, methodName := .text "sg_ld".toList, modelName := .text "bert".toList, suffix := .null,
    taskHparams := .items [("lr", "1".toList)], modelHparams := .items [], methodHparams := .items [("n", "2".toList)], outputDataPath := .text "o".toList, hyperparams := some false }

example : run full = .ok ⟨[("train", "s3://b/".toList), ("test", "s3://b/t".toList)], [("lr", "1".toList), ("n", "2".toList)], "fortuna-nli-sg-ld-bert".toList, false⟩ := by decide +kernel

example : run { full with modelHparams := .items [("lr", "3".toList)] } = .error "TypeError" := by decide +kernel

/-! ### Concrete cases that meet the hypotheses of the theorems above -/

example := C131_channels full "s3://b".toList (by decide +kernel) (by decide +kernel) (by decide +kernel) (by decide +kernel)
example := C131_null_path_false { full with test := .null } "s3://b".toList (by decide +kernel) (by decide +kernel)
example := C131_hparams { full with taskHparams := .items [("a", "1".toList)], modelHparams := .items [("b", "2".toList)], methodHparams := .items [("a", "3".toList)] }
  [("a", "1".toList)] [("b", "2".toList)] [("a", "3".toList)] rfl rfl rfl (by simp) (by simp) (by simp)
example := C131_name full "fortuna-nli-sg-ld-bert".toList (by decide +kernel)
example := C131_needed_false { full with modelHparams := .missing } "s3://b".toList (by decide +kernel) (by decide +kernel) (by decide +kernel)
  (by decide +kernel) (Or.inr (Or.inl rfl))

end Verif.Props.SagemakerJob
