import Verif.Model.Wiring

/-!
# C147: what a probabilistic model is put together from
-/

set_option linter.unusedSectionVars false

namespace Verif.Props

open Verif.Wiring

/-- The approximators of the library and the posterior that each of them names. -/
inductive Offered : Approximator → PosteriorCls → Prop
  | map : Offered mapA .map
  | advi : Offered advi .advi
  | deepEnsemble : Offered deepEnsemble .deepEnsemble
  | laplace : Offered laplace .laplace
  | swag : Offered swag .swag
  | sngp (h : Sngp) : Offered (sngp h) .sngp
  | sghmc : Offered sghmc .sghmc
  | cyclicalSgld : Offered cyclicalSgld .cyclicalSgld

/-- The manager class that the documentation promises: by the kind of model and by whether the method is SNGP. -/
def promised (hf : Bool) (p : PosteriorCls) : ManagerCls :=
  match hf, p with
  | true, .sngp => .sngpHuggingFace
  | true, _ => .huggingFace
  | false, .sngp => .sngp
  | false, _ => .plain

/-- The six hyperparameters as the SNGP managers keep them. -/
def kept (h : Sngp) : List (String × Val) :=
  [("output_dim", .nat h.outputDim), ("gp_hidden_features", .nat h.gpHiddenFeatures), ("normalize_input", .bool h.normalizeInput),
    ("ridge_penalty", .num h.ridgePenalty), ("momentum", Val.ofOption h.momentum), ("mean_field_factor", .num h.meanFieldFactor)]

theorem construct_sngp (cls : ManagerCls) (hc : cls = .sngp ∨ cls = .sngpHuggingFace) (m : Model) (ed : Option ℕ) (h : Sngp) :
    construct cls m ed (sngp h).kwargs = .ok ⟨cls, m, ed, some (kept h)⟩ := by
  rcases hc with rfl | rfl <;>
    simp [construct, sngp, sngpDefaults, kept, List.lookup, List.mapM_cons, bind, Except.bind, pure, Except.pure]

/-- **C147, classification.** For every approximator of the library, every model and every editor, whether or not `transformers` can be
imported, a `ProbClassifier` is built: its posterior is the one the approximator names, its manager holds the model and the editor of the
user, and the manager is the Hugging Face one exactly for a model of `transformers`, the SNGP one exactly for SNGP. -/
theorem C147_classifier (env : Env) (m : Model) (ed : Option ℕ) (a : Approximator) (p : PosteriorCls) (h : Offered a p) :
    ∃ parts, probClassifier env m ed a = .ok parts ∧ parts.posterior = p ∧ parts.manager.model = m ∧ parts.manager.editor = ed ∧
      parts.manager.cls = promised (env.transformers && m.preTrained) p := by
  unfold probClassifier classifierManager
  cases h with
  | sngp hp =>
    rcases hT : env.transformers <;> rcases hM : m.preTrained <;>
      simp [member, managers, posteriors, List.lookup, bind, Except.bind, promised, show (sngp hp).name = "sngp" from rfl, construct_sngp]
  | _ =>
    rcases hT : env.transformers <;> rcases hM : m.preTrained <;>
      simp [member, managers, posteriors, List.lookup, bind, Except.bind, promised, construct, mapA, advi, deepEnsemble, laplace, swag,
        sghmc, cyclicalSgld]

/-- A model of `transformers` with SWAG, and the same without the package. -/
example : (probClassifier ⟨true, true, ["FlaxBertForMaskedLM"]⟩ ⟨0, "FlaxBertForSequenceClassification", true⟩ (some 3) swag).toOption =
      some ⟨.classification, ⟨.huggingFace, ⟨0, "FlaxBertForSequenceClassification", true⟩, some 3, none⟩, .swag⟩ ∧
    ∃ parts, probClassifier ⟨false, false, []⟩ ⟨0, "MLP", false⟩ none laplace = .ok parts ∧ parts.posterior = .laplace ∧
      parts.manager.model = ⟨0, "MLP", false⟩ ∧ parts.manager.editor = none ∧ parts.manager.cls = .plain :=
  ⟨by decide +kernel, C147_classifier _ _ _ _ _ .laplace⟩

/-- **C147, SNGP.** The hyperparameters of an SNGP approximator reach the Gaussian process head of the classifier, whichever of the two
managers it has; the callback that resets the covariance uses the same ridge penalty, and the manager the given mean field factor. -/
theorem C147_sngp_head (env : Env) (m : Model) (ed : Option ℕ) (h : Sngp) :
    ∃ parts, probClassifier env m ed (sngp h) = .ok parts ∧
      head parts.manager = some ⟨.nat h.outputDim, .nat h.gpHiddenFeatures, .bool h.normalizeInput, .num h.ridgePenalty,
        (h.momentum.map Val.num).getD .none, "sngp_random_features", "sngp_laplace_covariance"⟩ ∧
      fitCallbackRidge parts = .ok (some (.num h.ridgePenalty)) ∧
      ∃ s, parts.manager.sngp = some s ∧ s.lookup "mean_field_factor" = some (.num h.meanFieldFactor) := by
  have hm : (h.momentum.map Val.num).getD .none = Val.ofOption h.momentum := by cases h.momentum <;> rfl
  rw [hm]
  unfold probClassifier classifierManager
  rcases hT : env.transformers <;> rcases hM : m.preTrained <;>
    simp [member, managers, posteriors, List.lookup, bind, Except.bind, show (sngp h).name = "sngp" from rfl, construct_sngp, head,
      fitCallbackRidge, kept]

/-- Ten classes and the default hyperparameters. -/
example : (probClassifier ⟨true, true, []⟩ ⟨1, "WideResNet", false⟩ none (sngp { outputDim := 10 })).toOption.bind (fun p => head p.manager) =
    some ⟨.nat 10, .nat 1024, .bool false, .num 1, .none, "sngp_random_features", "sngp_laplace_covariance"⟩ := by decide +kernel

/-- **C147, no head otherwise.** With every other approximator of the library the manager keeps no such hyperparameters. -/
theorem C147_no_head (env : Env) (m : Model) (ed : Option ℕ) (a : Approximator) (p : PosteriorCls) (h : Offered a p) (hp : p ≠ .sngp) :
    ∃ parts, probClassifier env m ed a = .ok parts ∧ parts.manager.sngp = none ∧ fitCallbackRidge parts = .ok none := by
  unfold probClassifier classifierManager
  cases h with
  | sngp _ => exact absurd rfl hp
  | _ =>
    rcases hT : env.transformers <;> rcases hM : m.preTrained <;>
      simp [member, managers, posteriors, List.lookup, bind, Except.bind, construct, mapA, advi, deepEnsemble, laplace, swag,
        sghmc, cyclicalSgld, fitCallbackRidge]

example : ∃ parts, probClassifier ⟨true, true, []⟩ ⟨1, "WideResNet", false⟩ none advi = .ok parts ∧ parts.manager.sngp = none ∧
    fitCallbackRidge parts = .ok none := C147_no_head _ _ _ _ _ .advi (by decide)

/-- **C147, calibration models.** `CalibClassifier` has the manager that `ProbClassifier` has with any approximator but SNGP, and the same
output layer. -/
theorem C147_calib (env : Env) (m : Model) (ed : Option ℕ) (a : Approximator) (p : PosteriorCls) (h : Offered a p) (hp : p ≠ .sngp) :
    ∃ mm, calibManager env m ed = .ok mm ∧ probClassifier env m ed a = .ok ⟨outputLayer env m, mm, p⟩ := by
  unfold probClassifier classifierManager calibManager
  cases h with
  | sngp _ => exact absurd rfl hp
  | _ =>
    rcases hT : env.transformers <;> rcases hM : m.preTrained <;>
      simp [member, managers, posteriors, List.lookup, bind, Except.bind, construct, mapA, advi, deepEnsemble, laplace, swag,
        sghmc, cyclicalSgld]

example : ∃ mm, calibManager ⟨true, true, []⟩ ⟨1, "FlaxBert", true⟩ none = .ok mm ∧
    probClassifier ⟨true, true, []⟩ ⟨1, "FlaxBert", true⟩ none mapA = .ok ⟨outputLayer ⟨true, true, []⟩ ⟨1, "FlaxBert", true⟩, mm, .map⟩ :=
  C147_calib _ _ _ _ _ .map (by decide)

/-- **C147, output layer.** The masked layer is used exactly when the mapping of `transformers` can be imported and has the class name of
the model. -/
theorem C147_layer (env : Env) (m : Model) :
    outputLayer env m = .masked ↔ env.flaxAuto = true ∧ m.className ∈ env.maskedNames := by
  unfold outputLayer
  split_ifs <;> simp_all

/-- **The output layer goes by the name of the class.** A subclass of a masked language model under another name gets the ordinary layer,
and a model that has nothing to do with `transformers` gets the masked one if its class has such a name. -/
theorem C147_layer_false : ∃ (env : Env) (sub other : Model), env.transformers = true ∧ env.flaxAuto = true ∧
    sub.preTrained = true ∧ other.preTrained = false ∧
    outputLayer env { sub with className := "FlaxBertForMaskedLM" } = .masked ∧ outputLayer env sub = .classification ∧
    outputLayer env other = .masked :=
  ⟨⟨true, true, ["FlaxBertForMaskedLM"]⟩, ⟨0, "MyMaskedLM", true⟩, ⟨1, "FlaxBertForMaskedLM", false⟩, by decide +kernel⟩

/-- **C147, other models.** For a model that is not from `transformers`, whether the package can be imported changes neither the manager nor
the posterior, for any approximator, also one of the user's. -/
theorem C147_independent (env env' : Env) (m : Model) (ed : Option ℕ) (a : Approximator) (hm : m.preTrained = false) :
    (probClassifier env m ed a).map (fun p => (p.manager, p.posterior)) =
      (probClassifier env' m ed a).map (fun p => (p.manager, p.posterior)) := by
  have hc : ∀ cls, classifierManager env m ed cls a = construct cls m ed a.kwargs ∧
      classifierManager env' m ed cls a = construct cls m ed a.kwargs := by
    intro cls
    unfold classifierManager
    simp [hm]
  unfold probClassifier
  cases member managers a.name with
  | error e => rfl
  | ok cls =>
    simp only [bind, Except.bind, (hc cls).1, (hc cls).2]
    cases construct cls m ed a.kwargs with
    | error e => rfl
    | ok mm =>
      simp only
      cases member posteriors a.name <;> rfl

example : (probClassifier ⟨true, true, ["M"]⟩ ⟨1, "MLP", false⟩ none sghmc).map (fun p => (p.manager, p.posterior)) =
    (probClassifier ⟨false, false, []⟩ ⟨1, "MLP", false⟩ none sghmc).map (fun p => (p.manager, p.posterior)) :=
  C147_independent _ _ _ _ _ rfl

/-- **C147, unknown approximators.** An approximator whose name is none of the eight is an `AttributeError`, for both kinds of models. -/
theorem C147_unknown (env : Env) (m : Model) (ed : Option ℕ) (a : Approximator)
    (h : a.name ∉ ["map", "advi", "deep_ensemble", "laplace", "swag", "sngp", "sghmc", "cyclical_sgld"]) :
    probClassifier env m ed a = .error "AttributeError" ∧ probRegressor m ed a = .error "AttributeError" := by
  simp only [List.mem_cons, List.not_mem_nil, or_false, not_or] at h
  obtain ⟨h1, h2, h3, h4, h5, h6, h7, h8⟩ := h
  have h' : ∀ (A : Type) (x : String) (y : A) (l : List (String × A)), a.name ≠ x → List.lookup a.name ((x, y) :: l) = List.lookup a.name l := by
    intro A x y l hx
    rw [List.lookup_cons, beq_false_of_ne hx]
  constructor
  · unfold probClassifier member managers
    rw [h' _ _ _ _ h1, h' _ _ _ _ h2, h' _ _ _ _ h3, h' _ _ _ _ h4, h' _ _ _ _ h5, h' _ _ _ _ h6, h' _ _ _ _ h7, h' _ _ _ _ h8]
    rfl
  · unfold probRegressor member posteriors
    rw [h' _ _ _ _ h1, h' _ _ _ _ h2, h' _ _ _ _ h3, h' _ _ _ _ h4, h' _ _ _ _ h5, h' _ _ _ _ h6, h' _ _ _ _ h7, h' _ _ _ _ h8]
    rfl

example : probRegressor ⟨0, "MLP", false⟩ none ⟨"MAP", []⟩ = .error "AttributeError" :=
  (C147_unknown ⟨true, true, []⟩ _ _ _ (by decide)).2

/-- **C147, keyword arguments.** An approximator of the user's under the name of a method other than SNGP must have no keyword arguments, and
one named as SNGP must give `output_dim` and no argument that SNGP does not have: otherwise a classifier with a model that is not from
`transformers` is a `TypeError`. -/
theorem C147_kwargs (env : Env) (m : Model) (ed : Option ℕ) (a : Approximator) (hm : m.preTrained = false) :
    (a.name ∈ ["map", "advi", "deep_ensemble", "laplace", "swag", "sghmc", "cyclical_sgld"] → a.kwargs ≠ [] →
      probClassifier env m ed a = .error "TypeError") ∧
    (a.name = "sngp" → a.kwargs.lookup "output_dim" = none → probClassifier env m ed a = .error "TypeError") ∧
    (a.name = "sngp" → (∃ k ∈ a.kwargs, k.1 ∉ ["output_dim", "gp_hidden_features", "normalize_input", "ridge_penalty", "momentum",
      "mean_field_factor"]) → probClassifier env m ed a = .error "TypeError") := by
  obtain ⟨n, kw⟩ := a
  have hc : ∀ cls, classifierManager env m ed cls ⟨n, kw⟩ = construct cls m ed kw := by
    intro cls
    unfold classifierManager
    simp [hm]
  unfold probClassifier
  simp only [hc]
  refine ⟨?_, ?_, ?_⟩
  · intro hn hk
    have hp : construct .plain m ed kw = .error "TypeError" := by
      cases kw with
      | nil => exact absurd rfl hk
      | cons _ _ => rfl
    have : member managers n = .ok .plain := by
      simp only [List.mem_cons, List.not_mem_nil, or_false] at hn
      rcases hn with rfl | rfl | rfl | rfl | rfl | rfl | rfl <;> simp [member, managers, List.lookup]
    simp only [this, bind, Except.bind, hp]
  · intro hn hk
    have hs : construct .sngp m ed kw = .error "TypeError" := by
      unfold construct
      simp only
      split_ifs
      · rfl
      · simp [sngpDefaults, List.mapM_cons, hk, bind, Except.bind]
    subst hn
    simp [member, managers, List.lookup, bind, Except.bind, hs]
  · intro hn hk
    obtain ⟨k, hk, hk'⟩ := hk
    have hs : construct .sngp m ed kw = .error "TypeError" := by
      unfold construct
      simp only
      rw [if_pos]
      refine List.any_eq_true.mpr ⟨k, hk, ?_⟩
      simp only [List.mem_cons, List.not_mem_nil, or_false, not_or] at hk'
      obtain ⟨g1, g2, g3, g4, g5, g6⟩ := hk'
      simp only [sngpDefaults, List.lookup_cons, beq_false_of_ne g1, beq_false_of_ne g2, beq_false_of_ne g3, beq_false_of_ne g4,
        beq_false_of_ne g5, beq_false_of_ne g6]
      rfl
    subst hn
    simp [member, managers, List.lookup, bind, Except.bind, hs]

example : probClassifier ⟨true, true, []⟩ ⟨0, "MLP", false⟩ none ⟨"swag", [("rank", .nat 5)]⟩ = .error "TypeError" :=
  (C147_kwargs _ _ _ _ rfl).1 (by decide) (by simp)

/-- **C147, defaults.** An approximator called "sngp" that gives the output dimension only gets the Gaussian process with 1024 hidden features, without
normalisation of the inputs, ridge penalty one and no momentum, and the mean field factor one: that of the library's approximator with its defaults. -/
theorem C147_defaults (env : Env) (m : Model) (ed : Option ℕ) (k : ℕ) :
    probClassifier env m ed ⟨"sngp", [("output_dim", .nat k)]⟩ = probClassifier env m ed (sngp ⟨k, 1024, false, 1, none, 1⟩) ∧
    ∃ parts, probClassifier env m ed ⟨"sngp", [("output_dim", .nat k)]⟩ = .ok parts ∧ parts.posterior = .sngp ∧
      head parts.manager = some ⟨.nat k, .nat 1024, .bool false, .num 1, .none, "sngp_random_features", "sngp_laplace_covariance"⟩ ∧
      parts.manager.sngp.bind (fun s => s.lookup "mean_field_factor") = some (.num 1) := by
  constructor
  · cases env with | mk a b c => cases m with | mk i n p => cases a <;> cases p <;> rfl
  · cases env with | mk a b c => cases m with | mk i n p => cases a <;> cases p <;> exact ⟨_, rfl, rfl, rfl, rfl⟩

example := C147_defaults ⟨true, true, []⟩ ⟨0, "MLP", false⟩ none 3

/-- **With a model of `transformers` the same keyword arguments are dropped** without an error. -/
theorem C147_kwargs_false : ∃ (env : Env) (m : Model) (a : Approximator), a.kwargs ≠ [] ∧ env.transformers = true ∧
    probClassifier env m none a = probClassifier env m none { a with kwargs := [] } ∧
    (∃ parts, probClassifier env m none a = .ok parts ∧ parts.manager.sngp = none) ∧
    probClassifier env { m with preTrained := false } none a = .error "TypeError" :=
  ⟨⟨true, true, []⟩, ⟨0, "FlaxBert", true⟩, ⟨"swag", [("rank", .nat 5)]⟩, by decide, rfl, rfl, ⟨_, rfl, rfl⟩, rfl⟩

/-- **C147, regression.** For every approximator of the library a `ProbRegressor` is built with the posterior that it names. -/
theorem C147_regressor (m : Model) (ed : Option ℕ) (a : Approximator) (p : PosteriorCls) (h : Offered a p) :
    probRegressor m ed a = .ok ⟨.regression, ⟨.regression, m, ed, none⟩, p⟩ := by
  unfold probRegressor
  cases h <;> simp [member, posteriors, List.lookup, bind, Except.bind, construct, mapA, advi, deepEnsemble, laplace, swag, sghmc,
    cyclicalSgld, sngp]

/-- **Regression accepts SNGP and cannot fit it.** The hyperparameters are ignored, there is no Gaussian process head, and `fit` is an
`AttributeError` before any training; every other approximator of the library goes on. -/
theorem C147_regressor_sngp_false (m : Model) (ed : Option ℕ) (h h' : Sngp) :
    probRegressor m ed (sngp h) = probRegressor m ed (sngp h') ∧
    (∃ parts, probRegressor m ed (sngp h) = .ok parts ∧ head parts.manager = none ∧ fitCallbackRidge parts = .error "AttributeError") ∧
    ∀ a p, Offered a p → p ≠ .sngp → ∃ parts, probRegressor m ed a = .ok parts ∧ fitCallbackRidge parts = .ok none := by
  refine ⟨by rw [C147_regressor _ _ _ _ (.sngp h), C147_regressor _ _ _ _ (.sngp h')],
    ⟨_, C147_regressor _ _ _ _ (.sngp h), rfl, rfl⟩, ?_⟩
  intro a p ha hp
  refine ⟨_, C147_regressor _ _ _ _ ha, ?_⟩
  unfold fitCallbackRidge
  cases p <;> simp_all

example : probRegressor ⟨0, "MLP", false⟩ none cyclicalSgld =
    .ok ⟨.regression, ⟨.regression, ⟨0, "MLP", false⟩, none, none⟩, .cyclicalSgld⟩ := C147_regressor _ _ _ _ .cyclicalSgld

end Verif.Props
