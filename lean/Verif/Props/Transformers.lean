import Verif.Model.Transformers

/-!
Property C119: feature extractors made from pretrained transformers.
-/
set_option linter.unusedSectionVars false

namespace Verif.Props.Transformers

open Verif.Transformers

variable {V : Type}

/-! ## Completing parameters -/

theorem complete_spec (fresh : Flat V) (missing : List (List String)) (params : Flat V) (h : ∀ k ∈ missing, (fresh k).isSome) :
    ∃ d, completeMissing fresh missing params = .ok d ∧ ∀ k, d k = if k ∈ missing then fresh k else params k := by
  induction missing generalizing params with
  | nil => exact ⟨params, rfl, fun k => by simp⟩
  | cons a t ih =>
    obtain ⟨v, hv⟩ := Option.isSome_iff_exists.1 (h a List.mem_cons_self)
    obtain ⟨d, h1, h2⟩ := ih (params.set a v) fun k hk => h k (List.mem_cons_of_mem _ hk)
    refine ⟨d, ?_, fun k => ?_⟩
    · unfold completeMissing at h1 ⊢
      rw [List.foldlM_cons, hv]
      exact h1
    · rw [h2 k]
      by_cases hk : k ∈ t
      · rw [if_pos hk, if_pos (List.mem_cons_of_mem _ hk)]
      · rw [if_neg hk]
        by_cases hka : k = a
        · subst hka
          rw [if_pos List.mem_cons_self]
          simp [Flat.set, hv]
        · rw [if_neg (by simp [hka, hk])]
          simp [Flat.set, hka]

/-- **C119, completing parameters.** Parameters passed to `init_weights` come back with fresh values at the missing keys and unchanged elsewhere, and nothing is missing
afterwards; a missing key that the network does not have raises. Without parameters all are fresh. -/
theorem C119_init (P S : Flat V) (missing : List (List String)) (params : Flat V) :
    ((∀ k ∈ missing, (freshParams P S k).isSome) → ∃ d, initWeights P S missing (some params) = .ok (d, []) ∧
      ∀ k, d k = if k ∈ missing then freshParams P S k else params k) ∧
    ((∃ k ∈ missing, freshParams P S k = none) → initWeights P S missing (some params) = .error "KeyError") ∧
    initWeights P S missing none = .ok (freshParams P S, missing) := by
  refine ⟨fun h => ?_, fun ⟨k, hk, hn⟩ => ?_, rfl⟩
  · obtain ⟨d, h1, h2⟩ := complete_spec (freshParams P S) missing params h
    exact ⟨d, by simp only [initWeights, h1]; rfl, h2⟩
  · have : ∀ params : Flat V, completeMissing (freshParams P S) missing params = .error "KeyError" := by
      induction missing with
      | nil => cases hk
      | cons a t ih =>
        intro params
        unfold completeMissing
        rw [List.foldlM_cons]
        cases ha : freshParams P S a with
        | none => rfl
        | some v =>
          rcases List.mem_cons.1 hk with rfl | hk
          · rw [hn] at ha; cases ha
          · exact ih ⟨k, hk, hn⟩ hk _
    simp only [initWeights, this params]; rfl

/-! ## Loading -/

/-- A tree of parameters whose top-level names are not those of collections. -/
def NoCollection (P : Flat V) : Prop := ∀ k, k.head? = some "spectral_stats" ∨ k.head? = some "batch_stats" → P k = none

theorem restructure_fresh (P S : Flat V) (hP : NoCollection P) (r : List String) :
    (freshParams P S ("spectral_stats" :: r) = S r) ∧ (∀ c, c ≠ "spectral_stats" → freshParams P S (c :: r) = P (c :: r)) := by
  constructor
  · simp only [freshParams]
    rw [hP ("spectral_stats" :: r) (Or.inl rfl)]
    simp
  · intro c hc
    simp only [freshParams, if_neg hc]
    cases P (c :: r) <;> rfl

/-- **C119, loading.** The variables made from a checkpoint of the network are, for every required parameter, the value in the checkpoint and, where it has none, a fresh one;
the spectral statistics likewise, in a collection of their own; the checkpoint's other entries are dropped. -/
theorem C119_load (base : String) (required : List (List String)) (P S ckpt : Flat V) (hP : NoCollection P)
    (r : List String) (c : String) (hc : c ≠ "spectral_stats" ∧ c ≠ "batch_stats") :
    ∃ v, fromPretrained (some base) required P S ckpt true = .ok v ∧
      (v ("params" :: c :: r) = if c :: r ∈ required then ((ckpt (c :: r)).or (P (c :: r))) else none) ∧
      (v ("spectral_stats" :: r) = if "spectral_stats" :: r ∈ required then ((ckpt ("spectral_stats" :: r)).or (S r)) else none) ∧
      (∀ k, k.head? ≠ some "params" → k.head? ≠ some "spectral_stats" → k.head? ≠ some "batch_stats" → v k = none) := by
  refine ⟨_, rfl, ?_, ?_, ?_⟩
  · have h1 := (restructure_fresh P S hP r).2 c hc.1
    simp only [restructure, hfLoad, if_true, Bool.not_true, Bool.and_false, h1]
    rw [if_neg (by simp [hc.1, hc.2])]
    simp only [Bool.false_eq_true, if_false]
    by_cases h : c :: r ∈ required
    · rw [if_pos h, if_pos h]
      cases ckpt (c :: r) <;> rfl
    · rw [if_neg h, if_neg h]
  · have h1 := (restructure_fresh P S hP r).1
    simp only [restructure, hfLoad, Bool.not_true, Bool.and_false]
    rw [if_neg (by decide), if_pos (Or.inl trivial)]
    simp only [Bool.false_eq_true, if_false, h1]
    by_cases h : "spectral_stats" :: r ∈ required
    · rw [if_pos h, if_pos h]
      cases ckpt ("spectral_stats" :: r) <;> rfl
    · rw [if_neg h, if_neg h]
  · intro k h1 h2 h3
    cases k with
    | nil => rfl
    | cons a t =>
      simp only [List.head?_cons, ne_eq, Option.some.injEq] at h1 h2 h3
      simp only [restructure, if_neg h1]
      rw [if_neg (by simp [h2, h3])]

/-- **C119, base models.** From the checkpoint of a base model every parameter of the base model's module is taken, and the rest, the layer before the Gaussian process and the
spectral statistics, is fresh. -/
theorem C119_load_base (base : String) (hb : base ≠ "spectral_stats" ∧ base ≠ "batch_stats") (required : List (List String)) (P S ckpt : Flat V) (hP : NoCollection P)
    (hreq : ∃ r, base :: r ∈ required) :
    ∃ v, fromPretrained (some base) required P S ckpt false = .ok v ∧
      (∀ r, base :: r ∈ required → v ("params" :: base :: r) = (ckpt r).or (P (base :: r))) ∧
      (∀ c r, c ≠ base → c ≠ "spectral_stats" → c ≠ "batch_stats" → c :: r ∈ required → v ("params" :: c :: r) = P (c :: r)) ∧
      (∀ r, "spectral_stats" :: r ∈ required → v ("spectral_stats" :: r) = S r) := by
  have hany : required.any (fun k => k.head? == some base) = true := by
    obtain ⟨r, hr⟩ := hreq
    exact List.any_eq_true.2 ⟨_, hr, by simp⟩
  refine ⟨_, rfl, fun r hr => ?_, fun c r h1 h2 h3 hr => ?_, fun r hr => ?_⟩
  · have e := (restructure_fresh P S hP r).2 base hb.1
    simp only [restructure, hfLoad, hany, Bool.not_false, Bool.and_self, if_true, e]
    rw [if_neg (by simp [hb.1, hb.2]), if_pos hr]
    cases ckpt r <;> rfl
  · have e := (restructure_fresh P S hP r).2 c h2
    simp only [restructure, hfLoad, hany, Bool.not_false, Bool.and_self, if_true, if_neg h1, e]
    rw [if_neg (by simp [h2, h3]), if_pos hr]
  · have e := (restructure_fresh P S hP r).1
    simp only [restructure, hfLoad, hany, Bool.not_false, Bool.and_self, if_true, e]
    rw [if_neg (by decide), if_pos (Or.inl trivial), if_pos hr, if_neg (Ne.symm hb.1)]

/-- **C119, refuted: saving and loading.** A model saved by the library (which writes the variables with their collections) and loaded again has only fresh parameters: no value of
the checkpoint is used. -/
theorem C119_reload_false (base : String) (hb : base ≠ "params" ∧ base ≠ "spectral_stats" ∧ base ≠ "batch_stats") (required : List (List String)) (P S saved : Flat V)
    (hP : NoCollection P) (hreq : ∃ r, base :: r ∈ required)
    (hnames : ∀ r, base :: r ∈ required → r.head? ≠ some "params" ∧ r.head? ≠ some "spectral_stats" ∧ r.head? ≠ some "batch_stats")
    (hsaved : ∀ k, k.head? ≠ some "params" → k.head? ≠ some "spectral_stats" → k.head? ≠ some "batch_stats" → saved k = none) :
    ∃ v, fromPretrained (some base) required P S saved false = .ok v ∧
      (∀ c r, c ≠ "spectral_stats" → c ≠ "batch_stats" → c :: r ∈ required → v ("params" :: c :: r) = P (c :: r)) ∧
      (∀ r, "spectral_stats" :: r ∈ required → v ("spectral_stats" :: r) = S r) := by
  obtain ⟨v, h1, h2, h3, h4⟩ := C119_load_base base hb.2 required P S saved hP hreq
  refine ⟨v, h1, fun c r hc1 hc2 hr => ?_, h4⟩
  by_cases hc : c = base
  · subst hc
    rw [h2 r hr]
    obtain ⟨n1, n2, n3⟩ := hnames r hr
    rw [hsaved r n1 n2 n3]; rfl
  · exact h3 c r hc hc1 hc2 hr

/-- **C119, the classes.** A configuration that is not supported raises; among several classes the first architecture with a class decides, under its name, then with the
prefix TF, then Flax; without any the first class is taken. -/
theorem C119_class (required : List (List String)) (P S ckpt : Flat V) (b : Bool) (names archs : List String) :
    fromPretrained none required P S ckpt b = .error "ValueError" ∧
    (∀ a rest, archs = a :: rest → a ∈ names → modelClass (.inr names) archs = .ok a) ∧
    (∀ a rest, archs = a :: rest → a ∉ names → "TF" ++ a ∉ names → "Flax" ++ a ∈ names → modelClass (.inr names) archs = .ok ("Flax" ++ a)) ∧
    (∀ m rest, names = m :: rest → (∀ a ∈ archs, a ∉ names ∧ "TF" ++ a ∉ names ∧ "Flax" ++ a ∉ names) → modelClass (.inr names) archs = .ok m) ∧
    modelClass (.inr []) archs = .error "IndexError" := by
  refine ⟨rfl, ?_, ?_, ?_, ?_⟩
  · rintro a rest rfl h
    simp [modelClass, h]
  · rintro a rest rfl h1 h2 h3
    simp [modelClass, h1, h2, h3]
  · rintro m rest rfl h
    have : (archs.findSome? fun a => if a ∈ m :: rest then some a else if "TF" ++ a ∈ m :: rest then some ("TF" ++ a)
        else if "Flax" ++ a ∈ m :: rest then some ("Flax" ++ a) else none) = none := by
      rw [List.findSome?_eq_none_iff]
      intro a ha
      obtain ⟨h1, h2, h3⟩ := h a ha
      rw [if_neg h1, if_neg h2, if_neg h3]
    unfold modelClass
    simp only [this]
  · have : (archs.findSome? fun a => if a ∈ ([] : List String) then some a else if "TF" ++ a ∈ ([] : List String) then some ("TF" ++ a)
        else if "Flax" ++ a ∈ ([] : List String) then some ("Flax" ++ a) else none) = none := by
      rw [List.findSome?_eq_none_iff]
      intro a _
      simp
    unfold modelClass
    simp only [this]

/-- **C119, supported models.** Models load exactly if they are of type bert, distilbert or roberta; any other raises. -/
theorem C119_supported (modelType : String) (required : List (List String)) (P S ckpt : Flat V) (b : Bool) :
    (modelType ∈ ["bert", "distilbert", "roberta"] →
      autoFromPretrained modelType required P S ckpt b = fromPretrained (some modelType) required P S ckpt b) ∧
    (modelType ∉ ["bert", "distilbert", "roberta"] → autoFromPretrained modelType required P S ckpt b = .error "ValueError") := by
  constructor
  · intro h
    simp only [List.mem_cons, List.not_mem_nil, or_false] at h
    rcases h with rfl | rfl | rfl <;> rfl
  · intro h
    simp only [List.mem_cons, List.not_mem_nil, or_false, not_or] at h
    have : modelClasses.lookup modelType = none := by
      simp [modelClasses, List.lookup, h.1, h.2.1, h.2.2, beq_eq_false_iff_ne.2]
    unfold autoFromPretrained
    rw [this]; rfl

/-! ## Calls -/

/-- **C119, calls with parameters.** A call with parameters uses them and the collections passed and nothing that the model stores, which stays as it is; collections may change
and noise is used in training only. -/
theorem C119_call (stored p m : Flat V) (names : List String) (hn : "params" ∉ names) (train rng : Bool) :
    (callWith stored (some p) (some (names, m)) train rng).2 = stored ∧
    (∀ r, (callWith stored (some p) (some (names, m)) train rng).1.vars ("params" :: r) = p r) ∧
    (∀ c ∈ names, ∀ r, (callWith stored (some p) (some (names, m)) train rng).1.vars (c :: r) = m (c :: r)) ∧
    (∀ c r, c ∉ names → c ≠ "params" → (callWith stored (some p) (some (names, m)) train rng).1.vars (c :: r) = none) ∧
    (callWith stored (some p) (some (names, m)) train rng).1.mutables = (if train then names else []) ∧
    (callWith stored (some p) (some (names, m)) train rng).1.noise = (train && rng) ∧
    (∀ stored', (callWith stored (some p) (some (names, m)) train rng).1 = (callWith stored' (some p) (some (names, m)) train rng).1) := by
  refine ⟨rfl, fun r => ?_, fun c hc r => ?_, fun c r h1 h2 => ?_, ?_, rfl, fun _ => rfl⟩
  · simp [callWith, hn]
  · simp [callWith, hc]
  · simp [callWith, h1, h2]
  · cases train <;> rfl

/-- **C119, refuted: calls do not change the model.** A call without parameters but with collections stores these in the model, also in evaluation, so that later calls
without them use them. -/
theorem C119_call_false (stored m : Flat V) (names : List String) (train rng train' rng' : Bool) (c : String) (hc : c ∈ names) (r : List String) :
    (callWith (callWith stored none (some (names, m)) train rng).2 none none train' rng').1.vars (c :: r) = m (c :: r) := by
  simp [callWith, hc]

/-! ## Inputs -/

/-- **C119, inputs.** Inputs that are passed are used; left out, the mask lets every token be attended to, padding included, and all tokens have type 0. -/
theorem C119_inputs (roberta : Bool) (pad : ℕ) (ids mask types positions : List ℕ) :
    defaultInputs roberta pad ids (some mask) (some types) (some positions) = ⟨mask, types, positions⟩ ∧
    defaultInputs roberta pad ids none none (some positions) = ⟨List.replicate ids.length 1, List.replicate ids.length 0, positions⟩ ∧
    (defaultInputs false pad ids (some mask) (some types) none).positions = List.range ids.length := by
  refine ⟨rfl, ?_, rfl⟩
  simp [defaultInputs, List.map_const']

/-- **C119, positions.** RoBERTa's positions: a padding token has the number of the padding token as position, the `j`-th other token (from 1) that number plus `j`; adding padding on the
right does not change the positions of the tokens before it. -/
theorem C119_positions (pad : ℕ) (ids : List ℕ) (n : ℕ) :
    (∀ i (h : i < ids.length), ids[i] = pad → (robertaPositions pad ids)[i]? = some pad) ∧
    (∀ i (h : i < ids.length), ids[i] ≠ pad → (robertaPositions pad ids)[i]? = some (((ids.take (i + 1)).filter (· ≠ pad)).length + pad)) ∧
    robertaPositions pad (ids ++ List.replicate n pad) = robertaPositions pad ids ++ List.replicate n pad := by
  refine ⟨fun i h hp => ?_, fun i h hp => ?_, ?_⟩
  · simp [robertaPositions, List.getElem?_mapIdx, List.getElem?_eq_getElem h, hp]
  · simp [robertaPositions, List.getElem?_mapIdx, List.getElem?_eq_getElem h, hp, List.countP_eq_length_filter]
  · apply List.ext_getElem?
    intro i
    unfold robertaPositions
    rw [List.getElem?_mapIdx]
    by_cases h : i < ids.length
    · rw [List.getElem?_append_left h, List.getElem?_append_left (by simpa using h), List.getElem?_mapIdx, List.take_append_of_le_length (by omega)]
    · rw [List.getElem?_append_right (by omega), List.getElem?_append_right (by simpa using h), List.length_mapIdx]
      by_cases hi : i - ids.length < n
      · simp [List.getElem?_replicate, hi]
      · simp [List.getElem?_replicate, hi]

/-! ## Examples -/

/-- A network with an encoder, a layer before the Gaussian process and spectral statistics. -/
def exRequired : List (List String) := [["bert", "w"], ["pre_classifier", "w"], ["spectral_stats", "u"]]

def exP : Flat ℕ := fun k => if k = ["bert", "w"] then some 1 else if k = ["pre_classifier", "w"] then some 2 else none

def exS : Flat ℕ := fun k => if k = ["u"] then some 3 else none

/-- The checkpoint of a base model. -/
def exBase : Flat ℕ := fun k => if k = ["w"] then some 10 else none

theorem exP_ok : NoCollection exP := by
  intro k hk
  unfold exP
  rcases hk with hk | hk
  all_goals
    rw [if_neg (by rintro rfl; simp at hk), if_neg (by rintro rfl; simp at hk)]

/-- The encoder is loaded, the rest is fresh; saved and loaded again the encoder is fresh too. -/
example : ∃ v w, fromPretrained (some "bert") exRequired exP exS exBase false = .ok v ∧ v ["params", "bert", "w"] = some 10 ∧
    v ["params", "pre_classifier", "w"] = some 2 ∧ v ["spectral_stats", "u"] = some 3 ∧
    fromPretrained (some "bert") exRequired exP exS v false = .ok w ∧ w ["params", "bert", "w"] = some 1 := by
  refine ⟨_, _, rfl, by decide, by decide, by decide, rfl, by decide⟩

/-- The second call of a model, without the collections of the first, uses them. -/
example : (callWith (callWith exP none (some (["spectral_stats"], fun k => if k = ["spectral_stats", "u"] then some 7 else none)) false false).2 none none false false).1.vars
    ["spectral_stats", "u"] = some 7 := by decide

example : robertaPositions 1 [0, 5, 6, 2, 1, 1] = [2, 3, 4, 5, 1, 1] := by decide

example : modelClass (.inr ["FlaxA", "B"]) ["C", "A", "B"] = .ok "FlaxA" := by decide +kernel

/-! ### Concrete cases that meet the hypotheses of the theorems above -/

example := C119_load "bert" exRequired exP exS exBase exP_ok ["w"] "bert" (by decide)
example := C119_load_base "bert" (by decide) exRequired exP exS exBase exP_ok ⟨["w"], by decide⟩
example := C119_reload_false "bert" (by decide) exRequired exP exS (fun k => if k = ["params", "bert", "w"] then some 9 else none) exP_ok ⟨["w"], by decide⟩
  (by intro r hr; simp [exRequired] at hr; subst hr; decide)
  (by
    intro k h1 _ _
    rw [if_neg]
    rintro rfl
    exact h1 rfl)
example := C119_call exP exBase exS ["spectral_stats"] (by decide) true true
example := C119_call_false exP exS ["spectral_stats"] true true false false "spectral_stats" (by decide) ["u"]

end Verif.Props.Transformers
