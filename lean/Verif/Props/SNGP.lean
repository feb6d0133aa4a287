import Mathlib.Analysis.SpecialFunctions.Exp
import Mathlib.LinearAlgebra.FiniteDimensional.Basic
import Mathlib.Algebra.BigOperators.Field
import Mathlib.Tactic.Linarith
import Mathlib.Tactic.Positivity
import Mathlib.Tactic.FieldSimp
import Mathlib.Tactic.NormNum
import Verif.Model.SNGP
import Verif.Props.NestedDict

/-!
# C78: the uncertainty of a spectral-normalised neural Gaussian process
-/

set_option linter.unusedSectionVars false

namespace Verif.Props
open Verif.Nested Verif.Nested.Obj Verif.SNGP

/-! ## Dictionaries -/

section dicts
variable {K V : Type} [DecidableEq K]

theorem WF_nestedUpdate (d u : Obj K V) (hd : WF d) (hdd : d.isDict = true) (hu : WF u) :
    WF (nestedUpdate d u) ∧ (nestedUpdate d u).isDict = true := by
  induction u generalizing d with
  | leaf v => exact ⟨hd, hdd⟩
  | nil => exact ⟨hd, hdd⟩
  | cons k v r ihv ihr =>
    rw [nestedUpdate_cons]
    have hu' : WF v ∧ WF r := ⟨hu.2.2.1, hu.2.2.2⟩
    refine ihr _ ?_ (isDict_setItem _ _ _) hu'.2
    refine WF_setItem hd ?_ hdd
    cases hl : lookup k d with
    | none => exact hu'.1
    | some x =>
      by_cases hb : (x.isDict && v.isDict) = true
      · have hx : x.isDict = true := by simp only [Bool.and_eq_true] at hb; exact hb.1
        have : combine (some x) v = nestedUpdate x v := by simp only [combine]; rw [if_pos hb]
        rw [this]; exact (ihv x (WF_lookup hd hl) hx hu'.1).1
      · have : combine (some x) v = v := by simp only [combine]; rw [if_neg hb]
        rw [this]; exact hu'.1

theorem at?_wrapPath (path : List K) (a : V) (p : List K) (o : Obj K V) :
    at? p (wrapPath path (leaf a)) = some o ↔ ∃ q, path = p ++ q ∧ o = wrapPath q (leaf a) := by
  induction path generalizing p with
  | nil =>
    cases p with
    | nil => simp [wrapPath, at?, eq_comm]
    | cons k p => simp [wrapPath, at?, lookup]
  | cons k path ih =>
    have e : wrapPath (k :: path) (leaf a) = cons k (wrapPath path (leaf a)) nil := rfl
    cases p with
    | nil => rw [e]; simp [at?, eq_comm, e]
    | cons j p =>
      rw [e]
      by_cases hj : k = j
      · subst hj
        have : at? (k :: p) (cons k (wrapPath path (leaf a)) nil) = at? p (wrapPath path (leaf a)) := by simp [at?, lookup]
        rw [this, ih]
        simp
      · have : at? (j :: p) (cons k (wrapPath path (leaf a)) nil) = none := by simp [at?, lookup, hj]
        rw [this]
        simp [hj]

theorem WF_wrapPath (path : List K) (a : V) : WF (wrapPath path (leaf a)) := by
  induction path with
  | nil => trivial
  | cons k path ih => exact ⟨rfl, rfl, ih, trivial⟩

theorem at?_prefix {p q : List K} (h : p <+: q) {d o : Obj K V} (hq : at? q d = some o) : ∃ o', at? p d = some o' := by
  obtain ⟨r, rfl⟩ := h
  rw [at?_append] at hq
  cases hp : at? p d with
  | none => rw [hp] at hq; cases hq
  | some o' => exact ⟨o', rfl⟩

end dicts

/-- What the mutable state looks like: one entry named `key`, at the path `p ++ [key]`, an array. -/
def HasEntry {n : ℕ} (key : String) (p : List String) (d : Obj String (Arr n)) (a : Arr n) : Prop :=
  WF d ∧ d.isDict = true ∧ nestedGet d (p ++ [key]) = .ok (leaf a) ∧
    ∀ q o, nestedGet d (q ++ [key]) = .ok o → q = p

/-- The entry is a matrix. -/
abbrev HasPrec {n : ℕ} (key : String) (p : List String) (d : Obj String (Arr n)) (M : Fin n → Fin n → ℝ) : Prop :=
  HasEntry key p d (.mat M)

/-- Putting an array in place of the precision matrix. -/
theorem put_entry {n : ℕ} (key : String) (p : List String) (d : Obj String (Arr n)) (a0 a : Arr n)
    (h : HasEntry key p d a0) :
    HasEntry key p (nestedUpdate d (wrapPath (p ++ [key]) (leaf a))) a ∧
      ∀ q o, Apart q (p ++ [key]) →
        (nestedGet (nestedUpdate d (wrapPath (p ++ [key]) (leaf a))) q = .ok o ↔ nestedGet d q = .ok o) := by
  obtain ⟨hw, hdict, hM, huniq⟩ := h
  set path := p ++ [key] with hpath
  have hne : path ≠ [] := by simp [hpath]
  let u : Obj String (Arr n) := wrapPath path (leaf a)
  have hWu : WF u := WF_wrapPath _ _
  have hud : u.isDict = true := by
    show (wrapPath path (leaf a)).isDict = true
    cases hp : path with
    | nil => exact absurd hp hne
    | cons k r => rfl
  have hat : nestedGet (nestedUpdate d u) path = .ok (leaf a) :=
    C60_update_wins d u hWu path a ((nestedGet_eq _ _ _).2 ⟨hne, (at?_wrapPath _ _ _ _).2 ⟨[], by simp, rfl⟩⟩)
  have hframe : ∀ q o, Apart q path → (nestedGet (nestedUpdate d u) q = .ok o ↔ nestedGet d q = .ok o) := by
    intro q o hq
    refine C60_update_frame d u hud hWu q (fun o ho => ?_) (fun r v hr hv => ?_) o
    · obtain ⟨s, hs, -⟩ := (at?_wrapPath _ _ _ _).1 ((nestedGet_eq _ _ _).1 ho).2
      exact hq.1 ⟨s, hs.symm⟩
    · obtain ⟨s, hs, hl⟩ := (at?_wrapPath _ _ _ _).1 ((nestedGet_eq _ _ _).1 hv).2
      cases s with
      | nil => rw [List.append_nil] at hs; exact hq.2 (hs ▸ hr)
      | cons k s => cases hl
  obtain ⟨hW', hD'⟩ := WF_nestedUpdate d u hw hdict hWu
  refine ⟨⟨hW', hD', hat, fun q o hq => ?_⟩, hframe⟩
  by_cases h1 : q ++ [key] <+: path
  · obtain ⟨o', ho'⟩ := at?_prefix h1 ((nestedGet_eq _ _ _).1 hM).2
    exact huniq q o' ((nestedGet_eq _ _ _).2 ⟨by simp, ho'⟩)
  · by_cases h2 : path <+: q ++ [key]
    · obtain ⟨s, hs⟩ := h2
      cases s with
      | nil => rw [List.append_nil] at hs; exact absurd ⟨[], by rw [List.append_nil, hs]⟩ h1
      | cons k s =>
        have h3 := ((nestedGet_eq _ _ _).1 hq).2
        rw [← hs, at?_append, ((nestedGet_eq _ _ _).1 hat).2] at h3
        simp [at?, lookup] at h3
    · exact huniq q o ((hframe _ _ ⟨h1, h2⟩).1 hq)

/-- Putting a matrix in place of the precision matrix. -/
theorem put_prec {n : ℕ} (key : String) (p : List String) (d : Obj String (Arr n)) (M R : Fin n → Fin n → ℝ)
    (h : HasPrec key p d M) :
    HasPrec key p (nestedUpdate d (wrapPath (p ++ [key]) (leaf (.mat R)))) R ∧
      ∀ q o, Apart q (p ++ [key]) →
        (nestedGet (nestedUpdate d (wrapPath (p ++ [key]) (leaf (.mat R)))) q = .ok o ↔ nestedGet d q = .ok o) :=
  put_entry key p d _ _ h

/-- **C78.** At the beginning of every epoch the reset callback sets the precision matrix to the ridge penalty times the
identity, wherever the matrix is in the mutable state, and leaves the rest of it as it was. -/
theorem C78_reset {n : ℕ} (key : String) (ridge : ℝ) (p : List String) (d : Obj String (Arr n)) (M : Fin n → Fin n → ℝ)
    (h : HasPrec key p d M) :
    ∃ d' R, resetCallback key ridge d = .ok d' ∧ HasPrec key p d' R ∧ (∀ i j, R i j = if i = j then ridge else 0) ∧
      ∀ q o, Apart q (p ++ [key]) → (nestedGet d' q = .ok o ↔ nestedGet d q = .ok o) := by
  obtain ⟨h1, h2⟩ := put_prec key p d M (initPrec ridge) h
  obtain ⟨hw, hdict, hM, huniq⟩ := h
  obtain ⟨p', o', hk', hfind, hget⟩ := (C59_find_one_path key d hw).1 ⟨p, _, hM⟩
  obtain rfl : p' = p := huniq p' o' hget
  refine ⟨_, initPrec ridge, ?_, h1, fun i j => by unfold initPrec; split_ifs <;> simp, h2⟩
  unfold resetCallback
  simp only [hfind, bind, Except.bind, hM]
  rfl

/-- **C78.** With the state replicated on several devices the matrix of every device is reset. -/
theorem C78_reset_devices {n : ℕ} (key : String) (ridge : ℝ) (p : List String) (d : Obj String (Arr n)) (D : ℕ)
    (M : Fin D → Fin n → Fin n → ℝ) (h : HasEntry key p d (.dev D M)) :
    ∃ d' R, resetCallback key ridge d = .ok d' ∧ HasEntry key p d' (.dev D R) ∧
      (∀ e i j, R e i j = if i = j then ridge else 0) ∧
      ∀ q o, Apart q (p ++ [key]) → (nestedGet d' q = .ok o ↔ nestedGet d q = .ok o) := by
  obtain ⟨h1, h2⟩ := put_entry key p d _ (.dev D fun _ => initPrec ridge) h
  obtain ⟨hw, hdict, hM, huniq⟩ := h
  obtain ⟨p', o', hk', hfind, hget⟩ := (C59_find_one_path key d hw).1 ⟨p, _, hM⟩
  obtain rfl : p' = p := huniq p' o' hget
  refine ⟨_, fun _ => initPrec ridge, ?_, h1, fun e i j => by unfold initPrec; by_cases hij : i = j <;> simp [hij], h2⟩
  unfold resetCallback
  simp only [hfind, bind, Except.bind, hM]
  rfl

/-- **C78.** Without a precision matrix in the mutable state the callback raises. -/
theorem C78_reset_missing {n : ℕ} (key : String) (ridge : ℝ) (d : Obj String (Arr n)) (hw : WF d)
    (h : ∀ p o, nestedGet d (p ++ [key]) ≠ .ok o) : resetCallback key ridge d = .error "ValueError" := by
  have : findOnePath key d [] = [] := (C59_find_one_path key d hw).2 (by rintro ⟨p, o, ho⟩; exact h p o ho)
  unfold resetCallback
  simp only [this, nestedGet, bind, Except.bind]

/-- **C78.** A model without spectral normalisation is refused: the state must have an entry `spectral_stats`. -/
theorem C78_spectral_required {V : Type} (d : Obj String V) (hw : WF d) :
    (checkState d = .ok () ↔ ∃ p o, nestedGet d (p ++ ["spectral_stats"]) = .ok o) ∧
    ((¬∃ p o, nestedGet d (p ++ ["spectral_stats"]) = .ok o) → checkState d = .error "ValueError") := by
  unfold checkState
  by_cases h : ∃ p o, nestedGet d (p ++ ["spectral_stats"]) = .ok o
  · obtain ⟨p, o, -, hf, -⟩ := (C59_find_one_path "spectral_stats" d hw).1 h
    rw [hf, if_neg (by simp)]
    simp [h]
  · rw [(C59_find_one_path "spectral_stats" d hw).2 h, if_pos (by simp)]
    simp [h]

/-! ## Training -/

section prec
variable {ι : Type} [Fintype ι] [DecidableEq ι]

theorem batchPrec_eq (b : List (ι → ℝ)) (i j : ι) : batchPrec b i j = (b.map fun φ => φ i * φ j).sum := by
  unfold batchPrec
  simp only [Real.sqrt_one, one_mul]

theorem fold_exact (bs : List (List (ι → ℝ))) (P : ι → ι → ℝ) (i j : ι) :
    bs.foldl (fun P b => updatePrec none b P) P i j = P i j + (bs.flatten.map fun φ => φ i * φ j).sum := by
  induction bs generalizing P with
  | nil => simp
  | cons b bs ih =>
    rw [List.foldl_cons, ih]
    simp only [updatePrec, batchPrec_eq, List.flatten_cons, List.map_append, List.sum_append]
    ring

end prec

/-- What one training step does to the mutable state: the precision matrix is updated with the features of the batch; anything
else may change, as long as no second entry of that name appears. -/
def StepSpec {n : ℕ} (key : String) (p : List String) (mom : Option ℝ) (b : List (Fin n → ℝ))
    (F : Obj String (Arr n) → Obj String (Arr n)) : Prop :=
  ∀ d M, HasPrec key p d M → HasPrec key p (F d) (updatePrec mom b M)

theorem steps_prec {n : ℕ} (key : String) (p : List String) (mom : Option ℝ)
    (steps : List (List (Fin n → ℝ) × (Obj String (Arr n) → Obj String (Arr n))))
    (hs : ∀ s ∈ steps, StepSpec key p mom s.1 s.2) (d : Obj String (Arr n)) (M : Fin n → Fin n → ℝ) (h : HasPrec key p d M) :
    HasPrec key p ((steps.map Prod.snd).foldl (fun m f => f m) d)
      ((steps.map Prod.fst).foldl (fun P b => updatePrec mom b P) M) := by
  induction steps generalizing d M with
  | nil => exact h
  | cons s steps ih =>
    exact ih (fun t ht => hs t (List.mem_cons_of_mem _ ht)) _ _ (hs s (List.mem_cons_self ..) d M h)

theorem resets_prec {n : ℕ} (key : String) (p : List String) (ridge : ℝ) (k : ℕ) (d : Obj String (Arr n))
    (M : Fin n → Fin n → ℝ) (h : HasPrec key p d M) :
    ∃ d' R, (List.replicate k ()).foldlM (fun m _ => resetCallback key ridge m) d = .ok d' ∧ HasPrec key p d' R ∧
      (0 < k → R = initPrec ridge) := by
  induction k generalizing d M with
  | zero => exact ⟨d, M, rfl, h, by simp⟩
  | succ k ih =>
    obtain ⟨d1, R1, hr, h1, hv, -⟩ := C78_reset key ridge p d M h
    obtain ⟨d2, R2, hr2, h2, hv2⟩ := ih d1 R1 h1
    refine ⟨d2, R2, ?_, h2, fun _ => ?_⟩
    · rw [List.replicate_succ, List.foldlM_cons, hr]; exact hr2
    · by_cases hk : 0 < k
      · exact hv2 hk
      · obtain rfl : k = 0 := by omega
        have : d1 = d2 := by simpa [pure, Except.pure] using hr2
        subst this
        have e : R1 = R2 := by
          have := h1.2.2.1.symm.trans h2.2.2.1
          simpa using this
        rw [← e]; funext i j; rw [hv]; unfold initPrec; split_ifs <;> simp

theorem fit_prec {n : ℕ} (key : String) (p : List String) (mom : Option ℝ) (ridge : ℝ) (resets : ℕ) (hr : 0 < resets)
    (epochs : List (List (List (Fin n → ℝ) × (Obj String (Arr n) → Obj String (Arr n)))))
    (hs : ∀ e ∈ epochs, ∀ s ∈ e, StepSpec key p mom s.1 s.2) (d : Obj String (Arr n)) (M : Fin n → Fin n → ℝ)
    (h : HasPrec key p d M) :
    ∃ d' R, fitMutable key ridge resets (epochs.map fun e => e.map Prod.snd) d = .ok d' ∧ HasPrec key p d' R ∧
      ∀ last, epochs.getLast? = some last →
        R = (last.map Prod.fst).foldl (fun P b => updatePrec mom b P) (initPrec ridge) := by
  induction epochs generalizing d M with
  | nil => exact ⟨d, M, rfl, h, by simp⟩
  | cons e epochs ih =>
    obtain ⟨d1, R1, hr1, h1, hv1⟩ := resets_prec key p ridge resets d M h
    have h2 := steps_prec key p mom e (hs e (List.mem_cons_self ..)) d1 R1 h1
    obtain ⟨d3, R3, hr3, h3, hv3⟩ := ih (fun t ht => hs t (List.mem_cons_of_mem _ ht)) _ _ h2
    refine ⟨d3, R3, ?_, h3, fun last hl => ?_⟩
    · unfold fitMutable at hr3 ⊢
      rw [List.map_cons, List.foldlM_cons]
      simp only [hr1, bind, Except.bind] at hr3 ⊢
      exact hr3
    · cases epochs with
      | nil =>
        obtain rfl : e = last := by simpa using hl
        have e1 : (e.map Prod.snd).foldl (fun m f => f m) d1 = d3 := by
          simpa [fitMutable, pure, Except.pure] using hr3
        rw [e1] at h2
        have := h3.2.2.1.symm.trans h2.2.2.1
        rw [hv1 hr] at this
        simpa using this
      | cons e' es =>
        rw [List.getLast?_cons_cons] at hl
        exact hv3 last hl

/-- **C78.** After any number of epochs, from any start, the precision matrix is the ridge penalty on the diagonal plus the sum
over the data seen in the last epoch of the outer products of their features: earlier epochs and earlier fits do not count, the
division into batches does not matter, and neither does the number of reset callbacks that repeated fits have put in the
configuration. -/
theorem C78_fit {n : ℕ} (key : String) (p : List String) (ridge : ℝ) (resets : ℕ) (hr : 0 < resets)
    (epochs : List (List (List (Fin n → ℝ) × (Obj String (Arr n) → Obj String (Arr n)))))
    (hs : ∀ e ∈ epochs, ∀ s ∈ e, StepSpec key p none s.1 s.2) (last) (hl : epochs.getLast? = some last)
    (d : Obj String (Arr n)) (M : Fin n → Fin n → ℝ) (h : HasPrec key p d M) :
    ∃ d' R, fitMutable key ridge resets (epochs.map fun e => e.map Prod.snd) d = .ok d' ∧ HasPrec key p d' R ∧
      ∀ i j, R i j = (if i = j then ridge else 0) + ((last.map Prod.fst).flatten.map fun φ => φ i * φ j).sum := by
  obtain ⟨d', R, h1, h2, h3⟩ := fit_prec key p none ridge resets hr epochs hs d M h
  refine ⟨d', R, h1, h2, fun i j => ?_⟩
  rw [h3 last hl, fold_exact]
  unfold initPrec
  split_ifs <;> simp

/-- **C78.** Every call of `fit` adds a reset callback to the user's configuration, so there is at least one. -/
theorem C78_resets (c : Option ℕ) : appendReset c = c.getD 0 + 1 := by
  unfold appendReset
  cases c <;> rfl

section mom
variable {ι : Type} [Fintype ι] [DecidableEq ι]

/-- **C78.** With momentum the precision matrix is an exponentially weighted average of the batches' mean outer products, and
the ridge penalty fades with every batch. -/
theorem C78_momentum (m : ℝ) (ridge : ℝ) (bs : List (List (ι → ℝ))) (i j : ι) :
    bs.foldl (fun P b => updatePrec (some m) b P) (initPrec ridge) i j =
      m ^ bs.length * (if i = j then ridge else 0) +
        (1 - m) * ((bs.mapIdx fun t b => m ^ (bs.length - 1 - t) * ((b.map fun φ => φ i * φ j).sum / (b.length : ℝ))).sum) := by
  induction bs using List.reverseRecOn with
  | nil => simp [initPrec]
  | append_singleton bs b ih =>
    rw [List.foldl_append, List.foldl_cons, List.foldl_nil]
    show m * _ + (1 - m) * batchPrec b i j / (b.length : ℝ) = _
    rw [ih, batchPrec_eq, List.mapIdx_append, List.sum_append]
    have e : (bs.mapIdx fun t b' => m ^ ((bs ++ [b]).length - 1 - t) * ((b'.map fun φ => φ i * φ j).sum / (b'.length : ℝ))).sum
        = m * (bs.mapIdx fun t b' => m ^ (bs.length - 1 - t) * ((b'.map fun φ => φ i * φ j).sum / (b'.length : ℝ))).sum := by
      rw [List.mapIdx_eq_zipIdx_map, List.mapIdx_eq_zipIdx_map, ← List.sum_map_mul_left]
      congr 1
      apply List.map_congr_left
      rintro ⟨b', t⟩ ht
      have ht' : t < bs.length := by have := List.snd_lt_of_mem_zipIdx ht; simpa using this
      have : (bs ++ [b]).length - 1 - t = (bs.length - 1 - t) + 1 := by simp; omega
      simp only [this, pow_succ]
      ring
    rw [e]
    simp only [List.length_append, List.length_cons, List.length_nil, List.mapIdx_cons, List.mapIdx_nil, List.sum_cons,
      List.sum_nil]
    have : bs.length + (0 + 1) - 1 - (0 + bs.length) = 0 := by omega
    rw [this, zero_add, pow_succ]
    ring

end mom

/-! ## The training step on the collections -/

section apply
variable {V : Type}

theorem lookup_filterKeys {K : Type} [DecidableEq K] (q : K → Bool) (k : K) (d : Obj K V) :
    lookup k (filterKeys q d) = if q k then lookup k d else none := by
  induction d with
  | leaf v => simp [filterKeys, lookup]
  | nil => simp [filterKeys, lookup]
  | cons k' o r _ ih =>
    unfold filterKeys
    by_cases hk : k' = k
    · subst hk
      by_cases hq : q k' = true
      · rw [if_pos hq]; simp [lookup, hq]
      · rw [if_neg hq, ih]; simp [hq]
    · by_cases hq : q k' = true
      · rw [if_pos hq]; simp only [lookup, if_neg hk]; exact ih
      · rw [if_neg hq, ih]; simp only [lookup, if_neg hk]

theorem lookup_shallowUpdate {K : Type} [DecidableEq K] (k : K) (d u : Obj K V) (hu : WF u) :
    lookup k (shallowUpdate d u) = (lookup k u).or (lookup k d) := by
  induction u generalizing d with
  | leaf v => simp [shallowUpdate, lookup]
  | nil => simp [shallowUpdate, lookup]
  | cons k' o r _ ih =>
    obtain ⟨h1, h2, h3, h4⟩ := hu
    show lookup k (shallowUpdate (setItem k' o d) r) = _
    rw [ih _ h4]
    by_cases hk : k' = k
    · subst hk
      rw [h1, lookup_setItem_self]
      simp [lookup]
    · rw [lookup_setItem_ne hk]
      simp [lookup, hk]

/-- **C78.** In training the Gaussian process sees and changes its own two collections only, the feature extractor all the
others: neither loses or overwrites state of the other. (`hext`, `hgp`: a flax model returns the collections it was given.) -/
theorem C78_apply (ext gp : Obj String V → Obj String V) (model : Obj String V)
    (hgp : ∀ d, WF (gp d) ∧ ∀ k, (lookup k (gp d)).isSome = (lookup k d).isSome) (k : String) :
    (k = "sngp_random_features" ∨ k = "sngp_laplace_covariance" → (lookup k model).isSome →
      lookup k (applyMutable ext gp model) = lookup k (gp (filterKeys (fun k => gpKeys.contains k) model))) ∧
    (k ≠ "sngp_random_features" → k ≠ "sngp_laplace_covariance" →
      lookup k (applyMutable ext gp model) = lookup k (ext (filterKeys (fun k => !gpKeys.contains k) model))) ∧
    (∀ k', lookup k' (filterKeys (fun k => gpKeys.contains k) model) =
      if k' = "sngp_random_features" ∨ k' = "sngp_laplace_covariance" then lookup k' model else none) ∧
    (∀ k', lookup k' (filterKeys (fun k => !gpKeys.contains k) model) =
      if k' = "sngp_random_features" ∨ k' = "sngp_laplace_covariance" then none else lookup k' model) := by
  have hc : ∀ k', (gpKeys.contains k' = true) ↔ (k' = "sngp_random_features" ∨ k' = "sngp_laplace_covariance") := by
    intro k'; simp [gpKeys]
  have h3 : ∀ k', lookup k' (filterKeys (fun k => gpKeys.contains k) model) =
      if k' = "sngp_random_features" ∨ k' = "sngp_laplace_covariance" then lookup k' model else none := by
    intro k'; rw [lookup_filterKeys]; simp only [hc]
  refine ⟨fun hk hs => ?_, fun h1 h2 => ?_, h3, fun k' => ?_⟩
  · unfold applyMutable
    rw [lookup_shallowUpdate _ _ _ (hgp _).1]
    have : (lookup k (gp (filterKeys (fun k => gpKeys.contains k) model))).isSome = true := by
      rw [(hgp _).2, h3, if_pos hk]; exact hs
    obtain ⟨o, ho⟩ := Option.isSome_iff_exists.1 this
    rw [ho]; rfl
  · unfold applyMutable
    rw [lookup_shallowUpdate _ _ _ (hgp _).1]
    have : (lookup k (gp (filterKeys (fun k => gpKeys.contains k) model))).isSome = false := by
      rw [(hgp _).2, h3, if_neg (by simp [h1, h2])]; rfl
    rw [Option.isSome_eq_false_iff, Option.isNone_iff_eq_none] at this
    rw [this]; rfl
  · rw [lookup_filterKeys]
    by_cases h : k' = "sngp_random_features" ∨ k' = "sngp_laplace_covariance"
    · have := (hc k').2 h
      rw [if_pos h, this]; rfl
    · have : gpKeys.contains k' = false := by
        rw [← Bool.not_eq_true, hc]; exact h
      rw [if_neg h, this]; rfl

end apply

/-! ## The predictive variance -/

section variance
variable {n : ℕ}

/-- `v` is `A x`. -/
def Solves (A : Fin n → Fin n → ℝ) (x v : Fin n → ℝ) : Prop := ∀ i, ∑ j, A i j * x j = v i

/-- `chol` is the Cholesky factor of `A` (contract of `linalg.cholesky`): lower triangular with positive diagonal,
`chol cholᵀ = A`. -/
def IsChol (A L : Fin n → Fin n → ℝ) : Prop :=
  (∀ i j, i < j → L i j = 0) ∧ (∀ i, 0 < L i i) ∧ ∀ i j, ∑ k, L i k * L j k = A i j

/-- The precision matrix of C78_fit. -/
def dataPrec (ridge : ℝ) (data : List (Fin n → ℝ)) (i j : Fin n) : ℝ :=
  (if i = j then ridge else 0) + (data.map fun φ => φ i * φ j).sum

theorem lower_injective (L : Fin n → Fin n → ℝ) (h0 : ∀ i j, i < j → L i j = 0) (hp : ∀ i, 0 < L i i) (x : Fin n → ℝ)
    (hx : ∀ i, ∑ j, L i j * x j = 0) : ∀ i, x i = 0 := by
  have : ∀ k (i : Fin n), i.val = k → x i = 0 := by
    intro k
    induction k using Nat.strong_induction_on with
    | _ k ih =>
      intro i hi
      have h := hx i
      rw [Finset.sum_eq_single i] at h
      · rcases mul_eq_zero.1 h with h | h
        · exact absurd h (hp i).ne'
        · exact h
      · intro j _ hj
        rcases lt_trichotomy i j with h1 | h1 | h1
        · rw [h0 i j h1, zero_mul]
        · exact absurd h1.symm hj
        · rw [ih j.val (by rw [← hi]; exact h1) j rfl, mul_zero]
      · simp
  exact fun i => this _ i rfl

theorem chol_form (A L : Fin n → Fin n → ℝ) (hL : IsChol A L) (w x φ : Fin n → ℝ) (hw : Solves L w φ) (hx : Solves A x φ) :
    ∀ k, w k = ∑ j, L j k * x j := by
  have h := lower_injective L hL.1 hL.2.1 (fun k => w k - ∑ j, L j k * x j) (fun i => by
    have e : ∑ k, L i k * (w k - ∑ j, L j k * x j) = ∑ k, L i k * w k - ∑ j, (∑ k, L i k * L j k) * x j := by
      simp only [mul_sub, Finset.sum_sub_distrib, Finset.mul_sum, Finset.sum_mul]
      congr 1
      rw [Finset.sum_comm]
      exact Finset.sum_congr rfl fun j _ => Finset.sum_congr rfl fun k _ => by ring
    rw [e, hw i]
    have : ∑ j, (∑ k, L i k * L j k) * x j = φ i := by
      rw [← hx i]; exact Finset.sum_congr rfl fun j _ => by rw [hL.2.2]
    rw [this, sub_self])
  exact fun k => sub_eq_zero.1 (h k)

/-- **C78.** The covariance computed through the Cholesky factor is the one of the Gaussian process: the ridge penalty times
`φᵀ Λ⁻¹ φ'`, where `Λ` is the precision matrix; on the diagonal it is the variance. -/
theorem C78_covariance (ridge : ℝ) (A L : Fin n → Fin n → ℝ) (hL : IsChol A L) (φ φ' w w' x x' : Fin n → ℝ)
    (hw : Solves L w φ) (hw' : Solves L w' φ') (hx : Solves A x φ) (hx' : Solves A x' φ') :
    predCov ridge w w' = ridge * ∑ i, φ i * x' i ∧ predVar ridge w = predCov ridge w w ∧
      predVar ridge w = ridge * ∑ i, φ i * x i := by
  have key : ∀ (φ' w' x' : Fin n → ℝ), Solves L w' φ' → Solves A x' φ' → predCov ridge w w' = ridge * ∑ i, φ i * x' i := by
    intro φ' w' x' hw' hx'
    unfold predCov
    congr 1
    have h' := chol_form A L hL w' x' φ' hw' hx'
    calc ∑ k, w k * w' k = ∑ k, ∑ j, L j k * w k * x' j := by
          refine Finset.sum_congr rfl fun k _ => ?_
          rw [h' k, Finset.mul_sum]; exact Finset.sum_congr rfl fun j _ => by ring
      _ = ∑ j, (∑ k, L j k * w k) * x' j := by
          rw [Finset.sum_comm]; exact Finset.sum_congr rfl fun j _ => by rw [Finset.sum_mul]
      _ = _ := Finset.sum_congr rfl fun j _ => by rw [hw j]
  have hv : predVar ridge w = predCov ridge w w := by
    unfold predVar predCov; congr 1; exact Finset.sum_congr rfl fun i _ => by ring
  exact ⟨key φ' w' x' hw' hx', hv, by rw [hv]; exact key φ w x hw hx⟩

/-- The quadratic form. -/
def quad (A : Fin n → Fin n → ℝ) (x : Fin n → ℝ) : ℝ := ∑ i, x i * ∑ j, A i j * x j

theorem quad_dataPrec (ridge : ℝ) (data : List (Fin n → ℝ)) (x : Fin n → ℝ) :
    quad (dataPrec ridge data) x = ridge * ∑ i, x i ^ 2 + (data.map fun φ => (∑ i, φ i * x i) ^ 2).sum := by
  unfold quad
  induction data with
  | nil =>
    simp only [dataPrec, List.map_nil, List.sum_nil, add_zero, ite_mul, zero_mul, Finset.sum_ite_eq, Finset.mem_univ, if_true,
      Finset.mul_sum]
    exact Finset.sum_congr rfl fun i _ => by ring
  | cons φ data ih =>
    have e : ∀ i, ∑ j, dataPrec ridge (φ :: data) i j * x j = ∑ j, dataPrec ridge data i j * x j + φ i * ∑ j, φ j * x j := by
      intro i
      rw [Finset.mul_sum, ← Finset.sum_add_distrib]
      refine Finset.sum_congr rfl fun j _ => ?_
      simp only [dataPrec, List.map_cons, List.sum_cons]; ring
    simp only [e, mul_add, Finset.sum_add_distrib, ih, List.map_cons, List.sum_cons]
    have : ∑ i, x i * (φ i * ∑ j, φ j * x j) = (∑ i, φ i * x i) ^ 2 := by
      rw [pow_two, Finset.sum_mul]; exact Finset.sum_congr rfl fun i _ => by ring
    rw [this]; ring

theorem sum_sq_nonneg' (l : List (Fin n → ℝ)) (f : (Fin n → ℝ) → ℝ) : 0 ≤ (l.map fun φ => f φ ^ 2).sum := by
  induction l with
  | nil => simp
  | cons a l ih => simp only [List.map_cons, List.sum_cons]; positivity

/-- **C78.** With a positive ridge penalty the precision matrix is positive definite, whatever the data: the Cholesky
factorisation exists. -/
theorem C78_posdef (ridge : ℝ) (hr : 0 < ridge) (data : List (Fin n → ℝ)) (x : Fin n → ℝ) (hx : x ≠ 0) :
    0 < quad (dataPrec ridge data) x ∧ ∀ i j, dataPrec ridge data i j = dataPrec ridge data j i := by
  constructor
  · rw [quad_dataPrec]
    have h1 : 0 < ∑ i, x i ^ 2 := by
      obtain ⟨i, hi⟩ : ∃ i, x i ≠ 0 := by
        by_contra h; push Not at h; exact hx (funext h)
      exact Finset.sum_pos' (fun j _ => sq_nonneg _) ⟨i, Finset.mem_univ _, by positivity⟩
    have := sum_sq_nonneg' data fun φ => ∑ i, φ i * x i
    have := mul_pos hr h1
    linarith
  · intro i j
    unfold dataPrec
    congr 1
    · simp only [eq_comm]
    · congr 1; exact List.map_congr_left fun φ _ => mul_comm _ _

theorem exists_solve (ridge : ℝ) (hr : 0 < ridge) (data : List (Fin n → ℝ)) (φ : Fin n → ℝ) :
    ∃ x, Solves (dataPrec ridge data) x φ := by
  let f : (Fin n → ℝ) →ₗ[ℝ] (Fin n → ℝ) :=
    { toFun := fun x i => ∑ j, dataPrec ridge data i j * x j
      map_add' := fun x y => by
        funext i; simp only [Pi.add_apply, mul_add, Finset.sum_add_distrib]
      map_smul' := fun c x => by
        funext i; simp only [Pi.smul_apply, smul_eq_mul, RingHom.id_apply, Finset.mul_sum]
        exact Finset.sum_congr rfl fun j _ => by ring }
  have hinj : Function.Injective f := by
    rw [← LinearMap.ker_eq_bot, LinearMap.ker_eq_bot']
    intro x hx
    by_contra hne
    have h := (C78_posdef ridge hr data x hne).1
    have : quad (dataPrec ridge data) x = 0 := by
      unfold quad
      refine Finset.sum_eq_zero fun i _ => ?_
      have : ∑ j, dataPrec ridge data i j * x j = 0 := congrFun hx i
      rw [this, mul_zero]
    linarith
  obtain ⟨x, hx⟩ := (LinearMap.injective_iff_surjective.1 hinj) φ
  exact ⟨x, fun i => congrFun hx i⟩

/-- More data, smaller inverse. -/
theorem inverse_antitone (A B : Fin n → Fin n → ℝ) (hsym : ∀ i j, A i j = A j i) (h0 : ∀ x, 0 ≤ quad A x)
    (hAB : ∀ x, quad A x ≤ quad B x) (φ x y : Fin n → ℝ) (hx : Solves A x φ) (hy : Solves B y φ) :
    ∑ i, φ i * y i ≤ ∑ i, φ i * x i := by
  have h1 := h0 (fun i => x i - y i)
  have e1 : quad A (fun i => x i - y i) = ∑ i, φ i * x i - 2 * ∑ i, φ i * y i + quad A y := by
    have a : ∀ i, ∑ j, A i j * (x j - y j) = φ i - ∑ j, A i j * y j := fun i => by
      simp only [mul_sub, Finset.sum_sub_distrib, hx i]
    have b : ∑ i, x i * ∑ j, A i j * y j = ∑ i, φ i * y i := by
      calc ∑ i, x i * ∑ j, A i j * y j = ∑ j, (∑ i, A j i * x i) * y j := by
            simp only [Finset.mul_sum, Finset.sum_mul]
            rw [Finset.sum_comm]
            exact Finset.sum_congr rfl fun j _ => Finset.sum_congr rfl fun i _ => by rw [hsym j i]; ring
        _ = _ := Finset.sum_congr rfl fun j _ => by rw [hx j]
    unfold quad
    have c : ∑ i, (x i - y i) * ∑ j, A i j * (x j - y j)
        = ∑ i, (φ i * x i - φ i * y i - x i * ∑ j, A i j * y j + y i * ∑ j, A i j * y j) :=
      Finset.sum_congr rfl fun i _ => by rw [a i]; ring
    rw [c, Finset.sum_add_distrib, Finset.sum_sub_distrib, Finset.sum_sub_distrib, b]
    ring
  have h2 : quad B y = ∑ i, φ i * y i := by
    unfold quad; exact Finset.sum_congr rfl fun i _ => by rw [hy i]; ring
  have h3 := hAB y
  rw [e1] at h1
  linarith

theorem quad_dataPrec_nonneg (ridge : ℝ) (hr : 0 < ridge) (data : List (Fin n → ℝ)) (x : Fin n → ℝ) :
    0 ≤ quad (dataPrec ridge data) x := by
  rw [quad_dataPrec]
  have := sum_sq_nonneg' data fun φ => ∑ i, φ i * x i
  have : 0 ≤ ridge * ∑ i, x i ^ 2 := mul_nonneg hr.le (Finset.sum_nonneg fun i _ => sq_nonneg _)
  linarith

theorem dataPrec_symm (ridge : ℝ) (data : List (Fin n → ℝ)) (i j : Fin n) :
    dataPrec ridge data i j = dataPrec ridge data j i := by
  unfold dataPrec
  congr 1
  · simp only [eq_comm]
  · congr 1; exact List.map_congr_left fun φ _ => mul_comm _ _

/-- **C78.** More data never make the model less certain about a point: if `data'` has every feature vector of `data` at least as
often, the variance under `data'` is at most the variance under `data`. -/
theorem C78_antitone (ridge : ℝ) (hr : 0 < ridge) (data data' : List (Fin n → ℝ)) (hsub : data.Subperm data')
    (L L' : Fin n → Fin n → ℝ) (hL : IsChol (dataPrec ridge data) L) (hL' : IsChol (dataPrec ridge data') L')
    (φ w w' : Fin n → ℝ) (hw : Solves L w φ) (hw' : Solves L' w' φ) : predVar ridge w' ≤ predVar ridge w := by
  obtain ⟨x, hx⟩ := exists_solve ridge hr data φ
  obtain ⟨y, hy⟩ := exists_solve ridge hr data' φ
  rw [(C78_covariance ridge _ L hL φ φ w w x x hw hw hx hx).2.2, (C78_covariance ridge _ L' hL' φ φ w' w' y y hw' hw' hy hy).2.2]
  refine mul_le_mul_of_nonneg_left ?_ hr.le
  refine inverse_antitone _ _ (dataPrec_symm ridge data) (quad_dataPrec_nonneg ridge hr data) (fun z => ?_) φ x y hx hy
  rw [quad_dataPrec, quad_dataPrec]
  obtain ⟨l, hperm, hsubl⟩ := hsub
  have h1 : (data.map fun φ => (∑ i, φ i * z i) ^ 2).sum = (l.map fun φ => (∑ i, φ i * z i) ^ 2).sum :=
    ((hperm.symm.map _).sum_eq)
  have h2 : (l.map fun φ => (∑ i, φ i * z i) ^ 2).sum ≤ (data'.map fun φ => (∑ i, φ i * z i) ^ 2).sum := by
    refine (hsubl.map _).sum_le_sum fun a ha => ?_
    obtain ⟨φ, -, rfl⟩ := List.mem_map.1 ha
    positivity
  linarith

theorem solves_scaled (ridge : ℝ) (k : ℕ) (φ : Fin n → ℝ) (h : ridge + k * ∑ i, φ i ^ 2 ≠ 0) :
    Solves (dataPrec ridge (List.replicate k φ)) (fun i => φ i / (ridge + k * ∑ i, φ i ^ 2)) φ := by
  intro i
  have e : ∀ j, dataPrec ridge (List.replicate k φ) i j * (φ j / (ridge + k * ∑ i, φ i ^ 2))
      = ((if i = j then ridge * φ j else 0) + k * φ i * φ j ^ 2) / (ridge + k * ∑ i, φ i ^ 2) := by
    intro j
    unfold dataPrec
    rw [List.map_replicate, List.sum_replicate, nsmul_eq_mul]
    split_ifs <;> ring
  simp only [e]
  rw [← Finset.sum_div, div_eq_iff h, Finset.sum_add_distrib, Finset.sum_ite_eq, if_pos (Finset.mem_univ _), ← Finset.mul_sum]
  ring

/-- **C78.** The variance is between 0 and the prior variance `φᵀφ`; it is the prior variance where the features have nothing in
common with the data; and where the point was seen `k` times, it is at most `ridge φᵀφ / (ridge + k φᵀφ)`, which goes to zero. -/
theorem C78_bounds (ridge : ℝ) (hr : 0 < ridge) (data : List (Fin n → ℝ)) (L : Fin n → Fin n → ℝ)
    (hL : IsChol (dataPrec ridge data) L) (φ w : Fin n → ℝ) (hw : Solves L w φ) :
    0 ≤ predVar ridge w ∧ predVar ridge w ≤ ∑ i, φ i ^ 2 ∧
    ((∀ ψ ∈ data, ∑ i, ψ i * φ i = 0) → predVar ridge w = ∑ i, φ i ^ 2) ∧
    (∀ k : ℕ, (List.replicate k φ).Subperm data → predVar ridge w ≤ ridge * (∑ i, φ i ^ 2) / (ridge + k * ∑ i, φ i ^ 2)) := by
  have hS : 0 ≤ ∑ i, φ i ^ 2 := Finset.sum_nonneg fun i _ => sq_nonneg _
  have hseen : ∀ k : ℕ, (List.replicate k φ).Subperm data →
      predVar ridge w ≤ ridge * (∑ i, φ i ^ 2) / (ridge + k * ∑ i, φ i ^ 2) := by
    intro k hk
    obtain ⟨y, hy⟩ := exists_solve ridge hr data φ
    have hpos : 0 < ridge + k * ∑ i, φ i ^ 2 := by positivity
    have hx := solves_scaled ridge k φ hpos.ne'
    rw [(C78_covariance ridge _ L hL φ φ w w y y hw hw hy hy).2.2, mul_div_assoc]
    refine mul_le_mul_of_nonneg_left ?_ hr.le
    have h := inverse_antitone _ (dataPrec ridge data) (dataPrec_symm ridge (List.replicate k φ))
      (quad_dataPrec_nonneg ridge hr _) (fun z => by
        rw [quad_dataPrec, quad_dataPrec]
        obtain ⟨l, hperm, hsubl⟩ := hk
        have h1 : ((List.replicate k φ).map fun φ => (∑ i, φ i * z i) ^ 2).sum = (l.map fun φ => (∑ i, φ i * z i) ^ 2).sum :=
          ((hperm.symm.map _).sum_eq)
        have h2 : (l.map fun φ => (∑ i, φ i * z i) ^ 2).sum ≤ (data.map fun φ => (∑ i, φ i * z i) ^ 2).sum := by
          refine (hsubl.map _).sum_le_sum fun a ha => ?_
          obtain ⟨φ, -, rfl⟩ := List.mem_map.1 ha
          positivity
        linarith) φ _ y hx hy
    refine h.trans (le_of_eq ?_)
    rw [Finset.sum_div]
    exact Finset.sum_congr rfl fun i _ => by ring
  refine ⟨mul_nonneg hr.le (Finset.sum_nonneg fun i _ => sq_nonneg _), ?_, fun horth => ?_, hseen⟩
  · have := hseen 0 (by simp [List.nil_subperm])
    simpa [mul_div_assoc, mul_comm, hr.ne', div_self] using this
  · have hx : Solves (dataPrec ridge data) (fun i => φ i / ridge) φ := by
      intro i
      have e : ∑ j, dataPrec ridge data i j * (φ j / ridge) = φ i + (data.map fun ψ => ψ i * ∑ j, ψ j * φ j).sum / ridge := by
        clear hseen hL horth
        induction data with
        | nil => simp [dataPrec, ite_mul, mul_div_cancel₀, hr.ne']
        | cons ψ data ih =>
          have e : ∀ j, dataPrec ridge (ψ :: data) i j * (φ j / ridge) =
              dataPrec ridge data i j * (φ j / ridge) + ψ i * (ψ j * φ j) / ridge := by
            intro j; simp only [dataPrec, List.map_cons, List.sum_cons]; ring
          simp only [e, Finset.sum_add_distrib, ih, List.map_cons, List.sum_cons, ← Finset.sum_div, ← Finset.mul_sum]
          ring
      rw [e]
      have : (data.map fun ψ => ψ i * ∑ j, ψ j * φ j).sum = 0 := by
        apply List.sum_eq_zero
        intro a ha
        obtain ⟨ψ, hψ, rfl⟩ := List.mem_map.1 ha
        rw [horth ψ hψ, mul_zero]
      rw [this]; ring
    rw [(C78_covariance ridge _ L hL φ φ w w _ _ hw hw hx hx).2.2, Finset.mul_sum]
    exact Finset.sum_congr rfl fun i _ => by field_simp

end variance

/-! ## The logits -/

section logits
variable {c : Type} [Fintype c]

theorem conf_scaled (z : c → ℝ) (k : c) (hk : ∀ j, z j ≤ z k) (s t : ℝ) (hs : 0 < s) (hst : s ≤ t) :
    Real.exp (z k / t) / ∑ j, Real.exp (z j / t) ≤ Real.exp (z k / s) / ∑ j, Real.exp (z j / s) := by
  have ht : 0 < t := hs.trans_le hst
  have hpos : ∀ r : ℝ, 0 < ∑ j, Real.exp (z j / r) := fun r =>
    Finset.sum_pos (fun j _ => Real.exp_pos _) ⟨k, Finset.mem_univ _⟩
  rw [div_le_div_iff₀ (hpos t) (hpos s), Finset.mul_sum, Finset.mul_sum]
  refine Finset.sum_le_sum fun j _ => ?_
  rw [← Real.exp_add, ← Real.exp_add, Real.exp_le_exp]
  have h0 : 0 ≤ z k - z j := sub_nonneg.2 (hk j)
  have : (z k - z j) / t ≤ (z k - z j) / s := div_le_div_of_nonneg_left h0 hs hst
  rw [sub_div, sub_div] at this
  linarith

/-- **C78.** At prediction time the logits are divided by `sqrt(1 + factor · variance)`: the order of the classes, in
particular the predicted one, is that of the logits; the logits shrink; and the probability of the predicted class can only
go down, the more so the larger the variance. -/
theorem C78_logits (factor v : ℝ) (hf : 0 ≤ factor) (hv : 0 ≤ v) (z : c → ℝ) :
    ∃ out, meanFieldLogits factor (some v) z = .ok out ∧ (∀ i j, z i ≤ z j ↔ out i ≤ out j) ∧ (∀ i, |out i| ≤ |z i|) ∧
      (∀ i, out i * Real.sqrt (1 + v * factor) = z i) ∧
      (∀ k, (∀ j, z j ≤ z k) → Real.exp (out k) / ∑ j, Real.exp (out j) ≤ Real.exp (z k) / ∑ j, Real.exp (z j)) ∧
      (∀ v' out', v ≤ v' → meanFieldLogits factor (some v') z = .ok out' → ∀ k, (∀ j, z j ≤ z k) →
        Real.exp (out' k) / ∑ j, Real.exp (out' j) ≤ Real.exp (out k) / ∑ j, Real.exp (out j)) := by
  have hrun : ∀ v, meanFieldLogits factor (some v) z = .ok fun i => z i / Real.sqrt (1 + v * factor) := by
    intro v; unfold meanFieldLogits; rw [if_neg (not_lt.2 hf)]
  have h1 : 1 ≤ Real.sqrt (1 + v * factor) := by
    rw [Real.one_le_sqrt]; nlinarith [mul_nonneg hv hf]
  have hpos : 0 < Real.sqrt (1 + v * factor) := one_pos.trans_le h1
  refine ⟨_, hrun v, fun i j => (div_le_div_iff_of_pos_right hpos).symm, fun i => ?_, fun i => div_mul_cancel₀ _ hpos.ne',
    fun k hk => ?_, fun v' out' hvv h k hk => ?_⟩
  · rw [abs_div, abs_of_pos hpos]; exact div_le_self (abs_nonneg _) h1
  · have := conf_scaled z k hk 1 _ one_pos h1
    simpa using this
  · rw [hrun v'] at h
    cases h
    refine conf_scaled z k hk _ _ hpos (Real.sqrt_le_sqrt ?_)
    have := mul_le_mul_of_nonneg_right hvv hf
    linarith

/-- **C78.** Without a variance the logits are scaled as with variance one. -/
theorem C78_logits_default (factor : ℝ) (z : c → ℝ) : meanFieldLogits factor none z = meanFieldLogits factor (some 1) z := rfl

/-- **C78.** A negative mean-field factor is refused. -/
theorem C78_logits_refused (factor : ℝ) (hf : factor < 0) (v : Option ℝ) (z : c → ℝ) :
    meanFieldLogits factor v z = .error "ValueError" := by
  unfold meanFieldLogits; rw [if_pos hf]

end logits

/-- **C78.** The features of a point lie between minus and plus the feature scale, so that the prior variance `φᵀφ` is at most
the number of features times the square of the scale. -/
theorem C78_features {ι κ : Type} [Fintype ι] [Fintype κ] (fs ks : ℝ) (kernel : κ → ι → ℝ) (bias : ι → ℝ) (x : κ → ℝ) :
    (∀ i, |rff fs ks kernel bias x i| ≤ |fs|) ∧
      ∑ i, rff fs ks kernel bias x i ^ 2 ≤ Fintype.card ι * fs ^ 2 := by
  have h : ∀ i, |rff fs ks kernel bias x i| ≤ |fs| := fun i => by
    unfold rff
    rw [abs_mul]
    exact mul_le_of_le_one_right (abs_nonneg _) (Real.abs_cos_le_one _)
  refine ⟨h, ?_⟩
  calc ∑ i, rff fs ks kernel bias x i ^ 2 ≤ ∑ _i : ι, fs ^ 2 := Finset.sum_le_sum fun i _ => sq_le_sq.2 (h i)
    _ = _ := by rw [Finset.sum_const, Finset.card_univ, nsmul_eq_mul]

/-! ## Momentum zero, several devices -/

/-- **C78 (false).** With momentum 0, which is accepted, the precision matrix need not be invertible: the ridge penalty is gone
after the first batch. -/
theorem C78_momentum_zero_false :
    checkMomentum (some 0) = .ok () ∧ ∃ (b : List (Fin 2 → ℝ)) (x : Fin 2 → ℝ), x ≠ 0 ∧
      ∀ i, ∑ j, updatePrec (some 0) b (initPrec 1) i j * x j = 0 := by
  constructor
  · unfold checkMomentum; simp
  · refine ⟨[![1, 0]], ![0, 1], ?_, ?_⟩
    · intro h; have := congrFun h 1; simp at this
    · intro i; fin_cases i <;> simp [updatePrec, batchPrec_eq, Fin.sum_univ_two]

/-- **C78, the check on the momentum.** Refused exactly outside `[0, 1]`. -/
theorem C78_momentum_check (m : ℝ) :
    checkMomentum none = .ok () ∧ (0 ≤ m → m ≤ 1 → checkMomentum (some m) = .ok ()) ∧
    (m < 0 ∨ 1 < m → checkMomentum (some m) = .error "ValueError") := by
  refine ⟨rfl, fun h0 h1 => ?_, fun h => ?_⟩
  · unfold checkMomentum
    dsimp only
    rw [if_neg]
    rintro (h | h) <;> linarith
  · unfold checkMomentum
    dsimp only
    rw [if_pos h]

example : checkMomentum (some 2) = .error "ValueError" ∧ checkMomentum (some 1) = .ok () :=
  ⟨(C78_momentum_check 2).2.2 (by norm_num), (C78_momentum_check 1).2.1 (by norm_num) (by norm_num)⟩

/-- **C78, one call of the covariance layer.** Initialisation keeps the initial precision matrix and returns nothing; training adds the
batch and returns nothing; inference returns the covariance of the stored matrix and keeps it, so the order and number of predictions
change nothing. -/
theorem C78_call {ι C : Type} [Fintype ι] [DecidableEq ι] (momentum : Option ℝ) (cov : (ι → ι → ℝ) → List (ι → ℝ) → C)
    (b : List (ι → ℝ)) (P : ι → ι → ℝ) (p : Bool) :
    covCall momentum true true cov b P = (P, none) ∧
    covCall momentum false true cov b P = (updatePrec momentum b P, none) ∧
    covCall momentum p false cov b P = (P, some (cov P b)) := by
  refine ⟨rfl, rfl, rfl⟩

/-- **C78.** A run of predictions and of updates: the predictions leave the precision matrix to the updates. -/
theorem C78_call_run {ι C : Type} [Fintype ι] [DecidableEq ι] (cov : (ι → ι → ℝ) → List (ι → ℝ) → C)
    (calls : List (Bool × List (ι → ℝ))) (P : ι → ι → ℝ) (i j : ι) :
    calls.foldl (fun P c => (covCall none false c.1 cov c.2 P).1) P i j =
      P i j + (((calls.filter (·.1)).flatMap (·.2)).map fun φ => φ i * φ j).sum := by
  induction calls generalizing P with
  | nil => simp
  | cons c cs ih =>
    rw [List.foldl_cons, ih]
    obtain ⟨t, b⟩ := c
    cases t
    · simp [covCall]
    · simp [covCall, updatePrec, batchPrec, add_assoc]

example : [(true, [fun _ : Fin 1 => (2 : ℝ)]), (false, [fun _ => 3]), (true, [fun _ => 1, fun _ => 4])].foldl
    (fun P c => (covCall none false c.1 (fun _ b => b.length) c.2 P).1) (initPrec 1) 0 0 = 22 := by
  rw [C78_call_run]
  simp [initPrec]
  norm_num

/-- **C78.** With a momentum in `(0, 1]` it stays positive definite. -/
theorem C78_momentum_posdef {n : ℕ} (m : ℝ) (h0 : 0 < m) (h1 : m ≤ 1) (b : List (Fin n → ℝ)) (P : Fin n → Fin n → ℝ)
    (hP : ∀ x, x ≠ 0 → 0 < quad P x) (x : Fin n → ℝ) (hx : x ≠ 0) : 0 < quad (updatePrec (some m) b P) x := by
  have e : quad (updatePrec (some m) b P) x
      = m * quad P x + (1 - m) / (b.length : ℝ) * (b.map fun φ => (∑ i, φ i * x i) ^ 2).sum := by
    have hb := quad_dataPrec 0 b x
    rw [zero_mul, zero_add] at hb
    rw [← hb]
    unfold quad
    rw [Finset.mul_sum, Finset.mul_sum, ← Finset.sum_add_distrib]
    refine Finset.sum_congr rfl fun i _ => ?_
    have : ∑ j, updatePrec (some m) b P i j * x j
        = m * ∑ j, P i j * x j + (1 - m) / (b.length : ℝ) * ∑ j, dataPrec 0 b i j * x j := by
      rw [Finset.mul_sum, Finset.mul_sum, ← Finset.sum_add_distrib]
      refine Finset.sum_congr rfl fun j _ => ?_
      simp only [updatePrec, batchPrec_eq, dataPrec, ite_self, zero_add]
      ring
    rw [this]; ring
  rw [e]
  have := sum_sq_nonneg' b fun φ => ∑ i, φ i * x i
  have h2 : 0 ≤ (1 - m) / (b.length : ℝ) := div_nonneg (by linarith) (Nat.cast_nonneg _)
  have := mul_nonneg h2 this
  have := mul_pos h0 (hP x hx)
  linarith

/-- **C78.** What training on several devices gives: the data of the first device only, or with validation the data of all
devices divided by their number. -/
theorem C78_devices {n D : ℕ} (ridge : ℝ) (parts : Fin (D + 1) → List (List (Fin n → ℝ))) (i j : Fin n) :
    devicePrec ridge false parts i j = dataPrec ridge (parts 0).flatten i j ∧
    devicePrec ridge true parts i j =
      (if i = j then ridge else 0) + (∑ d, ((parts d).flatten.map fun φ => φ i * φ j).sum) / ((D : ℝ) + 1) := by
  have hP : ∀ d, (parts d).foldl (fun P b => updatePrec none b P) (initPrec ridge) i j = dataPrec ridge (parts d).flatten i j := by
    intro d; rw [fold_exact]; unfold dataPrec initPrec; split_ifs <;> simp
  have hD : (D : ℝ) + 1 ≠ 0 := by positivity
  constructor
  · show (parts 0).foldl (fun P b => updatePrec none b P) (initPrec ridge) i j = _
    exact hP 0
  · show (∑ d, (parts d).foldl (fun P b => updatePrec none b P) (initPrec ridge) i j) / ((D : ℝ) + 1) = _
    simp only [hP, dataPrec, Finset.sum_add_distrib, Finset.sum_const, Finset.card_univ, Fintype.card_fin, nsmul_eq_mul]
    push_cast
    field_simp

/-- **C78 (false).** So on several devices the precision matrix is not that of all the data, with or without validation. -/
theorem C78_devices_false : ∃ (parts : Fin 2 → List (List (Fin 1 → ℝ))), ∀ validate,
    devicePrec 1 validate parts 0 0 ≠ 1 + ∑ d, ((parts d).flatten.map fun φ => φ 0 * φ 0).sum := by
  refine ⟨fun _ => [[fun _ => 1]], fun validate => ?_⟩
  cases validate
  · rw [(C78_devices 1 _ 0 0).1]; simp [dataPrec]
  · rw [(C78_devices 1 _ 0 0).2]; simp; norm_num

/-! ## Examples -/

theorem at?_cons {K V : Type} [DecidableEq K] (j k : K) (p : List K) (o r : Obj K V) :
    at? (j :: p) (cons k o r) = if k = j then at? p o else at? (j :: p) r := by
  simp only [at?, lookup]; split_ifs <;> rfl

/-- A mutable state with another entry before the precision matrix. -/
example : HasPrec (n := 1) "precision_matrix" ["model"]
    (cons "model" (cons "mean" (leaf (.other [1])) (cons "precision_matrix" (leaf (.mat fun _ _ => 7)) nil)) nil)
      (fun _ _ => 7) := by
  refine ⟨by simp [WF, lookup, isDict], rfl, by simp [nestedGet, item, lookup, isDict, Except.bind], fun q o h => ?_⟩
  have h := ((nestedGet_eq _ _ _).1 h).2
  match q with
  | [] =>
    rw [List.nil_append, at?_cons, if_neg (by decide), at?_nil (by simp)] at h
    cases h
  | a :: q =>
    rw [List.cons_append, at?_cons] at h
    by_cases h1 : "model" = a
    · subst h1
      rw [if_pos rfl] at h
      match q with
      | [] => rfl
      | b :: q =>
        rw [List.cons_append, at?_cons, at?_leaf (by simp), at?_cons, at?_leaf (by simp), at?_nil (by simp), ite_self, ite_self]
          at h
        cases h
    · rw [if_neg h1, at?_nil (by simp)] at h
      cases h

/-- Steps as C78_fit requires them: the entry is replaced, for instance like this. -/
example {n : ℕ} (key : String) (p : List String) (mom : Option ℝ) (b : List (Fin n → ℝ)) :
    StepSpec key p mom b fun d => match nestedGet d (p ++ [key]) with
      | .ok (leaf (.mat M)) => nestedUpdate d (wrapPath (p ++ [key]) (leaf (.mat (updatePrec mom b M))))
      | _ => d := by
  intro d M h
  simp only [h.2.2.1]
  exact (put_prec key p d M _ h).1

/-- One feature, one data point 2, ridge 1: the precision is 5, its Cholesky factor `√5`, and the variance at 2 is `4/5`. -/
example : IsChol (dataPrec 1 [fun _ : Fin 1 => 2]) (fun _ _ => Real.sqrt 5) ∧
    Solves (fun _ _ : Fin 1 => Real.sqrt 5) (fun _ => 2 / Real.sqrt 5) (fun _ => 2) ∧
    predVar 1 (fun _ : Fin 1 => 2 / Real.sqrt 5) = 4 / 5 := by
  have h5 : Real.sqrt 5 ≠ 0 := (Real.sqrt_pos.2 (by norm_num)).ne'
  refine ⟨⟨fun i j h => ?_, fun i => Real.sqrt_pos.2 (by norm_num), fun i j => ?_⟩, fun i => ?_, ?_⟩
  · exact absurd h (by rw [Subsingleton.elim i j]; exact lt_irrefl _)
  · rw [Subsingleton.elim i j]
    simp [dataPrec]
    norm_num
  · simp; field_simp
  · simp [predVar, div_pow]; norm_num

/-- Two logits and a variance of 3 with factor 1: they are halved. -/
example : ∃ out, meanFieldLogits 1 (some 3) ![2, 4] = .ok out ∧ out 0 = 1 ∧ out 1 = 2 := by
  have h : Real.sqrt (1 + 3 * 1) = 2 := by
    rw [show (1 + 3 * 1 : ℝ) = 2 ^ 2 by norm_num]; exact Real.sqrt_sq (by norm_num)
  refine ⟨fun i => ![2, 4] i / Real.sqrt (1 + 3 * 1), ?_, ?_, ?_⟩
  · unfold meanFieldLogits; rw [if_neg (by norm_num)]
  · simp only [h]; norm_num
  · simp only [h]; norm_num

/-! ### Concrete cases that meet the hypotheses of the theorems above -/

/-- A mutable state with a precision matrix, and one with a copy of it on each of two devices. -/
theorem hasEntry_model {n : ℕ} (a : Arr n) :
    HasEntry "precision_matrix" ["model"] (cons "model" (cons "mean" (leaf (.other [1])) (cons "precision_matrix" (leaf a) nil)) nil) a := by
  refine ⟨by simp [WF, lookup, isDict], rfl, by simp [nestedGet, item, lookup, isDict, Except.bind], fun q o h => ?_⟩
  have h := ((nestedGet_eq _ _ _).1 h).2
  match q with
  | [] =>
    rw [List.nil_append, at?_cons, if_neg (by decide), at?_nil (by simp)] at h
    cases h
  | b :: q =>
    rw [List.cons_append, at?_cons] at h
    by_cases hb : "model" = b
    · rw [if_pos hb] at h
      match q with
      | [] => rw [hb]
      | c :: q =>
        rw [List.cons_append, at?_cons, at?_cons] at h
        by_cases hc : "mean" = c
        · rw [if_pos hc] at h; cases q <;> simp [at?, lookup] at h
        · rw [if_neg hc] at h
          by_cases hd : "precision_matrix" = c
          · rw [if_pos hd] at h; cases q <;> simp [at?, lookup] at h
          · rw [if_neg hd, at?_nil (by simp)] at h; cases h
    · rw [if_neg hb, at?_nil (by simp)] at h
      cases h

example := C78_reset "precision_matrix" 0.1 ["model"] _ _ (hasEntry_model (n := 2) (.mat fun _ _ => 7))
example := C78_reset_devices "precision_matrix" 0.1 ["model"] _ 2 _ (hasEntry_model (n := 2) (.dev 2 fun _ _ _ => 7))
example := C78_reset_missing (n := 2) "precision_matrix" 0.1 nil (by trivial) (by intro p o h; have h := ((nestedGet_eq _ _ _).1 h).2; rw [at?_nil (by simp)] at h; cases h)
example := C78_spectral_required (V := ℕ) (cons "spectral_stats" (cons "u" (leaf 1) nil) nil) (by simp [WF, lookup, isDict])
example := C78_fit (n := 2) "precision_matrix" ["model"] 0.1 3 (by norm_num)
  [[([fun _ => 2], fun d => match nestedGet d (["model"] ++ ["precision_matrix"]) with
      | .ok (leaf (.mat M)) => nestedUpdate d (wrapPath (["model"] ++ ["precision_matrix"]) (leaf (.mat (updatePrec none [fun _ => 2] M))))
      | _ => d)]]
  (by
    intro e he s hs d M h
    simp only [List.mem_singleton] at he
    subst he
    simp only [List.mem_singleton] at hs
    subst hs
    simp only [h.2.2.1]
    exact (put_prec _ _ d M _ h).1) _ rfl _ _ (hasEntry_model (n := 2) (.mat fun _ _ => 7))
example := C78_apply (V := ℕ) id id (cons "sngp_random_features" (leaf 1) (cons "batch_stats" (leaf 2) nil))
example := C78_posdef 0.1 (by norm_num) [fun _ : Fin 2 => 2, fun i => i] (fun _ => 1) (by intro h; simpa using congrFun h 0)
example := C78_logits (c := Fin 2) 1 3 (by norm_num) (by norm_num) ![2, 4]
example := C78_logits_refused (c := Fin 2) (-1) (by norm_num) (some 3) ![2, 4]

/-- One feature, one data point 2, ridge 1. -/
theorem chol_five : IsChol (dataPrec 1 [fun _ : Fin 1 => 2]) (fun _ _ => Real.sqrt 5) := by
  refine ⟨fun i j h => absurd h (by rw [Subsingleton.elim i j]; exact lt_irrefl _), fun i => Real.sqrt_pos.2 (by norm_num), fun i j => ?_⟩
  rw [Subsingleton.elim i j]
  simp [dataPrec]
  norm_num

theorem solves_five : Solves (fun _ _ : Fin 1 => Real.sqrt 5) (fun _ => 2 / Real.sqrt 5) (fun _ => 2) := by
  have h5 : Real.sqrt 5 ≠ 0 := (Real.sqrt_pos.2 (by norm_num)).ne'
  intro i
  simp
  field_simp

example := C78_covariance 1 _ _ chol_five _ _ _ _ (fun _ => 2 / 5) (fun _ => 2 / 5) solves_five solves_five
  (by intro i; rw [Subsingleton.elim i 0]; simp [dataPrec]; norm_num) (by intro i; rw [Subsingleton.elim i 0]; simp [dataPrec]; norm_num)
example := C78_bounds 1 one_pos _ _ chol_five _ _ solves_five
example := C78_antitone 1 one_pos [] _ (List.nil_subperm) (fun _ _ => 1) _
  ⟨fun i j h => absurd h (by rw [Subsingleton.elim i j]; exact lt_irrefl _), fun _ => one_pos, fun i j => by rw [Subsingleton.elim i j]; simp [dataPrec]⟩
  chol_five (fun _ => 2) (fun _ => 2) _ (by intro i; simp) solves_five

example := C78_momentum_posdef (n := 1) (1 / 2) (by norm_num) (by norm_num) [fun _ => 2] (fun _ _ => 1) (by
  intro x hx
  have h0 : x 0 ≠ 0 := fun h => hx (by funext i; rw [Subsingleton.elim i 0, h]; rfl)
  simp [quad]
  positivity) (fun _ => 3) (by intro h; have := congrFun h 0; simp at this)

end Verif.Props
