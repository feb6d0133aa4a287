import Mathlib.Tactic.LinearCombination
import Mathlib.Analysis.SpecialFunctions.Pow.Real
import Mathlib.Algebra.Order.BigOperators.Group.List
import Mathlib.Algebra.BigOperators.Ring.List
import Verif.Model.Calibration
import Verif.Lemmas.ArrayOps
import Verif.Lemmas.ListAux
import Verif.Props.OutputLayer

/-!
# Temperature scaling (C52), kernel regression (C53), losses (C54)
-/

set_option linter.unusedSectionVars false

namespace Verif.Props

open Verif.Calibration Verif.ArrayOps Verif.OutputLayer

/-! ## C52 binary -/

section binary
variable {K : Type} [Field K] [LinearOrder K] [IsStrictOrderedRing K]

/-- **C52, range and order.** For every positive temperature the calibrated probabilities are in [0, 1], there
is one per input, and a larger probability never becomes a smaller one. -/
theorem C52_binary (T : K) (hT : 0 < T) (probs : List K) :
    (binProba T probs).length = probs.length ∧ (∀ q ∈ binProba T probs, 0 ≤ q ∧ q ≤ 1) ∧
    ∀ p p', p ≤ p' → clip (p / T) 0 1 ≤ clip (p' / T) 0 1 := by
  refine ⟨by simp [binProba], ?_, ?_⟩
  · intro q hq
    obtain ⟨p, -, rfl⟩ := List.mem_map.mp hq
    exact clip_mem _ _ _ zero_le_one
  · intro p p' h
    unfold clip
    exact min_le_min_right _ (max_le_max_right _ (div_le_div_of_nonneg_right h hT.le))

/-- **C52, decision.** For a threshold in (0, 1] the prediction is 1 exactly when the probability reaches
the threshold times the temperature; this is the rule whose F1 score is optimised by
`F1BinaryClassificationTemperatureScaling.fit`. -/
theorem C52_decision (T threshold : K) (hT : 0 < T) (h0 : 0 < threshold) (h1 : threshold ≤ 1)
    (probs : List K) : binPredict T threshold probs = f1Preds probs threshold T := by
  unfold binPredict f1Preds binProba
  rw [List.map_map]
  apply List.map_congr_left
  intro p _
  simp only [Function.comp]
  have : threshold ≤ clip (p / T) 0 1 ↔ threshold * T ≤ p := by
    unfold clip
    rw [le_min_iff, le_max_iff, le_div_iff₀ hT]
    constructor
    · rintro ⟨h | h, -⟩
      · exact h
      · exact absurd h (not_le.mpr h0)
    · intro h
      exact ⟨Or.inl h, h1⟩
  simp only [this]

theorem mean_map_div (l : List K) (T : K) : mean (l.map fun p => p / T) = mean l / T := by
  unfold mean
  rw [List.length_map]
  have : (l.map fun p => p / T).sum = l.sum / T := by
    simp only [div_eq_mul_inv]
    rw [List.sum_map_mul_right]
    simp
  rw [this]
  ring

/-- **C52, bias.** With the fitted temperature the mean of the scaled probabilities is the mean target; after
clipping it is so when no scaled probability exceeds 1, and never more otherwise. -/
theorem C52_bias (probs targets : List K) (hp : ∀ p ∈ probs, 0 ≤ p) (T : K)
    (hfit : biasFit probs targets = some T) (hT : 0 < T) :
    mean (probs.map fun p => p / T) = mean targets ∧
    mean (binProba T probs) ≤ mean targets ∧
    ((∀ p ∈ probs, p ≤ T) → mean (binProba T probs) = mean targets) := by
  unfold biasFit at hfit
  split_ifs at hfit with h0
  have hTe : mean probs / mean targets = T := Option.some.inj hfit
  have hmp : mean probs ≠ 0 := by
    rintro h
    rw [h, zero_div] at hTe
    exact hT.ne hTe
  have h1 : mean (probs.map fun p => p / T) = mean targets := by
    rw [mean_map_div, ← hTe]
    field_simp
  refine ⟨h1, ?_, ?_⟩
  · rw [← h1]
    unfold mean binProba
    rw [List.length_map, List.length_map]
    apply div_le_div_of_nonneg_right _ (Nat.cast_nonneg _)
    apply List.sum_le_sum
    intro p hpm
    unfold clip
    rw [max_eq_left (div_nonneg (hp p hpm) hT.le)]
    exact min_le_left _ _
  · intro hle
    rw [← h1]
    congr 1
    unfold binProba
    apply List.map_congr_left
    intro p hpm
    exact clip_eq (div_nonneg (hp p hpm) hT.le) ((div_le_one hT).mpr (hle p hpm))

/-- **C52, when a temperature is fitted.** The bias scaler fits a temperature exactly if some target is positive (targets are 0 or more), the Brier scaler exactly if
some probability of a positive target is positive; the temperature is then positive if some probability is. -/
theorem C52_fitted (probs targets : List K) (hp : ∀ p ∈ probs, 0 ≤ p) (ht : ∀ y ∈ targets, 0 ≤ y) :
    ((biasFit probs targets).isSome ↔ ∃ y ∈ targets, 0 < y) ∧
    ((brierFit probs targets).isSome ↔ ∃ q ∈ probs.zip targets, 0 < q.1 ∧ 0 < q.2) ∧
    (∀ T, biasFit probs targets = some T → (0 < T ↔ ∃ p ∈ probs, 0 < p)) ∧
    ∀ T, brierFit probs targets = some T → 0 < T := by
  have mean_pos : ∀ l : List K, (∀ a ∈ l, 0 ≤ a) → (0 < mean l ↔ ∃ a ∈ l, 0 < a) := by
    intro l hl
    unfold mean
    constructor
    · intro h
      by_contra hc
      push Not at hc
      have : l.sum = 0 := List.sum_eq_zero fun a ha => le_antisymm (hc a ha) (hl a ha)
      rw [this, zero_div] at h
      exact lt_irrefl _ h
    · rintro ⟨a, ha, h0⟩
      have h1 : a ≤ l.sum := List.single_le_sum hl a ha
      have h2 : 0 < l.length := List.length_pos_of_mem ha
      exact div_pos (h0.trans_le h1) (by exact_mod_cast h2)
  have mean_nonneg : ∀ l : List K, (∀ a ∈ l, 0 ≤ a) → 0 ≤ mean l := fun l hl =>
    div_nonneg (List.sum_nonneg hl) (Nat.cast_nonneg _)
  have hz : ∀ a ∈ List.zipWith (· * ·) probs targets, 0 ≤ a := by
    intro a ha
    rw [← List.map_uncurry_zip_eq_zipWith] at ha
    obtain ⟨q, hq, rfl⟩ := List.mem_map.1 ha
    exact mul_nonneg (hp _ (List.of_mem_zip hq).1) (ht _ (List.of_mem_zip hq).2)
  have hzpos : (∃ a ∈ List.zipWith (· * ·) probs targets, 0 < a) ↔ ∃ q ∈ probs.zip targets, 0 < q.1 ∧ 0 < q.2 := by
    rw [← List.map_uncurry_zip_eq_zipWith]
    constructor
    · rintro ⟨a, ha, h0⟩
      obtain ⟨q, hq, rfl⟩ := List.mem_map.1 ha
      have h1 := hp _ (List.of_mem_zip hq).1
      have h2 := ht _ (List.of_mem_zip hq).2
      refine ⟨q, hq, lt_of_le_of_ne h1 fun h => ?_, lt_of_le_of_ne h2 fun h => ?_⟩
      · simp only [Function.uncurry, ← h, zero_mul, lt_irrefl] at h0
      · simp only [Function.uncurry, ← h, mul_zero, lt_irrefl] at h0
    · rintro ⟨q, hq, h1, h2⟩
      exact ⟨q.1 * q.2, List.mem_map.2 ⟨q, hq, rfl⟩, mul_pos h1 h2⟩
  refine ⟨?_, ?_, fun T hT => ?_, fun T hT => ?_⟩
  · rw [← mean_pos targets ht]
    unfold biasFit
    have := mean_nonneg targets ht
    split_ifs with h
    · simp [h]
    · simpa using lt_of_le_of_ne this (Ne.symm h)
  · rw [← hzpos, ← mean_pos _ hz]
    unfold brierFit
    have := mean_nonneg _ hz
    dsimp only
    split_ifs with h
    · simp [h]
    · simpa using lt_of_le_of_ne this (Ne.symm h)
  · unfold biasFit at hT
    split_ifs at hT with h
    have hm : 0 < mean targets := lt_of_le_of_ne (mean_nonneg targets ht) (Ne.symm h)
    rw [← Option.some.inj hT, div_pos_iff_of_pos_right hm, mean_pos probs hp]
  · unfold brierFit at hT
    dsimp only at hT
    split_ifs at hT with h
    have hm : 0 < mean (List.zipWith (· * ·) probs targets) := lt_of_le_of_ne (mean_nonneg _ hz) (Ne.symm h)
    rw [← Option.some.inj hT, div_pos_iff_of_pos_right hm, mean_pos _ (by
      intro a ha
      obtain ⟨p, -, rfl⟩ := List.mem_map.1 ha
      positivity)]
    obtain ⟨q, hq, h1, -⟩ := hzpos.1 ((mean_pos _ hz).1 hm)
    exact ⟨q.1 ^ 2, List.mem_map.2 ⟨q.1, (List.of_mem_zip hq).1, rfl⟩, by positivity⟩

/-- The squared error of the scaled probabilities as a quadratic in the inverse temperature. -/
theorem brier_quadratic (probs targets : List K) (hl : probs.length = targets.length) (s : K) :
    (List.zipWith (fun p y => (p * s - y) ^ 2) probs targets).sum =
    (probs.map (· ^ 2)).sum * s ^ 2 - 2 * (List.zipWith (· * ·) probs targets).sum * s +
      (targets.map (· ^ 2)).sum := by
  induction probs generalizing targets with
  | nil =>
    have : targets = [] := List.length_eq_zero_iff.mp hl.symm
    subst this; simp
  | cons p t ih =>
    cases targets with
    | nil => simp at hl
    | cons y u =>
      have := ih u (by simpa using hl)
      simp only [List.zipWith_cons_cons, List.sum_cons, List.map_cons]
      rw [this]
      ring

/-- **C52, Brier.** The fitted temperature minimises the squared error of the scaled (unclipped)
probabilities over all temperatures, and clipping to [0, 1] never increases the error. -/
theorem C52_brier (probs targets : List K) (hl : probs.length = targets.length)
    (T : K) (hfit : brierFit probs targets = some T) (hT : T ≠ 0) (T' : K) :
    (List.zipWith (fun p y => (p / T - y) ^ 2) probs targets).sum ≤
      (List.zipWith (fun p y => (p / T' - y) ^ 2) probs targets).sum ∧
    ((∀ y ∈ targets, 0 ≤ y ∧ y ≤ 1) →
      (List.zipWith (fun q y => (q - y) ^ 2) (binProba T probs) targets).sum ≤
      (List.zipWith (fun p y => (p / T - y) ^ 2) probs targets).sum) := by
  constructor
  · unfold brierFit at hfit
    simp only at hfit
    split_ifs at hfit with h0
    have hTe := Option.some.inj hfit
    unfold mean at hTe h0
    rw [List.length_zipWith, ← hl, min_self] at h0
    rw [List.length_zipWith, List.length_map, ← hl, min_self] at hTe
    have hlen : (probs.length : K) ≠ 0 := by
      intro h
      rw [h, div_zero] at h0
      exact h0 rfl
    set A := (probs.map (· ^ 2)).sum with hA
    set B := (List.zipWith (· * ·) probs targets).sum with hB
    have hB0 : B ≠ 0 := by
      rintro h
      rw [h, zero_div] at h0
      exact h0 rfl
    have hAT : A = T * B := by
      rw [← hTe]
      field_simp
    have hA0 : 0 ≤ A := by
      rw [hA]
      apply List.sum_nonneg
      intro a ha
      obtain ⟨p, -, rfl⟩ := List.mem_map.mp ha
      positivity
    have hq := fun s : K => brier_quadratic probs targets hl s
    simp only [div_eq_mul_inv]
    rw [hq, hq, ← hA, ← hB]
    have hs : A * T⁻¹ = B := by rw [hAT]; field_simp
    have key : A * T'⁻¹ ^ 2 - 2 * B * T'⁻¹ - (A * T⁻¹ ^ 2 - 2 * B * T⁻¹) = A * (T'⁻¹ - T⁻¹) ^ 2 := by
      rw [← hs]; ring
    have := mul_nonneg hA0 (sq_nonneg (T'⁻¹ - T⁻¹))
    linarith
  · intro hy
    unfold binProba
    clear hfit
    induction probs generalizing targets with
    | nil => simp
    | cons p t ih =>
      cases targets with
      | nil => simp
      | cons y u =>
        simp only [List.map_cons, List.zipWith_cons_cons, List.sum_cons]
        have h1 := ih u (by simpa using hl) fun z hz => hy z (List.mem_cons_of_mem _ hz)
        have h2 := hy y List.mem_cons_self
        exact add_le_add (sq_clip_sub_le _ _ _ _ h2.1 h2.2) h1

theorem joint_le (targets preds : List ℕ) (hp : ∀ p ∈ preds, p ≤ 1) (ht : ∀ t ∈ targets, t ≤ 1) :
    (List.zipWith (fun a b : ℕ => a * b) targets preds).sum ≤ targets.sum ∧
    (List.zipWith (fun a b : ℕ => a * b) targets preds).sum ≤ preds.sum := by
  induction targets generalizing preds with
  | nil => simp
  | cons y u ih =>
    cases preds with
    | nil => simp
    | cons p v =>
      have h1 := ih v (fun q hq => hp q (List.mem_cons_of_mem _ hq)) fun q hq =>
        ht q (List.mem_cons_of_mem _ hq)
      have h2 := hp p List.mem_cons_self
      have h3 := ht y List.mem_cons_self
      have h4 : y * p ≤ y := by nlinarith
      have h5 : y * p ≤ p := by nlinarith
      simp only [List.zipWith_cons_cons, List.sum_cons]
      omega

/-- **C52, F1.** The loss minimised by `F1BinaryClassificationTemperatureScaling.fit` is minus twice the
number of true positives over the number of predicted plus actual positives, between -1 and 0; it is
undefined exactly when there is no positive target. -/
theorem C52_f1 (probs : List K) (targets : List ℕ) (ht : ∀ t ∈ targets, t ≤ 1) (threshold tau : K) :
    (f1Loss probs targets threshold tau = none ↔ targets.sum = 0) ∧
    ∀ v, f1Loss probs targets threshold tau = some v →
      v = -(2 * ((List.zipWith (fun a b : ℕ => a * b) targets (f1Preds probs threshold tau)).sum : ℕ) /
        (((f1Preds probs threshold tau).sum + targets.sum : ℕ) : K)) ∧ -1 ≤ v ∧ v ≤ 0 := by
  unfold f1Loss
  simp only
  generalize hpreds : f1Preds probs threshold tau = preds
  have hp : ∀ p ∈ preds, p ≤ 1 := by
    intro p hp
    rw [← hpreds] at hp
    obtain ⟨q, -, rfl⟩ := List.mem_map.mp hp
    split_ifs <;> omega
  obtain ⟨hj1, hj2⟩ := joint_le targets preds hp ht
  generalize hJ : (List.zipWith (fun a b : ℕ => a * b) targets preds).sum = J at *
  generalize hA : targets.sum = A at *
  generalize hB : preds.sum = B at *
  constructor
  · constructor
    · intro h
      by_contra hne
      have : (A : K) ≠ 0 := by exact_mod_cast hne
      rw [if_neg this] at h
      split_ifs at h
    · intro h
      rw [if_pos (by exact_mod_cast h)]
  · intro v hv
    by_cases hA0 : (A : K) = 0
    · rw [if_pos hA0] at hv; cases hv
    · rw [if_neg hA0] at hv
      have hApos : (0 : K) < A := lt_of_le_of_ne (Nat.cast_nonneg _) (Ne.symm hA0)
      have hv' : v = -(2 * (J : K) / ((B + A : ℕ) : K)) := by
        by_cases hJ0 : J = 0
        · subst hJ0
          simp at hv
          rw [← hv]
          simp
        · have hJpos : (0 : K) < J := by exact_mod_cast Nat.pos_of_ne_zero hJ0
          have hBpos : (0 : K) < B := by
            have : 0 < B := lt_of_lt_of_le (Nat.pos_of_ne_zero hJ0) hj2
            exact_mod_cast this
          rw [if_pos hBpos] at hv
          have hsum : (J : K) / B + J / A ≠ 0 := by positivity
          rw [if_neg hsum] at hv
          rw [← Option.some.inj hv]
          push_cast
          field_simp
          ring
      have hBA : (0 : K) < ((B + A : ℕ) : K) := by push_cast; positivity
      refine ⟨hv', ?_, ?_⟩
      · rw [hv', neg_le_neg_iff, div_le_one hBA]
        have h1 : (J : K) ≤ A := by exact_mod_cast hj1
        have h2 : (J : K) ≤ B := by exact_mod_cast hj2
        push_cast
        linarith
      · rw [hv', neg_nonpos]
        positivity

end binary

example : biasFit [1/4, 1/2, 3/4] ([0, 1, 1] : List ℚ) = some (3/4) ∧
    binProba (3/4) ([1/4, 1/2, 3/4] : List ℚ) = [1/3, 2/3, 1] := by decide +kernel

example : brierFit [1/4, 1/2, 3/4] ([0, 1, 1] : List ℚ) = some (7/10) := by decide +kernel

example : f1Loss [1/4, 1/2, 3/4] [0, 1, 1] (1/2 : ℚ) 1 = some (-1) ∧
    f1Loss [1/4, 1/2, 3/4] [0, 1, 1] (1/2 : ℚ) (1/2) = some (-4/5) := by decide +kernel

/-! ## C52 multi-class -/

section multiclass
variable {c : ℕ}

theorem tempered_nonneg (T p : ℝ) : 0 ≤ tempered T p := by
  unfold tempered
  split_ifs
  · exact le_rfl
  · exact (Real.exp_pos _).le

theorem tempered_mono (T : ℝ) (hT : 0 < T) (p q : ℝ) (hp : 0 ≤ p) (hq : 0 ≤ q) :
    (p ≤ q → tempered T p ≤ tempered T q) ∧ (p < q → tempered T p < tempered T q) := by
  unfold tempered
  constructor
  · intro h
    by_cases h0 : p = 0
    · rw [if_pos h0]; exact tempered_nonneg T q
    · have hp' := lt_of_le_of_ne hp (Ne.symm h0)
      have hq' : q ≠ 0 := by linarith
      rw [if_neg h0, if_neg hq', Real.exp_le_exp]
      exact div_le_div_of_nonneg_right (Real.log_le_log hp' h) hT.le
  · intro h
    have hq' : q ≠ 0 := by linarith
    rw [if_neg hq']
    by_cases h0 : p = 0
    · rw [if_pos h0]; exact Real.exp_pos _
    · have hp' := lt_of_le_of_ne hp (Ne.symm h0)
      rw [if_neg h0, Real.exp_lt_exp]
      exact div_lt_div_of_pos_right (Real.log_lt_log hp' h) hT

theorem tempered_sum_pos (T : ℝ) (p : Fin c → ℝ) (hs : ∑ i, p i = 1) :
    0 < ∑ j, tempered T (p j) := by
  have hex : ∃ j, p j ≠ 0 := by
    by_contra h
    push Not at h
    rw [Finset.sum_eq_zero fun i _ => h i] at hs
    exact zero_ne_one hs
  obtain ⟨j, hj⟩ := hex
  refine Finset.sum_pos' (fun i _ => tempered_nonneg T _) ⟨j, Finset.mem_univ j, ?_⟩
  unfold tempered
  rw [if_neg hj]
  exact Real.exp_pos _

/-- **C52, multi-class.** For a positive temperature a row of probabilities (zeros allowed) becomes a row of
probabilities, in the same order; temperature 1 changes nothing. -/
theorem C52_rows (T : ℝ) (hT : 0 < T) (p : Fin c → ℝ) (hp : ∀ i, 0 ≤ p i) (hs : ∑ i, p i = 1) :
    (∀ i, 0 ≤ tempProba T p i) ∧ ∑ i, tempProba T p i = 1 ∧
    (∀ i j, p i < p j ↔ tempProba T p i < tempProba T p j) ∧ tempProba 1 p = p := by
  have hpos := tempered_sum_pos T p hs
  refine ⟨fun i => div_nonneg (tempered_nonneg _ _) hpos.le, ?_, ?_, ?_⟩
  · unfold tempProba
    rw [← Finset.sum_div, div_self hpos.ne']
  · intro i j
    unfold tempProba
    rw [div_lt_div_iff_of_pos_right hpos]
    constructor
    · exact (tempered_mono T hT _ _ (hp i) (hp j)).2
    · intro h
      by_contra hn
      exact absurd h (not_lt.mpr ((tempered_mono T hT _ _ (hp j) (hp i)).1 (not_lt.mp hn)))
  · have h1 : ∀ i, tempered 1 (p i) = p i := by
      intro i
      unfold tempered
      split_ifs with h
      · exact h.symm
      · rw [div_one, Real.exp_log (lt_of_le_of_ne (hp i) (Ne.symm h))]
    funext i
    unfold tempProba
    simp only [h1, hs, div_one]

/-- The index of the first largest entry is determined by the strict order of the entries. -/
theorem argmax_congr (hc : 0 < c) (p q : Fin c → ℝ) (h : ∀ i j, p i < p j ↔ q i < q j) :
    argmax (List.ofFn p) = argmax (List.ofFn q) := by
  have hne : ∀ p : Fin c → ℝ, List.ofFn p ≠ [] := by
    intro p h
    have := congrArg List.length h
    simp at this
    omega
  have spec : ∀ p : Fin c → ℝ, ∃ hlt : argmax (List.ofFn p) < c,
      (∀ i, p i ≤ p ⟨_, hlt⟩) ∧ ∀ i : Fin c, (i : ℕ) < argmax (List.ofFn p) → p i < p ⟨_, hlt⟩ := by
    intro p
    obtain ⟨m, hm, hmax, hfirst⟩ := argmax_spec (List.ofFn p) (hne p)
    have hlt : argmax (List.ofFn p) < c := by simpa using argmax_lt (List.ofFn p) (hne p)
    rw [List.getElem?_ofFn, dif_pos hlt] at hm
    have hm' := Option.some.inj hm
    refine ⟨hlt, fun i => ?_, fun i hi => ?_⟩
    · rw [hm']
      exact hmax _ ((List.mem_ofFn' p _).mpr ⟨i, rfl⟩)
    · rw [hm']
      exact hfirst i (p i) hi (by rw [List.getElem?_ofFn, dif_pos i.2])
  obtain ⟨h1, max1, first1⟩ := spec p
  obtain ⟨h2, max2, first2⟩ := spec q
  rcases lt_trichotomy (argmax (List.ofFn p)) (argmax (List.ofFn q)) with hlt | heq | hgt
  · have a := first2 ⟨_, h1⟩ hlt
    rw [← h] at a
    exact absurd a (not_lt.mpr (max1 _))
  · exact heq
  · have a := first1 ⟨_, h2⟩ hgt
    rw [h] at a
    exact absurd a (not_lt.mpr (max2 _))

/-- **C52, prediction.** `predict`, which looks only at the probabilities passed in, is the arg-max of the
calibrated probabilities whatever the positive temperature. -/
theorem C52_predict (hc : 0 < c) (T : ℝ) (hT : 0 < T) (p : Fin c → ℝ) (hp : ∀ i, 0 ≤ p i)
    (hs : ∑ i, p i = 1) : tempPredict p = argmax (List.ofFn (tempProba T p)) :=
  argmax_congr hc p _ (C52_rows T hT p hp hs).2.2.1

/-- **C52 is false for negative temperatures**, which the fit does not exclude after its final local
search: the order is reversed, while `predict` still follows the original probabilities. -/
theorem C52_negative_false : ∃ p : Fin 2 → ℝ, (∀ i, 0 < p i) ∧ ∑ i, p i = 1 ∧
    tempPredict p = 1 ∧ tempProba (-1) p 1 < tempProba (-1) p 0 := by
  refine ⟨![1 / 4, 3 / 4], ?_, ?_, ?_, ?_⟩
  · intro i; fin_cases i <;> norm_num
  · norm_num [Fin.sum_univ_two]
  · unfold tempPredict
    norm_num [argmax, argmaxFrom]
  · unfold tempProba tempered
    have h1 : Real.exp (Real.log (1 / 4) / -1) = 4 := by
      rw [div_neg, div_one, Real.exp_neg, Real.exp_log (by norm_num)]; norm_num
    have h2 : Real.exp (Real.log (3 / 4) / -1) = 4 / 3 := by
      rw [div_neg, div_one, Real.exp_neg, Real.exp_log (by norm_num)]; norm_num
    rw [Fin.sum_univ_two, if_neg (by norm_num), if_neg (by norm_num)]
    simp only [Matrix.cons_val_zero, Matrix.cons_val_one]
    rw [h1, h2]
    norm_num

/-- **C52, link to logits.** On probabilities produced by a softmax the scaling is the scaling of the
logits, as in the output calibrator. -/
theorem C52_logits (hc : 0 < c) (φ : ℝ) (o : Fin c → ℝ) (i : Fin c) :
    tempProba (Real.exp φ) (softmax o) i = softmax (scaleLogits φ o) i := by
  obtain ⟨hp, -⟩ := softmax_spec hc o
  have ht : ∀ j, tempered (Real.exp φ) (softmax o j) =
      Real.exp (scaleLogits φ o j) * Real.exp (-(Predictive.logsumexp o / Real.exp φ)) := by
    intro j
    unfold tempered
    rw [if_neg (hp j).ne', ← exp_logProb hc, Real.log_exp, ← Real.exp_add]
    congr 1
    unfold classLogProb scaleLogits
    rw [oneHot_sum_in, Real.exp_neg]
    ring
  unfold tempProba
  simp only [ht]
  rw [← Finset.sum_mul, mul_div_mul_right _ _ (Real.exp_pos _).ne']
  rfl

/-- Temperature 1/2 on (1/4, 3/4): squares, so 1/10 and 9/10. -/
example : tempProba (1 / 2) ![(1 : ℝ) / 4, 3 / 4] 1 = 9 / 10 := by
  have h : ∀ p : ℝ, 0 < p → Real.exp (Real.log p / (1 / 2)) = p ^ 2 := by
    intro p hp
    rw [show Real.log p / (1 / 2) = ((2 : ℕ) : ℝ) * Real.log p by push_cast; ring, Real.exp_nat_mul,
      Real.exp_log hp]
  unfold tempProba tempered
  rw [Fin.sum_univ_two, if_neg (by norm_num), if_neg (by norm_num)]
  simp only [Matrix.cons_val_zero, Matrix.cons_val_one]
  rw [h _ (by norm_num), h _ (by norm_num)]
  norm_num

end multiclass

/-! ## C53 kernel regression -/

section kernel

theorem weighted_affine (ks ys : List ℝ) (hl : ks.length = ys.length) (m s : ℝ) (hs : s ≠ 0) :
    (List.zipWith (· * ·) ks (ys.map fun y => (y - m) / s)).sum =
    ((List.zipWith (· * ·) ks ys).sum - m * ks.sum) / s := by
  induction ks generalizing ys with
  | nil => simp
  | cons k t ih =>
    cases ys with
    | nil => simp at hl
    | cons y u =>
      simp only [List.map_cons, List.zipWith_cons_cons, List.sum_cons]
      rw [ih u (by simpa using hl)]
      field_simp
      ring

theorem weighted_bounds (ks ys : List ℝ) (hl : ks.length = ys.length) (hk : ∀ k ∈ ks, 0 ≤ k) (lo hi : ℝ)
    (h : ∀ y ∈ ys, lo ≤ y ∧ y ≤ hi) :
    lo * ks.sum ≤ (List.zipWith (· * ·) ks ys).sum ∧ (List.zipWith (· * ·) ks ys).sum ≤ hi * ks.sum := by
  induction ks generalizing ys with
  | nil => simp
  | cons k t ih =>
    cases ys with
    | nil => simp at hl
    | cons y u =>
      simp only [List.zipWith_cons_cons, List.sum_cons]
      have h1 := ih u (by simpa using hl) (fun x hx => hk x (List.mem_cons_of_mem _ hx))
        fun x hx => h x (List.mem_cons_of_mem _ hx)
      have h2 := hk k List.mem_cons_self
      have h3 := h y List.mem_cons_self
      constructor <;> nlinarith

/-- **C53, weighted mean.** Whenever a number is returned it is the kernel-weighted mean of the training
targets: standardising the targets makes no difference. -/
theorem C53_mean (kernel : ℝ → ℝ) (xs ys : List ℝ) (b x v : ℝ) (hb : b ≠ 0)
    (h : nwPredict kernel xs ys b x = .ok (some v)) :
    v = (List.zipWith (fun a y => kernel ((x - a) / b) * y) xs ys).sum /
      (xs.map fun a => kernel ((x - a) / b)).sum := by
  unfold nwPredict at h
  by_cases hl : xs.length ≠ ys.length
  · rw [if_pos hl] at h; cases h
  rw [if_neg hl] at h
  push Not at hl
  simp only at h
  by_cases h0 : stdDev ys = 0 ∨ (xs.map fun a => kernel ((x - a) / b) / b).sum = 0
  · rw [if_pos h0] at h; cases h
  rw [if_neg h0] at h
  push Not at h0
  obtain ⟨hstd, hks⟩ := h0
  have hv := Option.some.inj (Except.ok.inj h)
  set ks := xs.map fun a => kernel ((x - a) / b) / b with hksdef
  rw [weighted_affine ks ys (by simp [ks, hl]) _ _ hstd] at hv
  have hv' : v = (List.zipWith (· * ·) ks ys).sum / ks.sum := by
    rw [← hv]
    field_simp
    ring
  have hsum : ks.sum = (xs.map fun a => kernel ((x - a) / b)).sum / b := by
    rw [hksdef]
    simp only [div_eq_mul_inv _ b]
    rw [List.sum_map_mul_right]
  have hnum : (List.zipWith (· * ·) ks ys).sum =
      (List.zipWith (fun a y => kernel ((x - a) / b) * y) xs ys).sum / b := by
    rw [hksdef]
    clear hv hv' hks hsum hstd h hksdef ks
    induction xs generalizing ys with
    | nil => simp
    | cons a t ih =>
      cases ys with
      | nil => simp at hl
      | cons y u =>
        simp only [List.map_cons, List.zipWith_cons_cons, List.sum_cons]
        rw [ih u (by simpa using hl)]
        field_simp
  rw [hv', hsum, hnum, div_div_div_cancel_right₀ hb]

/-- **C53, range.** With a non-negative kernel and a positive bandwidth the prediction lies between any lower
and upper bound of the training targets. -/
theorem C53_range (kernel : ℝ → ℝ) (hk : ∀ z, 0 ≤ kernel z) (xs ys : List ℝ) (b x v lo hi : ℝ) (hb : 0 < b)
    (h : nwPredict kernel xs ys b x = .ok (some v)) (hy : ∀ y ∈ ys, lo ≤ y ∧ y ≤ hi) :
    lo ≤ v ∧ v ≤ hi := by
  have hv := C53_mean kernel xs ys b x v hb.ne' h
  unfold nwPredict at h
  by_cases hl : xs.length ≠ ys.length
  · rw [if_pos hl] at h; cases h
  rw [if_neg hl] at h
  push Not at hl
  simp only at h
  by_cases h0 : stdDev ys = 0 ∨ (xs.map fun a => kernel ((x - a) / b) / b).sum = 0
  · rw [if_pos h0] at h; cases h
  push Not at h0
  have hk' : ∀ k ∈ xs.map (fun a => kernel ((x - a) / b)), 0 ≤ k := by
    intro k hk''
    obtain ⟨a, -, rfl⟩ := List.mem_map.mp hk''
    exact hk _
  have hs : 0 < (xs.map fun a => kernel ((x - a) / b)).sum := by
    refine lt_of_le_of_ne (List.sum_nonneg hk') ?_
    intro h1
    apply h0.2
    have h2 : (xs.map fun a => kernel ((x - a) / b) / b).sum =
        (xs.map fun a => kernel ((x - a) / b)).sum * b⁻¹ := by
      rw [← List.sum_map_mul_right]
      rfl
    rw [h2, ← h1, zero_mul]
  have hb' := weighted_bounds (xs.map fun a => kernel ((x - a) / b)) ys (by simpa using hl) hk' lo hi hy
  rw [List.zipWith_map_left] at hb'
  rw [hv, le_div_iff₀ hs, div_le_iff₀ hs]
  exact hb'

/-- **C53, order of the training data.** Permuting the training pairs does not change the prediction. -/
theorem C53_perm (kernel : ℝ → ℝ) (ps qs : List (ℝ × ℝ)) (hperm : ps.Perm qs) (b x : ℝ) :
    nwPredict kernel (ps.map (·.1)) (ps.map (·.2)) b x =
    nwPredict kernel (qs.map (·.1)) (qs.map (·.2)) b x := by
  have hmean : mean (ps.map (·.2)) = mean (qs.map (·.2)) := by
    unfold mean
    rw [(hperm.map _).sum_eq, (hperm.map _).length_eq]
  have hstd : stdDev (ps.map (·.2)) = stdDev (qs.map (·.2)) := by
    unfold stdDev
    rw [hmean]
    congr 1
    unfold mean
    rw [((hperm.map (·.2)).map _).sum_eq, ((hperm.map (·.2)).map _).length_eq]
  have hks : ((ps.map (·.1)).map fun a => kernel ((x - a) / b) / b).sum =
      ((qs.map (·.1)).map fun a => kernel ((x - a) / b) / b).sum :=
    ((hperm.map (·.1)).map _).sum_eq
  have hnum : ∀ m s : ℝ, (List.zipWith (· * ·) ((ps.map (·.1)).map fun a => kernel ((x - a) / b) / b)
      ((ps.map (·.2)).map fun y => (y - m) / s)).sum =
      (List.zipWith (· * ·) ((qs.map (·.1)).map fun a => kernel ((x - a) / b) / b)
      ((qs.map (·.2)).map fun y => (y - m) / s)).sum := by
    intro m s
    have hz : ∀ l : List (ℝ × ℝ), List.zipWith (· * ·) ((l.map (·.1)).map fun a => kernel ((x - a) / b) / b)
        ((l.map (·.2)).map fun y => (y - m) / s) =
        l.map fun p => kernel ((x - p.1) / b) / b * ((p.2 - m) / s) := by
      intro l
      induction l with
      | nil => rfl
      | cons p t ih => simp only [List.map_cons, List.zipWith_cons_cons, ih]
    rw [hz, hz, (hperm.map _).sum_eq]
  unfold nwPredict
  simp only [List.length_map]
  rw [hmean, hstd, hks, hnum]
  simp

/-- The default kernel is positive. -/
theorem C53_kernel (z : ℝ) : 0 < gaussianKernel z := by
  unfold gaussianKernel
  have : 0 < Real.sqrt (2 * Real.pi) := Real.sqrt_pos.mpr (by positivity)
  exact div_pos (Real.exp_pos _) this

theorem stdDev_zero (l : List ℝ) (hne : l ≠ []) : stdDev l = 0 ↔ ∀ y ∈ l, ∀ z ∈ l, y = z := by
  have hlen : (0 : ℝ) < l.length := by
    have := List.length_pos_iff.mpr hne
    exact_mod_cast this
  have hnn : ∀ a ∈ l.map (fun a => (a - mean l) ^ 2), 0 ≤ a := by
    intro a ha
    obtain ⟨b, -, rfl⟩ := List.mem_map.mp ha
    positivity
  have hsum := List.sum_nonneg hnn
  unfold stdDev
  rw [Real.sqrt_eq_zero (by unfold mean; rw [List.length_map]; exact div_nonneg hsum hlen.le)]
  constructor
  · intro h
    have h0 : (l.map fun a => (a - mean l) ^ 2).sum = 0 := by
      have h' : (l.map fun a => (a - mean l) ^ 2).sum / ((l.map fun a => (a - mean l) ^ 2).length : ℝ) = 0 := h
      rw [List.length_map, div_eq_zero_iff] at h'
      exact h'.resolve_right hlen.ne'
    have key : ∀ y ∈ l, y = mean l := by
      intro y hy
      have h1 : (y - mean l) ^ 2 ≤ (l.map fun a => (a - mean l) ^ 2).sum :=
        List.single_le_sum hnn _ (List.mem_map.mpr ⟨y, hy, rfl⟩)
      have h2 : (y - mean l) ^ 2 = 0 := le_antisymm (h0 ▸ h1) (by positivity)
      have := pow_eq_zero_iff (n := 2) (by norm_num) |>.mp h2
      linarith
    intro y hy z hz
    rw [key y hy, key z hz]
  · intro h
    obtain ⟨y0, t, rfl⟩ := List.exists_cons_of_ne_nil hne
    have hm := mean_mem hne (lo := y0) (hi := y0) (fun x hx => (h y0 List.mem_cons_self x hx).le)
      fun x hx => (h x hx y0 List.mem_cons_self).le
    have hm' : mean (y0 :: t) = y0 := le_antisymm hm.2 hm.1
    rw [hm']
    have : ((y0 :: t).map fun a => (a - y0) ^ 2) = (y0 :: t).map fun _ => (0 : ℝ) := by
      apply List.map_congr_left
      intro a ha
      rw [h a ha y0 List.mem_cons_self, sub_self]
      norm_num
    rw [this]
    unfold mean
    simp

/-- **C53, answers.** With the Gaussian kernel and positive bandwidth a number is returned exactly when
the training targets are not all equal. -/
theorem C53_defined (xs ys : List ℝ) (hl : xs.length = ys.length) (hne : ys ≠ []) (b x : ℝ) (hb : 0 < b) :
    (∃ v, nwPredict gaussianKernel xs ys b x = .ok (some v)) ↔ ¬ ∀ y ∈ ys, ∀ z ∈ ys, y = z := by
  have hks : (xs.map fun a => gaussianKernel ((x - a) / b) / b).sum ≠ 0 := by
    have hxs : xs ≠ [] := by
      rintro rfl
      exact hne (List.length_eq_zero_iff.mp (by simpa using hl.symm))
    obtain ⟨a, t, rfl⟩ := List.exists_cons_of_ne_nil hxs
    rw [List.map_cons, List.sum_cons]
    have h1 : 0 < gaussianKernel ((x - a) / b) / b := div_pos (C53_kernel _) hb
    have h2 : 0 ≤ (t.map fun a => gaussianKernel ((x - a) / b) / b).sum := by
      apply List.sum_nonneg
      intro k hk
      obtain ⟨c, -, rfl⟩ := List.mem_map.mp hk
      exact (div_pos (C53_kernel _) hb).le
    linarith
  rw [← stdDev_zero ys hne]
  unfold nwPredict
  rw [if_neg (by simpa using hl)]
  simp only
  constructor
  · rintro ⟨v, hv⟩ h0
    rw [if_pos (Or.inl h0)] at hv
    cases hv
  · intro h0
    rw [if_neg (by push Not; exact ⟨h0, hks⟩)]
    exact ⟨_, rfl⟩

/-- **C53 is false for constant targets.** All training targets equal to 1: the prediction is NaN instead
of 1. -/
theorem C53_constant_false : nwPredict gaussianKernel [0, 1] [1, 1] 1 0 = .ok none := by
  have h := (stdDev_zero [1, 1] (by simp)).mpr (by simp)
  unfold nwPredict
  rw [if_neg (by simp)]
  simp only
  rw [if_pos (Or.inl h)]

/-- Two training points at equal distance from the query. -/
example (v : ℝ) (h : nwPredict gaussianKernel [0, 2] [1, 3] 1 1 = .ok (some v)) : v = 2 := by
  rw [C53_mean _ _ _ _ _ _ one_ne_zero h]
  have h1 : gaussianKernel ((1 - 2) / 1) = gaussianKernel ((1 - 0) / 1) := by
    unfold gaussianKernel; norm_num
  have h2 := (C53_kernel ((1 - 0) / 1)).ne'
  simp only [List.zipWith_cons_cons, List.zipWith_nil_right, List.sum_cons, List.sum_nil, List.map_cons,
    List.map_nil, h1]
  rw [div_eq_iff (by simpa using h2)]
  ring

end kernel

/-! ## C54 losses -/

section losses
variable {c d : ℕ}

theorem mean_nonneg' (l : List ℝ) (h : ∀ a ∈ l, 0 ≤ a) : 0 ≤ mean l := by
  unfold mean
  exact div_nonneg (List.sum_nonneg h) (Nat.cast_nonneg _)

theorem mean_le' {A : Type} (l : List A) (f g : A → ℝ) (h : ∀ a ∈ l, f a ≤ g a) :
    mean (l.map f) ≤ mean (l.map g) := by
  unfold mean
  rw [List.length_map, List.length_map]
  exact div_le_div_of_nonneg_right (List.sum_le_sum h) (Nat.cast_nonneg _)

theorem mean_neg' {A : Type} (l : List A) (f : A → ℝ) : -mean (l.map f) = mean (l.map fun a => -f a) := by
  unfold mean
  rw [List.length_map, List.length_map, ← neg_div]
  congr 1
  induction l with
  | nil => simp
  | cons a t ih =>
    simp only [List.map_cons, List.sum_cons, ← ih]
    ring

/-- The probability that the focal loss looks at. -/
theorem focal_prob (o : Fin c → ℝ) (y : Fin c) : ∑ j, softmax o j * oneHot c (y : ℕ) j = softmax o y := by
  have := oneHot_sum_in (softmax o) y
  simpa [mul_comm] using this

/-- Rows with labels in range. -/
def rowsOf (rows : List ((Fin c → ℝ) × Fin c)) : List ((Fin c → ℝ) × ℤ) := rows.map fun r => (r.1, (r.2 : ℕ))

theorem crossEntropy_eq (hc : 0 < c) (rows : List ((Fin c → ℝ) × Fin c)) :
    crossEntropy (rowsOf rows) = mean (rows.map fun r => -Real.log (softmax r.1 r.2)) := by
  unfold crossEntropy rowsOf
  rw [List.map_map]
  congr 1
  apply List.map_congr_left
  intro r _
  simp only [Function.comp]
  rw [← exp_logProb hc, Real.log_exp]
  unfold classLogProb
  ring

theorem focal_eq (γ : ℝ) (rows : List ((Fin c → ℝ) × Fin c)) :
    focalLoss γ (rowsOf rows) =
    mean (rows.map fun r => (1 - softmax r.1 r.2) ^ γ * -Real.log (softmax r.1 r.2)) := by
  unfold focalLoss rowsOf
  rw [List.map_map, mean_neg']
  congr 1
  apply List.map_congr_left
  intro r _
  simp only [Function.comp]
  rw [focal_prob]
  ring

/-- **C54, cross-entropy.** It is the mean negative log-likelihood of the classification output layer, not
negative, and unchanged when a constant is added to the logits of a row. -/
theorem C54_cross_entropy (hc : 0 < c) (rows : List ((Fin c → ℝ) × Fin c)) (k : ℝ) :
    crossEntropy (rowsOf rows) = mean (rows.map fun r => -classLogProb r.1 (r.2 : ℕ)) ∧
    0 ≤ crossEntropy (rowsOf rows) ∧
    crossEntropy (rowsOf (rows.map fun r => (fun i => r.1 i + k, r.2))) = crossEntropy (rowsOf rows) := by
  have h1 : ∀ rows : List ((Fin c → ℝ) × Fin c),
      crossEntropy (rowsOf rows) = mean (rows.map fun r => -classLogProb r.1 (r.2 : ℕ)) := by
    intro rows
    unfold crossEntropy rowsOf
    rw [List.map_map]
    congr 1
    apply List.map_congr_left
    intro r _
    simp only [Function.comp, classLogProb]
    ring
  refine ⟨h1 rows, ?_, ?_⟩
  · rw [h1]
    apply mean_nonneg'
    intro a ha
    obtain ⟨r, -, rfl⟩ := List.mem_map.mp ha
    have := ((C66_distribution hc r.1).1 r.2).2.2
    linarith
  · rw [h1, h1, List.map_map]
    congr 1
    apply List.map_congr_left
    intro r _
    simp only [Function.comp]
    rw [C66_shift hc]

/-- **C54, focal loss.** With `gamma = 0` it is the cross-entropy; it decreases as `gamma` grows; so for
`gamma ≥ 0` it lies between 0 and the cross-entropy. -/
theorem C54_focal (hc : 0 < c) (rows : List ((Fin c → ℝ) × Fin c)) (γ γ' : ℝ) (h0 : 0 ≤ γ) (h : γ ≤ γ') :
    focalLoss 0 (rowsOf rows) = crossEntropy (rowsOf rows) ∧
    0 ≤ focalLoss γ (rowsOf rows) ∧ focalLoss γ' (rowsOf rows) ≤ focalLoss γ (rowsOf rows) ∧
    focalLoss γ (rowsOf rows) ≤ crossEntropy (rowsOf rows) := by
  have hl : ∀ r : (Fin c → ℝ) × Fin c, 0 ≤ -Real.log (softmax r.1 r.2) := by
    intro r
    have := Real.log_nonpos ((softmax_spec hc r.1).1 r.2).le (softmax_le_one hc r.1 r.2)
    linarith
  have hb : ∀ r : (Fin c → ℝ) × Fin c, 0 ≤ 1 - softmax r.1 r.2 ∧ 1 - softmax r.1 r.2 < 1 := by
    intro r
    have h1 := softmax_le_one hc r.1 r.2
    have h2 := (softmax_spec hc r.1).1 r.2
    constructor <;> linarith
  have hmono : ∀ γ γ' : ℝ, 0 ≤ γ → γ ≤ γ' → focalLoss γ' (rowsOf rows) ≤ focalLoss γ (rowsOf rows) := by
    intro γ γ' h0 h
    rw [focal_eq, focal_eq]
    apply mean_le'
    intro r _
    apply mul_le_mul_of_nonneg_right _ (hl r)
    rcases (hb r).1.lt_or_eq with hp | hp
    · exact Real.rpow_le_rpow_of_exponent_ge hp (hb r).2.le h
    · rw [← hp]
      by_cases hγ : γ = 0
      · rw [hγ, Real.rpow_zero]
        exact Real.rpow_le_one le_rfl zero_le_one (h0.trans h)
      · have hγ' : γ' ≠ 0 := by
          intro h'
          exact hγ (le_antisymm (h' ▸ h) h0)
        rw [Real.zero_rpow hγ, Real.zero_rpow hγ']
  have hzero : focalLoss 0 (rowsOf rows) = crossEntropy (rowsOf rows) := by
    rw [focal_eq, crossEntropy_eq hc]
    simp
  refine ⟨hzero, ?_, hmono γ γ' h0 h, ?_⟩
  · rw [focal_eq]
    apply mean_nonneg'
    intro a ha
    obtain ⟨r, -, rfl⟩ := List.mem_map.mp ha
    exact mul_nonneg (Real.rpow_nonneg (hb r).1 _) (hl r)
  · rw [← hzero]
    exact hmono 0 γ le_rfl h0

/-- **C54, scaled mean squared error.** It is twice the mean negative log-likelihood of the regression output
layer, less a constant: minimising one is maximising the other. -/
theorem C54_scaled_mse (rows : List ((Fin d → ℝ) × (Fin d → ℝ) × (Fin d → ℝ))) (hne : rows ≠ []) :
    scaledMse rows = 2 * mean (rows.map fun r => -regLogProb r.1 r.2.1 r.2.2) - d * Real.log (2 * Real.pi) := by
  have hlen : (rows.length : ℝ) ≠ 0 := by
    have := List.length_pos_iff.mpr hne
    exact_mod_cast this.ne'
  have hrow : ∀ r : (Fin d → ℝ) × (Fin d → ℝ) × (Fin d → ℝ),
      2 * -regLogProb r.1 r.2.1 r.2.2 =
      ∑ i, (Real.exp (-r.2.1 i) * (r.2.2 i - r.1 i) ^ 2 + r.2.1 i) + d * Real.log (2 * Real.pi) := by
    intro r
    unfold regLogProb
    rw [Finset.sum_add_distrib]
    simp
  unfold scaledMse mean
  rw [List.length_map, List.length_map, mul_div_assoc', ← List.sum_map_mul_left]
  simp only [hrow]
  rw [List.sum_map_add]
  simp
  field_simp
  ring

/-- One row with probabilities 1/4 and 3/4 and label 1: focal loss with `gamma = 2` is a sixteenth of the
cross-entropy. -/
example : focalLoss 2 (rowsOf [(![0, Real.log 3], 1)]) =
    1 / 16 * crossEntropy (rowsOf [((![0, Real.log 3] : Fin 2 → ℝ), 1)]) := by
  have h : softmax ![0, Real.log 3] 1 = 3 / 4 := by
    unfold softmax
    simp [Fin.sum_univ_two, Real.exp_log]
    norm_num
  rw [focal_eq, crossEntropy_eq (by norm_num)]
  simp only [List.map_cons, List.map_nil, mean, List.sum_cons, List.sum_nil, h]
  rw [show (2 : ℝ) = ((2 : ℕ) : ℝ) by norm_num, Real.rpow_natCast]
  norm_num

end losses

/-! ### Concrete cases that meet the hypotheses of the theorems above -/

example := C52_binary (1 / 2 : ℚ) (by norm_num) [1 / 4, 3 / 4]
example := C52_decision (1 / 2 : ℚ) (1 / 2) (by norm_num) (by norm_num) (by norm_num) [1 / 5, 3 / 4]
example := C52_bias ([1 / 4, 3 / 4] : List ℚ) [0, 1] (by norm_num) 1 (by decide +kernel) (by norm_num)
example := C52_fitted ([1 / 4, 3 / 4] : List ℚ) [0, 1] (by norm_num) (by norm_num)
example := C52_brier ([1 / 4, 3 / 4] : List ℚ) [0, 1] rfl (5 / 6) (by decide +kernel) (by norm_num) 2
example := C52_rows 2 (by norm_num) ![1 / 4, 3 / 4] (fun i => by fin_cases i <;> norm_num) (by norm_num [Fin.sum_univ_two])
example := C52_predict (c := 2) (by norm_num) 2 (by norm_num) ![1 / 4, 3 / 4] (fun i => by fin_cases i <;> norm_num)
  (by norm_num [Fin.sum_univ_two])

/-- Two points with targets 0 and 1: the regression is defined everywhere and stays between them. -/
example (x : ℝ) : ∃ v, nwPredict gaussianKernel [0, 1] [0, 1] 1 x = .ok (some v) ∧ 0 ≤ v ∧ v ≤ 1 := by
  obtain ⟨v, hv⟩ := (C53_defined [0, 1] [0, 1] rfl (by simp) 1 x one_pos).2 (by norm_num)
  exact ⟨v, hv, C53_range gaussianKernel (fun z => by unfold gaussianKernel; positivity) _ _ 1 x v 0 1 one_pos hv (by norm_num)⟩

example := C53_perm gaussianKernel [(0, 1), (2, 3)] [(2, 3), (0, 1)] (List.Perm.swap _ _ _) 1 (1 / 2)
example := C54_cross_entropy (c := 2) (by norm_num) [(![0, 1], 1), (![2, 0], 1)] 5
example := C54_focal (c := 2) (by norm_num) [(![0, 1], 1), (![2, 0], 1)] 1 2 (by norm_num) (by norm_num)

end Verif.Props
