import Mathlib.Tactic.Linarith
import Mathlib.Tactic.Positivity
import Mathlib.Tactic.NormNum
import Mathlib.Tactic.FieldSimp
import Mathlib.Algebra.Order.Field.Rat
import Verif.Model.TempFit
import Verif.Lemmas.ArrayOps
import Verif.Props.Calibration

/-!
# C52: temperatures fitted by grid search
-/

set_option linter.unusedSectionVars false

namespace Verif.Props.TempFit

open Verif.ArrayOps Verif.Calibration Verif.TempFit

section
variable {K L : Type} [Field K] [LinearOrder K] [IsStrictOrderedRing K] [LinearOrder L]

/-! ## Specification -/

/-- What is assumed about `fmin`: it leaves its start only for a strictly better point. -/
def Strict (polish : (K → L) → K → K) : Prop := ∀ f x, polish f x = x ∨ f (polish f x) < f x

/-- The F1 score of 0/1 predictions: twice the true positives over predicted plus actual positives. -/
def F1 (targets preds : List ℕ) : K :=
  2 * ((List.zipWith (fun a b : ℕ => a * b) targets preds).sum : ℕ) / ((preds.sum + targets.sum : ℕ) : K)

theorem brute_start (f : K → L) (lo hi : K) (ns : ℕ) (hns : 0 < ns) :
    ∃ x ∈ linspace lo hi ns, (linspace lo hi ns).getD (argmin ((linspace lo hi ns).map f)) lo = x ∧
      (∀ y ∈ linspace lo hi ns, f x ≤ f y) ∧
      (∀ y, (linspace lo hi ns)[0]? = some y → f y ≤ f x → x = y) := by
  have hne : (linspace lo hi ns).map f ≠ [] := by
    rw [Ne, List.map_eq_nil_iff]
    intro hc
    have := linspace_head lo hi ns hns
    rw [hc] at this
    cases this
  obtain ⟨m, h1, h2, h3⟩ := argmin_spec _ hne
  rw [List.getElem?_map] at h1
  obtain ⟨x, hx, rfl⟩ := Option.map_eq_some_iff.mp h1
  refine ⟨x, List.mem_of_getElem? hx, by rw [List.getD_eq_getElem?_getD, hx]; rfl, ?_, ?_⟩
  · intro y hy
    exact h2 _ (List.mem_map_of_mem hy)
  · intro y hy hle
    by_contra hxy
    rcases Nat.eq_zero_or_pos (argmin ((linspace lo hi ns).map f)) with h0 | h0
    · rw [h0, hy] at hx
      exact hxy (Option.some.inj hx).symm
    · have := h3 0 (f y) h0 (by rw [List.getElem?_map, hy]; rfl)
      exact absurd hle (not_le.mpr this)

/-- **C52, grid search.** The value reached by a fitted temperature is not above the value at any point of the grid; the grid has
both ends of the range. -/
theorem C52_brute (polish : (K → L) → K → K) (hp : Strict polish) (f : K → L) (lo hi : K) (ns : ℕ) (hns : 1 < ns) :
    (∀ i, i < ns → f (brute polish f lo hi ns) ≤ f (lo + i * ((hi - lo) / ((ns - 1 : ℕ) : K)))) ∧
    f (brute polish f lo hi ns) ≤ f lo ∧ f (brute polish f lo hi ns) ≤ f hi := by
  obtain ⟨x, -, hx, hmin, -⟩ := brute_start f lo hi ns (by omega)
  have hle : f (brute polish f lo hi ns) ≤ f x := by
    unfold brute
    rw [hx]
    rcases hp f x with h | h
    · rw [h]
    · exact h.le
  have hall : ∀ i, i < ns → f (brute polish f lo hi ns) ≤ f (lo + i * ((hi - lo) / ((ns - 1 : ℕ) : K))) := by
    intro i hi'
    refine hle.trans (hmin _ ?_)
    unfold linspace
    exact List.mem_map.mpr ⟨i, List.mem_range.mpr hi', rfl⟩
  refine ⟨hall, ?_, ?_⟩
  · have := hall 0 (by omega)
    simpa using this
  · have := hall (ns - 1) (by omega)
    have hn : ((ns - 1 : ℕ) : K) ≠ 0 := by
      have : ns - 1 ≠ 0 := by omega
      exact_mod_cast this
    rwa [mul_div_cancel₀ _ hn, add_sub_cancel] at this

theorem f1Loss_eq (probs : List K) (targets : List ℕ) (ht : ∀ t ∈ targets, t ≤ 1) (hpos : targets.sum ≠ 0) (threshold tau : K) :
    (f1Loss probs targets threshold tau).getD 0 = -F1 targets (f1Preds probs threshold tau) := by
  obtain ⟨h1, h2⟩ := Verif.Props.C52_f1 probs targets ht threshold tau
  cases h : f1Loss probs targets threshold tau with
  | none => exact absurd (h1.mp h) hpos
  | some v =>
    rw [Option.getD_some, (h2 v h).1]
    rfl

theorem all_positive (probs : List K) (threshold tau : K) (h : ∀ p ∈ probs, threshold * tau ≤ p) :
    f1Preds probs threshold tau = List.replicate probs.length 1 := by
  unfold f1Preds
  rw [List.eq_replicate_iff]
  refine ⟨by simp, ?_⟩
  intro b hb
  obtain ⟨p, hp, rfl⟩ := List.mem_map.mp hb
  rw [if_pos (h p hp)]

theorem sum_zipWith_replicate (targets : List ℕ) :
    (List.zipWith (fun a b : ℕ => a * b) targets (List.replicate targets.length 1)).sum = targets.sum := by
  induction targets with
  | nil => rfl
  | cons t ts ih =>
    simp only [List.length_cons, List.replicate_succ, List.zipWith_cons_cons, List.sum_cons, mul_one, ih]

theorem min?_spec (probs : List K) (lo : K) (h : probs.min? = some lo) : lo ∈ probs ∧ ∀ p ∈ probs, lo ≤ p := by
  rw [List.min?_eq_some_iff] at h
  exact h

/-- **C52, the F1 scaler.** For positive probabilities, a threshold in (0, 1] and 0/1 targets with a positive one, the fitted
temperature is positive, and the predictions made with it have an F1 score on the calibration data that is at least that of every
temperature of the grid, and at least that of predicting 1 everywhere. -/
theorem C52_f1_fit (polish : (K → K) → K → K) (hp : Strict polish) (probs : List K) (targets : List ℕ) (threshold : K)
    (hlen : probs.length = targets.length) (h01 : ∀ p ∈ probs, 0 < p ∧ p ≤ 1) (ht : ∀ t ∈ targets, t ≤ 1)
    (hpos : targets.sum ≠ 0) (h0 : 0 < threshold) (h1 : threshold ≤ 1) :
    ∃ lo T, probs.min? = some lo ∧ f1Fit polish probs targets threshold = some T ∧ 0 < T ∧
      (∀ i : ℕ, i < 1000 →
        F1 targets (f1Preds probs threshold (lo + i * ((1 / threshold - lo) / ((1000 - 1 : ℕ) : K)))) ≤
          (F1 targets (f1Predict T threshold probs) : K)) ∧
      2 * (targets.sum : K) / (probs.length + targets.sum) ≤ F1 targets (f1Predict T threshold probs) := by
  have hne : probs ≠ [] := by
    rintro rfl
    have : targets = [] := List.eq_nil_of_length_eq_zero hlen.symm
    rw [this] at hpos
    exact hpos rfl
  obtain ⟨lo, hlo⟩ : ∃ lo, probs.min? = some lo := by
    cases h : probs.min? with
    | none => exact absurd (List.min?_eq_none_iff.mp h) hne
    | some lo => exact ⟨lo, rfl⟩
  obtain ⟨hmem, hle⟩ := min?_spec probs lo hlo
  set f : K → K := fun tau => (f1Loss probs targets threshold tau).getD 0 with hf
  have hfe : ∀ tau, f tau = -F1 targets (f1Preds probs threshold tau) := fun tau => f1Loss_eq probs targets ht hpos threshold tau
  -- every temperature up to the smallest probability predicts 1 everywhere
  have hall : ∀ tau, tau ≤ lo → f1Preds probs threshold tau = List.replicate probs.length 1 := by
    intro tau htau
    apply all_positive
    intro p hp'
    have hl := hle p hp'
    have hl0 := (h01 lo hmem).1
    calc threshold * tau ≤ threshold * lo := mul_le_mul_of_nonneg_left htau h0.le
      _ ≤ 1 * lo := mul_le_mul_of_nonneg_right h1 hl0.le
      _ ≤ p := by rw [one_mul]; exact hl
  have hlohi : lo ≤ 1 / threshold := by
    refine (h01 lo hmem).2.trans ?_
    rw [le_div_iff₀ h0, one_mul]
    exact h1
  have hfit : f1Fit polish probs targets threshold = some (brute polish f lo (1 / threshold) 1000) := by
    unfold f1Fit
    rw [hlo]
    simp only
    rw [if_neg hpos]
  obtain ⟨hgrid, hglo, -⟩ := C52_brute polish hp f lo (1 / threshold) 1000 (by norm_num)
  have hT : 0 < brute polish f lo (1 / threshold) 1000 := by
    obtain ⟨x, hxm, hx, hmin, -⟩ := brute_start f lo (1 / threshold) 1000 (by norm_num)
    have hxpos : 0 < x := lt_of_lt_of_le (h01 lo hmem).1 (mem_linspace hlohi hxm).1
    unfold brute
    rw [hx]
    rcases hp f x with h | h
    · rw [h]; exact hxpos
    · by_contra hneg
      have hneg' : polish f x ≤ lo := (not_lt.mp hneg).trans (h01 lo hmem).1.le
      have h2 : f x ≤ f lo := hmin lo (List.mem_of_getElem? (linspace_head lo (1 / threshold) 1000 (by norm_num)))
      have h3 : f (polish f x) = f lo := by
        rw [hfe, hfe, hall _ hneg', hall lo le_rfl]
      rw [h3] at h
      exact absurd h2 (not_le.mpr h)
  generalize hTe : brute polish f lo (1 / threshold) 1000 = T at *
  have hpred : f1Predict T threshold probs = f1Preds probs threshold T := by
    unfold f1Predict
    rw [if_neg hT.ne']
    exact Verif.Props.C52_decision T threshold hT h0 h1 probs
  refine ⟨lo, T, hlo, hfit, hT, ?_, ?_⟩
  · intro i hi
    have := hgrid i hi
    rw [hfe, hfe, neg_le_neg_iff] at this
    rw [hpred]
    exact this
  · rw [hpred]
    rw [hfe, hfe, neg_le_neg_iff, hall lo le_rfl] at hglo
    refine le_trans (le_of_eq ?_) hglo
    unfold F1
    rw [hlen, sum_zipWith_replicate]
    simp

end

/-- **C52 is false of the F1 scaler when a probability is 0.** With probabilities 0 and 1/2 and two positive targets the search is sure
of an F1 score of 1 at the temperature 0, which it returns; the division by it makes NaN of the probability 0, which is then predicted
negative: the predictions on the calibration data have an F1 score of 2/3. -/
theorem C52_f1_zero_false (polish : (ℚ → ℚ) → ℚ → ℚ) (hp : Strict polish) :
    f1Fit polish [0, 1/2] [1, 1] (1/2) = some 0 ∧
    f1Loss [0, 1/2] [1, 1] (1/2 : ℚ) 0 = some (-1) ∧
    f1Predict 0 (1/2 : ℚ) [0, 1/2] = [0, 1] ∧ F1 [1, 1] [0, 1] = (2/3 : ℚ) ∧ f1Predict 0 (1 : ℚ) [0, 1/2] = [0, 1] := by
  refine ⟨?_, by decide +kernel, by decide +kernel, by decide +kernel, by decide +kernel⟩
  have hmin : ([0, 1/2] : List ℚ).min? = some 0 := by decide +kernel
  unfold f1Fit
  rw [hmin]
  simp only
  rw [if_neg (by decide)]
  set f : ℚ → ℚ := fun tau => (f1Loss [0, 1/2] [1, 1] (1/2) tau).getD 0 with hf
  have hf0 : f 0 = -1 := by decide +kernel
  have hge : ∀ x, -1 ≤ f x := by
    intro x
    obtain ⟨h1, h2⟩ := Verif.Props.C52_f1 ([0, 1/2] : List ℚ) [1, 1] (by decide) (1/2) x
    rw [hf]
    simp only
    cases h : f1Loss ([0, 1/2] : List ℚ) [1, 1] (1/2) x with
    | none => simp
    | some v => exact (h2 v h).2.1
  congr 1
  obtain ⟨x, -, hx, hm, hfirst⟩ := brute_start f 0 (1 / (1/2)) 1000 (by norm_num)
  have hx0 : x = 0 := hfirst 0 (linspace_head _ _ _ (by norm_num)) (by rw [hf0]; exact hge x)
  unfold brute
  rw [hx, hx0]
  rcases hp f 0 with h | h
  · exact h
  · rw [hf0] at h
    exact absurd (hge _) (not_le.mpr h)

/-- Three probabilities, of which predicting 1 everywhere would get an F1 score of 4/5: the first best temperature of a grid of five
points gets 1. -/
example : brute (fun _ x => x) (fun tau => (f1Loss [1/4, 1/2, 3/4] [0, 1, 1] (1/2 : ℚ) tau).getD 0) (1/4) 2 5 = 11/16 ∧
    F1 [0, 1, 1] (f1Predict (11/16) (1/2 : ℚ) [1/4, 1/2, 3/4]) = (1 : ℚ) := by decide +kernel

/-- An `fmin` that leaves its start for nothing meets the assumption. -/
example : Strict (fun (_ : ℚ → ℚ) x => x) := fun _ _ => Or.inl rfl

/-- **C52, the cross-entropy scaler.** The cross-entropy of the fitted temperature on the calibration data is not above that of any of
the thousand temperatures from the smallest probability to 10. -/
theorem C52_ce_fit (polish : (ℝ → ℝ) → ℝ → ℝ) (hp : Strict polish) (probs : List ℝ) (targets : List ℕ) (T : ℝ)
    (h : ceFit polish probs targets = some T) :
    ∃ lo ∈ probs, (∀ p ∈ probs, lo ≤ p) ∧
      ∀ i : ℕ, i < 1000 → ceLoss probs targets T ≤ ceLoss probs targets (lo + i * ((10 - lo) / ((1000 - 1 : ℕ) : ℝ))) := by
  obtain ⟨lo, hlo, rfl⟩ := Option.map_eq_some_iff.mp h
  obtain ⟨h1, h2⟩ := min?_spec probs lo hlo
  exact ⟨lo, h1, h2, (C52_brute polish hp (ceLoss probs targets) lo 10 1000 (by norm_num)).1⟩

/-- **C52, what is minimised.** For a single row and a target 0 or 1 the loss is minus the logarithm of the scaled probability of the
target, kept between 1e-9 and 1 - 1e-9 (so that it lies between 0 and -log 1e-9); for more rows it is the mean over the rows. -/
theorem C52_ce_loss (p tau : ℝ) (hq : 1e-9 ≤ p / tau ∧ p / tau ≤ 1 - 1e-9) :
    ceLoss [p] [1] tau = -Real.log (p / tau) ∧ ceLoss [p] [0] tau = -Real.log (1 - p / tau) ∧
    (∀ p' tau' : ℝ, 1 - 1e-9 ≤ p' / tau' → ceLoss [p'] [0] tau' = -Real.log (1e-9)) ∧
    (∀ p' tau' : ℝ, p' / tau' ≤ 1e-9 → ceLoss [p'] [1] tau' = -Real.log (1e-9)) ∧
    (∀ ps ts, ceLoss ps ts tau =
      (List.zipWith (fun a (t : ℕ) => ceLoss [a] [t] tau) ps ts).sum / (min ps.length ts.length : ℕ)) := by
  refine ⟨?_, ?_, ?_, ?_, ?_⟩
  · simp [ceLoss, mean, clip_eq hq.1 hq.2]
  · simp [ceLoss, mean, clip_eq hq.1 hq.2]
  · intro p' tau' h
    have hc : clip (p' / tau') (1e-9) (1 - 1e-9) = (1 - 1e-9 : ℝ) := by
      unfold clip
      exact min_eq_right (le_max_of_le_left h)
    simp [ceLoss, mean, hc]
  · intro p' tau' h
    have hc : clip (p' / tau') (1e-9) (1 - 1e-9) = (1e-9 : ℝ) := by
      unfold clip
      rw [max_eq_right h]
      exact min_eq_left (by norm_num)
    simp [ceLoss, mean, hc]
  · intro ps ts
    have hrow : ∀ (a : ℝ) (t : ℕ), ceLoss [a] [t] tau = -((t : ℝ) * Real.log (clip (a / tau) (1e-9) (1 - 1e-9)) +
        (1 - t) * Real.log (1 - clip (a / tau) (1e-9) (1 - 1e-9))) := by
      intro a t
      simp [ceLoss, mean]
    simp only [hrow]
    unfold ceLoss mean
    rw [List.length_zipWith, ← neg_div]
    congr 1
    induction ps generalizing ts with
    | nil => simp
    | cons a as ih =>
      cases ts with
      | nil => simp
      | cons t ts =>
        simp only [List.zipWith_cons_cons, List.sum_cons]
        rw [← ih ts]
        ring

/-- **C52, the multi-class scaler.** The negative log-likelihood of the fitted temperature on the calibration data is not above that of
any of the thousand temperatures from 1e-6 to 10. -/
theorem C52_class_fit {c n : ℕ} (polish : (ℝ → ℝ) → ℝ → ℝ) (hp : Strict polish) (p : Fin n → Fin c → ℝ) (y : Fin n → Fin c) :
    ∀ i : ℕ, i < 1000 →
      tempLoss p y (classFit polish p y) ≤ tempLoss p y (1e-6 + i * ((10 - 1e-6) / ((1000 - 1 : ℕ) : ℝ))) :=
  (C52_brute polish hp (tempLoss p y) (1e-6) 10 1000 (by norm_num)).1

/-- The temperature 1, which changes nothing, is not among the thousand: the assumption on `fmin` alone does not say that the
fitted temperature is at least as good as no scaling. -/
theorem C52_class_one_false : ∀ i : ℕ, i < 1000 → (1e-6 + i * ((10 - 1e-6) / ((1000 - 1 : ℕ) : ℚ)) : ℚ) ≠ 1 := by
  intro i _ h
  have h2 : (i : ℚ) * 9999999 = 998999001 := by
    norm_num at h
    linarith
  have h3 : i * 9999999 = 998999001 := by exact_mod_cast h2
  omega

/-! ### Concrete cases that meet the hypotheses of the theorems above -/

example := C52_brute (K := ℚ) (L := ℚ) (fun _ x => x) (fun _ _ => Or.inl rfl) (fun x => (x - 3) ^ 2) 0 10 21 (by norm_num)
example := C52_f1_fit (K := ℚ) (fun _ x => x) (fun _ _ => Or.inl rfl) [1 / 4, 1 / 2, 3 / 4] [0, 1, 1] (1 / 2) rfl (by decide +kernel) (by decide) (by decide)
  (by norm_num) (by norm_num)
example : ∃ T, ceFit (fun _ x => x) [1 / 4, 3 / 4] [0, 1] = some T ∧ ∃ lo ∈ ([1 / 4, 3 / 4] : List ℝ), (∀ p ∈ ([1 / 4, 3 / 4] : List ℝ), lo ≤ p) ∧
    ∀ i : ℕ, i < 1000 → ceLoss [1 / 4, 3 / 4] [0, 1] T ≤ ceLoss [1 / 4, 3 / 4] [0, 1] (lo + i * ((10 - lo) / ((1000 - 1 : ℕ) : ℝ))) :=
  ⟨_, rfl, C52_ce_fit (fun _ x => x) (fun _ _ => Or.inl rfl) [1 / 4, 3 / 4] [0, 1] _ rfl⟩
example := C52_ce_loss (1 / 2) 2 (by norm_num)
example := C52_class_fit (c := 2) (n := 1) (fun _ x => x) (fun _ _ => Or.inl rfl) (fun _ => ![1 / 4, 3 / 4]) ![1]

end Verif.Props.TempFit
