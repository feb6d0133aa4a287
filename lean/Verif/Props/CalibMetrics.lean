import Verif.Model.CalibMetrics
import Verif.Props.Predictive
import Verif.Props.Calibration
import Mathlib.Analysis.Convex.SpecificFunctions.Basic
import Mathlib.Analysis.Convex.Jensen

/-! Property C153: what the metrics reported while a probabilistic model is calibrated are about. -/

set_option linter.unusedSectionVars false

namespace Verif.Props.CalibMetrics

open Verif.OutputLayer Verif.CalibMetrics Verif.ArrayOps Finset

variable {n c d : ℕ}

theorem predMean_eq (S : ℕ) (hS : 0 < S) (m : ℕ → ℝ) : Predictive.predMean member m S 0 = (∑ s ∈ range S, m s) / S := by
  unfold Predictive.predMean
  rw [Verif.Props.loopSum_eq S hS]
  rfl

theorem aleatoric_eq (S : ℕ) (hS : 0 < S) (v : ℕ → ℝ) : Predictive.aleatoric member v S 0 = (∑ s ∈ range S, v s) / S := by
  unfold Predictive.aleatoric
  rw [Verif.Props.loopSum_eq S hS]
  rfl

/-- Specification: `k` is the class that beats all others. -/
def Beats (o : Fin c → ℝ) (k : Fin c) : Prop := ∀ j, j ≠ k → o j < o k

theorem argmax_of_beats (o : Fin c → ℝ) (k : Fin c) (h : Beats o k) : argmax (List.ofFn o) = k := by
  have hc : 0 < c := Fin.pos k
  have hne : List.ofFn o ≠ [] := fun h => by
    have := congrArg List.length h
    simp at this
    omega
  obtain ⟨m, hm, hmax, -⟩ := argmax_spec (List.ofFn o) hne
  have hlt : argmax (List.ofFn o) < c := by simpa using argmax_lt (List.ofFn o) hne
  rw [List.getElem?_ofFn, dif_pos hlt] at hm
  have hm' := Option.some.inj hm
  by_contra hk
  have h1 := h ⟨_, hlt⟩ fun e => hk (by rw [← e])
  have h2 := hmax (o k) (List.mem_ofFn.2 ⟨k, rfl⟩)
  linarith

theorem softmax_lt (o : Fin c → ℝ) (i j : Fin c) : softmax o i < softmax o j ↔ o i < o j := by
  unfold softmax
  have : 0 < ∑ j, Real.exp (o j) := sum_pos (fun _ _ => Real.exp_pos _) ⟨i, mem_univ _⟩
  rw [div_lt_div_iff_of_pos_right this, Real.exp_lt_exp]

/-- The auxiliary outputs under temperature scaling are the averaged outputs, scaled. -/
theorem aux_scale (S : ℕ) (φ : ℝ) (E : ℕ → Fin n → Fin c → ℝ) (i : Fin n) :
    auxOutputs S (scaleLogits φ) E i = scaleLogits φ (auxOutputs S id E i) := by
  funext j
  simp only [auxOutputs, scaleLogits, id, ← sum_mul]
  ring

theorem setKey_fresh {β : Type} (dict : List (String × β)) (k : String) (v : β) (h : ∀ e ∈ dict, e.1 ≠ k) : TrainerMetrics.setKey dict k v = dict ++ [(k, v)] := by
  unfold TrainerMetrics.setKey
  rw [if_neg]
  rw [List.any_eq_true]
  rintro ⟨e, he, hk⟩
  exact h e he (by simpa using hk)

theorem foldl_fresh {β γ : Type} (key : γ → String) (val : γ → β) (l : List γ) (dict : List (String × β)) (hn : (l.map key).Nodup) (h : ∀ e ∈ dict, ∀ x ∈ l, e.1 ≠ key x) :
    l.foldl (fun dict x => TrainerMetrics.setKey dict (key x) (val x)) dict = dict ++ l.map fun x => (key x, val x) := by
  induction l generalizing dict with
  | nil => simp
  | cons x l ih =>
    rw [List.map_cons, List.nodup_cons] at hn
    rw [List.foldl_cons, setKey_fresh _ _ _ fun e he => h e he x (by simp), ih _ hn.2]
    · simp
    · intro e he y hy
      rcases List.mem_append.1 he with he | he
      · exact h e he y (by simp [hy])
      · rw [List.mem_singleton.1 he]
        exact fun hk => hn.1 (by rw [show key x = key y from hk]; exact List.mem_map_of_mem hy)

/-- **C153, what is reported.** With pairwise different names other than `loss`, the dictionary of a training step holds the loss and every metric on the predictions and uncertainties of the averaged
outputs, that of a validation step the same under names that begin with `val_`, and nothing else; if metrics are disabled (in training) or absent, the loss alone. -/
theorem C153_reported {J P U T : Type} (loss : ℝ) (ms : List (Metric (Fin n → P) (Fin n → U) T)) (hn : (ms.map fun m => m.name).Nodup) (hl : ∀ m ∈ ms, m.name ≠ "loss")
    (predict : (J → ℝ) → P) (unc : (J → ℝ) → U) (outs : Fin n → J → ℝ) (t : T) :
    trainDict false loss (some ms) predict unc outs t = ("loss", loss) :: ms.map (fun m => (m.name, m.fn (fun i => predict (outs i)) (fun i => unc (outs i)) t)) ∧
    valDict loss (some ms) predict unc outs t = ("val_loss", loss) :: ms.map (fun m => ("val_" ++ m.name, m.fn (fun i => predict (outs i)) (fun i => unc (outs i)) t)) ∧
    trainDict true loss (some ms) predict unc outs t = [("loss", loss)] ∧ (∀ b, trainDict b loss (none : Option (List (Metric (Fin n → P) (Fin n → U) T))) predict unc outs t = [("loss", loss)]) ∧
    valDict loss (none : Option (List (Metric (Fin n → P) (Fin n → U) T))) predict unc outs t = [("val_loss", loss)] := by
  have hc : computeMetrics ms (fun i => predict (outs i)) (fun i => unc (outs i)) t = ms.map fun m => (m.name, m.fn (fun i => predict (outs i)) (fun i => unc (outs i)) t) := by
    unfold computeMetrics
    rw [foldl_fresh (fun m : Metric (Fin n → P) (Fin n → U) T => m.name) (fun m => m.fn (fun i => predict (outs i)) (fun i => unc (outs i)) t) ms [] hn (by simp), List.nil_append]
  have hval : ∀ a b : String, "val_" ++ a = "val_" ++ b → a = b := fun a b h => by
    have := congrArg String.toList h
    rw [String.toList_append, String.toList_append, List.append_cancel_left_eq] at this
    exact String.toList_injective this
  refine ⟨?_, ?_, rfl, fun b => by cases b <;> rfl, rfl⟩
  · simp only [trainDict, hc]
    rw [foldl_fresh (fun e : String × ℝ => e.1) (fun e => e.2)]
    · simp
    · simpa [Function.comp_def] using hn
    · intro e he x hx
      rw [List.mem_singleton.1 he]
      obtain ⟨m, hm, rfl⟩ := List.mem_map.1 hx
      exact fun h => hl m hm h.symm
  · simp only [valDict, hc]
    rw [foldl_fresh (fun e : String × ℝ => "val_" ++ e.1) (fun e => e.2)]
    · simp
    · rw [List.map_map]
      have := List.Nodup.map (f := fun a : String => "val_" ++ a) (fun a b h => hval a b h) hn
      simpa [Function.comp_def] using this
    · intro e he x hx
      rw [List.mem_singleton.1 he]
      obtain ⟨m, hm, rfl⟩ := List.mem_map.1 hx
      exact fun h => hl m hm (hval "loss" m.name h).symm

/-- **C153, temperature scaling.** Whatever the temperature, the classes that the metrics are given as predictions are those of the averaged uncalibrated outputs. -/
theorem C153_predictions (hc : 0 < c) (S : ℕ) (φ : ℝ) (E : ℕ → Fin n → Fin c → ℝ) (i : Fin n) :
    classPredict (auxOutputs S (scaleLogits φ) E i) = classPredict (auxOutputs S id E i) := by
  rw [aux_scale]
  unfold classPredict
  refine Verif.Props.argmax_congr hc _ _ fun a b => ?_
  unfold scaleLogits
  exact mul_lt_mul_iff_left₀ (Real.exp_pos _)

/-- **C153, accuracy stands still.** With temperature scaling, metrics that do not look at the uncertainties are reported with the same values at any two temperatures, in training
and in validation: nothing can be seen in them during the calibration of a classifier. -/
theorem C153_constant {U T : Type} (hc : 0 < c) (S : ℕ) (E : ℕ → Fin n → Fin c → ℝ) (ms : List (Metric (Fin n → ℕ) (Fin n → U) T)) (unc : (Fin c → ℝ) → U)
    (hm : ∀ m ∈ ms, ∀ p u u' t, m.fn p u t = m.fn p u' t) (disabled : Bool) (loss : ℝ) (t : T) (φ φ' : ℝ) :
    trainDict disabled loss (some ms) classPredict unc (auxOutputs S (scaleLogits φ) E) t = trainDict disabled loss (some ms) classPredict unc (auxOutputs S (scaleLogits φ') E) t ∧
    valDict loss (some ms) classPredict unc (auxOutputs S (scaleLogits φ) E) t = valDict loss (some ms) classPredict unc (auxOutputs S (scaleLogits φ') E) t := by
  have hp : (fun i => classPredict (auxOutputs S (scaleLogits φ) E i)) = fun i => classPredict (auxOutputs S (scaleLogits φ') E i) := by
    funext i
    rw [C153_predictions hc, C153_predictions hc]
  have hk : ∀ (p : Fin n → ℕ) (u u' : Fin n → U), computeMetrics ms p u t = computeMetrics ms p u' t := fun p u u' => by
    unfold computeMetrics
    generalize ([] : List (String × ℝ)) = acc
    induction ms generalizing acc with
    | nil => rfl
    | cons m ms ih =>
      simp only [List.foldl_cons]
      rw [hm m (by simp) p u u' t]
      exact ih (fun m hm' => hm m (by simp [hm'])) _
  unfold trainDict valDict
  rw [hp]
  have hk' := hk (fun i => classPredict (auxOutputs S (scaleLogits φ') E i)) (fun i => unc (auxOutputs S (scaleLogits φ) E i)) fun i => unc (auxOutputs S (scaleLogits φ') E i)
  constructor
  · cases disabled
    · simp only [hk']
    · rfl
  · simp only [hk']

/-- **C153, agreement.** If the same class is the first of every member, it is the reported prediction and the predictive mode, at any temperature. -/
theorem C153_agree (S : ℕ) (hS : 0 < S) (φ : ℝ) (E : ℕ → Fin n → Fin c → ℝ) (i : Fin n) (k : Fin c) (h : ∀ s < S, Beats (E s i) k) :
    classPredict (auxOutputs S (scaleLogits φ) E i) = k ∧ classMode S (scaleLogits φ) E i = k := by
  have hS' : (0 : ℝ) < S := by exact_mod_cast hS
  have hb : ∀ s ∈ range S, ∀ j, j ≠ k → scaleLogits φ (E s i) j < scaleLogits φ (E s i) k := fun s hs j hj => by
    unfold scaleLogits
    exact mul_lt_mul_of_pos_right (h s (mem_range.1 hs) j hj) (Real.exp_pos _)
  have hne : (range S).Nonempty := ⟨0, mem_range.2 hS⟩
  constructor
  · refine argmax_of_beats _ k fun j hj => ?_
    unfold auxOutputs
    exact div_lt_div_of_pos_right (sum_lt_sum_of_nonempty hne fun s hs => hb s hs j hj) hS'
  · refine argmax_of_beats _ k fun j hj => ?_
    unfold classMean
    rw [predMean_eq S hS, predMean_eq S hS]
    exact div_lt_div_of_pos_right (sum_lt_sum_of_nonempty hne fun s hs => (softmax_lt _ _ _).2 (hb s hs j hj)) hS'

/-- **C153, one member.** With a single member (a point estimate) the reported prediction and probabilities are those of the predictive. -/
theorem C153_single (hc : 0 < c) (cal : (Fin c → ℝ) → Fin c → ℝ) (E : ℕ → Fin n → Fin c → ℝ) (i : Fin n) :
    classPredict (auxOutputs 1 cal E i) = classMode 1 cal E i ∧ softmax (auxOutputs 1 cal E i) = classMean 1 cal E i := by
  have h1 : auxOutputs 1 cal E i = cal (E 0 i) := by
    funext j
    simp [auxOutputs]
  have h2 : classMean 1 cal E i = softmax (cal (E 0 i)) := by
    funext k
    unfold classMean
    rw [predMean_eq 1 one_pos]
    simp
  refine ⟨?_, by rw [h1, h2]⟩
  unfold classPredict classMode
  rw [h1, h2]
  exact Verif.Props.argmax_congr hc _ _ fun a b => (softmax_lt _ _ _).symm

/-- **C153, regression.** The reported predictions are the predictive mean; the reported uncertainty is at most the predictive aleatoric variance, and that at most the predictive variance. -/
theorem C153_regression (S : ℕ) (hS : 0 < S) (cal : (Fin d ⊕ Fin d → ℝ) → Fin d ⊕ Fin d → ℝ) (E : ℕ → Fin n → Fin d ⊕ Fin d → ℝ) (i : Fin n) (j : Fin d) :
    regPred (auxOutputs S cal E i) j = regMean S cal E i j ∧
    regVar (auxOutputs S cal E i) j ≤ regAleatoric S cal E i j ∧ regAleatoric S cal E i j ≤ regTotal S cal E i j := by
  have hS' : (0 : ℝ) < S := by exact_mod_cast hS
  refine ⟨?_, ?_, ?_⟩
  · unfold regMean
    rw [predMean_eq S hS]
    rfl
  · unfold regAleatoric
    rw [aleatoric_eq S hS]
    show Real.exp ((∑ s ∈ range S, cal (E s i) (.inr j)) / S) ≤ (∑ s ∈ range S, Real.exp (cal (E s i) (.inr j))) / S
    have := convexOn_exp.map_sum_le (t := range S) (w := fun _ => (1 : ℝ) / S) (p := fun s => cal (E s i) (.inr j)) (fun _ _ => by positivity)
      (by rw [sum_const, card_range, nsmul_eq_mul]; field_simp) (fun _ _ => Set.mem_univ _)
    simp only [smul_eq_mul, ← mul_sum] at this
    rwa [one_div, inv_mul_eq_div, inv_mul_eq_div] at this
  · unfold regTotal Predictive.varianceOf Predictive.epistemic
    simp

/-- **C153, regression, in terms of the outputs.** With the means in the first half of a row's outputs and the log-variances in the second: the reported prediction and the predictive mean average the
members' calibrated means; the reported uncertainty is the exponential of the average log-variance, while the predictive aleatoric variance is the average of the exponentials. -/
theorem C153_regression_outputs (S : ℕ) (hS : 0 < S) (cal : (Fin d ⊕ Fin d → ℝ) → Fin d ⊕ Fin d → ℝ) (E : ℕ → Fin n → Fin d ⊕ Fin d → ℝ) (i : Fin n) (j : Fin d) :
    regPred (auxOutputs S cal E i) j = (∑ s ∈ range S, cal (E s i) (.inl j)) / S ∧ regMean S cal E i j = (∑ s ∈ range S, cal (E s i) (.inl j)) / S ∧
    regVar (auxOutputs S cal E i) j = Real.exp ((∑ s ∈ range S, cal (E s i) (.inr j)) / S) ∧
    regAleatoric S cal E i j = (∑ s ∈ range S, Real.exp (cal (E s i) (.inr j))) / S := by
  refine ⟨rfl, ?_, rfl, ?_⟩
  · unfold regMean
    rw [predMean_eq S hS]
    rfl
  · unfold regAleatoric
    rw [aleatoric_eq S hS]
    rfl

/-- Two members with means 1 and 3 and log-variances 0 and 2. -/
example : regPred (auxOutputs (n := 1) 2 id (fun s _ => Sum.elim (fun _ : Fin 1 => 1 + 2 * (s : ℝ)) fun _ => 2 * (s : ℝ)) 0) 0 = 2 ∧
    regVar (auxOutputs (n := 1) 2 id (fun s _ => Sum.elim (fun _ : Fin 1 => 1 + 2 * (s : ℝ)) fun _ => 2 * (s : ℝ)) 0) 0 = Real.exp 1 := by
  obtain ⟨h1, -, h3, -⟩ := C153_regression_outputs (n := 1) 2 (by decide) id (fun s _ => Sum.elim (fun _ : Fin 1 => 1 + 2 * (s : ℝ)) fun _ => 2 * (s : ℝ)) 0 0
  rw [h1, h3]
  simp [sum_range_succ]
  norm_num

/-- **C153, regression, a lower bound on what is missing.** The reported uncertainty falls short of the predictive variance by at least the spread of the members' means. -/
theorem C153_missing (S : ℕ) (hS : 0 < S) (cal : (Fin d ⊕ Fin d → ℝ) → Fin d ⊕ Fin d → ℝ) (E : ℕ → Fin n → Fin d ⊕ Fin d → ℝ) (i : Fin n) (j : Fin d) :
    regVar (auxOutputs S cal E i) j + (∑ s ∈ range S, (regPred (cal (E s i)) j - regMean S cal E i j) ^ 2) / S ≤ regTotal S cal E i j := by
  have hS' : (S : ℝ) ≠ 0 := by exact_mod_cast hS.ne'
  obtain ⟨-, h1, -⟩ := C153_regression S hS cal E i j
  have h2 : (∑ s ∈ range S, (regPred (cal (E s i)) j - regMean S cal E i j) ^ 2) / S ≤ Predictive.epistemic member (fun s => regPred (cal (E s i)) j) S 0 := by
    unfold Predictive.epistemic
    refine le_trans (le_of_eq ?_) (le_max_right _ _)
    unfold regMean
    rw [predMean_eq S hS, Verif.Props.loopSum_eq S hS, Verif.Props.loopSum_eq S hS]
    simp only [member]
    set M := ∑ s ∈ range S, regPred (cal (E s i)) j with hM
    have : ∀ s, (regPred (cal (E s i)) j - M / S) ^ 2 = regPred (cal (E s i)) j ^ 2 - 2 * (M / S) * regPred (cal (E s i)) j + (M / S) ^ 2 := fun s => by ring
    simp only [this, sum_add_distrib, sum_sub_distrib, ← mul_sum, ← hM, sum_const, card_range, nsmul_eq_mul]
    field_simp
    ring
  unfold regTotal Predictive.varianceOf
  linarith

/-! ## What does not hold -/

/-- Three members on one row with two classes. -/
noncomputable def exE (s : ℕ) (_ : Fin 1) : Fin 2 → ℝ := if s = 0 then ![Real.log 64, 0] else ![0, Real.log 4]

theorem exE_mean (φ : ℝ) (k : Fin 2) : classMean 3 (scaleLogits φ) exE 0 k =
    (softmax (scaleLogits φ ![Real.log 64, 0]) k + 2 * softmax (scaleLogits φ ![0, Real.log 4]) k) / 3 := by
  unfold classMean
  rw [predMean_eq 3 (by decide)]
  simp only [exE, sum_range_succ, sum_range_zero]
  norm_num
  ring

theorem exE_mode (φ x y : ℝ) (hx : Real.exp (Real.log 64 * Real.exp (-φ)) = x) (hy : Real.exp (Real.log 4 * Real.exp (-φ)) = y) :
    classMean 3 (scaleLogits φ) exE 0 0 = (x / (x + 1) + 2 * (1 / (1 + y))) / 3 ∧ classMean 3 (scaleLogits φ) exE 0 1 = (1 / (x + 1) + 2 * (y / (1 + y))) / 3 := by
  rw [exE_mean, exE_mean]
  unfold softmax scaleLogits
  simp [Fin.sum_univ_two, hx, hy]

theorem log64 : Real.log 64 = 6 * Real.log 2 := by
  rw [show (64 : ℝ) = 2 ^ 6 by norm_num, Real.log_pow]; norm_num

theorem log4 : Real.log 4 = 2 * Real.log 2 := by
  rw [show (4 : ℝ) = 2 ^ 2 by norm_num, Real.log_pow]; norm_num

theorem exE_one : classMode 3 (scaleLogits 0) exE 0 = 1 := by
  obtain ⟨h0, h1⟩ := exE_mode 0 64 4 (by rw [neg_zero, Real.exp_zero, mul_one, Real.exp_log (by norm_num)]) (by rw [neg_zero, Real.exp_zero, mul_one, Real.exp_log (by norm_num)])
  exact argmax_of_beats _ 1 fun j hj => by
    have : j = 0 := by omega
    subst this
    rw [h0, h1]
    norm_num

theorem exE_two : classMode 3 (scaleLogits (Real.log 2)) exE 0 = 0 := by
  have he : Real.exp (-Real.log 2) = 1 / 2 := by rw [Real.exp_neg, Real.exp_log (by norm_num)]; norm_num
  obtain ⟨h0, h1⟩ := exE_mode (Real.log 2) 8 2
    (by rw [he, log64, show 6 * Real.log 2 * (1 / 2) = Real.log (2 ^ 3) by rw [Real.log_pow]; norm_num; ring, Real.exp_log (by norm_num)]; norm_num)
    (by rw [he, log4, show 2 * Real.log 2 * (1 / 2) = Real.log 2 by ring, Real.exp_log (by norm_num)])
  exact argmax_of_beats _ 0 fun j hj => by
    have : j = 1 := by omega
    subst this
    rw [h0, h1]
    norm_num

/-- **C153, refuted: the reported metrics are those of the model's predictions.** At temperature 1 the reported prediction of the ensemble `exE` is class 0, the mode of the predictive class 1: with
the target 1 the reported accuracy is 0 and that of the predictive 1. -/
theorem C153_mode_false : classPredict (auxOutputs 3 (scaleLogits 0) exE 0) = 0 ∧ classMode 3 (scaleLogits 0) exE 0 = 1 := by
  refine ⟨?_, exE_one⟩
  rw [C153_predictions (by decide)]
  refine argmax_of_beats _ 0 fun j hj => ?_
  have : j = 1 := by omega
  subst this
  simp only [auxOutputs, exE, sum_range_succ, sum_range_zero, id]
  have := Real.log_pos (show (1 : ℝ) < 2 by norm_num)
  norm_num [log64, log4]
  linarith

/-- **C153, refuted: temperature scaling leaves the predicted classes of the model alone.** Those of a single member, yes; but the mode of the predictive changes from class 1 at temperature 1 to class 0
at temperature 2, while the reported metrics (`C153_constant`) do not move. -/
theorem C153_accuracy_false : classMode 3 (scaleLogits 0) exE 0 = 1 ∧ classMode 3 (scaleLogits (Real.log 2)) exE 0 = 0 := ⟨exE_one, exE_two⟩

/-- **C153, refuted: the reported uncertainty is the predictive variance.** Two members of variance 1 with the means 0 and 2: reported 1, predictive 2. -/
theorem C153_variance_false : ∃ E : ℕ → Fin 1 → Fin 1 ⊕ Fin 1 → ℝ, regVar (auxOutputs 2 (regScale 0) E 0) 0 = 1 ∧ regTotal 2 (regScale 0) E 0 0 = 2 := by
  refine ⟨fun s _ => Sum.elim (fun _ => 2 * s) fun _ => 0, ?_, ?_⟩
  · simp [regVar, regVariance, logVars, auxOutputs, regScale, scaleVar]
  · unfold regTotal Predictive.varianceOf regAleatoric Predictive.epistemic
    rw [aleatoric_eq 2 (by decide), Verif.Props.loopSum_eq 2 (by decide), Verif.Props.loopSum_eq 2 (by decide)]
    simp [sum_range_succ, regVar, regVariance, regPred, regPredict, means, logVars, regScale, scaleVar, member]
    norm_num

/-! ### Concrete cases that meet the hypotheses of the theorems above -/

example := C153_reported (n := 1) (J := Fin 2) (P := ℕ) (U := Fin 2 → ℝ) (T := ℕ) 7 [⟨"accuracy", fun p _ t => if p 0 = t then 1 else 0⟩, ⟨"confidence", fun _ u _ => u 0 1⟩]
  (by decide) (by simp) classPredict softmax (fun _ => ![0, 1]) 1
example := C153_predictions (by decide) 3 (1 / 2) exE 0
example := C153_constant (U := Fin 2 → ℝ) (T := Fin 1 → ℕ) (by decide) 3 exE [⟨"accuracy", fun p _ t => if p 0 = t 0 then 1 else 0⟩] softmax (by simp) false 7 (fun _ => 1) 0 1
theorem ex_beats (s : ℕ) : Beats (c := 2) ![(s : ℝ) + 1, 0] 0 := fun j hj => by
  have : j = 1 := by omega
  subst this
  simp
  positivity

example := C153_agree 3 (by decide) (1 / 2) (fun s (_ : Fin 1) => ![(s : ℝ) + 1, 0]) 0 0 fun s _ => ex_beats s
example := C153_single (by decide) (scaleLogits 1) exE 0
example := C153_regression 2 (by decide) (regScale 1) (fun s (_ : Fin 1) => Sum.elim (fun _ : Fin 1 => 2 * s) fun _ => s) 0 0
example := C153_missing 2 (by decide) (regScale 1) (fun s (_ : Fin 1) => Sum.elim (fun _ : Fin 1 => 2 * s) fun _ => s) 0 0

end Verif.Props.CalibMetrics
