import Mathlib.Probability.Distributions.Gaussian.Real
import Mathlib.Tactic.LinearCombination
import Verif.Model.OutputLayer
import Verif.Lemmas.ArrayOps
import Verif.Props.Predictive

/-!
# Output layers, priors and temperature scalers (C66–C69)
-/

set_option linter.unusedSectionVars false

namespace Verif.Props

open Verif.OutputLayer Verif.ArrayOps
open ProbabilityTheory MeasureTheory

/-! ## C66 classification output layer -/

section classification
variable {c : ℕ}

theorem oneHot_sum_in (o : Fin c → ℝ) (y : Fin c) : ∑ j, oneHot c (y : ℕ) j * o j = o y := by
  have h : ∀ j : Fin c, oneHot c (y : ℕ) j = if j = y then 1 else 0 := by
    intro j
    unfold oneHot
    simp [Fin.ext_iff]
  simp [h]

theorem oneHot_sum_out (o : Fin c → ℝ) (y : ℤ) (h : y < 0 ∨ (c : ℤ) ≤ y) :
    ∑ j, oneHot c y j * o j = 0 := by
  apply Finset.sum_eq_zero
  intro j _
  unfold oneHot
  rw [if_neg, zero_mul]
  have := j.2
  omega

theorem sum_exp_pos (hc : 0 < c) (o : Fin c → ℝ) : 0 < ∑ j, Real.exp (o j) := by
  have : Nonempty (Fin c) := ⟨⟨0, hc⟩⟩
  exact Finset.sum_pos (fun i _ => Real.exp_pos _) Finset.univ_nonempty

theorem exp_logProb (hc : 0 < c) (o : Fin c → ℝ) (y : Fin c) :
    Real.exp (classLogProb o (y : ℕ)) = softmax o y := by
  unfold classLogProb softmax
  rw [oneHot_sum_in, Real.exp_sub, exp_logsumexp hc]

theorem softmax_spec (hc : 0 < c) (o : Fin c → ℝ) :
    (∀ i, 0 < softmax o i) ∧ ∑ i, softmax o i = 1 := by
  have hs := sum_exp_pos hc o
  refine ⟨fun i => div_pos (Real.exp_pos _) hs, ?_⟩
  unfold softmax
  rw [← Finset.sum_div, div_self hs.ne']

theorem softmax_le_one (hc : 0 < c) (o : Fin c → ℝ) (i : Fin c) : softmax o i ≤ 1 := by
  obtain ⟨hp, hs⟩ := softmax_spec hc o
  rw [← hs]
  exact Finset.single_le_sum (fun j _ => (hp j).le) (Finset.mem_univ i)

/-- **C66, distribution.** The exponentials of the log-probabilities of the labels are positive, sum to 1
and are what `mean` returns. -/
theorem C66_distribution (hc : 0 < c) (o : Fin c → ℝ) :
    (∀ y : Fin c, Real.exp (classLogProb o (y : ℕ)) = softmax o y ∧ 0 < softmax o y ∧
      classLogProb o (y : ℕ) ≤ 0) ∧
    ∑ y : Fin c, Real.exp (classLogProb o (y : ℕ)) = 1 := by
  obtain ⟨hp, hs⟩ := softmax_spec hc o
  refine ⟨fun y => ⟨exp_logProb hc o y, hp y, ?_⟩, ?_⟩
  · rw [← Real.exp_le_exp, Real.exp_zero, exp_logProb hc]
    exact softmax_le_one hc o y
  · simp only [exp_logProb hc, hs]

/-- **C66, shift.** Adding a constant to all logits changes no log-probability of a label. -/
theorem C66_shift (hc : 0 < c) (o : Fin c → ℝ) (k : ℝ) (y : Fin c) :
    classLogProb (fun i => o i + k) (y : ℕ) = classLogProb o (y : ℕ) := by
  apply Real.exp_injective
  rw [exp_logProb hc, exp_logProb hc]
  unfold softmax
  simp only [Real.exp_add]
  rw [← Finset.sum_mul, mul_div_mul_right _ _ (Real.exp_pos k).ne']

/-- **C66 is false for labels outside the range.** Label `-1` (or any label of `c` or more) is not
rejected, and gets a positive "probability": with logits 0 and 0 it is 1/2, on top of the 1 the two
labels already share. -/
theorem C66_out_of_range_false : ∃ o : Fin 2 → ℝ, ∀ y : ℤ, (y < 0 ∨ 2 ≤ y) →
    Real.exp (classLogProb o y) = 1 / 2 := by
  refine ⟨fun _ => 0, fun y hy => ?_⟩
  unfold classLogProb
  rw [oneHot_sum_out _ y (by exact_mod_cast hy), zero_sub, Real.exp_neg, exp_logsumexp (by norm_num)]
  simp

/-- **C66, prediction.** `predict` returns the first label of largest log-probability. -/
theorem C66_predict (hc : 0 < c) (o : Fin c → ℝ) : ∃ h : classPredict o < c,
    (∀ y : Fin c, classLogProb o (y : ℕ) ≤ classLogProb o (classPredict o : ℕ)) ∧
    ∀ y : Fin c, (y : ℕ) < classPredict o → classLogProb o (y : ℕ) < classLogProb o (classPredict o : ℕ) := by
  have hne : List.ofFn o ≠ [] := by
    intro h
    have := congrArg List.length h
    simp at this
    omega
  have hlt : classPredict o < c := by simpa [classPredict] using argmax_lt (List.ofFn o) hne
  obtain ⟨m, hm, hmax, hfirst⟩ := argmax_spec (List.ofFn o) hne
  have hm' : o ⟨classPredict o, hlt⟩ = m := by
    have : (List.ofFn o)[classPredict o]? = some m := hm
    rw [List.getElem?_ofFn, dif_pos hlt] at this
    exact Option.some.inj this
  have key : ∀ y : Fin c, classLogProb o (y : ℕ) = o y - Predictive.logsumexp o := fun y => by
    unfold classLogProb
    rw [oneHot_sum_in]
  have keyp : classLogProb o (classPredict o : ℕ) = m - Predictive.logsumexp o := by
    have := key ⟨classPredict o, hlt⟩
    simpa [hm'] using this
  refine ⟨hlt, fun y => ?_, fun y hy => ?_⟩
  · rw [key, keyp]
    have := hmax (o y) ((List.mem_ofFn' o (o y)).mpr ⟨y, rfl⟩)
    linarith
  · rw [key, keyp]
    have := hfirst y (o y) hy (by rw [List.getElem?_ofFn, dif_pos y.2])
    linarith

/-- **C66, variance.** `variance` is the variance of each component of the one-hot encoded label. -/
theorem C66_variance (hc : 0 < c) (o : Fin c → ℝ) (i : Fin c) :
    classVariance o i = ∑ y : Fin c, Real.exp (classLogProb o (y : ℕ)) *
      (oneHot c (y : ℕ) i - ∑ z : Fin c, Real.exp (classLogProb o (z : ℕ)) * oneHot c (z : ℕ) i) ^ 2 ∧
    0 ≤ classVariance o i ∧ classVariance o i ≤ 1 / 4 := by
  obtain ⟨hp, hs⟩ := softmax_spec hc o
  have h1 := softmax_le_one hc o i
  have hoh : ∀ y : Fin c, oneHot c (y : ℕ) i = if y = i then 1 else 0 := by
    intro y
    unfold oneHot
    simp [Fin.ext_iff, eq_comm]
  refine ⟨?_, ?_, ?_⟩
  · simp only [exp_logProb hc, hoh]
    have hm : ∑ z, softmax o z * (if z = i then (1 : ℝ) else 0) = softmax o i := by simp
    rw [hm]
    have hsq : ∀ y, softmax o y * ((if y = i then (1 : ℝ) else 0) - softmax o i) ^ 2 =
        (1 - 2 * softmax o i) * (softmax o y * (if y = i then (1 : ℝ) else 0)) +
          softmax o i ^ 2 * softmax o y := by
      intro y
      split_ifs <;> ring
    simp only [hsq]
    rw [Finset.sum_add_distrib, ← Finset.mul_sum, ← Finset.mul_sum, hm, hs]
    unfold classVariance
    ring
  · exact mul_nonneg (hp i).le (by linarith)
  · unfold classVariance
    nlinarith [sq_nonneg (softmax o i - 1 / 2)]

/-- **C66, entropy.** `entropy` is the Shannon entropy of the label distribution, between 0 and the
logarithm of the number of labels, and is largest when all logits agree. -/
theorem C66_entropy (hc : 0 < c) (o : Fin c → ℝ) :
    classEntropy classLogProb o = -∑ i, softmax o i * Real.log (softmax o i) ∧
    0 ≤ classEntropy classLogProb o ∧ classEntropy classLogProb o ≤ Real.log c ∧
    classEntropy (c := c) classLogProb (fun _ => 0) = Real.log c := by
  obtain ⟨hp, hs⟩ := softmax_spec hc o
  have hc' : (0 : ℝ) < c := by exact_mod_cast hc
  have heq : ∀ o : Fin c → ℝ,
      classEntropy classLogProb o = -∑ i, softmax o i * Real.log (softmax o i) := by
    intro o
    unfold classEntropy
    congr 1
    apply Finset.sum_congr rfl
    intro i _
    rw [← exp_logProb hc, Real.log_exp]
  refine ⟨heq o, ?_, ?_, ?_⟩
  · rw [heq, ← Finset.sum_neg_distrib]
    apply Finset.sum_nonneg
    intro i _
    have := Real.log_nonpos (hp i).le (softmax_le_one hc o i)
    nlinarith [hp i]
  · rw [heq]
    have hg := gibbs (softmax o) (fun _ => 1 / (c : ℝ)) hp (fun _ => by positivity)
      (by rw [hs]; simp [hc'.ne'])
    rw [← Finset.sum_mul, hs, one_mul, one_div, Real.log_inv] at hg
    linarith
  · rw [heq]
    have : ∀ i : Fin c, softmax (fun _ : Fin c => (0 : ℝ)) i = 1 / c := by
      intro i; unfold softmax; simp
    simp only [this]
    rw [one_div, Real.log_inv]
    simp [hc'.ne']

/-- **C66, masked layer.** Targets of 0 or less contribute nothing to the log-likelihood; other targets
contribute as in the plain layer. -/
theorem C66_masked (o : Fin c → ℝ) (y : ℤ) :
    (y ≤ 0 → maskedLogProb o y = 0) ∧ (0 < y → maskedLogProb o y = classLogProb o y) := by
  unfold maskedLogProb classLogProb
  constructor
  · intro h
    rw [if_neg (by omega), mul_zero]
  · intro h
    rw [if_pos h, mul_one]

/-- **C66 is false for the masked layer.** Its "probabilities" of the labels do not sum to 1 (label 0
always gets 1), and its entropy leaves out label 0: two equal logits give half the entropy. -/
theorem C66_masked_distribution_false :
    ∑ y : Fin 2, Real.exp (maskedLogProb (fun _ : Fin 2 => (0 : ℝ)) (y : ℕ)) = 3 / 2 ∧
    classEntropy maskedLogProb (fun _ : Fin 2 => (0 : ℝ)) = Real.log 2 / 2 := by
  have h0 : maskedLogProb (fun _ : Fin 2 => (0 : ℝ)) (0 : ℤ) = 0 := (C66_masked _ _).1 le_rfl
  have h1 : maskedLogProb (fun _ : Fin 2 => (0 : ℝ)) (1 : ℤ) = -Real.log 2 := by
    rw [(C66_masked _ _).2 (by norm_num)]
    unfold classLogProb Predictive.logsumexp
    norm_num
  have he : Real.exp (-Real.log 2) = 1 / 2 := by
    rw [Real.exp_neg, Real.exp_log (by norm_num)]; norm_num
  constructor
  · rw [Fin.sum_univ_two]
    simp only [Fin.val_zero, Fin.val_one, Nat.cast_zero, Nat.cast_one, h0, h1, he, Real.exp_zero]
    norm_num
  · unfold classEntropy
    rw [Fin.sum_univ_two]
    simp only [Fin.val_zero, Fin.val_one, Nat.cast_zero, Nat.cast_one, h0, h1, he]
    ring

/-- **C66, standard deviation.** Without precomputed variances `std` is the square root of the variance. -/
theorem C66_std (o : Fin c → ℝ) (hc : 0 < c) (i : Fin c) :
    0 ≤ std (classVariance o i) none ∧ std (classVariance o i) none ^ 2 = classVariance o i := by
  unfold std
  exact ⟨Real.sqrt_nonneg _, Real.sq_sqrt (C66_variance hc o i).2.1⟩

/-- **C66 is false when variances are passed to `std`.** They are returned as they are: passing the
layer's own variance 4 gives standard deviation 4. -/
theorem C66_std_variances_false : std 4 none = 2 ∧ std 4 (some 4) = 4 := by
  constructor
  · unfold std
    rw [show (4 : ℝ) = 2 ^ 2 by norm_num, Real.sqrt_sq (by norm_num)]
  · rfl

/-- Two labels with logits 0 and log 3: probabilities 1/4 and 3/4. -/
example : softmax ![0, Real.log 3] 1 = 3 / 4 ∧ classVariance ![0, Real.log 3] 1 = 3 / 16 := by
  have h : softmax ![0, Real.log 3] 1 = 3 / 4 := by
    unfold softmax
    simp [Fin.sum_univ_two, Real.exp_log]
    norm_num
  refine ⟨h, ?_⟩
  unfold classVariance
  rw [h]; norm_num

end classification

/-! ## C67 regression output layer -/

section regression
variable {d : ℕ}

/-- The variance as a non-negative number. -/
noncomputable def nnVar (lv : ℝ) : NNReal := ⟨Real.exp lv, (Real.exp_pos lv).le⟩

theorem nnVar_ne (lv : ℝ) : nnVar lv ≠ 0 := by
  intro h
  have h1 : Real.exp lv = 0 := congrArg NNReal.toReal h
  exact (Real.exp_pos lv).ne' h1

/-- One term of the Gaussian log-density. -/
theorem gaussian_term (m lv t : ℝ) :
    Real.exp (-(1 / 2) * (Real.exp (-lv) * (t - m) ^ 2 + lv + Real.log (2 * Real.pi))) =
    gaussianPDFReal m (nnVar lv) t := by
  have h2pi : (0 : ℝ) < 2 * Real.pi := by positivity
  have hv : ((nnVar lv : NNReal) : ℝ) = Real.exp lv := rfl
  rw [gaussianPDFReal_def, hv]
  have hs : Real.sqrt (2 * Real.pi * Real.exp lv) = Real.exp (1 / 2 * (lv + Real.log (2 * Real.pi))) := by
    rw [Real.sqrt_eq_iff_mul_self_eq (by positivity) (Real.exp_pos _).le, ← Real.exp_add]
    rw [show 1 / 2 * (lv + Real.log (2 * Real.pi)) + 1 / 2 * (lv + Real.log (2 * Real.pi)) =
      Real.log (2 * Real.pi) + lv by ring, Real.exp_add, Real.exp_log h2pi]
  simp only
  rw [hs, ← Real.exp_neg, ← Real.exp_add]
  congr 1
  rw [Real.exp_neg]
  have := (Real.exp_pos lv).ne'
  field_simp
  ring

/-- **C67, density.** The exponential of the log-probability is the density at the target of independent
Gaussians with the given means and the exponentials of the log-variances as variances. -/
theorem C67_density (m lv t : Fin d → ℝ) :
    Real.exp (regLogProb m lv t) = ∏ i, gaussianPDFReal (m i) (nnVar (lv i)) (t i) := by
  unfold regLogProb
  rw [Finset.mul_sum, Real.exp_sum]
  exact Finset.prod_congr rfl fun i _ => gaussian_term _ _ _

/-- **C67, normalised.** For a scalar target the density integrates to 1. -/
theorem C67_normalised (m lv : Fin 1 → ℝ) :
    ∫ t : ℝ, Real.exp (regLogProb m lv (fun _ => t)) = 1 := by
  simp only [C67_density, Fin.prod_univ_one]
  exact integral_gaussianPDFReal_eq_one _ (nnVar_ne _)

/-- **C67, moments.** `mean` and `variance` are the mean and the variance of the Gaussian whose density
the layer evaluates. -/
theorem C67_moments (m lv : Fin d → ℝ) (i : Fin d) :
    ∫ t, t ∂(gaussianReal (m i) (nnVar (lv i))) = regPredict m lv i ∧
    Var[id; gaussianReal (m i) (nnVar (lv i))] = regVariance m lv i := by
  refine ⟨integral_id_gaussianReal, ?_⟩
  rw [variance_id_gaussianReal]
  rfl

/-- **C67, mode.** `predict` has the largest log-probability of all targets, and only it does. -/
theorem C67_mode (m lv t : Fin d → ℝ) :
    regLogProb m lv t ≤ regLogProb m lv (regPredict m lv) ∧
    (regLogProb m lv t = regLogProb m lv (regPredict m lv) → t = regPredict m lv) := by
  have hterm : ∀ i, 0 ≤ Real.exp (-lv i) * (t i - m i) ^ 2 := fun i => by positivity
  have hdiff : regLogProb m lv (regPredict m lv) - regLogProb m lv t =
      1 / 2 * ∑ i, Real.exp (-lv i) * (t i - m i) ^ 2 := by
    unfold regLogProb regPredict
    simp only [sub_self, Finset.sum_add_distrib]
    simp
    ring
  constructor
  · have := Finset.sum_nonneg fun i (_ : i ∈ Finset.univ) => hterm i
    linarith
  · intro h
    rw [h, sub_self] at hdiff
    have h0 : ∑ i, Real.exp (-lv i) * (t i - m i) ^ 2 = 0 := by linarith
    rw [Finset.sum_eq_zero_iff_of_nonneg fun i _ => hterm i] at h0
    funext i
    have := h0 i (Finset.mem_univ i)
    rcases mul_eq_zero.mp this with h1 | h1
    · exact absurd h1 (Real.exp_pos _).ne'
    · have h2 := pow_eq_zero_iff (n := 2) (by norm_num) |>.mp h1
      unfold regPredict
      linarith

/-- **C67, samples.** When the noise is standard normal, each component of a sample has the Gaussian law
of the layer. -/
theorem C67_samples (m lv : Fin d → ℝ) (i : Fin d) :
    (gaussianReal 0 1).map (fun z => regSample m lv (fun _ => z) i) =
    gaussianReal (m i) (nnVar (lv i)) := by
  have h : (fun z => regSample m lv (fun _ => z) i) =
      (fun x => m i + x) ∘ (fun z => Real.exp (1 / 2 * lv i) * z) := by
    funext z; rfl
  rw [h, ← Measure.map_map (by fun_prop) (by fun_prop), gaussianReal_map_const_mul,
    gaussianReal_map_const_add]
  congr 1
  · ring
  · apply NNReal.eq
    simp only [mul_one, nnVar]
    change Real.exp (1 / 2 * lv i) ^ 2 = Real.exp (lv i)
    rw [← Real.exp_nat_mul]
    congr 1
    push_cast
    ring

/-- **C67, entropy.** The entropy estimate is half the dimension times `log 2πe` plus half the sum of the
log-variances, up to the deviation from 1 of the mean squared noise. -/
theorem C67_entropy {n : ℕ} (hn : 0 < n) (m lv : Fin d → ℝ) (z : Fin n → Fin d → ℝ) :
    regEntropy m lv (fun s => regSample m lv (z s)) =
    (d * Real.log (2 * Real.pi) + ∑ i, lv i) / 2 + (∑ s, ∑ i, z s i ^ 2) / (2 * n) := by
  have hn' : (n : ℝ) ≠ 0 := by exact_mod_cast hn.ne'
  have hlp : ∀ s, regLogProb m lv (regSample m lv (z s)) =
      -(1 / 2) * (∑ i, z s i ^ 2 + ∑ i, lv i + d * Real.log (2 * Real.pi)) := by
    intro s
    unfold regLogProb regSample
    have : ∀ i, Real.exp (-lv i) * (m i + Real.exp (1 / 2 * lv i) * z s i - m i) ^ 2 = z s i ^ 2 := by
      intro i
      have he : Real.exp (-lv i) * Real.exp (1 / 2 * lv i) ^ 2 = 1 := by
        rw [← Real.exp_nat_mul, ← Real.exp_add, Real.exp_eq_one_iff]
        push_cast
        ring
      linear_combination (z s i ^ 2) * he
    simp only [this, Finset.sum_add_distrib]
    simp
  unfold regEntropy
  simp only [hlp]
  rw [← Finset.mul_sum, Finset.sum_add_distrib, Finset.sum_add_distrib]
  simp
  field_simp
  ring

/-- A standard normal at 0: density `1 / √(2π)`. -/
example : regLogProb (d := 1) (fun _ => 0) (fun _ => 0) (fun _ => 0) = -(1 / 2) * Real.log (2 * Real.pi) := by
  unfold regLogProb
  simp

end regression

/-! ## C68 Gaussian priors -/

theorem isoLogProb_eq (lv : ℝ) (x : List ℝ) : isoLogProb lv x =
    (x.map fun a => -(1 / 2) * (Real.exp (-lv) * a ^ 2 + lv + Real.log (2 * Real.pi))).sum := by
  unfold isoLogProb
  induction x with
  | nil => simp
  | cons a t ih =>
    simp only [List.map_cons, List.sum_cons, ← ih, List.length_cons]
    push_cast
    ring

/-- **C68, isotropic density.** The exponential of the log prior is the product of the densities at the
parameters of centred Gaussians of variance `exp(log_var)`. -/
theorem C68_isotropic (lv : ℝ) (x : List ℝ) :
    Real.exp (isoLogProb lv x) = (x.map fun a => gaussianPDFReal 0 (nnVar lv) a).prod := by
  rw [isoLogProb_eq]
  induction x with
  | nil => simp
  | cons a t ih =>
    simp only [List.map_cons, List.sum_cons, List.prod_cons, Real.exp_add, ih]
    rw [← gaussian_term, sub_zero]

/-- **C68, diagonal density.** With one log-variance per parameter, or with a single one for all, the
exponential of the log prior is the product of the Gaussian densities. -/
theorem C68_diagonal (lv x : List ℝ) :
    (lv.length = x.length → ∃ v, diagLogProb lv x = .ok v ∧
      Real.exp v = ((lv.zip x).map fun p => gaussianPDFReal 0 (nnVar p.1) p.2).prod) ∧
    (∀ l, diagLogProb [l] x = .ok (isoLogProb l x)) := by
  have hsum : ∀ ps : List (ℝ × ℝ), Real.exp (-(1 / 2) * (ps.map fun (l, a) =>
      Real.exp (-l) * a ^ 2 + Real.log (2 * Real.pi) + l).sum) =
      (ps.map fun p => gaussianPDFReal 0 (nnVar p.1) p.2).prod := by
    intro ps
    induction ps with
    | nil => simp
    | cons p t ih =>
      simp only [List.map_cons, List.sum_cons, List.prod_cons, mul_add, Real.exp_add] at ih ⊢
      rw [ih, ← gaussian_term, ← Real.exp_add, ← Real.exp_add]
      congr 2
      rw [sub_zero]; ring
  constructor
  · intro h
    refine ⟨_, ?_, hsum (lv.zip x)⟩
    unfold diagLogProb broadcast2
    rw [if_pos h]
    rfl
  · intro l
    have hb : broadcast2 [l] x = .ok (x.map fun y => (l, y)) := by
      unfold broadcast2
      by_cases h : [l].length = x.length
      · rw [if_pos h]
        obtain ⟨a, rfl⟩ := List.length_eq_one_iff.mp h.symm
        rfl
      · rw [if_neg h, if_pos (by simp)]
        rfl
    unfold diagLogProb
    rw [hb]
    change Except.ok _ = Except.ok _
    congr 1
    rw [isoLogProb_eq, List.map_map, ← List.sum_map_mul_left]
    congr 1
    apply List.map_congr_left
    intro a _
    simp only [Function.comp]
    ring

/-- **C68, shapes.** A vector of log-variances of another length (neither 1 nor the number of parameters)
is refused, as long as there is more than one parameter. -/
theorem C68_shape (lv x : List ℝ) (h : lv.length ≠ x.length) (h1 : lv.length ≠ 1) (h2 : x.length ≠ 1) :
    diagLogProb lv x = .error "TypeError" ∧ diagSample lv x = .error "TypeError" := by
  unfold diagLogProb diagSample broadcast2
  rw [if_neg h, if_neg h1, if_neg h2]
  exact ⟨rfl, rfl⟩

/-- **C68 is false for a single parameter.** A prior with two log-variances accepts a model with one
parameter in `log_joint_prob` (counting it twice) although `sample` refuses it. -/
theorem C68_single_false : ∃ v, diagLogProb [0, 0] [1] = .ok v ∧
    v = isoLogProb 0 [1, 1] ∧ diagSample [0, 0] [1] = .error "TypeError" := by
  refine ⟨_, rfl, ?_, ?_⟩
  · unfold isoLogProb
    simp
    ring
  · unfold diagSample broadcast2
    simp [bind, Except.bind]

/-- **C68, layout.** The log prior is a sum over the parameters: it is additive over parts of the parameter
tree and does not depend on the order in which they are ravelled. -/
theorem C68_layout (lv : ℝ) (x y : List ℝ) :
    isoLogProb lv (x ++ y) = isoLogProb lv x + isoLogProb lv y ∧
    (x.Perm y → isoLogProb lv x = isoLogProb lv y) := by
  constructor
  · simp only [isoLogProb_eq, List.map_append, List.sum_append]
  · intro h
    simp only [isoLogProb_eq]
    exact (h.map _).sum_eq

/-- **C68, penalty.** Differences of the log prior are differences of squared norms over twice the
variance: maximising with this prior is weight decay. -/
theorem C68_penalty (lv : ℝ) (x y : List ℝ) (h : x.length = y.length) :
    isoLogProb lv x - isoLogProb lv y =
    ((y.map fun a => a ^ 2).sum - (x.map fun a => a ^ 2).sum) / (2 * Real.exp lv) := by
  unfold isoLogProb
  rw [h, Real.exp_neg]
  have := (Real.exp_pos lv).ne'
  field_simp
  ring

/-- **C68, samples.** With standard normal noise each sampled parameter has the prior's law, and there are
as many as requested. -/
theorem C68_samples (lv : ℝ) (n : ℕ) (i : Fin n) :
    (∀ z : Fin n → ℝ, (isoSample lv (List.ofFn z)).length = n) ∧
    (gaussianReal 0 1).map (fun z => (isoSample lv (List.replicate n z)).getD i 0) =
      gaussianReal 0 (nnVar lv) := by
  constructor
  · intro z; simp [isoSample]
  · have h : (fun z => (isoSample lv (List.replicate n z)).getD i 0) =
        fun z => Real.exp (1 / 2 * lv) * z := by
      funext z
      unfold isoSample
      simp [List.getD]
    rw [h, gaussianReal_map_const_mul]
    congr 1
    · ring
    · apply NNReal.eq
      simp only [mul_one, nnVar]
      change Real.exp (1 / 2 * lv) ^ 2 = Real.exp lv
      rw [← Real.exp_nat_mul]
      congr 1
      push_cast
      ring

/-- **C68, diagonal samples.** The diagonal prior's samples are those of the isotropic prior when all
log-variances agree. -/
theorem C68_diagonal_samples (l : ℝ) (z : List ℝ) :
    diagSample [l] z = .ok (isoSample l z) ∧
    diagSample (List.replicate z.length l) z = .ok (isoSample l z) := by
  constructor
  · unfold diagSample broadcast2
    by_cases h : [l].length = z.length
    · rw [if_pos h]
      obtain ⟨a, rfl⟩ := List.length_eq_one_iff.mp h.symm
      rfl
    · rw [if_neg h, if_pos (by simp)]
      simp [bind, Except.bind, isoSample]
  · unfold diagSample broadcast2
    rw [if_pos (by simp)]
    simp only [bind, Except.bind, isoSample]
    rw [if_neg (by simp)]
    congr 1
    induction z with
    | nil => rfl
    | cons a t ih => simpa [List.replicate_succ] using ih

example : isoLogProb 0 [1, 2] = -(1 / 2) * (5 + 2 * Real.log (2 * Real.pi)) := by
  unfold isoLogProb
  simp
  norm_num

/-! ## C69 temperature scaling of outputs -/

section temperature
variable {c d : ℕ}

/-- **C69, predictions.** Whatever the temperature, scaling the logits never changes the predicted class
(not even with ties), and zero log-temperature changes nothing. -/
theorem C69_predict (hc : 0 < c) (φ : ℝ) (o : Fin c → ℝ) :
    classPredict (scaleLogits φ o) = classPredict o ∧ scaleLogits 0 o = o := by
  constructor
  · obtain ⟨h1, hmax1, hfirst1⟩ := C66_predict hc o
    obtain ⟨h2, hmax2, hfirst2⟩ := C66_predict hc (scaleLogits φ o)
    have key : ∀ (o : Fin c → ℝ) (y : Fin c), classLogProb o (y : ℕ) = o y - Predictive.logsumexp o :=
      fun o y => by unfold classLogProb; rw [oneHot_sum_in]
    have key1 := key o ⟨classPredict o, h1⟩
    have key2 := key (scaleLogits φ o) ⟨classPredict (scaleLogits φ o), h2⟩
    simp only at key1 key2
    have hpos := Real.exp_pos (-φ)
    by_contra hne
    rcases lt_or_gt_of_ne hne with h | h
    · have a := hfirst1 ⟨_, h2⟩ h
      have b := hmax2 ⟨_, h1⟩
      simp only at a b
      rw [key o ⟨_, h2⟩, key1] at a
      rw [key (scaleLogits φ o) ⟨_, h1⟩, key2] at b
      have b' : o ⟨_, h1⟩ * Real.exp (-φ) ≤ o ⟨_, h2⟩ * Real.exp (-φ) := by
        unfold scaleLogits at b ⊢; linarith
      have := le_of_mul_le_mul_right b' hpos
      linarith
    · have a := hfirst2 ⟨_, h1⟩ h
      have b := hmax1 ⟨_, h2⟩
      simp only at a b
      rw [key (scaleLogits φ o) ⟨_, h1⟩, key2] at a
      rw [key o ⟨_, h2⟩, key1] at b
      have a' : o ⟨_, h1⟩ * Real.exp (-φ) < o ⟨_, h2⟩ * Real.exp (-φ) := by
        unfold scaleLogits at a ⊢; linarith
      have := lt_of_mul_lt_mul_right a' hpos.le
      linarith
  · funext i
    simp [scaleLogits]

/-- The probability of label `i` from the differences of the logits. -/
theorem softmax_inv (o : Fin c → ℝ) (i : Fin c) :
    softmax o i = 1 / ∑ j, Real.exp (o j - o i) := by
  unfold softmax
  simp only [Real.exp_sub]
  rw [← Finset.sum_div, one_div_div]

/-- **C69, confidence.** A larger temperature never raises the probability of the predicted class, and
never makes it smaller than `1 / c`. -/
theorem C69_confidence (hc : 0 < c) (φ φ' : ℝ) (h : φ ≤ φ') (o : Fin c → ℝ) (i : Fin c)
    (hi : ∀ j, o j ≤ o i) :
    softmax (scaleLogits φ' o) i ≤ softmax (scaleLogits φ o) i ∧ 1 / (c : ℝ) ≤ softmax (scaleLogits φ' o) i := by
  have hpos : ∀ o : Fin c → ℝ, 0 < ∑ j, Real.exp (o j - o i) := fun o => sum_exp_pos hc _
  rw [softmax_inv, softmax_inv]
  constructor
  · apply one_div_le_one_div_of_le (hpos _)
    apply Finset.sum_le_sum
    intro j _
    rw [Real.exp_le_exp]
    unfold scaleLogits
    have h1 : Real.exp (-φ') ≤ Real.exp (-φ) := Real.exp_le_exp.mpr (by linarith)
    nlinarith [hi j]
  · apply one_div_le_one_div_of_le (hpos _)
    calc ∑ j, Real.exp (scaleLogits φ' o j - scaleLogits φ' o i) ≤ ∑ _j : Fin c, (1 : ℝ) := by
          apply Finset.sum_le_sum
          intro j _
          rw [← Real.exp_zero, Real.exp_le_exp]
          unfold scaleLogits
          nlinarith [hi j, Real.exp_pos (-φ')]
      _ = c := by simp

/-- **C69, regression.** Scaling leaves the means alone and multiplies every variance by the temperature;
zero log-temperature changes nothing. -/
theorem C69_regression (φ : ℝ) (m lv : Fin d → ℝ) :
    regPredict (scaleVar φ (m, lv)).1 (scaleVar φ (m, lv)).2 = regPredict m lv ∧
    (∀ i, regVariance (scaleVar φ (m, lv)).1 (scaleVar φ (m, lv)).2 i = Real.exp φ * regVariance m lv i) ∧
    scaleVar 0 (m, lv) = (m, lv) := by
  refine ⟨rfl, fun i => ?_, ?_⟩
  · unfold regVariance scaleVar
    rw [Real.exp_add, mul_comm]
  · simp [scaleVar]

/-- **C69, optimal temperature.** For scalar targets the likelihood of `n` calibration points is largest
when the temperature is the mean of the squared standardised residuals. -/
theorem C69_regression_optimum {n : ℕ} (hn : 0 < n) (m lv t : Fin n → ℝ)
    (hz : 0 < ∑ k, Real.exp (-lv k) * (t k - m k) ^ 2) (φ : ℝ) :
    let ll : ℝ → ℝ := fun φ => ∑ k, regLogProb (d := 1) (scaleVar φ (fun _ => m k, fun _ => lv k)).1
      (scaleVar φ (fun _ => m k, fun _ => lv k)).2 (fun _ => t k)
    ll φ ≤ ll (Real.log ((∑ k, Real.exp (-lv k) * (t k - m k) ^ 2) / n)) := by
  intro ll
  have hn' : (0 : ℝ) < n := by exact_mod_cast hn
  set S := ∑ k, Real.exp (-lv k) * (t k - m k) ^ 2 with hS
  have hll : ∀ φ, ll φ = -(1 / 2) * (Real.exp (-φ) * S + n * φ +
      (∑ k, lv k + n * Real.log (2 * Real.pi))) := by
    intro φ
    simp only [ll, regLogProb, scaleVar]
    rw [hS, ← Finset.mul_sum]
    congr 1
    rw [Finset.mul_sum]
    simp only [Fin.sum_univ_one]
    simp only [Finset.sum_add_distrib, Finset.sum_const, Finset.card_univ, Fintype.card_fin, nsmul_eq_mul]
    have : ∀ k, Real.exp (-(lv k + φ)) * (t k - m k) ^ 2 =
        Real.exp (-φ) * (Real.exp (-lv k) * (t k - m k) ^ 2) := by
      intro k
      rw [neg_add, Real.exp_add]; ring
    simp only [this]
    ring
  rw [hll, hll]
  set ψ := Real.log (S / n) with hψ
  have hexp : Real.exp (-ψ) * S = n := by
    rw [Real.exp_neg, hψ, Real.exp_log (div_pos hz hn')]
    field_simp
  have h1 := Real.add_one_le_exp (ψ - φ)
  have h2 : Real.exp (-φ) * S = n * Real.exp (ψ - φ) := by
    rw [← hexp, show ψ - φ = ψ + -φ by ring, Real.exp_add]
    have h3 : Real.exp (-ψ) * Real.exp ψ = 1 := by rw [← Real.exp_add]; simp
    linear_combination (-(Real.exp (-φ) * S)) * h3
  rw [h2, hexp]
  nlinarith

/-- **C69, SNGP logits.** For a non-negative factor and variance the mean-field correction never changes the
predicted class, never raises its probability, and is the identity for factor 0; a negative factor is
refused. -/
theorem C69_mean_field (hc : 0 < c) (factor : ℝ) (var : Option ℝ) (hv : ∀ v ∈ var, 0 ≤ v) (o : Fin c → ℝ) :
    (factor < 0 → meanFieldLogits factor var o = .error "ValueError") ∧
    (0 ≤ factor → ∃ o', meanFieldLogits factor var o = .ok o' ∧ classPredict o' = classPredict o ∧
      (∀ i, (∀ j, o j ≤ o i) → softmax o' i ≤ softmax o i) ∧ (factor = 0 → o' = o)) := by
  constructor
  · intro h
    unfold meanFieldLogits
    rw [if_pos h]
  · intro h
    have hv' : 0 ≤ var.getD 1 := by
      cases var with
      | none => simp
      | some v => exact hv v rfl
    have h1 : 1 ≤ 1 + var.getD 1 * factor := by nlinarith [mul_nonneg hv' h]
    set r := Real.sqrt (1 + var.getD 1 * factor) with hr
    have hr1 : 1 ≤ r := by rw [hr]; exact Real.one_le_sqrt.mpr h1
    have hr0 : 0 < r := by linarith
    have heq : (fun i => o i / r) = scaleLogits (Real.log r) o := by
      funext i
      unfold scaleLogits
      rw [Real.exp_neg, Real.exp_log hr0]; rfl
    refine ⟨fun i => o i / r, ?_, ?_, ?_, ?_⟩
    · unfold meanFieldLogits
      rw [if_neg (by linarith)]
    · rw [heq]; exact (C69_predict hc _ o).1
    · intro i hi
      rw [heq]
      have := (C69_confidence hc 0 (Real.log r) (Real.log_nonneg hr1) o i hi).1
      rwa [(C69_predict hc 0 o).2] at this
    · intro h0
      rw [h0, mul_zero, add_zero, Real.sqrt_one] at hr
      funext i
      rw [hr, div_one]

/-- Temperature 2 on logits 0 and log 9: the probability of the second class drops from 9/10 to 3/4. -/
example : softmax ![0, Real.log 9] 1 = 9 / 10 ∧
    softmax (scaleLogits (Real.log 2) ![0, Real.log 9]) 1 = 3 / 4 := by
  constructor
  · unfold softmax
    simp [Fin.sum_univ_two, Real.exp_log]
    norm_num
  · have h9 : Real.log 9 = 2 * Real.log 3 := by
      rw [show (9 : ℝ) = 3 ^ 2 by norm_num, Real.log_pow]; norm_num
    have h : Real.log 9 * (2 : ℝ)⁻¹ = Real.log 3 := by rw [h9]; ring
    unfold softmax scaleLogits
    simp [Fin.sum_univ_two, Real.exp_neg, Real.exp_log, h]
    norm_num

end temperature

/-! ### Concrete cases that meet the hypotheses of the theorems above -/

example := C66_distribution (c := 3) (by norm_num) ![1, 0, 2]
example := C66_shift (c := 3) (by norm_num) ![1, 0, 2] 7 1
example := C66_predict (c := 3) (by norm_num) ![1, 0, 2]
example := C66_variance (c := 3) (by norm_num) ![1, 0, 2] 1
example := C66_entropy (c := 3) (by norm_num) ![1, 0, 2]
example := C66_std (c := 3) ![1, 0, 2] (by norm_num) 1
example := C68_shape [0, 1] [1, 2, 3] (by simp) (by simp) (by simp)
example := C68_penalty 2 [1, 2] [0, 3] rfl
example := C69_predict (c := 3) (by norm_num) 2 ![1, 0, 2]
example := C69_confidence (c := 3) (by norm_num) 0 1 (by norm_num) ![1, 0, 2] 2 (fun j => by fin_cases j <;> simp)
example := C69_regression_optimum (n := 2) (by norm_num) ![0, 0] ![0, 0] ![1, 2] (by norm_num [Fin.sum_univ_two]) 1

end Verif.Props
