import Verif.Props.Calibration
import Verif.Props.Metrics
import Mathlib.Analysis.Calculus.Deriv.MeanValue
import Mathlib.Analysis.SpecialFunctions.Pow.Deriv
import Mathlib.Probability.Moments.Variance

/-!
Property C112: what minimises the losses and scores on average over the targets.
-/
set_option linter.unusedSectionVars false

namespace Verif.Props.ProperScores

open Verif.Props Verif.ArrayOps Verif.Calibration Verif.OutputLayer MeasureTheory ProbabilityTheory Finset Filter Topology

variable {c d : ℕ}

/-- The average of a loss of one row with outputs `o` when the label is drawn with the probabilities `q`. -/
noncomputable def expected (loss : List ((Fin c → ℝ) × ℤ) → ℝ) (q : Fin c → ℝ) (o : Fin c → ℝ) : ℝ :=
  ∑ y, q y * loss (rowsOf [(o, y)])

/-! ### Cross-entropy -/

theorem gibbs_term (q p : ℝ) (hq : 0 ≤ q) (hp : 0 < p) :
    q - p ≤ q * Real.log q - q * Real.log p ∧ (q - p = q * Real.log q - q * Real.log p → q = p) := by
  rcases hq.lt_or_eq with h | h
  · have e : q * Real.log q - q * Real.log p = -(q * Real.log (p / q)) := by
      rw [Real.log_div hp.ne' h.ne']; ring
    have hpq : 0 < p / q := by positivity
    have hm : q * (p / q) = p := mul_div_cancel₀ _ h.ne'
    rw [e]
    refine ⟨?_, fun heq => ?_⟩
    · have := Real.log_le_sub_one_of_pos hpq
      nlinarith
    · by_contra hne
      have : p / q ≠ 1 := fun h1 => hne ((div_eq_one_iff_eq h.ne').1 h1).symm
      have := Real.log_lt_sub_one_of_pos hpq this
      nlinarith
  · rw [← h]
    simp only [zero_mul, sub_zero, zero_sub]
    exact ⟨by linarith, fun h' => by linarith⟩

/-- **C112, cross-entropy.** On average over labels drawn with the probabilities `q`, the cross-entropy is at least the entropy of `q`, and
equal to it only for outputs whose softmax is `q`: the loss is strictly proper. -/
theorem C112_cross_entropy (hc : 0 < c) (q : Fin c → ℝ) (hq : ∀ y, 0 ≤ q y) (hq1 : ∑ y, q y = 1) (o : Fin c → ℝ) :
    ∑ y, -(q y * Real.log (q y)) ≤ expected crossEntropy q o ∧
    (expected crossEntropy q o = ∑ y, -(q y * Real.log (q y)) ↔ softmax o = q) := by
  obtain ⟨hp, hp1⟩ := softmax_spec hc o
  have e : expected crossEntropy q o = ∑ y, -(q y * Real.log (softmax o y)) := by
    unfold expected
    refine sum_congr rfl fun y _ => ?_
    rw [crossEntropy_eq hc]
    simp [mean]
  have hgap : expected crossEntropy q o - ∑ y, -(q y * Real.log (q y)) =
      ∑ y, (q y * Real.log (q y) - q y * Real.log (softmax o y) - (q y - softmax o y)) := by
    rw [e, ← sum_sub_distrib, sum_sub_distrib (g := fun y => q y - softmax o y), sum_sub_distrib (g := softmax o), hq1, hp1]
    simp only [sub_self, sub_zero]
    exact sum_congr rfl fun y _ => by ring
  have hterm : ∀ y ∈ univ, 0 ≤ q y * Real.log (q y) - q y * Real.log (softmax o y) - (q y - softmax o y) := fun y _ => by
    have := (gibbs_term (q y) (softmax o y) (hq y) (hp y)).1
    linarith
  refine ⟨?_, ?_, fun h => ?_⟩
  · have := sum_nonneg hterm
    linarith
  · intro h
    rw [h, sub_self] at hgap
    have h0 := (sum_eq_zero_iff_of_nonneg hterm).1 hgap.symm
    funext y
    have := h0 y (mem_univ y)
    exact ((gibbs_term (q y) (softmax o y) (hq y) (hp y)).2 (by linarith)).symm
  · rw [e, h]

/-! ### Brier score -/

theorem brierRow_ofFn (p : Fin c → ℝ) (y : Fin c) :
    Verif.Metrics.brierRow (List.ofFn p) ((y : ℕ) : ℤ) = ∑ k, (p k - if k = y then 1 else 0) ^ 2 := by
  unfold Verif.Metrics.brierRow Verif.Metrics.oneHot
  have : List.zipWith (fun a b => (a - b) ^ 2) (List.ofFn p)
      ((List.range (List.ofFn p).length).map fun j : ℕ => if (j : ℤ) = ((y : ℕ) : ℤ) then (1 : ℝ) else 0) =
      List.ofFn fun k => (p k - if k = y then 1 else 0) ^ 2 := by
    apply List.ext_getElem
    · simp
    · intro n h1 h2
      simp [Fin.ext_iff]
  rw [this, List.sum_ofFn]

/-- **C112, Brier score.** On average over labels drawn with the probabilities `q`, the Brier score exceeds `1 - Σ q²` by the squared
distance of the probabilities from `q`: it is smallest exactly at `q`. -/
theorem C112_brier (q : Fin c → ℝ) (hq1 : ∑ y, q y = 1) (p : Fin c → ℝ) :
    ∑ y, q y * Verif.Metrics.brier [(List.ofFn p, (((y : Fin c) : ℕ) : ℤ))] = ∑ k, (p k - q k) ^ 2 + (1 - ∑ k, q k ^ 2) := by
  have h1 : ∀ y : Fin c, Verif.Metrics.brier [(List.ofFn p, ((y : ℕ) : ℤ))] = ∑ k, p k ^ 2 - 2 * p y + 1 := by
    intro y
    have : Verif.Metrics.brier [(List.ofFn p, ((y : ℕ) : ℤ))] = ∑ k, (p k - if k = y then 1 else 0) ^ 2 := by
      rw [← brierRow_ofFn]
      simp [Verif.Metrics.brier, mean]
    rw [this]
    have e : ∀ k, (p k - if k = y then 1 else 0) ^ 2 = p k ^ 2 + (if k = y then 1 - 2 * p y else 0) := by
      intro k
      by_cases h : k = y
      · subst h; simp; ring
      · simp [h]
    simp only [e, sum_add_distrib, sum_ite_eq', mem_univ, if_true]
    ring
  simp only [h1]
  have e2 : ∀ y, q y * (∑ k, p k ^ 2 - 2 * p y + 1) = q y * (∑ k, p k ^ 2 + 1) - 2 * (p y * q y) := fun y => by ring
  have e3 : ∀ y, (p y - q y) ^ 2 = p y ^ 2 - 2 * (p y * q y) + q y ^ 2 := fun y => by ring
  simp only [e2, e3, sum_add_distrib, sum_sub_distrib, ← sum_mul, hq1]
  ring

/-- **C112, binary Brier score.** -/
theorem C112_brier_binary (q p : ℝ) :
    (1 - q) * Verif.Metrics.brierBinary [(p, 0)] + q * Verif.Metrics.brierBinary [(p, 1)] = (p - q) ^ 2 + q * (1 - q) := by
  simp [Verif.Metrics.brierBinary, mean]
  ring

/-! ### Focal loss -/

/-- The expected focal loss of two classes when the first has probability `q` and is given the probability `p`. -/
noncomputable def focal2 (γ q p : ℝ) : ℝ := q * ((1 - p) ^ γ * -Real.log p) + (1 - q) * (p ^ γ * -Real.log (1 - p))

/-- Its derivative. -/
noncomputable def focal2' (γ q p : ℝ) : ℝ :=
  q * (γ * (1 - p) ^ (γ - 1) * Real.log p - (1 - p) ^ γ / p) + (1 - q) * (p ^ γ / (1 - p) - γ * p ^ (γ - 1) * Real.log (1 - p))

theorem focal2_deriv (γ q p : ℝ) (h0 : 0 < p) (h1 : p < 1) : HasDerivAt (focal2 γ q) (focal2' γ q p) p := by
  have hp : 0 < 1 - p := by linarith
  have hsub : HasDerivAt (fun x : ℝ => 1 - x) (-1) p := by simpa using (hasDerivAt_id p).const_sub 1
  have d1 : HasDerivAt (fun x : ℝ => (1 - x) ^ γ) (-1 * γ * (1 - p) ^ (γ - 1)) p := hsub.rpow_const (Or.inl hp.ne')
  have d2 : HasDerivAt (fun x : ℝ => -Real.log x) (-p⁻¹) p := (Real.hasDerivAt_log h0.ne').neg
  have d3 : HasDerivAt (fun x : ℝ => x ^ γ) (1 * γ * p ^ (γ - 1)) p := (hasDerivAt_id p).rpow_const (Or.inl h0.ne')
  have d4 : HasDerivAt (fun x : ℝ => -Real.log (1 - x)) (-(-1 / (1 - p))) p := (hsub.log hp.ne').neg
  have := ((d1.mul d2).const_mul q).add ((d3.mul d4).const_mul (1 - q))
  refine this.congr_deriv ?_
  unfold focal2'
  ring

theorem focal2'_pos (γ q p : ℝ) (hγ : 2 ≤ γ) (hq : 1 / 2 < q) (hqp : q ≤ p) (h1 : p < 1) : 0 < focal2' γ q p := by
  have h0 : 0 < p := by linarith
  have hp : 0 < 1 - p := by linarith
  have hlog1 : Real.log p < 0 := Real.log_neg h0 h1
  have hlog2 : Real.log (1 - p) < Real.log p := Real.log_lt_log hp (by linarith)
  have r1 : 0 < (1 - p) ^ (γ - 1) := Real.rpow_pos_of_pos hp _
  have r2 : 0 < p ^ (γ - 1) := Real.rpow_pos_of_pos h0 _
  have r3 : 0 < (1 - p) ^ γ := Real.rpow_pos_of_pos hp _
  have r4 : 0 < p ^ γ := Real.rpow_pos_of_pos h0 _
  have hA : γ * (1 - p) ^ (γ - 1) * Real.log p - (1 - p) ^ γ / p < 0 := by
    have h2 : γ * (1 - p) ^ (γ - 1) * Real.log p < 0 := mul_neg_of_pos_of_neg (by positivity) hlog1
    have h3 : 0 < (1 - p) ^ γ / p := by positivity
    linarith
  have hB : 0 < p ^ γ / (1 - p) - γ * p ^ (γ - 1) * Real.log (1 - p) := by
    have h2 : γ * p ^ (γ - 1) * Real.log (1 - p) < 0 := mul_neg_of_pos_of_neg (by positivity) (by linarith)
    have h3 : 0 < p ^ γ / (1 - p) := by positivity
    linarith
  -- at `q = p` the terms combine
  have hdiag : 0 < focal2' γ p p := by
    unfold focal2'
    have e1 : p * ((1 - p) ^ γ / p) = (1 - p) ^ γ := mul_div_cancel₀ _ h0.ne'
    have e2 : (1 - p) * (p ^ γ / (1 - p)) = p ^ γ := mul_div_cancel₀ _ hp.ne'
    have hmono : (1 - p) ^ γ < p ^ γ := Real.rpow_lt_rpow hp.le (by linarith) (by linarith)
    have hmono2 : (1 - p) ^ (γ - 2) ≤ p ^ (γ - 2) := Real.rpow_le_rpow hp.le (by linarith) (by linarith)
    have e3 : (1 - p) ^ (γ - 1) = (1 - p) ^ (γ - 2) * (1 - p) := by
      rw [← Real.rpow_add_one hp.ne']; congr 1; ring
    have e4 : p ^ (γ - 1) = p ^ (γ - 2) * p := by
      rw [← Real.rpow_add_one h0.ne']; congr 1; ring
    have r5 : 0 < (1 - p) ^ (γ - 2) := Real.rpow_pos_of_pos hp _
    have hkey : 0 ≤ (1 - p) ^ (γ - 2) * Real.log p - p ^ (γ - 2) * Real.log (1 - p) := by nlinarith
    have hpos : 0 ≤ γ * (p * (1 - p)) * ((1 - p) ^ (γ - 2) * Real.log p - p ^ (γ - 2) * Real.log (1 - p)) :=
      mul_nonneg (by positivity) hkey
    have : p * (γ * (1 - p) ^ (γ - 1) * Real.log p - (1 - p) ^ γ / p) +
        (1 - p) * (p ^ γ / (1 - p) - γ * p ^ (γ - 1) * Real.log (1 - p)) =
        γ * (p * (1 - p)) * ((1 - p) ^ (γ - 2) * Real.log p - p ^ (γ - 2) * Real.log (1 - p)) + (p ^ γ - (1 - p) ^ γ) := by
      rw [mul_sub, mul_sub, e1, e2, e3, e4]
      ring
    rw [this]
    linarith
  unfold focal2' at hdiag ⊢
  nlinarith

theorem expected_focal (γ q : ℝ) (o : Fin 2 → ℝ) : expected (focalLoss γ) ![q, 1 - q] o = focal2 γ q (softmax o 0) := by
  have h1 : softmax o 1 = 1 - softmax o 0 := by
    have := (softmax_spec (by norm_num) o).2
    rw [Fin.sum_univ_two] at this
    linarith
  unfold expected focal2
  rw [Fin.sum_univ_two]
  simp only [focal_eq]
  simp [mean, h1]

/-- **C112, focal loss and overconfidence.** Let the first of two classes have the probability `q` above one half. From `q` on, the expected
focal loss increases with the probability given to that class. -/
theorem C112_focal_overconfident (γ q : ℝ) (hγ : 2 ≤ γ) (hq : 1 / 2 < q) (o o' : Fin 2 → ℝ) (h1 : q ≤ softmax o 0)
    (h2 : softmax o 0 < softmax o' 0) : expected (focalLoss γ) ![q, 1 - q] o < expected (focalLoss γ) ![q, 1 - q] o' := by
  rw [expected_focal, expected_focal]
  have hlt : softmax o' 0 < 1 := by
    have := (softmax_spec (by norm_num) o').2
    rw [Fin.sum_univ_two] at this
    have h3 := (softmax_spec (by norm_num) o').1 1
    linarith
  have hmono : StrictMonoOn (focal2 γ q) (Set.Ico q 1) := by
    refine strictMonoOn_of_deriv_pos (convex_Ico q 1) (fun x hx => ?_) fun x hx => ?_
    · exact (focal2_deriv γ q x (by linarith [hx.1]) hx.2).continuousAt.continuousWithinAt
    · rw [interior_Ico] at hx
      rw [(focal2_deriv γ q x (by linarith [hx.1]) hx.2).deriv]
      exact focal2'_pos γ q x hγ hq hx.1.le hx.2
  exact hmono ⟨h1, by linarith⟩ ⟨by linarith, hlt⟩ h2

theorem exists_outputs (p : ℝ) (h0 : 0 < p) (h1 : p < 1) : ∃ o : Fin 2 → ℝ, softmax o 0 = p := by
  refine ⟨![Real.log p, Real.log (1 - p)], ?_⟩
  unfold softmax
  simp [Fin.sum_univ_two, Real.exp_log h0, Real.exp_log (by linarith : 0 < 1 - p)]

/-- **C112, focal loss is not proper.** Let the first of two classes have a probability `q` strictly between one half and one. Outputs that give that
class the probability `q` or more never minimise the expected focal loss: some outputs that give it less have a smaller one. -/
theorem C112_focal_false (γ q : ℝ) (hγ : 2 ≤ γ) (hq : 1 / 2 < q) (hq1 : q < 1) (o : Fin 2 → ℝ) (ho : q ≤ softmax o 0) :
    ∃ o' : Fin 2 → ℝ, softmax o' 0 < q ∧ expected (focalLoss γ) ![q, 1 - q] o' < expected (focalLoss γ) ![q, 1 - q] o := by
  have hd := focal2_deriv γ q q (by linarith) hq1
  have hs := hasDerivAt_iff_tendsto_slope.1 hd
  have hpos := focal2'_pos γ q q hγ hq le_rfl hq1
  have hev : ∀ᶠ p in 𝓝[≠] q, 0 < slope (focal2 γ q) q p := hs.eventually (lt_mem_nhds hpos)
  have hev' : ∀ᶠ p in 𝓝[<] q, 0 < slope (focal2 γ q) q p := hev.filter_mono (nhdsWithin_mono q fun x hx => ne_of_lt hx)
  have hlt : ∀ᶠ p in 𝓝[<] q, p < q := self_mem_nhdsWithin
  have hgt : ∀ᶠ p in 𝓝[<] q, 1 / 2 < p := nhdsWithin_le_nhds (lt_mem_nhds hq)
  obtain ⟨p, ⟨hp1, hp2⟩, hp3⟩ := ((hev'.and hlt).and hgt).exists
  obtain ⟨o', ho'⟩ := exists_outputs p (by linarith) (by linarith)
  obtain ⟨oq, hoq⟩ := exists_outputs q (by linarith) hq1
  refine ⟨o', by rw [ho']; exact hp2, ?_⟩
  have h1 : expected (focalLoss γ) ![q, 1 - q] o' < expected (focalLoss γ) ![q, 1 - q] oq := by
    rw [expected_focal, expected_focal, ho', hoq]
    rw [slope_def_field] at hp1
    have hneg : p - q < 0 := by linarith
    by_contra hcon
    push Not at hcon
    have : (focal2 γ q p - focal2 γ q q) / (p - q) ≤ 0 := div_nonpos_of_nonneg_of_nonpos (by linarith) hneg.le
    linarith
  rcases ho.lt_or_eq with h | h
  · exact h1.trans (C112_focal_overconfident γ q hγ hq oq o (by rw [hoq]) (by rw [hoq]; exact h))
  · rw [expected_focal (o := oq), hoq, h, ← expected_focal] at h1
    rw [← h] at h1
    exact h1

/-! ### Regression -/

variable {Ω : Type} [MeasurableSpace Ω]

theorem integral_sq_sub (P : Measure Ω) [IsProbabilityMeasure P] (T : Ω → ℝ) (hT : MemLp T 2 P) (a : ℝ) :
    Integrable (fun ω => (T ω - a) ^ 2) P ∧ ∫ ω, (T ω - a) ^ 2 ∂P = ProbabilityTheory.variance T P + (∫ ω, T ω ∂P - a) ^ 2 := by
  have h1 : MemLp (fun ω => T ω - a) 2 P := hT.sub (memLp_const a)
  refine ⟨h1.integrable_sq, ?_⟩
  have h2 := variance_eq_sub h1
  have h3 : ProbabilityTheory.variance (fun ω => T ω - a) P = ProbabilityTheory.variance T P := variance_sub_const hT.aestronglyMeasurable a
  rw [h3] at h2
  have h4 : ∫ ω, (T ω - a) ∂P = ∫ ω, T ω ∂P - a := by
    rw [integral_sub (hT.integrable one_le_two) (integrable_const a)]
    simp
  rw [h4] at h2
  simp only [Pi.pow_apply] at h2
  linarith

/-- **C112, mean squared error.** On average over the targets the mean squared error of one row exceeds the total variance by the squared
distance of the prediction from the mean: it is smallest exactly at the mean. -/
theorem C112_mse (P : Measure Ω) [IsProbabilityMeasure P] (T : Ω → Fin d → ℝ) (hT : ∀ i, MemLp (fun ω => T ω i) 2 P) (m : Fin d → ℝ) :
    ∫ ω, Verif.Metrics.mse [(List.ofFn m, List.ofFn (T ω))] ∂P =
      ∑ i, ProbabilityTheory.variance (fun ω => T ω i) P + ∑ i, (m i - ∫ ω, T ω i ∂P) ^ 2 := by
  have e : ∀ ω, Verif.Metrics.mse [(List.ofFn m, List.ofFn (T ω))] = ∑ i, (T ω i - m i) ^ 2 := by
    intro ω
    have : List.zipWith (fun a b => (a - b) ^ 2) (List.ofFn m) (List.ofFn (T ω)) = List.ofFn fun i => (T ω i - m i) ^ 2 := by
      apply List.ext_getElem
      · simp
      · intro n h1 h2
        simp only [List.getElem_zipWith, List.getElem_ofFn]
        ring
    simp only [Verif.Metrics.mse, mean, List.map_cons, List.map_nil, List.sum_cons, List.sum_nil, this, List.sum_ofFn]
    simp
  simp only [e]
  rw [integral_finsetSum _ fun i _ => (integral_sq_sub P _ (hT i) (m i)).1, ← sum_add_distrib]
  refine sum_congr rfl fun i _ => ?_
  rw [(integral_sq_sub P _ (hT i) (m i)).2]
  ring

theorem abs_median (P : Measure Ω) [IsProbabilityMeasure P] (T : Ω → ℝ) (hm : Measurable T) (hT : Integrable T P) (m a : ℝ)
    (h1 : 1 / 2 ≤ P.real {ω | T ω ≤ m}) (h2 : 1 / 2 ≤ P.real {ω | m ≤ T ω}) : ∫ ω, |m - T ω| ∂P ≤ ∫ ω, |a - T ω| ∂P := by
  have hi : ∀ b, Integrable (fun ω => |b - T ω|) P := fun b => ((integrable_const b).sub hT).abs
  have hind : ∀ s, MeasurableSet s → Integrable (fun ω => |a - m| * (2 * s.indicator 1 ω - 1)) P := fun s hs =>
    (((integrable_indicator_iff hs).2 (integrable_const (1 : ℝ)).integrableOn).const_mul 2 |>.sub (integrable_const 1)).const_mul _
  have hval : ∀ s, MeasurableSet s → ∫ ω, |a - m| * (2 * s.indicator 1 ω - 1) ∂P = |a - m| * (2 * P.real s - 1) := by
    intro s hs
    have i1 : Integrable (fun ω => 2 * s.indicator (1 : Ω → ℝ) ω) P :=
      ((integrable_indicator_iff hs).2 (integrable_const (1 : ℝ)).integrableOn).const_mul 2
    rw [integral_const_mul, integral_sub i1 (integrable_const 1), integral_const_mul, integral_indicator_one hs]
    simp
  have key : ∀ s, MeasurableSet s → 1 / 2 ≤ P.real s → (∀ ω, |a - m| * (2 * s.indicator 1 ω - 1) ≤ |a - T ω| - |m - T ω|) →
      ∫ ω, |m - T ω| ∂P ≤ ∫ ω, |a - T ω| ∂P := by
    intro s hs hP hle
    have h3 := integral_mono (hind s hs) ((hi a).sub (hi m)) hle
    rw [hval s hs] at h3
    have h4 : ∫ ω, (|a - T ω| - |m - T ω|) ∂P = ∫ ω, |a - T ω| ∂P - ∫ ω, |m - T ω| ∂P := integral_sub (hi a) (hi m)
    have h5 : 0 ≤ |a - m| * (2 * P.real s - 1) := mul_nonneg (abs_nonneg _) (by linarith)
    have h6 : ∫ ω, ((fun ω => |a - T ω|) - fun ω => |m - T ω|) ω ∂P = ∫ ω, (|a - T ω| - |m - T ω|) ∂P := rfl
    rw [h6, h4] at h3
    linarith
  rcases le_total m a with h | h
  · refine key _ (measurableSet_le hm measurable_const) h1 fun ω => ?_
    by_cases hω : T ω ≤ m
    · rw [Set.indicator_of_mem (by exact hω)]
      simp only [Pi.one_apply]
      rw [abs_of_nonneg (by linarith), abs_of_nonneg (by linarith), abs_of_nonneg (by linarith)]
      linarith
    · rw [Set.indicator_of_notMem (by exact hω)]
      have := abs_sub_abs_le_abs_sub (m - T ω) (a - T ω)
      rw [show m - T ω - (a - T ω) = -(a - m) by ring, abs_neg] at this
      linarith
  · refine key _ (measurableSet_le measurable_const hm) h2 fun ω => ?_
    by_cases hω : m ≤ T ω
    · rw [Set.indicator_of_mem (by exact hω)]
      simp only [Pi.one_apply]
      rw [abs_of_nonpos (by linarith), abs_of_nonpos (by linarith), abs_of_nonpos (by linarith)]
      linarith
    · rw [Set.indicator_of_notMem (by exact hω)]
      have := abs_sub_abs_le_abs_sub (m - T ω) (a - T ω)
      rw [show m - T ω - (a - T ω) = -(a - m) by ring, abs_neg] at this
      linarith

/-- **C112, mean absolute error.** On average over the targets the mean absolute error of one row is smallest at a median of every coordinate. -/
theorem C112_mae (P : Measure Ω) [IsProbabilityMeasure P] (T : Ω → Fin d → ℝ) (hm : ∀ i, Measurable fun ω => T ω i)
    (hT : ∀ i, Integrable (fun ω => T ω i) P) (m a : Fin d → ℝ) (h1 : ∀ i, 1 / 2 ≤ P.real {ω | T ω i ≤ m i})
    (h2 : ∀ i, 1 / 2 ≤ P.real {ω | m i ≤ T ω i}) :
    ∫ ω, Verif.Metrics.mae [(List.ofFn m, List.ofFn (T ω))] ∂P ≤ ∫ ω, Verif.Metrics.mae [(List.ofFn a, List.ofFn (T ω))] ∂P := by
  have e : ∀ (b : Fin d → ℝ) ω, Verif.Metrics.mae [(List.ofFn b, List.ofFn (T ω))] = ∑ i, |b i - T ω i| := by
    intro b ω
    have : List.zipWith (fun a b => |a - b|) (List.ofFn b) (List.ofFn (T ω)) = List.ofFn fun i => |b i - T ω i| := by
      apply List.ext_getElem
      · simp
      · intro n h1 h2
        simp only [List.getElem_zipWith, List.getElem_ofFn]
    simp only [Verif.Metrics.mae, mean, List.map_cons, List.map_nil, List.sum_cons, List.sum_nil, this, List.sum_ofFn]
    simp
  have hi : ∀ b i, Integrable (fun ω => |b - T ω i|) P := fun b i => ((integrable_const b).sub (hT i)).abs
  simp only [e]
  rw [integral_finsetSum _ fun i _ => hi (m i) i, integral_finsetSum _ fun i _ => hi (a i) i]
  exact sum_le_sum fun i _ => abs_median P _ (hm i) (hT i) (m i) (a i) (h1 i) (h2 i)

theorem exp_neg_add (x : ℝ) : 1 ≤ Real.exp (-x) + x ∧ (Real.exp (-x) + x = 1 → x = 0) := by
  refine ⟨by linarith [Real.add_one_le_exp (-x)], fun h => ?_⟩
  by_contra hx
  linarith [Real.add_one_lt_exp (neg_ne_zero.2 hx)]

/-- **C112, scaled mean squared error.** On average over targets with the means `E` and the variances `V > 0`, the loss of one row is at
least `Σ (1 + log V)`, and equal to it exactly when the means put out are `E` and the log-variances are `log V`. -/
theorem C112_scaled_mse (P : Measure Ω) [IsProbabilityMeasure P] (T : Ω → Fin d → ℝ) (hT : ∀ i, MemLp (fun ω => T ω i) 2 P)
    (hV : ∀ i, 0 < ProbabilityTheory.variance (fun ω => T ω i) P) (m lv : Fin d → ℝ) :
    ∑ i, (1 + Real.log (ProbabilityTheory.variance (fun ω => T ω i) P)) ≤ ∫ ω, scaledMse [(m, lv, T ω)] ∂P ∧
    (∫ ω, scaledMse [(m, lv, T ω)] ∂P = ∑ i, (1 + Real.log (ProbabilityTheory.variance (fun ω => T ω i) P)) ↔
      ∀ i, m i = ∫ ω, T ω i ∂P ∧ lv i = Real.log (ProbabilityTheory.variance (fun ω => T ω i) P)) := by
  set V := fun i => ProbabilityTheory.variance (fun ω => T ω i) P with hVdef
  set E := fun i => ∫ ω, T ω i ∂P with hE
  have e : ∀ ω, scaledMse [(m, lv, T ω)] = ∑ i, (Real.exp (-lv i) * (T ω i - m i) ^ 2 + lv i) := by
    intro ω
    simp [scaledMse, mean]
  have hI : ∫ ω, scaledMse [(m, lv, T ω)] ∂P = ∑ i, (Real.exp (-lv i) * (V i + (E i - m i) ^ 2) + lv i) := by
    simp only [e]
    have i1 : ∀ i, Integrable (fun ω => Real.exp (-lv i) * (T ω i - m i) ^ 2) P := fun i => (integral_sq_sub P _ (hT i) (m i)).1.const_mul _
    have i2 : ∀ i, Integrable (fun ω => Real.exp (-lv i) * (T ω i - m i) ^ 2 + lv i) P := fun i => (i1 i).add (integrable_const (lv i))
    rw [integral_finsetSum _ fun i _ => i2 i]
    refine sum_congr rfl fun i _ => ?_
    rw [integral_add (i1 i) (integrable_const _), integral_const_mul, (integral_sq_sub P _ (hT i) (m i)).2]
    simp [hVdef, hE]
  have hsplit : ∀ i, Real.exp (-lv i) * (V i + (E i - m i) ^ 2) + lv i - (1 + Real.log (V i)) =
      (Real.exp (-(lv i - Real.log (V i))) + (lv i - Real.log (V i)) - 1) + Real.exp (-lv i) * (E i - m i) ^ 2 := by
    intro i
    have : Real.exp (-(lv i - Real.log (V i))) = Real.exp (-lv i) * V i := by
      rw [show -(lv i - Real.log (V i)) = -lv i + Real.log (V i) by ring, Real.exp_add, Real.exp_log (hV i)]
    rw [this]
    ring
  have hpos : ∀ i ∈ univ, 0 ≤ Real.exp (-lv i) * (V i + (E i - m i) ^ 2) + lv i - (1 + Real.log (V i)) := by
    intro i _
    rw [hsplit]
    have h1 := (exp_neg_add (lv i - Real.log (V i))).1
    have h2 : 0 ≤ Real.exp (-lv i) * (E i - m i) ^ 2 := by positivity
    linarith
  have hgap : ∫ ω, scaledMse [(m, lv, T ω)] ∂P - ∑ i, (1 + Real.log (V i)) =
      ∑ i, (Real.exp (-lv i) * (V i + (E i - m i) ^ 2) + lv i - (1 + Real.log (V i))) := by
    rw [hI, ← sum_sub_distrib]
  refine ⟨by linarith [sum_nonneg hpos], fun h => ?_, fun h => ?_⟩
  · rw [h, sub_self] at hgap
    have h0 := (sum_eq_zero_iff_of_nonneg hpos).1 hgap.symm
    intro i
    have h1 := h0 i (mem_univ i)
    rw [hsplit] at h1
    have h2 := exp_neg_add (lv i - Real.log (V i))
    have h3 : 0 ≤ Real.exp (-lv i) * (E i - m i) ^ 2 := by positivity
    refine ⟨?_, ?_⟩
    · have h4 : Real.exp (-lv i) * (E i - m i) ^ 2 = 0 := by linarith [h2.1]
      rcases mul_eq_zero.1 h4 with h5 | h5
      · exact absurd h5 (Real.exp_pos _).ne'
      · have := pow_eq_zero_iff (two_ne_zero) |>.1 h5
        linarith
    · have := h2.2 (by linarith)
      linarith
  · have : ∑ i, (Real.exp (-lv i) * (V i + (E i - m i) ^ 2) + lv i - (1 + Real.log (V i))) = 0 := by
      refine sum_eq_zero fun i _ => ?_
      rw [hsplit, (h i).1, (h i).2]
      simp [hE, hVdef]
    rw [this] at hgap
    linarith

/-- Outputs with the softmax `(1/4, 3/4)`. -/
example : softmax ![Real.log 1, Real.log 3] = ![1 / 4, 3 / 4] := by
  funext i
  unfold softmax
  fin_cases i <;> simp [Fin.sum_univ_two, Real.exp_log] <;> norm_num

/-- Outputs that give the first class exactly its probability 3/4 are beaten by less confident ones under the default focal loss. -/
example : ∃ o o' : Fin 2 → ℝ, softmax o 0 = 3 / 4 ∧ softmax o' 0 < 3 / 4 ∧
    expected (focalLoss 2) ![3 / 4, 1 - 3 / 4] o' < expected (focalLoss 2) ![3 / 4, 1 - 3 / 4] o := by
  obtain ⟨o, ho⟩ := exists_outputs (3 / 4) (by norm_num) (by norm_num)
  obtain ⟨o', h1, h2⟩ := C112_focal_false 2 (3 / 4) le_rfl (by norm_num) (by norm_num) o (by rw [ho])
  exact ⟨o, o', ho, h1, h2⟩

/-- The squared error of predicting 2 for a target that is 1 or 3 with equal probability is the variance. -/
example : (1 / 2 : ℝ) * Verif.Metrics.mse [([2], [1])] + 1 / 2 * Verif.Metrics.mse [([2], [3])] = 1 := by
  norm_num [Verif.Metrics.mse, mean]

/-! ### Concrete cases that meet the hypotheses of the theorems above -/

example := C112_cross_entropy (c := 2) (by norm_num) ![1 / 4, 3 / 4] (by intro y; fin_cases y <;> norm_num) (by simp [Fin.sum_univ_two]; norm_num) ![0, 1]
example := C112_brier (c := 2) ![1 / 4, 3 / 4] (by simp [Fin.sum_univ_two]; norm_num) ![1 / 2, 1 / 2]
example : ∃ o o' : Fin 2 → ℝ, expected (focalLoss 2) ![3 / 4, 1 - 3 / 4] o < expected (focalLoss 2) ![3 / 4, 1 - 3 / 4] o' := by
  obtain ⟨o, ho⟩ := exists_outputs (3 / 4) (by norm_num) (by norm_num)
  obtain ⟨o', ho'⟩ := exists_outputs (9 / 10) (by norm_num) (by norm_num)
  exact ⟨o, o', C112_focal_overconfident 2 (3 / 4) le_rfl (by norm_num) o o' ho.ge (by rw [ho, ho']; norm_num)⟩
example := C112_mse (d := 1) (gaussianReal 1 2) (fun ω _ => ω) (fun _ => memLp_id_gaussianReal 2) ![3]
example := C112_mae (d := 1) (Measure.dirac (2 : ℝ)) (fun ω _ => ω) (fun _ => measurable_id) (fun _ => integrable_dirac (by simp)) ![2] ![5]
  (by intro i; fin_cases i; simp [Measure.real]; norm_num) (by intro i; fin_cases i; simp [Measure.real]; norm_num)

end Verif.Props.ProperScores
