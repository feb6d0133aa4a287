import Verif.Props.SGMCMC
import Mathlib.Probability.Moments.Variance
import Mathlib.Probability.Independence.InfinitePi
import Mathlib.Probability.Distributions.Gaussian.Real

/-!
Property C117: how the mean kept by SWAG weighs the collected weights.
-/
set_option linter.unusedSectionVars false

namespace Verif.Props.SwagLaw

open Verif.SGMCMC Verif.Props MeasureTheory ProbabilityTheory Finset

variable {ι : Type}

/-- **C117, a weighted average.** For every number of collected weights and every assignment of epochs there are weights of sum one, the same for all
trajectories, such that the mean and the second moment are weighted averages of the collected weights and of their squares; and the sum of the squares of
the weights is at least `1 / (2 e + 1)`, where `e` is the last epoch (counted from 0). -/
theorem C117_weights {N : ℕ} (hN : 0 < N) (es : Fin N → ℕ) : ∃ w : Fin N → ℝ, (∀ k, 0 ≤ w k) ∧ ∑ k, w k = 1 ∧
    (∀ e : ℕ, (∀ k, es k ≤ e) → 1 / (2 * (e : ℝ) + 1) ≤ ∑ k, w k ^ 2) ∧
    ∀ (rank : ℕ) (x : Fin N → ι → ℝ), ∃ s, swagRun rank (List.ofFn fun k => (es k, x k)) = some s ∧
      ∀ i, s.mean i = ∑ k, w k * x k i ∧ s.sq i = ∑ k, w k * x k i ^ 2 := by
  induction N with
  | zero => omega
  | succ N ih =>
    rcases Nat.eq_zero_or_pos N with rfl | hN0
    · refine ⟨fun _ => 1, fun _ => zero_le_one, by simp, fun e _ => ?_, fun rank x => ?_⟩
      · have he : (0 : ℝ) ≤ e := Nat.cast_nonneg e
        have h : 1 / (2 * (e : ℝ) + 1) ≤ 1 := by
          rw [div_le_one (by positivity)]
          linarith
        simpa using h
      · refine ⟨_, by simp [swagRun, swagStep]; rfl, fun i => ?_⟩
        simp
    · obtain ⟨w, h0, h1, h2, h3⟩ := ih hN0 fun k => es k.castSucc
      set l : ℝ := (es (Fin.last N) : ℝ) with hl
      have hl0 : 0 ≤ l := Nat.cast_nonneg _
      have hl1 : 0 < l + 1 := by linarith
      refine ⟨Fin.snoc (α := fun _ => ℝ) (fun k => l / (l + 1) * w k) (1 / (l + 1)), fun k => ?_, ?_, fun e he => ?_, fun rank x => ?_⟩
      · refine Fin.lastCases ?_ (fun k => ?_) k
        · rw [Fin.snoc_last]; positivity
        · rw [Fin.snoc_castSucc]; exact mul_nonneg (by positivity) (h0 k)
      · rw [Fin.sum_univ_castSucc]
        simp only [Fin.snoc_castSucc, Fin.snoc_last, ← Finset.mul_sum, h1]
        field_simp
      · rw [Fin.sum_univ_castSucc]
        simp only [Fin.snoc_castSucc, Fin.snoc_last, mul_pow, ← Finset.mul_sum]
        have hv := h2 e fun k => he k.castSucc
        have hle : l ≤ e := by rw [hl]; exact_mod_cast he (Fin.last N)
        have he0 : (0 : ℝ) < 2 * e + 1 := by linarith
        have h4 : (l / (l + 1)) ^ 2 * (1 / (2 * (e : ℝ) + 1)) ≤ (l / (l + 1)) ^ 2 * ∑ k, w k ^ 2 := mul_le_mul_of_nonneg_left hv (sq_nonneg _)
        refine le_trans ?_ (add_le_add h4 le_rfl)
        rw [div_pow, div_pow, div_mul_div_comm, div_add_div _ _ (by positivity) (by positivity), div_le_div_iff₀ he0 (by positivity)]
        have h5 : 0 ≤ (e - l) * (l + 1) ^ 2 * (2 * e + 1) := mul_nonneg (mul_nonneg (by linarith) (by positivity)) he0.le
        nlinarith [h5]
      · obtain ⟨s, hs, hm⟩ := h3 rank fun k => x k.castSucc
        refine ⟨_, by rw [List.ofFn_succ', List.concat_eq_append, swagRun_concat, hs]; rfl, fun i => ?_⟩
        rw [Fin.sum_univ_castSucc, Fin.sum_univ_castSucc]
        simp only [Fin.snoc_castSucc, Fin.snoc_last]
        rw [(hm i).1, (hm i).2]
        simp only [mul_assoc, ← Finset.mul_sum]
        constructor <;> (field_simp; ring)

/-- **C117, the spread of the mean.** If the collected weights are independent with the same variance, the mean of SWAG has at least that variance divided by
`2 E - 1` for `E` epochs, however many steps there are in an epoch. -/
theorem C117_spread {Ω : Type} [MeasurableSpace Ω] (μ : Measure Ω) [IsProbabilityMeasure μ] {N : ℕ} (hN : 0 < N) (es : Fin N → ℕ) (E : ℕ)
    (hE : ∀ k, es k < E) (rank : ℕ) (X : Fin N → Ω → ι → ℝ) (i : ι) (hX : ∀ k, MemLp (fun ω => X k ω i) 2 μ)
    (hind : Pairwise fun k l => IndepFun (fun ω => X k ω i) (fun ω => X l ω i) μ) (σ : ℝ)
    (hσ : ∀ k, ProbabilityTheory.variance (fun ω => X k ω i) μ = σ ^ 2) (s : Ω → Swag ι)
    (hs : ∀ ω, swagRun rank (List.ofFn fun k => (es k, X k ω)) = some (s ω)) :
    σ ^ 2 / (2 * E - 1) ≤ ProbabilityTheory.variance (fun ω => (s ω).mean i) μ := by
  obtain ⟨w, -, -, h2, h3⟩ := C117_weights (ι := ι) hN es
  have hE1 : 1 ≤ E := by have := hE ⟨0, hN⟩; omega
  have hsum : (fun ω => (s ω).mean i) = ∑ k, fun ω => w k * X k ω i := by
    funext ω
    obtain ⟨t, ht, hm⟩ := h3 rank fun k => X k ω
    rw [hs ω] at ht
    rw [Option.some.inj ht, (hm i).1, Finset.sum_apply]
  rw [hsum, IndepFun.variance_sum (fun k _ => (hX k).const_mul _) fun k _ l _ hkl =>
    (hind hkl).comp (φ := fun v => w k * v) (ψ := fun v => w l * v) (measurable_const_mul _) (measurable_const_mul _)]
  have hv : ∀ k, ProbabilityTheory.variance (fun ω => w k * X k ω i) μ = w k ^ 2 * σ ^ 2 := by
    intro k
    rw [variance_const_mul, hσ k]
  simp only [hv, ← Finset.sum_mul]
  have hb := h2 (E - 1) fun k => by have := hE k; omega
  have e : 2 * ((E - 1 : ℕ) : ℝ) + 1 = 2 * E - 1 := by
    rw [Nat.cast_sub hE1]; push_cast; ring
  rw [e] at hb
  rw [div_eq_mul_inv, mul_comm, ← one_div]
  exact mul_le_mul_of_nonneg_right hb (sq_nonneg σ)

/-- The collected weights of `E` epochs with `B` steps each. -/
def steps (B : ℕ) (x : ℕ → ℕ → ι → ℝ) (E : ℕ) : List (ℕ × (ι → ℝ)) :=
  (List.range E).flatMap fun e => (List.range B).map fun b => (e, x e b)

/-- Steps in one epoch. -/
theorem run_epoch (rank e : ℕ) (x : ℕ → ι → ℝ) (B : ℕ) (s : Swag ι) :
    ∃ t, ((List.range B).map fun b => (e, x b)).foldl (swagStep rank) (some s) = some t ∧
      ∀ i, t.mean i = ((e : ℝ) / (e + 1)) ^ B * s.mean i + ∑ b ∈ range B, ((e : ℝ) / (e + 1)) ^ (B - 1 - b) / (e + 1) * x b i := by
  induction B with
  | zero => exact ⟨s, rfl, fun i => by simp⟩
  | succ B ih =>
    obtain ⟨t, ht, hm⟩ := ih
    rw [List.range_succ, List.map_append, List.foldl_append, ht]
    refine ⟨_, rfl, fun i => ?_⟩
    have he : (e : ℝ) + 1 ≠ 0 := by positivity
    simp only []
    rw [hm i, Finset.sum_range_succ]
    have h1 : ∀ b ∈ range B, ((e : ℝ) / (e + 1)) ^ (B + 1 - 1 - b) / (e + 1) * x b i =
        (e : ℝ) / (e + 1) * (((e : ℝ) / (e + 1)) ^ (B - 1 - b) / (e + 1) * x b i) := by
      intro b hb
      have hb' := Finset.mem_range.1 hb
      rw [show B + 1 - 1 - b = (B - 1 - b) + 1 by omega, pow_succ]
      ring
    rw [Finset.sum_congr rfl h1, ← Finset.mul_sum, show B + 1 - 1 - B = 0 by omega, pow_zero, pow_succ]
    field_simp
    ring

/-- **C117, the epochs.** With `B ≥ 1` steps in every epoch, after `E ≥ 1` epochs the mean is the average over the epochs in which epoch `e` (counted from 0) has
the weight `((e + 1)^B - e^B) / E^B`, so all epochs before epoch `k` together have the weight `(k / E)^B`; within epoch `e` the weight of each step is `e / (e + 1)` times that of the
next one. -/
theorem C117_epochs (rank B : ℕ) (hB : 0 < B) (x : ℕ → ℕ → ι → ℝ) (E : ℕ) (hE : 0 < E) :
    ∃ s, swagRun rank (steps B x E) = some s ∧
      ∀ i, s.mean i = ∑ e ∈ range E, ∑ b ∈ range B, ((e : ℝ) + 1) ^ B / (E : ℝ) ^ B * (((e : ℝ) / (e + 1)) ^ (B - 1 - b) / (e + 1)) * x e b i := by
  induction E with
  | zero => omega
  | succ E ih =>
    rcases Nat.eq_zero_or_pos E with rfl | hE0
    · obtain ⟨B, rfl⟩ : ∃ B', B = B' + 1 := ⟨B - 1, by omega⟩
      have h0 : swagRun rank (steps (B + 1) x 1) = ((List.range B).map fun b => (0, x 0 (b + 1))).foldl (swagStep rank)
          (swagStep rank none (0, x 0 0)) := by
        simp [swagRun, steps, List.range_succ_eq_map, List.map_map, Function.comp_def]
      obtain ⟨t, ht, hm⟩ := run_epoch rank 0 (fun b => x 0 (b + 1)) B ⟨x 0 0, fun i => x 0 0 i ^ 2, [fun _ => 0]⟩
      refine ⟨t, by rw [h0]; exact ht, fun i => ?_⟩
      rw [hm i]
      simp only [Finset.sum_range_one, Nat.cast_zero, zero_add, one_pow, Nat.cast_one, div_one, one_mul]
      rw [Finset.sum_range_succ' (fun b => (0 : ℝ) ^ (B + 1 - 1 - b) * x 0 b i), add_comm]
      congr 1
      refine Finset.sum_congr rfl fun b hb => ?_
      rw [show B + 1 - 1 - (b + 1) = B - 1 - b by omega]
    · obtain ⟨s, hs, hm⟩ := ih hE0
      obtain ⟨t, ht, hmt⟩ := run_epoch rank E (x E) B s
      refine ⟨t, ?_, fun i => ?_⟩
      · unfold steps swagRun
        rw [List.range_succ, List.flatMap_append, List.foldl_append]
        have : ((List.range E).flatMap fun e => (List.range B).map fun b => (e, x e b)).foldl (swagStep rank) none = some s := hs
        rw [this]
        simpa using ht
      · rw [hmt i, hm i, Finset.sum_range_succ]
        have hEp : (E : ℝ) ≠ 0 := by positivity
        have hE1 : (E : ℝ) + 1 ≠ 0 := by positivity
        congr 1
        · rw [Finset.mul_sum]
          refine Finset.sum_congr rfl fun e _ => ?_
          rw [Finset.mul_sum]
          refine Finset.sum_congr rfl fun b _ => ?_
          push_cast
          rw [div_pow]
          field_simp
        · refine Finset.sum_congr rfl fun b _ => ?_
          push_cast
          field_simp

/-- **C117, the weight of the epochs.** -/
theorem C117_epoch_weight (B E : ℕ) (hE : 0 < E) (e : ℕ) :
    ∑ b ∈ range B, ((e : ℝ) + 1) ^ B / (E : ℝ) ^ B * (((e : ℝ) / (e + 1)) ^ (B - 1 - b) / (e + 1)) = (((e : ℝ) + 1) ^ B - (e : ℝ) ^ B) / (E : ℝ) ^ B ∧
    (0 < B → ∀ k, ∑ e ∈ range k, (((e : ℝ) + 1) ^ B - (e : ℝ) ^ B) / (E : ℝ) ^ B = ((k : ℝ) / E) ^ B) := by
  constructor
  · have he : (e : ℝ) + 1 ≠ 0 := by positivity
    rw [← Finset.mul_sum, ← Finset.sum_div, Finset.sum_range_reflect (fun k => ((e : ℝ) / (e + 1)) ^ k) B]
    have h1 : (e : ℝ) / (e + 1) ≠ 1 := by
      rw [Ne, div_eq_one_iff_eq he]; linarith
    rw [geom_sum_eq h1, div_pow]
    have h2 : (e : ℝ) / (e + 1) - 1 = -(1 / (e + 1)) := by field_simp; ring
    rw [h2]
    field_simp
    ring
  · intro hB k
    rw [← Finset.sum_div, div_pow]
    congr 1
    induction k with
    | zero => simp [hB.ne']
    | succ k ih => rw [Finset.sum_range_succ, ih]; push_cast; ring

/-- **C117, refuted: the average.** The mean is not the average of the collected weights: over two epochs of two steps it can be a quarter where
the average is a half. -/
theorem C117_average_false (rank : ℕ) : ∃ x : ℕ → ℕ → Unit → ℝ, ∃ s, swagRun rank (steps 2 x 2) = some s ∧ s.mean () = 1 / 4 ∧
    (((steps 2 x 2).map fun ex => ex.2 ()).sum / (steps 2 x 2).length = 1 / 2) := by
  obtain ⟨s, h1, h2⟩ := C117_epochs rank 2 (by norm_num) (fun e _ (_ : Unit) => if e = 0 then (1 : ℝ) else 0) 2 (by norm_num)
  refine ⟨_, s, h1, ?_, ?_⟩
  · rw [h2 ()]
    norm_num [Finset.sum_range_succ]
  · norm_num [steps, List.range_succ]

/-- Ten epochs of twenty steps: the first five epochs together have a weight below one in a million. -/
example : ((5 : ℝ) / 10) ^ 20 < 1 / 1000000 := by norm_num

/-- Independent standard normal weights, two epochs of three steps: the variance of the mean is at least a third. -/
example : ∃ s : (Fin 6 → ℝ) → Swag Unit,
    (∀ ω, swagRun 2 (List.ofFn fun k : Fin 6 => (![0, 0, 0, 1, 1, 1] k, fun _ : Unit => ω k)) = some (s ω)) ∧
    1 / 3 ≤ ProbabilityTheory.variance (fun ω => (s ω).mean ()) (Measure.pi fun _ : Fin 6 => gaussianReal 0 1) := by
  have hsome : ∀ ω : Fin 6 → ℝ, ∃ s, swagRun 2 (List.ofFn fun k : Fin 6 => (![0, 0, 0, 1, 1, 1] k, fun _ : Unit => ω k)) = some s :=
    fun ω => swagRun_isSome 2 _ (by simp)
  choose s hs using hsome
  refine ⟨s, hs, ?_⟩
  have hmp : ∀ k : Fin 6, MeasurePreserving (fun ω : Fin 6 → ℝ => ω k) (Measure.pi fun _ : Fin 6 => gaussianReal 0 1) (gaussianReal 0 1) :=
    fun k => measurePreserving_eval (fun _ : Fin 6 => gaussianReal 0 1) k
  have hind : iIndepFun (fun (k : Fin 6) (ω : Fin 6 → ℝ) => ω k) (Measure.pi fun _ : Fin 6 => gaussianReal 0 1) :=
    iIndepFun_pi (X := fun _ x => x) fun _ => aemeasurable_id
  have h := C117_spread (ι := Unit) (Measure.pi fun _ : Fin 6 => gaussianReal 0 1) (by norm_num) ![0, 0, 0, 1, 1, 1] 2 (by decide) 2
    (fun k ω _ => ω k) () (fun k => (memLp_id_gaussianReal 2).comp_measurePreserving (hmp k)) (fun k l hkl => hind.indepFun hkl) 1
    (fun k => by
      have h1 : ProbabilityTheory.variance (fun ω : Fin 6 → ℝ => ω k) (Measure.pi fun _ : Fin 6 => gaussianReal 0 1) =
          ProbabilityTheory.variance id (gaussianReal 0 1) := by
        have h2 := variance_map (X := id) (Y := fun ω : Fin 6 → ℝ => ω k) (μ := Measure.pi fun _ : Fin 6 => gaussianReal 0 1)
          (by fun_prop) (hmp k).measurable.aemeasurable
        rw [(hmp k).map_eq] at h2
        exact h2.symm
      rw [h1, variance_id_gaussianReal]
      simp) s hs
  norm_num at h ⊢
  exact h

/-! ### Concrete cases that meet the hypotheses of the theorems above -/

example := C117_weights (ι := Unit) (N := 6) (by norm_num) ![0, 0, 0, 1, 1, 1]
example := C117_epochs (ι := Unit) 2 3 (by norm_num) (fun e b _ => (e : ℝ) + b) 5 (by norm_num)
example := C117_epoch_weight 3 5 (by norm_num) 4

end Verif.Props.SwagLaw
