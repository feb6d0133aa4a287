import Mathlib.Analysis.InnerProductSpace.PiL2
import Mathlib.Algebra.BigOperators.Fin
import Mathlib.Tactic.Linarith
import Mathlib.Tactic.Ring
import Mathlib.Tactic.FieldSimp
import Mathlib.Tactic.NormNum
import Verif.Model.Metrics
import Verif.Model.Predictive
import Verif.Props.Predictive

/-!
# C122: what averaging over posterior samples does to the error of the predictions

`ProbModel.predictive.mean` averages the predictions of `n` sampled models, and the metrics of
`fortuna.metric` measure the error of the result. Here the error of the average is compared with the
errors of the sampled models.
-/

set_option linter.unusedSectionVars false

namespace Verif.Averaging
open Verif.Predictive Verif.Metrics Verif.ArrayOps

variable {K : Type} [Field K] [LinearOrder K] [IsStrictOrderedRing K]
variable {X Key T : Type}

/-- The predictions of one model on a data set: `m x j` is component `j` (of `c`) of its prediction at
`x`. -/
def predsOf (c : ℕ) (m : X → ℕ → K) (data : List (X × T)) : List (List K × T) :=
  data.map fun r => ((List.range c).map (m r.1), r.2)

theorem zip_sum (g : K → K → K) (c : ℕ) (f : ℕ → K) (t : List K) (ht : t.length = c) :
    (List.zipWith g ((List.range c).map f) t).sum =
      ∑ j ∈ Finset.range c, g (f j) (t.getD j 0) := by
  induction c generalizing t f with
  | zero => simp
  | succ c ih =>
    obtain ⟨a, t', rfl⟩ : ∃ a t', t = a :: t' := by
      cases t with
      | nil => simp at ht
      | cons a t' => exact ⟨a, t', rfl⟩
    rw [List.range_succ_eq_map, List.map_cons, List.map_map, List.zipWith_cons_cons, List.sum_cons,
      Finset.sum_range_succ']
    rw [ih (f ∘ Nat.succ) t' (by simpa using ht)]
    simp [add_comm]

theorem mean_add (data : List X) (f g : X → K) :
    mean (data.map fun x => f x + g x) = mean (data.map f) + mean (data.map g) := by
  unfold mean
  rw [List.sum_map_add]
  simp [add_div]

theorem mean_sum (data : List X) (s : Finset ℕ) (f : ℕ → X → K) (n : K) :
    mean (data.map fun x => (∑ i ∈ s, f i x) / n) = (∑ i ∈ s, mean (data.map (f i))) / n := by
  unfold mean
  have : ∀ l : List X, (l.map fun x => (∑ i ∈ s, f i x) / n).sum =
      (∑ i ∈ s, (l.map (f i)).sum) / n := by
    intro l
    induction l with
    | nil => simp
    | cons a l ih => simp only [List.map_cons, List.sum_cons, ih, Finset.sum_add_distrib, add_div]
  rw [this]
  simp only [List.length_map]
  rw [← Finset.sum_div]
  ring

theorem mean_congr (data : List X) (f g : X → K) (h : ∀ x ∈ data, f x = g x) :
    mean (data.map f) = mean (data.map g) := by
  rw [List.map_congr_left h]

theorem mean_le (data : List X) (f g : X → K) (h : ∀ x ∈ data, f x ≤ g x) :
    mean (data.map f) ≤ mean (data.map g) := by
  unfold mean
  simp only [List.length_map]
  exact div_le_div_of_nonneg_right (List.sum_le_sum h) (by positivity)

theorem mean_nonneg (data : List X) (f : X → K) (h : ∀ x ∈ data, 0 ≤ f x) :
    0 ≤ mean (data.map f) := by
  unfold mean
  refine div_nonneg (List.sum_nonneg ?_) (by positivity)
  intro a ha
  obtain ⟨x, hx, rfl⟩ := List.mem_map.1 ha
  exact h x hx

variable (split : Key → ℕ → ℕ → Key)

/-- One component of one row: squared error of the average plus epistemic variance is the average
squared error. -/
theorem cell (m : Key → K) (n : ℕ) (hn : 0 < n) (rng : Key) (y : K) :
    (predMean split m n rng - y) ^ 2 + epistemic split m n rng =
      (∑ i ∈ Finset.range n, (m (split rng n i) - y) ^ 2) / n := by
  obtain ⟨h1, -, h2, -⟩ := Verif.Props.C45_parts split m m n hn rng
  rw [h1, h2, ← Verif.Props.sq_gap n hn]
  have hn' : (n : K) ≠ 0 := by exact_mod_cast hn.ne'
  have : ∑ i ∈ Finset.range n, (m (split rng n i) - y) ^ 2 =
      ∑ i ∈ Finset.range n, m (split rng n i) ^ 2 -
        2 * y * ∑ i ∈ Finset.range n, m (split rng n i) + n * y ^ 2 := by
    have h1 : ∀ i, (m (split rng n i) - y) ^ 2 =
      m (split rng n i) ^ 2 - 2 * y * m (split rng n i) + y ^ 2 := fun i => by ring
    simp only [h1]
    rw [Finset.sum_add_distrib, Finset.sum_sub_distrib, ← Finset.mul_sum]
    simp
  rw [this]
  field_simp
  ring

theorem brier_eq_mse (c : ℕ) (m : X → ℕ → K) (data : List (X × ℤ)) :
    brier (predsOf c m data) = mse (predsOf c m (data.map fun r => (r.1, oneHot c r.2))) := by
  unfold brier mse predsOf brierRow
  simp [List.map_map, Function.comp_def]

/-- The root mean square of a table of errors as a norm. -/
theorem rms_norm (c : ℕ) (data : List (X × List ℝ)) (hc : ∀ r ∈ data, r.2.length = c)
    (m : X → ℕ → ℝ) :
    rmse (predsOf c m data) =
      ‖(WithLp.toLp 2 fun k : Fin data.length × Fin c =>
        m (data[k.1]).1 k.2 - (data[k.1]).2.getD k.2 0 : EuclideanSpace ℝ (Fin data.length × Fin c))‖ /
        Real.sqrt data.length := by
  unfold rmse predsOf
  rw [List.map_map, EuclideanSpace.norm_eq, ← Real.sqrt_div (by positivity)]
  congr 1
  unfold mean
  simp only [List.length_map]
  congr 1
  rw [List.map_congr_left (g := fun r : X × List ℝ =>
    ∑ j ∈ Finset.range c, (m r.1 j - r.2.getD j 0) ^ 2) (fun r hr => by
      simpa using zip_sum (fun a b => (a - b) ^ 2) c (m r.1) r.2 (hc r hr))]
  rw [← Fin.sum_univ_fun_getElem, Fintype.sum_prod_type]
  refine Finset.sum_congr rfl fun k _ => ?_
  rw [Finset.sum_range]
  refine Finset.sum_congr rfl fun j _ => ?_
  simp

end Verif.Averaging

namespace Verif.Props
open Verif.Predictive Verif.Metrics Verif.ArrayOps Verif.Averaging

variable {K : Type} [Field K] [LinearOrder K] [IsStrictOrderedRing K]
variable {X Key : Type} (split : Key → ℕ → ℕ → Key)

/-- **C122, mean squared error.** For every data set, every number of samples and every model, the mean
squared error of the predictive mean falls short of the average mean squared error of the sampled models
by exactly the epistemic variance, summed over components and averaged over the data. -/
theorem C122_mse (c n : ℕ) (hn : 0 < n) (rng : Key) (m : X → ℕ → Key → K)
    (data : List (X × List K)) (hc : ∀ r ∈ data, r.2.length = c) :
    mse (predsOf c (fun x j => predMean split (m x j) n rng) data) +
        mean (data.map fun r => ∑ j ∈ Finset.range c, epistemic split (m r.1 j) n rng) =
      (∑ i ∈ Finset.range n, mse (predsOf c (fun x j => m x j (split rng n i)) data)) / n := by
  unfold mse predsOf
  simp only [List.map_map]
  rw [← mean_sum data (Finset.range n) (fun i => _) (n : K), ← mean_add]
  refine mean_congr _ _ _ fun r hr => ?_
  simp only [Function.comp]
  rw [zip_sum _ c _ _ (hc r hr)]
  simp only [fun i => zip_sum (fun a b => (a - b) ^ 2) c (fun j => m r.1 j (split rng n i)) _ (hc r hr)]
  rw [← Finset.sum_add_distrib, Finset.sum_comm, Finset.sum_div]
  exact Finset.sum_congr rfl fun j _ => cell split (m r.1 j) n hn rng _

/-- **C122, Brier score.** The same for class probabilities and integer labels (also out-of-range ones):
the Brier score of the averaged probabilities is the average Brier score of the sampled models minus the
epistemic variance. -/
theorem C122_brier (c n : ℕ) (hn : 0 < n) (rng : Key) (p : X → ℕ → Key → K) (data : List (X × ℤ)) :
    brier (predsOf c (fun x j => predMean split (p x j) n rng) data) +
        mean (data.map fun r => ∑ j ∈ Finset.range c, epistemic split (p r.1 j) n rng) =
      (∑ i ∈ Finset.range n, brier (predsOf c (fun x j => p x j (split rng n i)) data)) / n := by
  simp only [brier_eq_mse]
  rw [← C122_mse split c n hn rng p _ (by
    intro r hr
    obtain ⟨q, -, rfl⟩ := List.mem_map.1 hr
    simp [oneHot]), List.map_map]
  rfl

/-- **C122, never worse than the average model** in mean squared error, and no better than that only if,
at every data point, all sampled models predict the same. -/
theorem C122_no_worse (c n : ℕ) (hn : 0 < n) (rng : Key) (m : X → ℕ → Key → K)
    (data : List (X × List K)) (hc : ∀ r ∈ data, r.2.length = c) :
    let avg := (∑ i ∈ Finset.range n, mse (predsOf c (fun x j => m x j (split rng n i)) data)) / n
    let ens := mse (predsOf c (fun x j => predMean split (m x j) n rng) data)
    ens ≤ avg ∧
    (ens = avg ↔ ∀ r ∈ data, ∀ j < c, ∀ i < n, m r.1 j (split rng n i) = m r.1 j (split rng n 0)) := by
  intro avg ens
  have h := C122_mse split c n hn rng m data hc
  have hepi : ∀ x j, 0 ≤ epistemic split (m x j) n rng := fun x j => le_max_left _ _
  have h0 := mean_nonneg data (fun r => ∑ j ∈ Finset.range c, epistemic split (m r.1 j) n rng)
    fun r _ => Finset.sum_nonneg fun j _ => hepi _ _
  refine ⟨by simp only [avg, ens]; linarith, ?_⟩
  have hiff : ∀ x j, epistemic split (m x j) n rng = 0 ↔
      ∀ i < n, m x j (split rng n i) = m x j (split rng n 0) := by
    intro x j
    obtain ⟨-, -, -, h4⟩ := C45_parts split (m x j) (m x j) n hn rng
    rw [h4]
    dsimp only
    constructor
    · intro hh i hi
      rw [hh i hi, hh 0 hn]
    · intro hh i hi
      have hn' : (n : K) ≠ 0 := by exact_mod_cast hn.ne'
      rw [Finset.sum_congr rfl fun k hk => hh k (Finset.mem_range.1 hk), hh i hi]
      simp [hn']
  have hz : ens = avg ↔
      mean (data.map fun r => ∑ j ∈ Finset.range c, epistemic split (m r.1 j) n rng) = 0 := by
    simp only [avg, ens]
    constructor
    · intro hh; linarith
    · intro hh; linarith
  rw [hz]
  simp only [← hiff]
  constructor
  · intro hh r hr j hj
    unfold mean at hh
    rcases div_eq_zero_iff.1 hh with hs | hl
    · have h2 := List.single_le_sum (l := data.map fun r =>
        ∑ j ∈ Finset.range c, epistemic split (m r.1 j) n rng) (by
          intro a ha
          obtain ⟨x, -, rfl⟩ := List.mem_map.1 ha
          exact Finset.sum_nonneg fun j _ => hepi _ _) _ (List.mem_map.2 ⟨r, hr, rfl⟩)
      have h1 := le_antisymm (h2.trans_eq hs) (Finset.sum_nonneg fun j _ => hepi _ _)
      exact (Finset.sum_eq_zero_iff_of_nonneg fun j _ => hepi _ _).1 h1 j (Finset.mem_range.2 hj)
    · simp at hl
      subst hl
      cases hr
  · intro hh
    rw [mean_congr data _ (fun _ => 0) fun r hr =>
      Finset.sum_eq_zero fun j hj => hh r hr j (Finset.mem_range.1 hj)]
    unfold mean
    simp

/-- **C122, never worse than the average model** in Brier score, with equality only if all sampled models
give every data point the same probabilities. -/
theorem C122_brier_no_worse (c n : ℕ) (hn : 0 < n) (rng : Key) (p : X → ℕ → Key → K)
    (data : List (X × ℤ)) :
    let avg := (∑ i ∈ Finset.range n, brier (predsOf c (fun x j => p x j (split rng n i)) data)) / n
    let ens := brier (predsOf c (fun x j => predMean split (p x j) n rng) data)
    ens ≤ avg ∧
    (ens = avg ↔ ∀ r ∈ data, ∀ j < c, ∀ i < n, p r.1 j (split rng n i) = p r.1 j (split rng n 0)) := by
  simp only [brier_eq_mse]
  have h := C122_no_worse split c n hn rng p (data.map fun r => (r.1, oneHot c r.2)) (by
    intro r hr
    obtain ⟨q, -, rfl⟩ := List.mem_map.1 hr
    simp [oneHot])
  refine ⟨h.1, h.2.trans ?_⟩
  constructor
  · intro hh r hr
    exact hh _ (List.mem_map.2 ⟨r, hr, rfl⟩)
  · intro hh r hr
    obtain ⟨q, hq, rfl⟩ := List.mem_map.1 hr
    exact hh q hq

/-- **C122, mean absolute error.** The mean absolute error of the predictive mean is at most the average
of the sampled models. -/
theorem C122_mae (c n : ℕ) (hn : 0 < n) (rng : Key) (m : X → ℕ → Key → K)
    (data : List (X × List K)) (hc : ∀ r ∈ data, r.2.length = c) :
    mae (predsOf c (fun x j => predMean split (m x j) n rng) data) ≤
      (∑ i ∈ Finset.range n, mae (predsOf c (fun x j => m x j (split rng n i)) data)) / n := by
  have hn' : (0 : K) < n := by exact_mod_cast hn
  unfold mae predsOf
  simp only [List.map_map]
  rw [← mean_sum data (Finset.range n) (fun i => _) (n : K)]
  refine mean_le _ _ _ fun r hr => ?_
  simp only [Function.comp]
  rw [zip_sum _ c _ _ (hc r hr)]
  simp only [fun i => zip_sum (fun a b => |a - b|) c (fun j => m r.1 j (split rng n i)) _ (hc r hr)]
  rw [Finset.sum_comm, Finset.sum_div]
  refine Finset.sum_le_sum fun j _ => ?_
  unfold predMean
  rw [loopSum_eq n hn, le_div_iff₀ hn']
  calc _ = |(∑ i ∈ Finset.range n, m r.1 j (split rng n i)) / n - r.2.getD j 0| * |(n : K)| := by
        rw [abs_of_pos hn']
    _ = |∑ i ∈ Finset.range n, (m r.1 j (split rng n i) - r.2.getD j 0)| := by
        rw [← abs_mul]
        congr 1
        rw [Finset.sum_sub_distrib]
        simp
        field_simp
    _ ≤ _ := Finset.abs_sum_le_sum_abs _ _

/-- **C122, root mean squared error.** It is at most the average of the root mean squared errors of the
sampled models (which is less than the root of their average mean squared error). -/
theorem C122_rmse (c n : ℕ) (hn : 0 < n) (rng : Key) (m : X → ℕ → Key → ℝ)
    (data : List (X × List ℝ)) (hc : ∀ r ∈ data, r.2.length = c) :
    rmse (predsOf c (fun x j => predMean split (m x j) n rng) data) ≤
      (∑ i ∈ Finset.range n, rmse (predsOf c (fun x j => m x j (split rng n i)) data)) / n := by
  have hn' : (0 : ℝ) < n := by exact_mod_cast hn
  simp only [rms_norm c data hc]
  rw [← Finset.sum_div, div_div, mul_comm, ← div_div]
  refine div_le_div_of_nonneg_right ?_ (Real.sqrt_nonneg _)
  rw [le_div_iff₀ hn']
  refine le_trans (le_of_eq ?_) (norm_sum_le _ _)
  rw [show (n : ℝ) = ‖(n : ℝ)‖ by rw [Real.norm_of_nonneg hn'.le], mul_comm, ← norm_smul]
  congr 1
  ext k
  simp only [PiLp.smul_apply, WithLp.ofLp_sum, Finset.sum_apply, smul_eq_mul]
  unfold predMean
  rw [loopSum_eq n hn, Finset.sum_sub_distrib]
  simp
  field_simp

/-- **C122, negative log-likelihood.** Summed over any data set, `log_prob` of the predictive is at least
the average log-likelihood of the sampled models. -/
theorem C122_nll {n : ℕ} (hn : 0 < n) (data : List X) (l : X → Fin n → ℝ) :
    (∑ i, (data.map fun x => l x i).sum) / n ≤ (data.map fun x => logProb (l x)).sum := by
  induction data with
  | nil => simp
  | cons a d ih =>
    simp only [List.map_cons, List.sum_cons, Finset.sum_add_distrib, add_div]
    exact add_le_add (C49_jensen hn (l a)) ih

/-- Two models `0` and `1` and two inputs; sampling with key `0` gives model `i` for the `i`-th key. -/
def avgSplit (_ _ i : ℕ) : ℕ := i

/-- **C122, what does not follow.** False of the code: that the root mean absolute error of the predictive
mean is at most the average of the sampled models. With one target `0` and predictions `0` and `2` it is
`1`, the average is `√2 / 2`. -/
theorem C122_rmae_false :
    ¬ ∀ (c n : ℕ) (_ : 0 < n) (m : ℕ → ℕ → ℕ → ℝ) (data : List (ℕ × List ℝ)),
      (∀ r ∈ data, r.2.length = c) →
      rmae (predsOf c (fun x j => predMean avgSplit (m x j) n 0) data) ≤
        (∑ i ∈ Finset.range n, rmae (predsOf c (fun x j => m x j (avgSplit 0 n i)) data)) / n := by
  intro h
  have h1 := h 1 2 (by norm_num) (fun _ _ i => 2 * i) [(0, [0])] (by simp)
  have h2 : (Real.sqrt 2) ^ 2 = 2 := Real.sq_sqrt (by norm_num)
  have h3 : 0 ≤ Real.sqrt 2 := Real.sqrt_nonneg 2
  norm_num [rmae, predsOf, predMean, loopSum, avgSplit, mean, Finset.sum_range_succ, List.range_succ,
    List.range'] at h1
  nlinarith

/-- The table of a classifier for `accuracy` and the calibration errors: the predicted class and its
probability (`predictive.mode` is the `argmax` of the mean, predictive/classification.py L86). -/
def pointsOf (c : ℕ) (p : X → ℕ → K) (data : List (X × ℤ)) : List (Point K) :=
  data.map fun r =>
    let row := (List.range c).map (p r.1)
    ⟨(argmax row : ℕ), row.getD (argmax row) 0, r.2⟩

/-- Class probabilities of two models on two inputs. -/
def accModels (x j i : ℕ) : ℚ :=
  let good := x = i
  let p : ℚ := if good then 3 / 5 else 1 / 10
  if j = 0 then p else 1 - p

/-- **C122, accuracy.** False of the code: that averaging cannot lower the accuracy below that of every
sampled model. Both models are right on one of two inputs, their average is right on none, though its
Brier score is better than either's. -/
theorem C122_accuracy_false :
    let data : List (ℕ × ℤ) := [(0, 0), (1, 0)]
    let ens := fun x j => predMean avgSplit (fun i => accModels x j i) 2 0
    (∀ i < 2, accuracy (pointsOf 2 (fun x j => accModels x j i) data) = 1 / 2) ∧
    accuracy (pointsOf 2 ens data) = 0 ∧
    ∀ i < 2, brier (predsOf 2 ens data) < brier (predsOf 2 (fun x j => accModels x j i) data) := by
  decide +kernel

/-- Class probabilities of two models on two inputs: model `0` is always undecided, model `1` certain. -/
def calModels (x j i : ℕ) : ℚ := if i = 0 then 1 / 2 else if j = x then 1 else 0

/-- **C122, calibration.** False of the code: that the average of calibrated models is calibrated. Both
models have expected calibration error 0, the average of their probabilities has `1 / 4`. -/
theorem C122_ece_false :
    let data : List (ℕ × ℤ) := [(0, 0), (1, 1)]
    let ens := fun x j => predMean avgSplit (fun i => calModels x j i) 2 0
    (∀ i < 2, ece (pointsOf 2 (fun x j => calModels x j i) data) = 0) ∧
    ece (pointsOf 2 ens data) = 1 / 4 := by
  decide +kernel

/-- **C122, the best model.** False of the code: that the average is as good as the best sampled model. -/
theorem C122_best_false :
    let data : List (ℕ × ℤ) := [(0, 0), (1, 1)]
    brier (predsOf 2 (fun x j => calModels x j 1) data) = 0 ∧
    brier (predsOf 2 (fun x j => predMean avgSplit (fun i => calModels x j i) 2 0) data) = 1 / 8 := by
  decide +kernel

/-- Two models that disagree: the gain is the epistemic variance. -/
example :
    mse (predsOf 1 (fun x j => predMean avgSplit (fun i => (i : ℚ) + x + j) 2 0) [(3, [4]), (5, [0])]) +
      mean ([(3, [4]), (5, [0])].map fun r : ℕ × List ℚ => ∑ j ∈ Finset.range 1,
        epistemic avgSplit (fun i => (i : ℚ) + r.1 + j) 2 0) =
      (∑ i ∈ Finset.range 2, mse (predsOf 1 (fun x j => (i : ℚ) + x + j) [(3, [4]), (5, [0])])) / 2 := by
  decide +kernel

/-! ### Concrete cases that meet the hypotheses of the theorems above -/

example := C122_mse (K := ℚ) (X := ℚ) avgSplit 2 3 (by decide) 0 (fun x j k => x + j * k) [(1, [2, 3]), (4, [0, 1])] (by simp)
example := C122_brier (K := ℚ) (X := ℚ) avgSplit 2 3 (by decide) 0 (fun x j k => x + j * k) [(1, 0), (4, 1)]
example := C122_no_worse (K := ℚ) (X := ℚ) avgSplit 2 3 (by decide) 0 (fun x j k => x + j * k) [(1, [2, 3]), (4, [0, 1])] (by simp)
example := C122_brier_no_worse (K := ℚ) (X := ℚ) avgSplit 2 3 (by decide) 0 (fun x j k => x + j * k) [(1, 0), (4, 1)]
example := C122_mae (K := ℚ) (X := ℚ) avgSplit 2 3 (by decide) 0 (fun x j k => x + j * k) [(1, [2, 3]), (4, [0, 1])] (by simp)
example := C122_rmse (X := ℝ) avgSplit 2 3 (by decide) 0 (fun x j k => x + j * k) [(1, [2, 3]), (4, [0, 1])] (by simp)
example := C122_nll (X := ℝ) (n := 3) (by decide) [1, 2] (fun x i => -x * i)

end Verif.Props
