import Verif.Props.BatchLaw
import Mathlib.Algebra.Order.Chebyshev
import Mathlib.Algebra.Order.BigOperators.Ring.Finset
import Mathlib.GroupTheory.Perm.Basic
import Mathlib.Data.Fintype.Perm
import Mathlib.Probability.Independence.InfinitePi
import Mathlib.Probability.Distributions.Uniform

/-!
Property C152: SGLD on batches that are reshuffled in every epoch, when the posterior is Gaussian.

The rows are those of `n` batches of `b` rows; a row of the data is represented by its centre, the mean the posterior would have if all data were like it, so that the centre of a batch
is the average of the centres of its rows (`C152_centre`).
-/
set_option linter.unusedSectionVars false

namespace Verif.Props.Reshuffle

open Verif.SGMCMC Verif.Props Verif.Props.Langevin Verif.Props.LangevinSchedule Verif.Props.BatchLaw MeasureTheory ProbabilityTheory Finset Filter Topology

/-- **C152, the centre of a batch** is the average of those of its rows. -/
theorem C152_centre (N : ℕ) (v w : ℝ) (ys : List ℝ) : centre N v w ys = (ys.map fun y => centre N v w [y]).sum / ys.length := by
  unfold centre
  have : (ys.map fun y => postVar N v w * (N / v) * ([y].sum / ([y].length : ℝ))).sum = postVar N v w * (N / v) * ys.sum := by
    induction ys with
    | nil => simp
    | cons y t ih => rw [List.map_cons, List.sum_cons, List.sum_cons, ih]; simp; ring
  rw [this]
  ring

/-! ## A weighted sum of a shuffled list -/

section Perm

variable {κ : Type} [Fintype κ] [DecidableEq κ]

/-- The average of a function of the rows over all their orders. -/
noncomputable def permMean (c : κ → ℝ) (f : (κ → ℝ) → ℝ) : ℝ := ((Fintype.card κ).factorial : ℝ)⁻¹ * ∑ σ : Equiv.Perm κ, f (c ∘ σ)

/-- The average of the rows. -/
noncomputable def avg (c : κ → ℝ) : ℝ := (∑ i, c i) / Fintype.card κ

/-- The sum of the squared deviations of the rows. -/
noncomputable def dev2 (c : κ → ℝ) : ℝ := ∑ i, (c i - avg c) ^ 2

theorem card_perm : (Fintype.card (Equiv.Perm κ) : ℝ) = ((Fintype.card κ).factorial : ℝ) := by rw [Fintype.card_perm]

/-- The sum over all orders of a product of entries. -/
def prodSum (d : κ → ℝ) (i j : κ) : ℝ := ∑ σ : Equiv.Perm κ, d (σ i) * d (σ j)

theorem prodSum_perm (d : κ → ℝ) (τ : Equiv.Perm κ) (i j : κ) : prodSum d (τ i) (τ j) = prodSum d i j := by
  unfold prodSum
  exact Fintype.sum_equiv (Equiv.mulRight τ) _ _ fun σ => rfl

theorem exists_perm (i j i' j' : κ) (h : i ≠ j) (h' : i' ≠ j') : ∃ τ : Equiv.Perm κ, τ i = i' ∧ τ j = j' := by
  have hx : Equiv.swap i i' j ≠ i' := fun e => h (by
    have : Equiv.swap i i' i = i' := Equiv.swap_apply_left _ _
    exact (Equiv.swap i i').injective (this.trans e.symm))
  refine ⟨Equiv.swap (Equiv.swap i i' j) j' * Equiv.swap i i', ?_, ?_⟩
  · rw [Equiv.Perm.mul_apply, Equiv.swap_apply_left, Equiv.swap_apply_of_ne_of_ne hx.symm h']
  · rw [Equiv.Perm.mul_apply, Equiv.swap_apply_left]

theorem sum_diag (d : κ → ℝ) (i : κ) : (Fintype.card κ : ℝ) * prodSum d i i = (Fintype.card κ).factorial * ∑ k, d k ^ 2 := by
  have h1 : ∀ k, prodSum d k k = prodSum d i i := fun k => by
    have := prodSum_perm d (Equiv.swap i k) i i
    rwa [Equiv.swap_apply_left] at this
  have h2 : ∑ k, prodSum d k k = (Fintype.card κ : ℝ) * prodSum d i i := by
    rw [sum_congr rfl fun k _ => h1 k, sum_const, card_univ, nsmul_eq_mul]
  rw [← h2]
  unfold prodSum
  rw [sum_comm, ← card_perm]
  rw [sum_congr rfl fun (σ : Equiv.Perm κ) _ => show ∑ k, d (σ k) * d (σ k) = ∑ k, d k ^ 2 by
    rw [← Equiv.sum_comp σ fun k => d k ^ 2]
    exact sum_congr rfl fun k _ => by ring]
  rw [sum_const, card_univ, nsmul_eq_mul]

theorem sum_off (d : κ → ℝ) (hd : ∑ k, d k = 0) (i j : κ) (hij : i ≠ j) : prodSum d i i + ((Fintype.card κ : ℝ) - 1) * prodSum d i j = 0 := by
  have h1 : ∀ k, k ≠ i → prodSum d i k = prodSum d i j := fun k hk => by
    obtain ⟨τ, h1, h2⟩ := exists_perm i j i k hij hk.symm
    have := prodSum_perm d τ i j
    rwa [h1, h2] at this
  have h2 : ∑ k, prodSum d i k = 0 := by
    unfold prodSum
    rw [sum_comm]
    refine sum_eq_zero fun σ _ => ?_
    rw [← mul_sum, Equiv.sum_comp σ d, hd, mul_zero]
  rw [← Finset.add_sum_erase _ _ (mem_univ i), sum_congr rfl fun k hk => h1 k (ne_of_mem_erase hk), sum_const, card_erase_of_mem (mem_univ i), card_univ, nsmul_eq_mul] at h2
  have : 1 ≤ Fintype.card κ := Fintype.card_pos_iff.2 ⟨i⟩
  rw [Nat.cast_sub this, Nat.cast_one] at h2
  exact h2

theorem avg_dev (c : κ → ℝ) (hm : 0 < Fintype.card κ) : ∑ k, (c k - avg c) = 0 := by
  have : (Fintype.card κ : ℝ) ≠ 0 := by positivity
  rw [sum_sub_distrib, sum_const, card_univ, nsmul_eq_mul, avg, mul_div_cancel₀ _ this, sub_self]

/-- **C152, shuffling.** The average over all orders of a weighted sum of the rows is the sum of the weights times the average of the rows. -/
theorem C152_perm_mean (c u : κ → ℝ) (hm : 0 < Fintype.card κ) : permMean c (fun r => ∑ i, u i * r i) = (∑ i, u i) * avg c := by
  have hm' : (Fintype.card κ : ℝ) ≠ 0 := by positivity
  have hf : ((Fintype.card κ).factorial : ℝ) ≠ 0 := by exact_mod_cast Nat.factorial_ne_zero _
  have h1 : ∀ i j, ∑ σ : Equiv.Perm κ, c (σ i) = ∑ σ : Equiv.Perm κ, c (σ j) := fun i j => by
    refine Fintype.sum_equiv (Equiv.mulRight (Equiv.swap i j)) _ _ fun σ => ?_
    simp
  have h2 : ∀ i, ∑ σ : Equiv.Perm κ, c (σ i) = (Fintype.card κ).factorial * avg c := fun i => by
    have h3 : ∑ k, ∑ σ : Equiv.Perm κ, c (σ k) = Fintype.card κ * ∑ σ : Equiv.Perm κ, c (σ i) := by
      rw [sum_congr rfl fun k _ => h1 k i, sum_const, card_univ, nsmul_eq_mul]
    rw [sum_comm, sum_congr rfl fun (σ : Equiv.Perm κ) _ => Equiv.sum_comp σ c, sum_const, card_univ, nsmul_eq_mul, card_perm] at h3
    unfold avg
    field_simp
    linarith
  unfold permMean
  simp only [Function.comp_apply]
  rw [sum_comm]
  simp only [← mul_sum, h2]
  rw [← sum_mul]
  field_simp

/-- **C152, shuffling.** The average over all orders of the squared deviation of a weighted sum of the rows. -/
theorem C152_perm_variance (c u : κ → ℝ) (hm : 2 ≤ Fintype.card κ) :
    permMean c (fun r => (∑ i, u i * (r i - avg c)) ^ 2) =
      dev2 c / (Fintype.card κ - 1) * (∑ i, u i ^ 2 - (∑ i, u i) ^ 2 / Fintype.card κ) := by
  have hm0 : 0 < Fintype.card κ := by omega
  have hm' : (Fintype.card κ : ℝ) ≠ 0 := by positivity
  have hm1 : (Fintype.card κ : ℝ) - 1 ≠ 0 := by
    have : (2 : ℝ) ≤ Fintype.card κ := by exact_mod_cast hm
    linarith
  have hf : ((Fintype.card κ).factorial : ℝ) ≠ 0 := by exact_mod_cast Nat.factorial_ne_zero _
  set d : κ → ℝ := fun k => c k - avg c with hd
  have hd0 : ∑ k, d k = 0 := avg_dev c hm0
  set M : ℝ := (Fintype.card κ : ℝ) with hM
  set F : ℝ := ((Fintype.card κ).factorial : ℝ) with hF
  have hdiag : ∀ i, prodSum d i i = F * dev2 c / M := fun i => by
    rw [eq_div_iff hm', mul_comm, sum_diag]
    rfl
  have hoff : ∀ i j, i ≠ j → prodSum d i j = -(F * dev2 c / M) / (M - 1) := fun i j hij => by
    rw [eq_div_iff hm1]
    have := sum_off d hd0 i j hij
    rw [hdiag] at this
    linarith
  have hall : ∀ i j, prodSum d i j = -(F * dev2 c / M) / (M - 1) + if i = j then F * dev2 c / (M - 1) else 0 := fun i j => by
    by_cases h : i = j
    · rw [if_pos h, ← h, hdiag]
      field_simp
      ring
    · rw [if_neg h, hoff i j h, add_zero]
  have hexp : ∑ σ : Equiv.Perm κ, (∑ i, u i * d (σ i)) ^ 2 = ∑ i, ∑ j, u i * u j * prodSum d i j := by
    simp only [sq, sum_mul_sum]
    rw [sum_comm]
    refine sum_congr rfl fun i _ => ?_
    rw [sum_comm]
    refine sum_congr rfl fun j _ => ?_
    unfold prodSum
    rw [mul_sum]
    exact sum_congr rfl fun σ _ => by ring
  have hsum : ∑ i, ∑ j, u i * u j * prodSum d i j = -(F * dev2 c / M) / (M - 1) * (∑ i, u i) ^ 2 + F * dev2 c / (M - 1) * ∑ i, u i ^ 2 := by
    simp only [hall, mul_add, sum_add_distrib]
    congr 1
    · rw [sq, sum_mul_sum, mul_sum]
      refine sum_congr rfl fun i _ => ?_
      rw [mul_sum]
      exact sum_congr rfl fun j _ => by ring
    · rw [mul_sum]
      refine sum_congr rfl fun i _ => ?_
      simp only [mul_ite, mul_zero, sum_ite_eq, mem_univ, if_true]
      ring
  unfold permMean
  have e : ∀ σ : Equiv.Perm κ, (fun r : κ → ℝ => (∑ i, u i * (r i - avg c)) ^ 2) (c ∘ σ) = (∑ i, u i * d (σ i)) ^ 2 := fun σ => rfl
  simp only [e]
  rw [hexp, hsum]
  field_simp
  ring

end Perm

/-! ## A first-order recursion -/

variable {Ω : Type} [MeasurableSpace Ω]

/-- The mean and the variance of a first-order recursion driven by independent noise of mean zero and variance `W`. -/
theorem ar_limit (P : Measure Ω) [IsProbabilityMeasure P] (X Y : ℕ → Ω → ℝ) (hL : ∀ e, MemLp (Y e) 2 P) (hi : iIndepFun Y P) (hm : ∀ e, ∫ ω, Y e ω ∂P = 0) (W : ℝ)
    (hv : ∀ e, ProbabilityTheory.variance (Y e) P = W) (q x₀ : ℝ) (hq : |q| < 1) (h0 : ∀ ω, X 0 ω = x₀) (hs : ∀ e ω, X (e + 1) ω = q * X e ω + Y e ω) :
    Tendsto (fun e => ∫ ω, X e ω ∂P) atTop (𝓝 0) ∧ Tendsto (fun e => ProbabilityTheory.variance (X e) P) atTop (𝓝 (W / (1 - q ^ 2))) := by
  have hX : ∀ e ω, X e ω = q ^ e * x₀ + ∑ k ∈ range e, q ^ (e - 1 - k) * Y k ω := by
    intro e ω
    induction e with
    | zero => simp [h0]
    | succ e ih =>
      rw [hs, ih, sum_range_succ, show e + 1 - 1 - e = 0 by omega, pow_zero, one_mul, mul_add, mul_sum, ← mul_assoc, ← pow_succ', add_assoc]
      congr 2
      refine sum_congr rfl fun k hk => ?_
      rw [mem_range] at hk
      rw [← mul_assoc, ← pow_succ', show e - 1 - k + 1 = e + 1 - 1 - k by omega]
  have he : ∀ e, X e = fun ω => q ^ e * x₀ + (∑ k ∈ range e, fun ω => q ^ (e - 1 - k) * Y k ω) ω := fun e => by
    funext ω
    rw [hX, Finset.sum_apply]
  have hsL : ∀ e, MemLp (∑ k ∈ range e, fun ω => q ^ (e - 1 - k) * Y k ω) 2 P := fun e => memLp_finsetSum' _ fun k _ => (hL k).const_mul _
  have hmean : ∀ e, ∫ ω, X e ω ∂P = q ^ e * x₀ := fun e => by
    rw [he e, integral_add (integrable_const _) ((hsL e).integrable one_le_two)]
    have : ∫ ω, (∑ k ∈ range e, fun ω => q ^ (e - 1 - k) * Y k ω) ω ∂P = 0 := by
      simp only [Finset.sum_apply]
      rw [integral_finsetSum _ fun k _ => ((hL k).integrable one_le_two).const_mul _]
      simp [integral_const_mul, hm]
    rw [this]
    simp
  have hvar : ∀ e, ProbabilityTheory.variance (X e) P = W * ∑ k ∈ range e, (q ^ 2) ^ k := fun e => by
    rw [he e, variance_const_add (hsL e).aestronglyMeasurable, IndepFun.variance_sum (fun k _ => (hL k).const_mul _)]
    · simp only [variance_const_mul, hv]
      rw [mul_sum, ← sum_range_reflect]
      refine sum_congr rfl fun k hk => ?_
      rw [mem_range] at hk
      rw [show e - 1 - (e - 1 - k) = k by omega, ← pow_mul, ← pow_mul, mul_comm 2 k, mul_comm]
    · intro j _ k _ hjk
      exact (hi.indepFun hjk).comp (φ := fun x => q ^ (e - 1 - j) * x) (ψ := fun x => q ^ (e - 1 - k) * x) (by fun_prop) (by fun_prop)
  constructor
  · simp only [hmean]
    have := (tendsto_pow_atTop_nhds_zero_of_abs_lt_one hq).mul_const x₀
    rwa [zero_mul] at this
  · simp only [hvar]
    have hsq : q ^ 2 < 1 := by
      rw [← sq_abs]
      exact pow_lt_one₀ (abs_nonneg _) hq (by norm_num)
    have := ((hasSum_geometric_of_lt_one (sq_nonneg q) hsq).tendsto_sum_nat).const_mul W
    rwa [← div_eq_mul_inv] at this

/-! ## Epochs -/

/-- Several steps of the chain of C121. -/
theorem chain_steps (h s x₀ : ℝ) (C Z : ℕ → Ω → ℝ) (t r : ℕ) (ω : Ω) :
    chain h s x₀ C Z (t + r) ω = (1 - h / s) ^ r * chain h s x₀ C Z t ω +
      ∑ j ∈ range r, (1 - h / s) ^ (r - 1 - j) * (h / s * C (t + j) ω + Real.sqrt (2 * h) * Z (t + j) ω) := by
  induction r with
  | zero => simp
  | succ r ih =>
    rw [← add_assoc]
    simp only [chain]
    rw [ih, sum_range_succ, show r + 1 - 1 - r = 0 by omega, pow_zero, one_mul, pow_succ', mul_add, mul_sum, mul_assoc, add_assoc, add_assoc]
    congr 1
    congr 1
    refine sum_congr rfl fun k hk => ?_
    rw [mem_range] at hk
    rw [← mul_assoc, ← pow_succ', show r - 1 - k + 1 = r + 1 - 1 - k by omega]

/-- The orders of the rows. -/
instance permSpace (κ : Type) : MeasurableSpace (Equiv.Perm κ) := ⊤

instance permDiscrete (κ : Type) : DiscreteMeasurableSpace (Equiv.Perm κ) := ⟨fun _ => trivial⟩

/-- The batch of its epoch that step `t` takes. -/
def slot (n : ℕ) [NeZero n] (t : ℕ) : Fin n := ⟨t % n, Nat.mod_lt _ (NeZero.pos n)⟩

/-- The centre of the batch of step `t`: the average of the centres of the rows that the order of its epoch puts there. -/
noncomputable def stepCentre (n b : ℕ) [NeZero n] (c : Fin n × Fin b → ℝ) (π : ℕ → Ω → Equiv.Perm (Fin n × Fin b)) (t : ℕ) (ω : Ω) : ℝ :=
  (∑ k : Fin b, c (π (t / n) ω (slot n t, k))) / b

/-- The noise of the steps of an epoch. -/
def block (n : ℕ) (Z : ℕ → Ω → ℝ) (e : ℕ) (ω : Ω) : Fin n → ℝ := fun j => Z (e * n + j) ω

/-- In every epoch the rows come in an order drawn uniformly from all orders, independently of the other epochs and of the noise; the noise is independent, of mean zero and variance
one. -/
structure Reshuffled (P : Measure Ω) (n b : ℕ) (π : ℕ → Ω → Equiv.Perm (Fin n × Fin b)) (Z : ℕ → Ω → ℝ) : Prop where
  meas : ∀ e, Measurable (π e)
  unif : ∀ e σ, P.real {ω | π e ω = σ} = ((n * b).factorial : ℝ)⁻¹
  L2 : ∀ t, MemLp (Z t) 2 P
  mean : ∀ t, ∫ ω, Z t ω ∂P = 0
  var : ∀ t, ProbabilityTheory.variance (Z t) P = 1
  noise : iIndepFun Z P
  pair : ∀ e, IndepFun (π e) (block n Z e) P
  epochs : iIndepFun (fun e ω => (π e ω, block n Z e ω)) P

/-- The share of batch `j` of an epoch of `n` batches in the end of the epoch. -/
noncomputable def share (h s : ℝ) (n : ℕ) (j : Fin n) : ℝ := (1 - h / s) ^ (n - 1 - (j : ℕ))

/-- The sum of the squared deviations of the shares: what the order of the batches can change. -/
noncomputable def spread (h s : ℝ) (n : ℕ) : ℝ := ∑ j, share h s n j ^ 2 - (∑ j, share h s n j) ^ 2 / n

/-- The variance of the average of `b` of the `n b` rows drawn without replacement. -/
noncomputable def batchVar (n b : ℕ) (c : Fin n × Fin b → ℝ) : ℝ := dev2 c / ((n * b : ℝ) - 1) / b * (1 - 1 / n)

/-- The long-run variance with reshuffling, at the ends of the epochs. -/
noncomputable def limitVar (h s : ℝ) (n b : ℕ) (c : Fin n × Fin b → ℝ) : ℝ :=
  s / (1 - h / (2 * s)) + (h / s) ^ 2 * (dev2 c / ((n * b : ℝ) - 1) / b) * spread h s n / (1 - (1 - h / s) ^ (2 * n))

theorem sum_share (h s : ℝ) (n : ℕ) : h / s * ∑ j, share h s n j = 1 - (1 - h / s) ^ n := by
  have h1 : ∑ j, share h s n j = ∑ k ∈ range n, (1 - h / s) ^ k := by
    unfold share
    rw [Fin.sum_univ_eq_sum_range (fun j => (1 - h / s) ^ (n - 1 - j)) n, sum_range_reflect (fun k => (1 - h / s) ^ k)]
  rw [h1, ← mul_neg_geom_sum, sub_sub_cancel]

theorem sum_share_sq (h s : ℝ) (n : ℕ) : (1 - (1 - h / s) ^ 2) * ∑ j, share h s n j ^ 2 = 1 - (1 - h / s) ^ (2 * n) := by
  have h1 : ∑ j, share h s n j ^ 2 = ∑ k ∈ range n, ((1 - h / s) ^ 2) ^ k := by
    unfold share
    rw [Fin.sum_univ_eq_sum_range (fun j => ((1 - h / s) ^ (n - 1 - j)) ^ 2) n, ← sum_range_reflect (fun k => ((1 - h / s) ^ 2) ^ k)]
    exact sum_congr rfl fun k _ => by rw [← pow_mul, ← pow_mul, mul_comm]
  rw [h1, mul_neg_geom_sum, ← pow_mul]

theorem spread_eq (h s : ℝ) (n : ℕ) (hn : 0 < n) : spread h s n = ∑ j, (share h s n j - (∑ j, share h s n j) / n) ^ 2 := by
  have hn' : (n : ℝ) ≠ 0 := by positivity
  unfold spread
  set T := ∑ j, share h s n j with hT
  have : ∀ j, (share h s n j - T / n) ^ 2 = share h s n j ^ 2 - 2 * (T / n) * share h s n j + (T / n) ^ 2 := fun j => by ring
  simp only [this, sum_add_distrib, sum_sub_distrib, ← mul_sum, ← hT, sum_const, card_univ, Fintype.card_fin, nsmul_eq_mul]
  field_simp
  ring

/-- The average over the orders of a function of the order of an epoch. -/
theorem integral_order {P : Measure Ω} [IsProbabilityMeasure P] {n b : ℕ} {π : ℕ → Ω → Equiv.Perm (Fin n × Fin b)} {Z : ℕ → Ω → ℝ} (H : Reshuffled P n b π Z) (e : ℕ)
    (c : Fin n × Fin b → ℝ) (f : (Fin n × Fin b → ℝ) → ℝ) : ∫ ω, f (c ∘ π e ω) ∂P = permMean c f := by
  have h1 := integral_map (μ := P) (H.meas e).aemeasurable (f := fun σ : Equiv.Perm (Fin n × Fin b) => f (c ∘ σ)) (Measurable.of_discrete.aestronglyMeasurable)
  haveI : IsProbabilityMeasure (P.map (π e)) := Measure.isProbabilityMeasure_map (H.meas e).aemeasurable
  rw [← h1, integral_fintype .of_finite]
  unfold permMean
  rw [mul_sum]
  refine sum_congr rfl fun σ _ => ?_
  rw [map_measureReal_apply (H.meas e) (MeasurableSet.of_discrete), smul_eq_mul]
  congr 1
  have := H.unif e σ
  rw [Fintype.card_prod, Fintype.card_fin, Fintype.card_fin]
  exact this

/-- What an epoch adds to the deviation from the average of the rows. -/
noncomputable def push (h s : ℝ) (n b : ℕ) (c : Fin n × Fin b → ℝ) (σ : Equiv.Perm (Fin n × Fin b)) (z : Fin n → ℝ) : ℝ :=
  h / s * ∑ i, share h s n i.1 / b * ((c ∘ σ) i - avg c) + Real.sqrt (2 * h) * ∑ j, share h s n j * z j

theorem chain_epoch (h s x₀ : ℝ) (n b : ℕ) [NeZero n] (hb : 0 < b) (c : Fin n × Fin b → ℝ) (π : ℕ → Ω → Equiv.Perm (Fin n × Fin b)) (Z : ℕ → Ω → ℝ) (e : ℕ) (ω : Ω) :
    chain h s x₀ (stepCentre n b c π) Z ((e + 1) * n) ω - avg c =
      (1 - h / s) ^ n * (chain h s x₀ (stepCentre n b c π) Z (e * n) ω - avg c) + push h s n b c (π e ω) (block n Z e ω) := by
  have hb' : (b : ℝ) ≠ 0 := by positivity
  have hn : 0 < n := NeZero.pos n
  have h1 : ∀ j : Fin n, stepCentre n b c π (e * n + j) ω = (∑ k : Fin b, c (π e ω (j, k))) / b := fun j => by
    unfold stepCentre
    have e1 : (e * n + (j : ℕ)) / n = e := by rw [mul_comm, Nat.mul_add_div hn, Nat.div_eq_of_lt j.2, add_zero]
    have e2 : slot n (e * n + j) = j := Fin.ext (by simp only [slot]; rw [mul_comm, Nat.mul_add_mod, Nat.mod_eq_of_lt j.2])
    rw [e1, e2]
  have h2 : ∑ i : Fin n × Fin b, share h s n i.1 / b * ((c ∘ π e ω) i - avg c) = ∑ j : Fin n, share h s n j * stepCentre n b c π (e * n + j) ω - (∑ j, share h s n j) * avg c := by
    rw [Fintype.sum_prod_type, sum_mul, ← sum_sub_distrib]
    refine sum_congr rfl fun j _ => ?_
    rw [h1]
    simp only [← mul_sum]
    simp only [Function.comp_apply, sum_sub_distrib, sum_const, card_univ, Fintype.card_fin, nsmul_eq_mul]
    field_simp
  rw [add_mul, one_mul, chain_steps, ← Fin.sum_univ_eq_sum_range (fun j => (1 - h / s) ^ (n - 1 - j) * (h / s * stepCentre n b c π (e * n + j) ω + Real.sqrt (2 * h) * Z (e * n + j) ω)) n]
  unfold push
  rw [h2]
  have h3 := sum_share h s n
  have h4 : ∑ j : Fin n, (1 - h / s) ^ (n - 1 - (j : ℕ)) * (h / s * stepCentre n b c π (e * n + j) ω + Real.sqrt (2 * h) * Z (e * n + j) ω) =
      h / s * (∑ j : Fin n, share h s n j * stepCentre n b c π (e * n + j) ω) + Real.sqrt (2 * h) * ∑ j : Fin n, share h s n j * block n Z e ω j := by
    rw [mul_sum, mul_sum, ← sum_add_distrib]
    refine sum_congr rfl fun j _ => ?_
    simp only [share, block]
    ring
  rw [h4]
  linear_combination avg c * h3

/-- **C152, reshuffled batches.** If the rows are reshuffled in every epoch and the step size is below `2 σ²`, then at the ends of the epochs the mean of the sample tends to the average of
the centres of the rows and its variance to `limitVar`. -/
theorem C152_law (P : Measure Ω) [IsProbabilityMeasure P] (n b : ℕ) [NeZero n] (hb : 0 < b) (hm : 2 ≤ n * b) (c : Fin n × Fin b → ℝ)
    (π : ℕ → Ω → Equiv.Perm (Fin n × Fin b)) (Z : ℕ → Ω → ℝ) (H : Reshuffled P n b π Z) (h s x₀ : ℝ) (hs : 0 < s) (hh : 0 < h) (hstep : h < 2 * s) :
    Tendsto (fun e => ∫ ω, chain h s x₀ (stepCentre n b c π) Z (e * n) ω ∂P) atTop (𝓝 (avg c)) ∧
    Tendsto (fun e => ProbabilityTheory.variance (chain h s x₀ (stepCentre n b c π) Z (e * n)) P) atTop (𝓝 (limitVar h s n b c)) := by
  have hb' : (b : ℝ) ≠ 0 := by positivity
  have hn : 0 < n := NeZero.pos n
  have hn' : (n : ℝ) ≠ 0 := by positivity
  have hcard : Fintype.card (Fin n × Fin b) = n * b := by simp
  have hm1 : ((n * b : ℝ) - 1) ≠ 0 := by
    have : (2 : ℝ) ≤ n * b := by exact_mod_cast hm
    linarith
  have ha1 := factor_lt h s hs hh hstep
  set a := 1 - h / s with ha
  set u : Fin n × Fin b → ℝ := fun i => share h s n i.1 / b with hu
  have hu1 : ∑ i, u i = ∑ j, share h s n j := by
    rw [hu, Fintype.sum_prod_type]
    refine sum_congr rfl fun j _ => ?_
    simp only [sum_const, card_univ, Fintype.card_fin, nsmul_eq_mul]
    field_simp
  have hu2 : ∑ i, u i ^ 2 = (∑ j, share h s n j ^ 2) / b := by
    rw [hu, Fintype.sum_prod_type, sum_div]
    refine sum_congr rfl fun j _ => ?_
    simp only [sum_const, card_univ, Fintype.card_fin, nsmul_eq_mul]
    field_simp
  set A : ℕ → Ω → ℝ := fun e ω => h / s * ∑ i, u i * ((c ∘ π e ω) i - avg c) with hA
  set B : ℕ → Ω → ℝ := fun e ω => Real.sqrt (2 * h) * ∑ j, share h s n j * block n Z e ω j with hB
  have hAL : ∀ e, MemLp (A e) 2 P := fun e => by
    have h1 : MemLp (fun σ : Equiv.Perm (Fin n × Fin b) => h / s * ∑ i, u i * ((c ∘ σ) i - avg c)) 2 (P.map (π e)) := by
      haveI : IsProbabilityMeasure (P.map (π e)) := Measure.isProbabilityMeasure_map (H.meas e).aemeasurable
      exact .of_discrete
    exact (memLp_map_measure_iff Measurable.of_discrete.aestronglyMeasurable (H.meas e).aemeasurable).1 h1
  have hBL : ∀ e, MemLp (B e) 2 P := fun e => by
    have := (memLp_finsetSum (univ : Finset (Fin n)) (f := fun j ω => share h s n j * Z (e * n + j) ω) (p := 2) (μ := P) fun j _ => (H.L2 _).const_mul _).const_mul (Real.sqrt (2 * h))
    exact this
  have hAm : ∀ e, ∫ ω, A e ω ∂P = 0 := fun e => by
    have h1 := integral_order H e c (fun r => ∑ i, u i * (r i - avg c))
    have h2 : permMean c (fun r => ∑ i, u i * (r i - avg c)) = 0 := by
      have h3 := C152_perm_mean c u (by rw [hcard]; omega)
      have h4 : permMean c (fun r => ∑ i, u i * (r i - avg c)) = permMean c (fun r => ∑ i, u i * r i) - (∑ i, u i) * avg c := by
        unfold permMean
        have hf : ((Fintype.card (Fin n × Fin b)).factorial : ℝ) ≠ 0 := by exact_mod_cast Nat.factorial_ne_zero _
        simp only [mul_sub, sum_sub_distrib, sum_const, card_univ, nsmul_eq_mul, card_perm, ← sum_mul]
        field_simp
      rw [h4, h3, sub_self]
    rw [hA, integral_const_mul, h1, h2, mul_zero]
  have hBm : ∀ e, ∫ ω, B e ω ∂P = 0 := fun e => by
    simp only [hB, block]
    rw [integral_const_mul, integral_finsetSum _ fun j _ => ((H.L2 _).integrable one_le_two).const_mul _]
    simp [integral_const_mul, H.mean]
  have hAv : ∀ e, ProbabilityTheory.variance (A e) P = (h / s) ^ 2 * (dev2 c / ((n * b : ℝ) - 1) / b) * spread h s n := fun e => by
    rw [variance_eq_integral (hAL e).aestronglyMeasurable.aemeasurable, hAm e]
    have h1 := integral_order H e c (fun r => (∑ i, u i * (r i - avg c)) ^ 2)
    have h2 := C152_perm_variance c u (by rw [hcard]; exact hm)
    rw [hcard, hu1, hu2] at h2
    have h3 : ∀ ω, (A e ω - 0) ^ 2 = (h / s) ^ 2 * (∑ i, u i * ((c ∘ π e ω) i - avg c)) ^ 2 := fun ω => by simp only [hA]; ring
    simp only [h3]
    rw [integral_const_mul, h1, h2]
    unfold spread
    push_cast
    field_simp
  have hBv : ∀ e, ProbabilityTheory.variance (B e) P = 2 * h * ∑ j, share h s n j ^ 2 := fun e => by
    have h1 : B e = fun ω => Real.sqrt (2 * h) * (∑ j : Fin n, fun ω => share h s n j * Z (e * n + j) ω) ω := by
      funext ω
      rw [Finset.sum_apply]
      rfl
    rw [h1, variance_const_mul, IndepFun.variance_sum (fun j _ => (H.L2 _).const_mul _), Real.sq_sqrt (by positivity)]
    · simp only [variance_const_mul, H.var, mul_one]
    · intro j _ k _ hjk
      have hne : e * n + (j : ℕ) ≠ e * n + (k : ℕ) := fun h0 => hjk (Fin.ext (by omega))
      exact (H.noise.indepFun hne).comp (φ := fun x => share h s n j * x) (ψ := fun x => share h s n k * x) (by fun_prop) (by fun_prop)
  set Y : ℕ → Ω → ℝ := fun e ω => push h s n b c (π e ω) (block n Z e ω) with hY
  have hYe : ∀ e, Y e = A e + B e := fun e => rfl
  have hYL : ∀ e, MemLp (Y e) 2 P := fun e => (hAL e).add (hBL e)
  have hYi : iIndepFun Y P := H.epochs.comp (fun _ p => push h s n b c p.1 p.2) fun _ => by
    unfold push
    refine Measurable.add ?_ ?_
    · exact (Measurable.of_discrete (f := fun σ : Equiv.Perm (Fin n × Fin b) => h / s * ∑ i, share h s n i.1 / b * ((c ∘ σ) i - avg c))).comp measurable_fst
    · fun_prop
  have hYm : ∀ e, ∫ ω, Y e ω ∂P = 0 := fun e => by
    rw [hYe, integral_add' ((hAL e).integrable one_le_two) ((hBL e).integrable one_le_two), hAm, hBm, add_zero]
  have hYv : ∀ e, ProbabilityTheory.variance (Y e) P = (h / s) ^ 2 * (dev2 c / ((n * b : ℝ) - 1) / b) * spread h s n + 2 * h * ∑ j, share h s n j ^ 2 := fun e => by
    have hi : IndepFun (A e) (B e) P := (H.pair e).comp (φ := fun σ : Equiv.Perm (Fin n × Fin b) => h / s * ∑ i, u i * ((c ∘ σ) i - avg c))
      (ψ := fun z : Fin n → ℝ => Real.sqrt (2 * h) * ∑ j, share h s n j * z j) Measurable.of_discrete (by fun_prop)
    rw [hYe, hi.variance_add (hAL e) (hBL e), hAv, hBv]
  have hq : |a ^ n| < 1 := by
    rw [abs_pow]
    exact pow_lt_one₀ (abs_nonneg _) ha1 hn.ne'
  obtain ⟨r1, r2⟩ := ar_limit P (fun e ω => chain h s x₀ (stepCentre n b c π) Z (e * n) ω - avg c) Y hYL hYi hYm _ hYv (a ^ n) (x₀ - avg c) hq
    (fun ω => by simp [chain]) (fun e ω => chain_epoch h s x₀ n b hb c π Z e ω)
  have hcL : ∀ e, MemLp (chain h s x₀ (stepCentre n b c π) Z (e * n)) 2 P := fun e => by
    induction e with
    | zero => simpa [chain] using memLp_const (μ := P) (p := 2) x₀
    | succ e ih =>
      have : chain h s x₀ (stepCentre n b c π) Z ((e + 1) * n) = fun ω => (a ^ n * (chain h s x₀ (stepCentre n b c π) Z (e * n) ω - avg c) + Y e ω) + avg c := by
        funext ω
        rw [← sub_eq_iff_eq_add]
        exact chain_epoch h s x₀ n b hb c π Z e ω
      rw [this]
      exact (((ih.sub (memLp_const _)).const_mul _).add (hYL e)).add (memLp_const _)
  constructor
  · have h1 : ∀ e, ∫ ω, (chain h s x₀ (stepCentre n b c π) Z (e * n) ω - avg c) ∂P = ∫ ω, chain h s x₀ (stepCentre n b c π) Z (e * n) ω ∂P - avg c := fun e => by
      rw [integral_sub ((hcL e).integrable one_le_two) (integrable_const _)]
      simp
    simp only [h1] at r1
    have := r1.add_const (avg c)
    simpa using this
  · have h1 : ∀ e, ProbabilityTheory.variance (fun ω => chain h s x₀ (stepCentre n b c π) Z (e * n) ω - avg c) P = ProbabilityTheory.variance (chain h s x₀ (stepCentre n b c π) Z (e * n)) P := fun e =>
      variance_sub_const (hcL e).aestronglyMeasurable _
    simp only [h1] at r2
    have h2 : ((h / s) ^ 2 * (dev2 c / ((n * b : ℝ) - 1) / b) * spread h s n + 2 * h * ∑ j, share h s n j ^ 2) / (1 - (a ^ n) ^ 2) = limitVar h s n b c := by
      unfold limitVar
      have e1 := sum_share_sq h s n
      rw [← ha] at e1 ⊢
      have hD : 1 - a ^ (2 * n) ≠ 0 := by
        have : a ^ (2 * n) < 1 := by
          rw [mul_comm, pow_mul, ← sq_abs]
          exact pow_lt_one₀ (abs_nonneg _) hq (by norm_num)
        intro h0; linarith
      have e2 : (a ^ n) ^ 2 = a ^ (2 * n) := by rw [← pow_mul, mul_comm]
      have hsub : 2 * s - h ≠ 0 := by intro h0; linarith
      have e3 : 1 - a ^ 2 = h * (2 * s - h) / s ^ 2 := by rw [ha]; field_simp; ring
      have e4 : 1 - h / (2 * s) = (2 * s - h) / (2 * s) := by field_simp
      have e5 : 2 * h * ∑ j, share h s n j ^ 2 = s / (1 - h / (2 * s)) * (1 - a ^ (2 * n)) := by
        rw [← e1, e3, e4]
        field_simp
      rw [e2, e5, add_div, mul_div_assoc (s / _), div_self hD, mul_one, add_comm]
    rwa [h2] at r2

/-- **C152, a batch.** The centre of any batch has the variance `batchVar`: that of an average of rows drawn without replacement. -/
theorem C152_batch (P : Measure Ω) [IsProbabilityMeasure P] (n b : ℕ) [NeZero n] (hb : 0 < b) (hm : 2 ≤ n * b) (c : Fin n × Fin b → ℝ)
    (π : ℕ → Ω → Equiv.Perm (Fin n × Fin b)) (Z : ℕ → Ω → ℝ) (H : Reshuffled P n b π Z) (t : ℕ) :
    ∫ ω, (stepCentre n b c π t ω - avg c) ^ 2 ∂P = batchVar n b c := by
  have hb' : (b : ℝ) ≠ 0 := by positivity
  have hn' : (n : ℝ) ≠ 0 := by exact_mod_cast NeZero.ne n
  have hcard : Fintype.card (Fin n × Fin b) = n * b := by simp
  have hm1 : ((n * b : ℝ) - 1) ≠ 0 := by
    have : (2 : ℝ) ≤ n * b := by exact_mod_cast hm
    linarith
  set u : Fin n × Fin b → ℝ := fun i => if i.1 = slot n t then 1 / b else 0 with hu
  have hsum : ∀ (d : Fin n × Fin b → ℝ) , ∑ i, u i * d i = (∑ k, d (slot n t, k)) / b := fun d => by
    rw [hu, Fintype.sum_prod_type, sum_eq_single (slot n t)]
    · simp only [if_true]
      rw [← mul_sum]
      ring
    · intro j _ hj
      simp [hj]
    · simp
  have h1 : ∀ ω, (stepCentre n b c π t ω - avg c) ^ 2 = (∑ i, u i * ((c ∘ π (t / n) ω) i - avg c)) ^ 2 := fun ω => by
    rw [hsum]
    simp only [stepCentre, Function.comp_apply, sum_sub_distrib, sum_const, card_univ, Fintype.card_fin, nsmul_eq_mul]
    congr 1
    field_simp
  simp only [h1]
  rw [integral_order H (t / n) c (fun r => (∑ i, u i * (r i - avg c)) ^ 2), C152_perm_variance c u (by rw [hcard]; exact hm), hcard]
  have h2 : ∑ i, u i = 1 := by
    have := hsum fun _ => 1
    simp only [mul_one, sum_const, card_univ, Fintype.card_fin, nsmul_eq_mul] at this
    rw [this, div_self hb']
  have h3 : ∑ i, u i ^ 2 = 1 / b := by
    have := hsum u
    simp only [← sq] at this
    rw [this]
    simp only [hu, if_true, sum_const, card_univ, Fintype.card_fin, nsmul_eq_mul]
    field_simp
  rw [h2, h3]
  unfold batchVar
  push_cast
  field_simp

/-- **C152, against batches drawn independently.** With step sizes below `σ²`, at least two batches and rows that are not all the same, reshuffling leaves a variance above that without
mini-batches and strictly below that with independently drawn batches of the same variance (`C121_random`). -/
theorem C152_between (n b : ℕ) (hn : 2 ≤ n) (hb : 0 < b) (c : Fin n × Fin b → ℝ) (hc : 0 < dev2 c) (h s : ℝ) (hs : 0 < s) (hh : 0 < h) (hstep : h < s) :
    s / (1 - h / (2 * s)) < limitVar h s n b c ∧ limitVar h s n b c < s / (1 - h / (2 * s)) * (1 + h * batchVar n b c / (2 * s ^ 2)) := by
  have hb' : (0 : ℝ) < b := by positivity
  have hn2 : (2 : ℝ) ≤ n := by exact_mod_cast hn
  have hb1 : (1 : ℝ) ≤ b := by exact_mod_cast hb
  have hn' : (0 : ℝ) < n := by linarith
  have hm1 : (0 : ℝ) < n * b - 1 := by nlinarith
  have ha : 0 < 1 - h / s ∧ 1 - h / s < 1 := by
    have h1 : h / s < 1 := by rwa [div_lt_one hs]
    have h2 : 0 < h / s := by positivity
    constructor <;> linarith
  set a := 1 - h / s with hadef
  have hpos : ∀ j, 0 < share h s n j := fun j => pow_pos ha.1 _
  have hD : 0 < 1 - a ^ (2 * n) := by
    have := pow_lt_one₀ ha.1.le ha.2 (show 2 * n ≠ 0 by omega)
    linarith
  have hS0 : 0 < spread h s n := by
    rw [spread_eq h s n (by omega)]
    set T := (∑ j, share h s n j) / n
    by_contra hcon
    have hz : ∑ j, (share h s n j - T) ^ 2 = 0 := le_antisymm (not_lt.1 hcon) (sum_nonneg fun j _ => sq_nonneg _)
    rw [sum_eq_zero_iff_of_nonneg fun j _ => sq_nonneg _] at hz
    have h1 : ∀ j, share h s n j = T := fun j => by
      have := hz j (mem_univ j)
      have := pow_eq_zero_iff (two_ne_zero) |>.1 this
      linarith
    have h2 := h1 ⟨n - 1, by omega⟩
    have h3 := h1 ⟨n - 2, by omega⟩
    simp only [share, ← hadef] at h2 h3
    rw [show n - 1 - (n - 1) = 0 by omega, pow_zero] at h2
    rw [show n - 1 - (n - 2) = 1 by omega, pow_one] at h3
    linarith [ha.2]
  have hS1 : spread h s n < (1 - 1 / n) * ∑ j, share h s n j ^ 2 := by
    have h1 : ∑ j, share h s n j ^ 2 < (∑ j, share h s n j) ^ 2 := by
      rw [sq (∑ j, share h s n j), sum_mul]
      refine sum_lt_sum_of_nonempty ⟨⟨0, by omega⟩, mem_univ _⟩ fun j _ => ?_
      rw [sq]
      refine mul_lt_mul_of_pos_left ?_ (hpos j)
      have hne : ∃ k : Fin n, k ≠ j := by
        by_cases h0 : (j : ℕ) = 0
        · exact ⟨⟨1, by omega⟩, fun h => by have := congrArg Fin.val h; simp at this; omega⟩
        · exact ⟨⟨0, by omega⟩, fun h => h0 (by rw [← h])⟩
      obtain ⟨k, hk⟩ := hne
      exact single_lt_sum hk (mem_univ j) (mem_univ k) (hpos k) fun i _ _ => (hpos i).le
    unfold spread
    have : (∑ j, share h s n j ^ 2) / n < (∑ j, share h s n j) ^ 2 / n := by gcongr
    rw [sub_mul, one_mul, one_div, inv_mul_eq_div]
    linarith
  have e1 := sum_share_sq h s n
  rw [← hadef] at e1
  set K := (h / s) ^ 2 * (dev2 c / ((n * b : ℝ) - 1) / b) with hK
  have hK0 : 0 < K := by positivity
  have hlim : limitVar h s n b c = s / (1 - h / (2 * s)) + K * spread h s n / (1 - a ^ (2 * n)) := rfl
  have hsub : 0 < 2 * s - h := by linarith
  have e3 : 1 - a ^ 2 = h * (2 * s - h) / s ^ 2 := by rw [hadef]; field_simp; ring
  have e4 : 1 - h / (2 * s) = (2 * s - h) / (2 * s) := by field_simp
  have hA2 : 0 < 1 - a ^ 2 := by rw [e3]; positivity
  have hind : s / (1 - h / (2 * s)) * (1 + h * batchVar n b c / (2 * s ^ 2)) = s / (1 - h / (2 * s)) + K * ((1 - 1 / n) * ∑ j, share h s n j ^ 2) / (1 - a ^ (2 * n)) := by
    have e6 : K * ((1 - 1 / n) * ∑ j, share h s n j ^ 2) / (1 - a ^ (2 * n)) = K * (1 - 1 / n) / (1 - a ^ 2) := by
      rw [div_eq_div_iff hD.ne' hA2.ne', ← e1]
      ring
    rw [e6, e3, e4, hK]
    unfold batchVar
    field_simp
  rw [hlim, hind]
  constructor
  · have : 0 < K * spread h s n / (1 - a ^ (2 * n)) := by positivity
    linarith
  · gcongr

/-- **C152, refuted: reshuffling is never worse than independent draws.** With two batches and a step size between `σ²` and `2 σ²` the variance is larger. -/
theorem C152_between_false (b : ℕ) (hb : 0 < b) (c : Fin 2 × Fin b → ℝ) (hc : 0 < dev2 c) (h s : ℝ) (hs : 0 < s) (hh : s < h) (hstep : h < 2 * s) :
    s / (1 - h / (2 * s)) * (1 + h * batchVar 2 b c / (2 * s ^ 2)) < limitVar h s 2 b c := by
  have hb1 : (1 : ℝ) ≤ b := by exact_mod_cast hb
  have hb' : (0 : ℝ) < b := by positivity
  have hh0 : 0 < h := by linarith
  have hm1 : (0 : ℝ) < ((2 : ℕ) : ℝ) * b - 1 := by push_cast; linarith
  have hx : 1 < h / s ∧ h / s < 2 := ⟨by rwa [one_lt_div hs], by rwa [div_lt_iff₀ hs]⟩
  set a := 1 - h / s with hadef
  have ha : -1 < a ∧ a < 0 := by constructor <;> linarith
  have hS : spread h s 2 = (1 - a) ^ 2 / 2 := by
    unfold spread share
    simp [Fin.sum_univ_two, ← hadef]
    ring
  have hD : 0 < 1 - a ^ (2 * 2) := by
    have h1 : a ^ 2 < 1 := by nlinarith [ha.1, ha.2]
    have : a ^ 4 < 1 := by nlinarith [sq_nonneg a]
    norm_num
    linarith
  set K := (h / s) ^ 2 * (dev2 c / (((2 : ℕ) * b : ℝ) - 1) / b) with hK
  have hK0 : 0 < K := by positivity
  have hlim : limitVar h s 2 b c = s / (1 - h / (2 * s)) + K * spread h s 2 / (1 - a ^ (2 * 2)) := rfl
  have hsub : 0 < 2 * s - h := by linarith
  have e3 : 1 - a ^ 2 = h * (2 * s - h) / s ^ 2 := by rw [hadef]; field_simp; ring
  have e4 : 1 - h / (2 * s) = (2 * s - h) / (2 * s) := by field_simp
  have hA2 : 0 < 1 - a ^ 2 := by rw [e3]; positivity
  have hind : s / (1 - h / (2 * s)) * (1 + h * batchVar 2 b c / (2 * s ^ 2)) = s / (1 - h / (2 * s)) + K * ((1 + a ^ 2) / 2) / (1 - a ^ (2 * 2)) := by
    have e6 : K * ((1 + a ^ 2) / 2) / (1 - a ^ (2 * 2)) = K * (1 / 2) / (1 - a ^ 2) := by
      rw [div_eq_div_iff hD.ne' hA2.ne']
      ring
    rw [e6, e3, e4, hK]
    unfold batchVar
    push_cast
    field_simp
    ring
  rw [hlim, hind, hS]
  have : (1 + a ^ 2) / 2 < (1 - a) ^ 2 / 2 := by nlinarith [ha.2]
  gcongr

/-! ## Between the ends of the epochs -/

/-- What weights `w` of the batches of an epoch make of an order and the noise. -/
noncomputable def pushW (h s : ℝ) (n b : ℕ) (w : Fin n → ℝ) (c : Fin n × Fin b → ℝ) (σ : Equiv.Perm (Fin n × Fin b)) (z : Fin n → ℝ) : ℝ :=
  h / s * ∑ i, w i.1 / b * ((c ∘ σ) i - avg c) + Real.sqrt (2 * h) * ∑ j, w j * z j

/-- Its variance. -/
noncomputable def varW (h s : ℝ) (n b : ℕ) (w : Fin n → ℝ) (c : Fin n × Fin b → ℝ) : ℝ :=
  (h / s) ^ 2 * (dev2 c / ((n * b : ℝ) - 1) / b) * (∑ j, w j ^ 2 - (∑ j, w j) ^ 2 / n) + 2 * h * ∑ j, w j ^ 2

theorem pushW_measurable (h s : ℝ) (n b : ℕ) (w : Fin n → ℝ) (c : Fin n × Fin b → ℝ) :
    Measurable fun p : Equiv.Perm (Fin n × Fin b) × (Fin n → ℝ) => pushW h s n b w c p.1 p.2 := by
  unfold pushW
  refine Measurable.add ?_ ?_
  · exact (Measurable.of_discrete (f := fun σ : Equiv.Perm (Fin n × Fin b) => h / s * ∑ i, w i.1 / b * ((c ∘ σ) i - avg c))).comp measurable_fst
  · fun_prop

theorem pushW_stats (P : Measure Ω) [IsProbabilityMeasure P] (n b : ℕ) [NeZero n] (hb : 0 < b) (hm : 2 ≤ n * b) (c : Fin n × Fin b → ℝ)
    (π : ℕ → Ω → Equiv.Perm (Fin n × Fin b)) (Z : ℕ → Ω → ℝ) (H : Reshuffled P n b π Z) (h s : ℝ) (hh : 0 < h) (w : Fin n → ℝ) (e : ℕ) :
    MemLp (fun ω => pushW h s n b w c (π e ω) (block n Z e ω)) 2 P ∧ ∫ ω, pushW h s n b w c (π e ω) (block n Z e ω) ∂P = 0 ∧
    ProbabilityTheory.variance (fun ω => pushW h s n b w c (π e ω) (block n Z e ω)) P = varW h s n b w c := by
  have hb' : (b : ℝ) ≠ 0 := by positivity
  have hn' : (n : ℝ) ≠ 0 := by exact_mod_cast NeZero.ne n
  have hcard : Fintype.card (Fin n × Fin b) = n * b := by simp
  have hm1 : ((n * b : ℝ) - 1) ≠ 0 := by
    have : (2 : ℝ) ≤ n * b := by exact_mod_cast hm
    linarith
  set u : Fin n × Fin b → ℝ := fun i => w i.1 / b with hu
  have hu1 : ∑ i, u i = ∑ j, w j := by
    rw [hu, Fintype.sum_prod_type]
    refine sum_congr rfl fun j _ => ?_
    simp only [sum_const, card_univ, Fintype.card_fin, nsmul_eq_mul]
    field_simp
  have hu2 : ∑ i, u i ^ 2 = (∑ j, w j ^ 2) / b := by
    rw [hu, Fintype.sum_prod_type, sum_div]
    refine sum_congr rfl fun j _ => ?_
    simp only [sum_const, card_univ, Fintype.card_fin, nsmul_eq_mul]
    field_simp
  set A : Ω → ℝ := fun ω => h / s * ∑ i, u i * ((c ∘ π e ω) i - avg c) with hA
  set B : Ω → ℝ := fun ω => Real.sqrt (2 * h) * ∑ j, w j * block n Z e ω j with hB
  have hAL : MemLp A 2 P := by
    have h1 : MemLp (fun σ : Equiv.Perm (Fin n × Fin b) => h / s * ∑ i, u i * ((c ∘ σ) i - avg c)) 2 (P.map (π e)) := by
      haveI : IsProbabilityMeasure (P.map (π e)) := Measure.isProbabilityMeasure_map (H.meas e).aemeasurable
      exact .of_discrete
    exact (memLp_map_measure_iff Measurable.of_discrete.aestronglyMeasurable (H.meas e).aemeasurable).1 h1
  have hBL : MemLp B 2 P := by
    have := (memLp_finsetSum (univ : Finset (Fin n)) (f := fun j ω => w j * Z (e * n + j) ω) (p := 2) (μ := P) fun j _ => (H.L2 _).const_mul _).const_mul (Real.sqrt (2 * h))
    exact this
  have hAm : ∫ ω, A ω ∂P = 0 := by
    have h1 := integral_order H e c (fun r => ∑ i, u i * (r i - avg c))
    have h2 : permMean c (fun r => ∑ i, u i * (r i - avg c)) = 0 := by
      have h3 := C152_perm_mean c u (by rw [hcard]; omega)
      have h4 : permMean c (fun r => ∑ i, u i * (r i - avg c)) = permMean c (fun r => ∑ i, u i * r i) - (∑ i, u i) * avg c := by
        unfold permMean
        have hf : ((Fintype.card (Fin n × Fin b)).factorial : ℝ) ≠ 0 := by exact_mod_cast Nat.factorial_ne_zero _
        simp only [mul_sub, sum_sub_distrib, sum_const, card_univ, nsmul_eq_mul, card_perm, ← sum_mul]
        field_simp
      rw [h4, h3, sub_self]
    rw [hA, integral_const_mul, h1, h2, mul_zero]
  have hBm : ∫ ω, B ω ∂P = 0 := by
    simp only [hB, block]
    rw [integral_const_mul, integral_finsetSum _ fun j _ => ((H.L2 _).integrable one_le_two).const_mul _]
    simp [integral_const_mul, H.mean]
  have hAv : ProbabilityTheory.variance A P = (h / s) ^ 2 * (dev2 c / ((n * b : ℝ) - 1) / b) * (∑ j, w j ^ 2 - (∑ j, w j) ^ 2 / n) := by
    rw [variance_eq_integral hAL.aestronglyMeasurable.aemeasurable, hAm]
    have h1 := integral_order H e c (fun r => (∑ i, u i * (r i - avg c)) ^ 2)
    have h2 := C152_perm_variance c u (by rw [hcard]; exact hm)
    rw [hcard, hu1, hu2] at h2
    have h3 : ∀ ω, (A ω - 0) ^ 2 = (h / s) ^ 2 * (∑ i, u i * ((c ∘ π e ω) i - avg c)) ^ 2 := fun ω => by simp only [hA]; ring
    simp only [h3]
    rw [integral_const_mul, h1, h2]
    push_cast
    field_simp
  have hBv : ProbabilityTheory.variance B P = 2 * h * ∑ j, w j ^ 2 := by
    have h1 : B = fun ω => Real.sqrt (2 * h) * (∑ j : Fin n, fun ω => w j * Z (e * n + j) ω) ω := by
      funext ω
      rw [Finset.sum_apply]
      rfl
    rw [h1, variance_const_mul, IndepFun.variance_sum (fun j _ => (H.L2 _).const_mul _), Real.sq_sqrt (by positivity)]
    · simp only [variance_const_mul, H.var, mul_one]
    · intro j _ k _ hjk
      have hne : e * n + (j : ℕ) ≠ e * n + (k : ℕ) := fun h0 => hjk (Fin.ext (by omega))
      exact (H.noise.indepFun hne).comp (φ := fun x => w j * x) (ψ := fun x => w k * x) (by fun_prop) (by fun_prop)
  have hi : IndepFun A B P := (H.pair e).comp (φ := fun σ : Equiv.Perm (Fin n × Fin b) => h / s * ∑ i, u i * ((c ∘ σ) i - avg c))
    (ψ := fun z : Fin n → ℝ => Real.sqrt (2 * h) * ∑ j, w j * z j) Measurable.of_discrete (by fun_prop)
  have hY : (fun ω => pushW h s n b w c (π e ω) (block n Z e ω)) = A + B := rfl
  refine ⟨by rw [hY]; exact hAL.add hBL, ?_, ?_⟩
  · rw [hY, integral_add' (hAL.integrable one_le_two) (hBL.integrable one_le_two), hAm, hBm, add_zero]
  · rw [hY, hi.variance_add hAL hBL, hAv, hBv]
    rfl

/-- The share of batch `j` in the state after `r` steps of the epoch. -/
noncomputable def shareR (h s : ℝ) (n r : ℕ) (j : Fin n) : ℝ := if (j : ℕ) < r then (1 - h / s) ^ (r - 1 - (j : ℕ)) else 0

/-- The long-run variance after `r` steps of an epoch. -/
noncomputable def limitVarAt (h s : ℝ) (n b r : ℕ) (c : Fin n × Fin b → ℝ) : ℝ := (1 - h / s) ^ (2 * r) * limitVar h s n b c + varW h s n b (shareR h s n r) c

theorem sum_shareR (h s : ℝ) (n r : ℕ) (hr : r ≤ n) (g : ℕ → ℝ) : ∑ j : Fin n, shareR h s n r j * g j = ∑ j ∈ range r, (1 - h / s) ^ (r - 1 - j) * g j := by
  unfold shareR
  rw [Fin.sum_univ_eq_sum_range (fun j => (if j < r then (1 - h / s) ^ (r - 1 - j) else 0) * g j) n, ← sum_subset (range_subset_range.2 hr)]
  · exact sum_congr rfl fun j hj => by rw [if_pos (mem_range.1 hj)]
  · intro j _ hj
    rw [mem_range] at hj
    rw [if_neg hj, zero_mul]

theorem chain_within (h s x₀ : ℝ) (n b : ℕ) [NeZero n] (hb : 0 < b) (c : Fin n × Fin b → ℝ) (π : ℕ → Ω → Equiv.Perm (Fin n × Fin b)) (Z : ℕ → Ω → ℝ) (e r : ℕ) (hr : r ≤ n) (ω : Ω) :
    chain h s x₀ (stepCentre n b c π) Z (e * n + r) ω - avg c =
      (1 - h / s) ^ r * (chain h s x₀ (stepCentre n b c π) Z (e * n) ω - avg c) + pushW h s n b (shareR h s n r) c (π e ω) (block n Z e ω) := by
  have hb' : (b : ℝ) ≠ 0 := by positivity
  have hn : 0 < n := NeZero.pos n
  have h1 : ∀ j : Fin n, stepCentre n b c π (e * n + j) ω = (∑ k : Fin b, c (π e ω (j, k))) / b := fun j => by
    unfold stepCentre
    have e1 : (e * n + (j : ℕ)) / n = e := by rw [mul_comm, Nat.mul_add_div hn, Nat.div_eq_of_lt j.2, add_zero]
    have e2 : slot n (e * n + j) = j := Fin.ext (by simp only [slot]; rw [mul_comm, Nat.mul_add_mod, Nat.mod_eq_of_lt j.2])
    rw [e1, e2]
  have h2 : ∑ i : Fin n × Fin b, shareR h s n r i.1 / b * ((c ∘ π e ω) i - avg c) =
      ∑ j : Fin n, shareR h s n r j * stepCentre n b c π (e * n + j) ω - (∑ j, shareR h s n r j) * avg c := by
    rw [Fintype.sum_prod_type, sum_mul, ← sum_sub_distrib]
    refine sum_congr rfl fun j _ => ?_
    rw [h1]
    simp only [← mul_sum]
    simp only [Function.comp_apply, sum_sub_distrib, sum_const, card_univ, Fintype.card_fin, nsmul_eq_mul]
    field_simp
  have h3 : h / s * ∑ j, shareR h s n r j = 1 - (1 - h / s) ^ r := by
    have := sum_shareR h s n r hr fun _ => 1
    simp only [mul_one] at this
    rw [this, sum_range_reflect (fun k => (1 - h / s) ^ k), ← mul_neg_geom_sum, sub_sub_cancel]
  rw [chain_steps]
  unfold pushW
  rw [h2]
  have h4 := sum_shareR h s n r hr fun j => h / s * stepCentre n b c π (e * n + j) ω + Real.sqrt (2 * h) * Z (e * n + j) ω
  have h5 : ∑ j : Fin n, shareR h s n r j * (h / s * stepCentre n b c π (e * n + j) ω + Real.sqrt (2 * h) * Z (e * n + j) ω) =
      h / s * (∑ j : Fin n, shareR h s n r j * stepCentre n b c π (e * n + j) ω) + Real.sqrt (2 * h) * ∑ j : Fin n, shareR h s n r j * block n Z e ω j := by
    rw [mul_sum, mul_sum, ← sum_add_distrib]
    refine sum_congr rfl fun j _ => ?_
    simp only [block]
    ring
  rw [← h4, h5]
  linear_combination avg c * h3

theorem ar_indep {T : Type*} [MeasurableSpace T] (P : Measure Ω) (V : ℕ → Ω → T) (hV : ∀ k, AEMeasurable (V k) P) (hi : iIndepFun V P) (g g' : T → ℝ) (hg : Measurable g) (hg' : Measurable g')
    (X : ℕ → Ω → ℝ) (q x₀ : ℝ) (h0 : ∀ ω, X 0 ω = x₀) (hs : ∀ e ω, X (e + 1) ω = q * X e ω + g (V e ω)) (e : ℕ) : IndepFun (X e) (fun ω => g' (V e ω)) P := by
  have hX : ∀ e ω, X e ω = q ^ e * x₀ + ∑ k ∈ range e, q ^ (e - 1 - k) * g (V k ω) := by
    intro e ω
    induction e with
    | zero => simp [h0]
    | succ e ih =>
      rw [hs, ih, sum_range_succ, show e + 1 - 1 - e = 0 by omega, pow_zero, one_mul, mul_add, mul_sum, ← mul_assoc, ← pow_succ', add_assoc]
      congr 2
      refine sum_congr rfl fun k hk => ?_
      rw [mem_range] at hk
      rw [← mul_assoc, ← pow_succ', show e - 1 - k + 1 = e + 1 - 1 - k by omega]
  have hd : Disjoint (range e) {e} := by simp
  have h1 := hi.indepFun_finset₀ (range e) {e} hd hV
  have h2 := h1.comp (φ := fun v : (i : range e) → T => q ^ e * x₀ + ∑ i : range e, q ^ (e - 1 - (i : ℕ)) * g (v i)) (ψ := fun v : (i : ({e} : Finset ℕ)) → T => g' (v ⟨e, by simp⟩))
    (measurable_const.add (Finset.measurable_sum _ fun i _ => measurable_const.mul (hg.comp (measurable_pi_apply i)))) (hg'.comp (measurable_pi_apply _))
  have h3 : X e = (fun v : (i : range e) → T => q ^ e * x₀ + ∑ i : range e, q ^ (e - 1 - (i : ℕ)) * g (v i)) ∘ fun ω (i : range e) => V i ω := by
    funext ω
    rw [hX, Function.comp_apply, Finset.sum_coe_sort (range e) fun k => q ^ (e - 1 - k) * g (V k ω)]
  rw [h3]
  exact h2

/-- **C152, within the epochs.** After any number `r` of steps of an epoch the mean of the sample tends to the average of the centres of the rows and its variance to `limitVarAt`. -/
theorem C152_within (P : Measure Ω) [IsProbabilityMeasure P] (n b : ℕ) [NeZero n] (hb : 0 < b) (hm : 2 ≤ n * b) (c : Fin n × Fin b → ℝ)
    (π : ℕ → Ω → Equiv.Perm (Fin n × Fin b)) (Z : ℕ → Ω → ℝ) (H : Reshuffled P n b π Z) (h s x₀ : ℝ) (hs : 0 < s) (hh : 0 < h) (hstep : h < 2 * s) (r : ℕ) (hr : r ≤ n) :
    Tendsto (fun e => ∫ ω, chain h s x₀ (stepCentre n b c π) Z (e * n + r) ω ∂P) atTop (𝓝 (avg c)) ∧
    Tendsto (fun e => ProbabilityTheory.variance (chain h s x₀ (stepCentre n b c π) Z (e * n + r)) P) atTop (𝓝 (limitVarAt h s n b r c)) := by
  obtain ⟨l1, l2⟩ := C152_law P n b hb hm c π Z H h s x₀ hs hh hstep
  have hYs := fun e => pushW_stats P n b hb hm c π Z H h s hh (shareR h s n r) e
  have hYs' := fun e => pushW_stats P n b hb hm c π Z H h s hh (share h s n) e
  have hVm : ∀ k, AEMeasurable (fun ω => (π k ω, block n Z k ω)) P := fun k =>
    (H.meas k).aemeasurable.prodMk (aemeasurable_pi_lambda _ fun j => (H.L2 _).aestronglyMeasurable.aemeasurable)
  have hind : ∀ e, IndepFun (fun ω => chain h s x₀ (stepCentre n b c π) Z (e * n) ω - avg c) (fun ω => pushW h s n b (shareR h s n r) c (π e ω) (block n Z e ω)) P := fun e =>
    ar_indep P (fun k ω => (π k ω, block n Z k ω)) hVm H.epochs (fun p => pushW h s n b (share h s n) c p.1 p.2) (fun p => pushW h s n b (shareR h s n r) c p.1 p.2)
      (pushW_measurable ..) (pushW_measurable ..) (fun e ω => chain h s x₀ (stepCentre n b c π) Z (e * n) ω - avg c) ((1 - h / s) ^ n) (x₀ - avg c)
      (fun ω => by simp [chain]) (fun e ω => chain_epoch h s x₀ n b hb c π Z e ω) e
  have hcL : ∀ e, MemLp (chain h s x₀ (stepCentre n b c π) Z (e * n)) 2 P := fun e => by
    induction e with
    | zero => simpa [chain] using memLp_const (μ := P) (p := 2) x₀
    | succ e ih =>
      have : chain h s x₀ (stepCentre n b c π) Z ((e + 1) * n) =
          fun ω => ((1 - h / s) ^ n * (chain h s x₀ (stepCentre n b c π) Z (e * n) ω - avg c) + pushW h s n b (share h s n) c (π e ω) (block n Z e ω)) + avg c := by
        funext ω
        rw [← sub_eq_iff_eq_add]
        exact chain_epoch h s x₀ n b hb c π Z e ω
      rw [this]
      exact (((ih.sub (memLp_const _)).const_mul _).add (hYs' e).1).add (memLp_const _)
  have hmid : ∀ e, chain h s x₀ (stepCentre n b c π) Z (e * n + r) =
      fun ω => (((1 - h / s) ^ r * (chain h s x₀ (stepCentre n b c π) Z (e * n) ω - avg c)) + pushW h s n b (shareR h s n r) c (π e ω) (block n Z e ω)) + avg c := fun e => by
    funext ω
    rw [← sub_eq_iff_eq_add]
    exact chain_within h s x₀ n b hb c π Z e r hr ω
  have hxL : ∀ e, MemLp (fun ω => (1 - h / s) ^ r * (chain h s x₀ (stepCentre n b c π) Z (e * n) ω - avg c)) 2 P := fun e => ((hcL e).sub (memLp_const _)).const_mul _
  constructor
  · have hmean : ∀ e, ∫ ω, chain h s x₀ (stepCentre n b c π) Z (e * n + r) ω ∂P = (1 - h / s) ^ r * (∫ ω, chain h s x₀ (stepCentre n b c π) Z (e * n) ω ∂P - avg c) + avg c := fun e => by
      have i1 := integral_add (((hxL e).integrable one_le_two).add ((hYs e).1.integrable one_le_two)) (integrable_const (μ := P) (avg c))
      simp only [Pi.add_apply] at i1
      rw [hmid]
      simp only
      rw [i1, integral_add ((hxL e).integrable one_le_two) ((hYs e).1.integrable one_le_two), (hYs e).2.1, integral_const_mul, integral_sub ((hcL e).integrable one_le_two) (integrable_const _)]
      simp
    simp only [hmean]
    have := ((l1.sub_const (avg c)).const_mul ((1 - h / s) ^ r)).add_const (avg c)
    simpa using this
  · have hvar : ∀ e, ProbabilityTheory.variance (chain h s x₀ (stepCentre n b c π) Z (e * n + r)) P =
        (1 - h / s) ^ (2 * r) * ProbabilityTheory.variance (chain h s x₀ (stepCentre n b c π) Z (e * n)) P + varW h s n b (shareR h s n r) c := fun e => by
      have hi := (hind e).comp (φ := fun x => (1 - h / s) ^ r * x) (ψ := fun x => x) (by fun_prop) (by fun_prop)
      have h1 := hi.variance_add (hxL e) (hYs e).1
      have h2 : ProbabilityTheory.variance (chain h s x₀ (stepCentre n b c π) Z (e * n + r)) P = ProbabilityTheory.variance (fun ω =>
          ((1 - h / s) ^ r * (chain h s x₀ (stepCentre n b c π) Z (e * n) ω - avg c)) + pushW h s n b (shareR h s n r) c (π e ω) (block n Z e ω)) P := by
        rw [hmid]
        exact variance_add_const ((hxL e).add (hYs e).1).aestronglyMeasurable _
      have h3 : ProbabilityTheory.variance (fun ω => (1 - h / s) ^ r * (chain h s x₀ (stepCentre n b c π) Z (e * n) ω - avg c)) P =
          (1 - h / s) ^ (2 * r) * ProbabilityTheory.variance (chain h s x₀ (stepCentre n b c π) Z (e * n)) P := by
        rw [variance_const_mul, variance_sub_const (hcL e).aestronglyMeasurable, ← pow_mul, mul_comm r 2]
      rw [h2, ← h3, ← (hYs e).2.2]
      exact h1
    simp only [hvar]
    exact (l2.const_mul _).add_const _

theorem sumsq_le (n r : ℕ) (h s : ℝ) : (∑ j, shareR h s n r j) ^ 2 ≤ n * ∑ j, shareR h s n r j ^ 2 := by
  have := sq_sum_le_card_mul_sum_sq (s := (univ : Finset (Fin n))) (f := shareR h s n r)
  simpa using this

/-- **C152, the comparison at every step.** Unless the rows agree or there is one batch, and with a step size below the variance of the target, the variance is after any number of steps of an
epoch more than with the gradient of all rows and less than with independent batches of the same variance. -/
theorem C152_between_within (n b r : ℕ) (hn : 2 ≤ n) (hb : 0 < b) (hr : r ≤ n) (c : Fin n × Fin b → ℝ) (hd : 0 < dev2 c) (h s : ℝ) (hs : 0 < s) (hh : 0 < h) (hlt : h < s) :
    s / (1 - h / (2 * s)) < limitVarAt h s n b r c ∧ limitVarAt h s n b r c < s / (1 - h / (2 * s)) * (1 + h * batchVar n b c / (2 * s ^ 2)) := by
  obtain ⟨lo, hi⟩ := C152_between n b hn hb c hd h s hs hh hlt
  have ha0 : 0 < 1 - h / s := by rw [sub_pos, div_lt_one hs]; exact hlt
  have ha1 : 1 - h / s < 1 := by have := div_pos hh hs; linarith
  set a := 1 - h / s with ha
  have hsq : ∑ j, shareR h s n r j ^ 2 = ∑ k ∈ range r, (a ^ 2) ^ k := by
    have h1 := sum_shareR h s n r hr fun j => a ^ (r - 1 - j)
    have h2 : ∀ j : Fin n, shareR h s n r j ^ 2 = shareR h s n r j * a ^ (r - 1 - (j : ℕ)) := fun j => by
      unfold shareR
      split <;> simp [pow_two, ha]
    simp only [h2]
    rw [h1, ← sum_range_reflect (fun k => (a ^ 2) ^ k)]
    refine sum_congr rfl fun j _ => ?_
    rw [← pow_mul, ← ha, ← pow_add, two_mul]
  have hgeo : (1 - a ^ 2) * ∑ j, shareR h s n r j ^ 2 = 1 - a ^ (2 * r) := by rw [hsq, mul_neg_geom_sum, ← pow_mul]
  have hge : ∑ j, shareR h s n r j ^ 2 ≤ (∑ j, shareR h s n r j) ^ 2 := by
    apply sum_sq_le_sq_sum_of_nonneg
    intro j _
    unfold shareR
    split
    · positivity
    · exact le_rfl
  have hle := sumsq_le n r h s
  have hn0 : (0 : ℝ) < n := by exact_mod_cast (by omega : 0 < n)
  have hm1 : (0 : ℝ) < (n * b : ℝ) - 1 := by
    have : (2 : ℝ) ≤ n * b := by exact_mod_cast (by nlinarith : 2 ≤ n * b)
    linarith
  have hb' : (0 : ℝ) < b := by exact_mod_cast hb
  have hK : 0 < (h / s) ^ 2 * (dev2 c / ((n * b : ℝ) - 1) / b) := by have := div_pos hh hs; positivity
  have hD : 0 < 1 - a ^ 2 := by nlinarith
  have hp : 0 < a ^ (2 * r) := by positivity
  have h2s : 0 < 2 * s - h := by linarith
  have e3 : 1 - a ^ 2 = h * (2 * s - h) / s ^ 2 := by rw [ha]; field_simp; ring
  have e4 : 1 - h / (2 * s) = (2 * s - h) / (2 * s) := by field_simp
  have e5 : 2 * h * ∑ j, shareR h s n r j ^ 2 = s / (1 - h / (2 * s)) * (1 - a ^ (2 * r)) := by
    rw [← hgeo, e3, e4]
    field_simp
  set S2 := ∑ j, shareR h s n r j ^ 2 with hS2
  set S1 := (∑ j, shareR h s n r j) ^ 2 with hS1
  set K := (h / s) ^ 2 * (dev2 c / ((n * b : ℝ) - 1) / b) with hKd
  have hv : limitVarAt h s n b r c = a ^ (2 * r) * limitVar h s n b c + (K * (S2 - S1 / n) + s / (1 - h / (2 * s)) * (1 - a ^ (2 * r))) := by
    rw [← e5]; rfl
  have hlow : 0 ≤ S2 - S1 / n := by rw [sub_nonneg, div_le_iff₀ hn0]; linarith
  have hup : S2 - S1 / n ≤ S2 * (1 - 1 / n) := by
    have : S2 / n ≤ S1 / n := by gcongr
    have e : S2 * (1 - 1 / n) = S2 - S2 / n := by ring
    linarith
  rw [hv]
  have hB : s / (1 - h / (2 * s)) * (1 + h * batchVar n b c / (2 * s ^ 2)) = s / (1 - h / (2 * s)) + K * (1 - 1 / n) / (1 - a ^ 2) := by
    rw [e3, e4, hKd]
    unfold batchVar
    field_simp
  rw [hB] at hi ⊢
  constructor
  · have := mul_lt_mul_of_pos_left lo hp
    have := mul_nonneg hK.le hlow
    linarith
  · have h1 := mul_lt_mul_of_pos_left hi hp
    have h2 := mul_le_mul_of_nonneg_left hup hK.le
    have h3 : K * (S2 * (1 - 1 / n)) = K * (1 - 1 / n) / (1 - a ^ 2) * (1 - a ^ (2 * r)) := by
      rw [← hgeo]
      field_simp
    rw [h3] at h2
    linarith

/-- **C152, the sampler.** The samples of SGLD on `n` batches of `b` rows, taken in every epoch in the order of that epoch, are the chain of the theorems above, in which a row is
represented by the centre of the batch of that row alone; the average of these centres is that of all rows, the mean of the posterior if these are all the data. -/
theorem C152_sampler {ι : Type} (resample : Option ℕ) (h : ℝ) (hh : 0 ≤ h) (N : ℕ) (v w : ι → ℝ) (n b : ℕ) [NeZero n] (hb : 0 < b) (y : Fin n × Fin b → ι → ℝ)
    (π : ℕ → Ω → Equiv.Perm (Fin n × Fin b)) (normal : Ω → Key → ι → ℝ) (key : Key) (x₀ : ι → ℝ) (i : ι) (hv : 0 < v i) (hw : 0 < w i) (t : ℕ) (ω : Ω) :
    sgldOn resample h N v w (fun t => (List.finRange b).map fun k => y (π (t / n) ω (slot n t, k))) (normal ω) key x₀ t i =
      chain h (postVar N (v i) (w i)) (x₀ i) (stepCentre n b (fun p => centre N (v i) (w i) [y p i]) π) (fun t ω => normal ω (.left (Key.right^[t] key)) i) t ω ∧
    avg (fun p : Fin n × Fin b => centre N (v i) (w i) [y p i]) = postVar N (v i) (w i) * (N / v i) * ((∑ p, y p i) / (n * b)) := by
  constructor
  · have h1 := chain_eq resample h hh N v w (fun ω t => (List.finRange b).map fun k => y (π (t / n) ω (slot n t, k)))
      (fun ω t => by simp; omega) normal key x₀ i hv hw t ω
    rw [h1]
    have h2 : (fun t ω => centre N (v i) (w i) (((List.finRange b).map fun k => y (π (t / n) ω (slot n t, k))).map (· i))) =
        stepCentre n b (fun p => centre N (v i) (w i) [y p i]) π := by
      funext t ω
      rw [C152_centre]
      unfold stepCentre
      rw [List.map_map, List.map_map, List.length_map, List.length_map, List.length_finRange, ← List.sum_ofFn, List.ofFn_eq_map]
      rfl
    rw [h2]
  · unfold avg centre
    simp only [List.sum_cons, List.sum_nil, add_zero, List.length_cons, List.length_nil, zero_add, Nat.cast_one, div_one, ← mul_sum, Fintype.card_prod, Fintype.card_fin]
    push_cast
    ring

/-! ## Examples -/

/-- Orders and noise as `C152_law` has them exist. -/
theorem ex_reshuffled (n b : ℕ) [NeZero n] : ∃ (Ω : Type) (_ : MeasurableSpace Ω) (P : Measure Ω) (_ : IsProbabilityMeasure P) (π : ℕ → Ω → Equiv.Perm (Fin n × Fin b))
    (Z : ℕ → Ω → ℝ), Reshuffled P n b π Z := by
  let G := gaussianReal 0 1
  let Q : Measure (Fin n → ℝ) := Measure.infinitePi fun _ => G
  let U : Measure (Equiv.Perm (Fin n × Fin b)) := (PMF.uniformOfFintype (Equiv.Perm (Fin n × Fin b))).toMeasure
  let T := Equiv.Perm (Fin n × Fin b) × (Fin n → ℝ)
  let P : Measure (ℕ → T) := Measure.infinitePi fun _ => U.prod Q
  have heval : ∀ e, P.map (fun ω => ω e) = U.prod Q := fun e => Measure.infinitePi_map_eval _ e
  have m1 : ∀ e, Measurable fun ω : ℕ → T => (ω e).1 := fun e => measurable_fst.comp (measurable_pi_apply e)
  have m2 : ∀ e, Measurable fun ω : ℕ → T => (ω e).2 := fun e => measurable_snd.comp (measurable_pi_apply e)
  have h1 : ∀ e, P.map (fun ω => (ω e).1) = U := fun e => by
    have : (fun ω : ℕ → T => (ω e).1) = Prod.fst ∘ fun ω => ω e := rfl
    rw [this, ← Measure.map_map measurable_fst (measurable_pi_apply e), heval, Measure.map_fst_prod, measure_univ, one_smul]
  have h2 : ∀ e, P.map (fun ω => (ω e).2) = Q := fun e => by
    have : (fun ω : ℕ → T => (ω e).2) = Prod.snd ∘ fun ω => ω e := rfl
    rw [this, ← Measure.map_map measurable_snd (measurable_pi_apply e), heval, Measure.map_snd_prod, measure_univ, one_smul]
  have m3 : ∀ e (j : Fin n), Measurable fun ω : ℕ → T => (ω e).2 j := fun e j => (measurable_pi_apply j).comp (m2 e)
  have h3 : ∀ e j, P.map (fun ω => (ω e).2 j) = G := fun e j => by
    have : (fun ω : ℕ → T => (ω e).2 j) = (fun z : Fin n → ℝ => z j) ∘ fun ω => (ω e).2 := rfl
    rw [this, ← Measure.map_map (measurable_pi_apply j) (m2 e), h2]
    exact Measure.infinitePi_map_eval _ j
  have hL : ∀ f : (ℕ → T) → ℝ, Measurable f → P.map f = G → MemLp f 2 P ∧ ∫ ω, f ω ∂P = 0 ∧ ProbabilityTheory.variance f P = 1 := fun f hf hfl => by
    refine ⟨?_, ?_, ?_⟩
    · have : MemLp id 2 (P.map f) := by rw [hfl]; exact memLp_id_gaussianReal 2
      exact (memLp_map_measure_iff aestronglyMeasurable_id hf.aemeasurable).1 this
    · have := integral_map (μ := P) hf.aemeasurable (f := fun x : ℝ => x) aestronglyMeasurable_id
      rw [← this, hfl, integral_id_gaussianReal]
    · have := variance_map (μ := P) (X := fun x : ℝ => x) (Y := f) aemeasurable_id hf.aemeasurable
      rw [hfl, variance_fun_id_gaussianReal] at this
      simpa [Function.comp_def] using this.symm
  have hblock : ∀ e, block n (fun t (ω : ℕ → T) => (ω (t / n)).2 (slot n t)) e = fun ω => (ω e).2 := fun e => by
    funext ω j
    have hn : 0 < n := NeZero.pos n
    have e1 : (e * n + (j : ℕ)) / n = e := by rw [mul_comm, Nat.mul_add_div hn, Nat.div_eq_of_lt j.2, add_zero]
    have e2 : slot n (e * n + j) = j := Fin.ext (by simp only [slot]; rw [mul_comm, Nat.mul_add_mod, Nat.mod_eq_of_lt j.2])
    simp only [block, e1, e2]
  refine ⟨ℕ → T, inferInstance, P, inferInstance, fun e ω => (ω e).1, fun t ω => (ω (t / n)).2 (slot n t),
    ⟨m1, fun e σ => ?_, fun t => (hL _ (m3 _ _) (h3 _ _)).1, fun t => (hL _ (m3 _ _) (h3 _ _)).2.1, fun t => (hL _ (m3 _ _) (h3 _ _)).2.2, ?_, fun e => ?_, ?_⟩⟩
  · have : {ω : ℕ → T | (ω e).1 = σ} = (fun ω => (ω e).1) ⁻¹' {σ} := rfl
    rw [this, ← map_measureReal_apply (m1 e) MeasurableSet.of_discrete, h1]
    simp only [U, Measure.real]
    rw [PMF.toMeasure_apply_singleton _ _ MeasurableSet.of_discrete, PMF.uniformOfFintype_apply, ENNReal.toReal_inv, ENNReal.toReal_natCast, card_perm]
    simp
  · have hu : iIndepFun (fun (p : ℕ × Fin n) (ω : ℕ → T) => (ω p.1).2 p.2) P := by
      refine iIndepFun_uncurry' (X := fun e (j : Fin n) (ω : ℕ → T) => (ω e).2 j) (fun e j => m3 e j) ?_ fun e => ?_
      · exact iIndepFun_infinitePi (P := fun _ : ℕ => U.prod Q) (X := fun _ (x : T) => x.2) fun _ => measurable_snd
      · rw [iIndepFun_iff_map_fun_eq_infinitePi_map (fun j => m3 e j)]
        simp only [h3]
        exact h2 e
    refine hu.precomp (g := fun t => (t / n, slot n t)) fun t t' ht => ?_
    simp only [Prod.mk.injEq, slot, Fin.mk.injEq] at ht
    rw [← Nat.div_add_mod t n, ← Nat.div_add_mod t' n, ht.1, ht.2]
  · rw [hblock, indepFun_iff_map_prod_eq_prod_map_map (m1 e).aemeasurable (m2 e).aemeasurable, h1, h2]
    exact heval e
  · simp only [hblock]
    exact iIndepFun_infinitePi (P := fun _ : ℕ => U.prod Q) (X := fun _ x => x) fun _ => measurable_id

/-- The rows -1 and 1 in two batches, with the variance 1 and the step size 1/2: without mini-batches the variance would be 4/3, with independent batches of variance 1 it is 5/3,
with reshuffling 7/5. -/
example : limitVar (1 / 2) 1 2 1 (fun p => if p.1 = 0 then -1 else 1) = 7 / 5 ∧ (1 : ℝ) / (1 - 1 / 2 / (2 * 1)) = 4 / 3 ∧
    (1 : ℝ) / (1 - 1 / 2 / (2 * 1)) * (1 + 1 / 2 * batchVar 2 1 (fun p => if p.1 = 0 then -1 else 1) / (2 * 1 ^ 2)) = 5 / 3 := by
  have hd : dev2 (fun p : Fin 2 × Fin 1 => if p.1 = 0 then (-1 : ℝ) else 1) = 2 := by
    unfold dev2 avg
    simp [Fintype.sum_prod_type, Fin.sum_univ_two]
  unfold limitVar batchVar spread share
  rw [hd]
  norm_num [Fin.sum_univ_two]

/-! ### Concrete cases that meet the hypotheses of the theorems above -/

theorem ex_dev2 : (0 : ℝ) < dev2 (fun p : Fin 2 × Fin 1 => if p.1 = 0 then (-1 : ℝ) else 1) := by
  unfold dev2 avg
  simp [Fintype.sum_prod_type, Fin.sum_univ_two]

example := C152_centre 10 2 3 [1, 4]
example := C152_perm_mean (κ := Fin 3) ![1, 2, 6] ![1, 0, 5] (by simp)
example := C152_perm_variance (κ := Fin 3) ![1, 2, 6] ![1, 0, 5] (by simp)
example : ∃ (Ω : Type) (_ : MeasurableSpace Ω) (P : Measure Ω) (π : ℕ → Ω → Equiv.Perm (Fin 3 × Fin 2)) (Z : ℕ → Ω → ℝ),
    Tendsto (fun e => ProbabilityTheory.variance (chain (1 / 2) 1 0 (stepCentre 3 2 (fun p => p.1 + p.2) π) Z (e * 3)) P) atTop (𝓝 (limitVar (1 / 2) 1 3 2 fun p => p.1 + p.2)) ∧
    ∫ ω, (stepCentre 3 2 (fun p => p.1 + p.2) π 5 ω - avg fun p : Fin 3 × Fin 2 => (p.1 + p.2 : ℝ)) ^ 2 ∂P = batchVar 3 2 fun p => p.1 + p.2 := by
  obtain ⟨Ω, _, P, _, π, Z, H⟩ := ex_reshuffled 3 2
  exact ⟨Ω, _, P, π, Z, (C152_law P 3 2 (by decide) (by decide) _ π Z H (1 / 2) 1 0 (by norm_num) (by norm_num) (by norm_num)).2, C152_batch P 3 2 (by decide) (by decide) _ π Z H 5⟩
example := C152_between 2 1 (by decide) (by decide) _ ex_dev2 (1 / 2) 1 (by norm_num) (by norm_num) (by norm_num)
example := C152_between_within 2 1 1 (by decide) (by decide) (by decide) _ ex_dev2 (1 / 2) 1 (by norm_num) (by norm_num) (by norm_num)
example : ∃ (Ω : Type) (_ : MeasurableSpace Ω) (P : Measure Ω) (π : ℕ → Ω → Equiv.Perm (Fin 3 × Fin 2)) (Z : ℕ → Ω → ℝ),
    Tendsto (fun e => ProbabilityTheory.variance (chain (1 / 2) 1 0 (stepCentre 3 2 (fun p => p.1 + p.2) π) Z (e * 3 + 1)) P) atTop (𝓝 (limitVarAt (1 / 2) 1 3 2 1 fun p => p.1 + p.2)) := by
  obtain ⟨Ω, _, P, _, π, Z, H⟩ := ex_reshuffled 3 2
  exact ⟨Ω, _, P, π, Z, (C152_within P 3 2 (by decide) (by decide) _ π Z H (1 / 2) 1 0 (by norm_num) (by norm_num) (by norm_num) 1 (by decide)).2⟩
example := C152_between_false 1 (by decide) _ ex_dev2 (3 / 2) 1 (by norm_num) (by norm_num) (by norm_num)
example := C152_sampler (Ω := Unit) (ι := Fin 2) (some 10) (1 / 10) (by norm_num) 4 ![1, 2] ![3, 4] 2 2 (by decide) (fun p i => (p.1 : ℝ) + p.2 + i)
  (fun _ _ => Equiv.refl _) (fun _ _ _ => 0) (.seed 0) (fun _ => 0) 1 (by simp) (by simp) 3 ()

end Verif.Props.Reshuffle
