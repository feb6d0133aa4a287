import Mathlib.Analysis.Calculus.Deriv.Add
import Mathlib.Analysis.Calculus.Deriv.Mul
import Mathlib.Analysis.Calculus.Deriv.Pow
import Mathlib.Analysis.Calculus.Deriv.Inv
import Mathlib.Analysis.SpecialFunctions.Log.Deriv
import Mathlib.Analysis.SpecialFunctions.ExpDeriv
import Mathlib.Algebra.BigOperators.Field
import Verif.Model.GaussPost
import Verif.Props.OutputLayer
import Verif.Props.Frozen
import Verif.Props.SubsetRepo

/-! Properties of the Laplace approximation (C74). -/

set_option linter.unusedSectionVars false

namespace Verif.Props

open Verif.GaussPost Verif.Nested Verif.Nested.Obj Verif.OutputLayer

variable {ι κ : Type} [Fintype ι] [Fintype κ]

/-- `H` is the Hessian of `f` at `x`: symmetric, and its quadratic form gives the second derivative of `f` along every line
through `x`. -/
def IsHess (f : (ι → ℝ) → ℝ) (x : ι → ℝ) (H : ι → ι → ℝ) : Prop :=
  (∀ a b, H a b = H b a) ∧ ∀ v : ι → ℝ, HasDerivAt (deriv fun t : ℝ => f fun i => x i + t * v i) (∑ a, ∑ b, v a * H a b * v b) 0

/-- `lam` and the columns of `z` are an eigendecomposition of `H`. -/
def IsEig (H : ι → ι → ℝ) (pt : GGNPoint ι κ) : Prop := ∀ a b, H a b = ∑ k, pt.z a k * pt.lam k * pt.z b k

theorem hess_point (H : ι → ι → ℝ) (pt : GGNPoint ι κ) (h : IsEig H pt) (i : κ) :
    ∑ k, pt.lam k * ztj pt k i ^ 2 = ∑ a, ∑ b, pt.jac a i * H a b * pt.jac b i := by
  have : ∀ a b, pt.jac a i * H a b * pt.jac b i =
      ∑ k, pt.lam k * ((pt.z a k * pt.jac a i) * (pt.z b k * pt.jac b i)) := by
    intro a b
    rw [h a b, Finset.mul_sum, Finset.sum_mul]
    exact Finset.sum_congr rfl fun k _ => by ring
  simp only [this]
  rw [Finset.sum_congr rfl fun a _ => Finset.sum_comm, Finset.sum_comm]
  refine Finset.sum_congr rfl fun k _ => ?_
  unfold ztj
  rw [sq, Finset.sum_mul_sum, Finset.mul_sum]
  exact Finset.sum_congr rfl fun a _ => by rw [Finset.mul_sum]

theorem hessLoop_eq (bs : List (List (GGNPoint ι κ))) (i : κ) :
    hessLoop bs i = -((bs.flatten).map fun pt => ∑ k, pt.lam k * ztj pt k i ^ 2).sum := by
  have : ∀ (bs : List (List (GGNPoint ι κ))) (h : ℝ), bs.foldl (fun h b => h + hessBatch b i) h =
      h - ((bs.flatten).map fun pt => ∑ k, pt.lam k * ztj pt k i ^ 2).sum := by
    intro bs
    induction bs with
    | nil => intro h; simp
    | cons b bs ih =>
      intro h
      rw [List.foldl_cons, ih, List.flatten_cons, List.map_append, List.sum_append]
      unfold hessBatch
      ring
  unfold hessLoop
  rw [this]; ring

/-- **C74, the Hessian.** The stored diagonal is minus the diagonal of the sum over all data of `Jᵀ H J`, the generalised
Gauss-Newton matrix of the log-likelihood. -/
theorem C74_ggn (bs : List (List (GGNPoint ι κ))) (H : GGNPoint ι κ → ι → ι → ℝ)
    (hH : ∀ b ∈ bs, ∀ pt ∈ b, IsEig (H pt) pt) (i : κ) :
    hessLoop bs i = -(bs.flatten.map fun pt => ∑ a, ∑ b, pt.jac a i * H pt a b * pt.jac b i).sum := by
  rw [hessLoop_eq]
  congr 2
  apply List.map_congr_left
  intro pt hpt
  obtain ⟨b, hb, hpb⟩ := List.mem_flatten.1 hpt
  exact hess_point _ _ (hH b hb pt hpb) i

theorem neg_sum_map {A : Type*} (l : List A) (f : A → ℝ) : -(l.map f).sum = (l.map fun a => -f a).sum := by
  induction l with
  | nil => simp
  | cons a l ih => simp only [List.map_cons, List.sum_cons, neg_add, ih]

/-- **C74, batching.** The Hessian depends neither on the split into batches nor on the order of the data. -/
theorem C74_batching (bs bs' : List (List (GGNPoint ι κ))) (h : bs.flatten.Perm bs'.flatten) (i : κ) :
    hessLoop bs i = hessLoop bs' i := by
  rw [hessLoop_eq, hessLoop_eq, (h.map _).sum_eq]

/-- The second derivative of the classification log-probability along a line: minus the variance of the direction under the
predicted probabilities. -/
theorem class_second {c : ℕ} (hc : 0 < c) (o : Fin c → ℝ) (y : ℤ) (v : Fin c → ℝ) :
    HasDerivAt (deriv fun t : ℝ => classLogProb (fun i => o i + t * v i) y)
      (-(∑ j, softmax o j * v j ^ 2 - (∑ j, softmax o j * v j) ^ 2)) 0 := by
  have hlse : ∀ x : Fin c → ℝ, Predictive.logsumexp x = Real.log (∑ j, Real.exp (x j)) := fun x => by
    rw [← exp_logsumexp hc, Real.log_exp]
  let S : ℕ → ℝ → ℝ := fun n t => ∑ j, v j ^ n * Real.exp (o j + t * v j)
  have hS : ∀ n t, HasDerivAt (S n) (S (n + 1) t) t := by
    intro n t
    have : ∀ j ∈ (Finset.univ : Finset (Fin c)), HasDerivAt (fun t => v j ^ n * Real.exp (o j + t * v j))
        (v j ^ (n + 1) * Real.exp (o j + t * v j)) t := by
      intro j _
      have h1 : HasDerivAt (fun t : ℝ => o j + t * v j) (v j) t := by
        simpa using ((hasDerivAt_id t).mul_const (v j)).const_add (o j)
      have := (h1.exp).const_mul (v j ^ n)
      exact this.congr_deriv (by rw [pow_succ]; ring)
    exact HasDerivAt.fun_sum this
  have hpos : ∀ t, 0 < S 0 t := fun t => by
    have := sum_exp_pos hc (fun j => o j + t * v j)
    simpa [S] using this
  have hf : (fun t : ℝ => classLogProb (fun i => o i + t * v i) y) =
      fun t => (∑ j, oneHot c y j * (o j + t * v j)) - Real.log (S 0 t) := by
    funext t
    unfold classLogProb
    rw [hlse]
    simp [S]
  have hd : (deriv fun t : ℝ => classLogProb (fun i => o i + t * v i) y) =
      fun t => (∑ j, oneHot c y j * v j) - S 1 t / S 0 t := by
    rw [hf]
    funext t
    have h1 : HasDerivAt (fun t : ℝ => ∑ j, oneHot c y j * (o j + t * v j)) (∑ j, oneHot c y j * v j) t := by
      apply HasDerivAt.fun_sum
      intro j _
      have := (((hasDerivAt_id t).mul_const (v j)).const_add (o j)).const_mul (oneHot c y j)
      simpa using this
    exact (h1.sub ((hS 0 t).log (hpos t).ne')).deriv
  rw [hd]
  have h3 : HasDerivAt (fun t => (∑ j, oneHot c y j * v j) - S 1 t / S 0 t)
      (-((S 2 0 * S 0 0 - S 1 0 * S 1 0) / S 0 0 ^ 2)) 0 :=
    ((hS 1 0).div (hS 0 0) (hpos 0).ne').const_sub _
  refine h3.congr_deriv ?_
  have e0 : S 0 0 = ∑ j, Real.exp (o j) := by simp [S]
  have hp := hpos 0
  rw [e0] at hp
  have e1 : ∑ j, softmax o j * v j = S 1 0 / S 0 0 := by
    rw [e0, Finset.sum_div]
    refine Finset.sum_congr rfl fun j _ => ?_
    unfold softmax
    simp only [zero_mul, add_zero]
    ring
  have e2 : ∑ j, softmax o j * v j ^ 2 = S 2 0 / S 0 0 := by
    rw [e0, Finset.sum_div]
    refine Finset.sum_congr rfl fun j _ => ?_
    unfold softmax
    simp only [zero_mul, add_zero]
    ring
  rw [e1, e2]
  have hne := (hpos 0).ne'
  field_simp

theorem class_hess {c : ℕ} (hc : 0 < c) (o : Fin c → ℝ) (y : ℤ) (H : Fin c → Fin c → ℝ)
    (hH : IsHess (fun o => classLogProb o y) o H) (v : Fin c → ℝ) :
    ∑ a, ∑ b, v a * H a b * v b = -(∑ j, softmax o j * v j ^ 2 - (∑ j, softmax o j * v j) ^ 2) :=
  (hH.2 v).unique (class_second hc o y v)

theorem variance_nonneg {c : ℕ} (p v : Fin c → ℝ) (hp : ∀ i, 0 ≤ p i) (h1 : ∑ i, p i = 1) :
    0 ≤ ∑ j, p j * v j ^ 2 - (∑ j, p j * v j) ^ 2 := by
  have : ∑ j, p j * v j ^ 2 - (∑ j, p j * v j) ^ 2 = ∑ j, p j * (v j - ∑ i, p i * v i) ^ 2 := by
    set m := ∑ i, p i * v i with hm
    have : ∀ j, p j * (v j - m) ^ 2 = p j * v j ^ 2 - 2 * m * (p j * v j) + m ^ 2 * p j := fun j => by ring
    simp only [this]
    rw [Finset.sum_add_distrib, Finset.sum_sub_distrib, ← Finset.mul_sum, ← Finset.mul_sum, h1, ← hm]
    ring
  rw [this]
  exact Finset.sum_nonneg fun j _ => mul_nonneg (hp j) (sq_nonneg _)

/-- **C74, classification.** For every classifier, every data set and every parameter, the stored Hessian diagonal is the sum
over the data of the variance, under the predicted class probabilities, of the derivative of the logits in that parameter. In
particular it is never negative. -/
theorem C74_classification {c : ℕ} (hc : 0 < c) (bs : List (List (GGNPoint (Fin c) κ))) (out : GGNPoint (Fin c) κ → Fin c → ℝ)
    (y : GGNPoint (Fin c) κ → ℤ) (H : GGNPoint (Fin c) κ → Fin c → Fin c → ℝ)
    (hess : ∀ b ∈ bs, ∀ pt ∈ b, IsHess (fun o => classLogProb o (y pt)) (out pt) (H pt))
    (heig : ∀ b ∈ bs, ∀ pt ∈ b, IsEig (H pt) pt) (i : κ) :
    hessLoop bs i = (bs.flatten.map fun pt => ∑ j, softmax (out pt) j * pt.jac j i ^ 2 -
        (∑ j, softmax (out pt) j * pt.jac j i) ^ 2).sum ∧ 0 ≤ hessLoop bs i := by
  have key : hessLoop bs i = (bs.flatten.map fun pt => ∑ j, softmax (out pt) j * pt.jac j i ^ 2 -
        (∑ j, softmax (out pt) j * pt.jac j i) ^ 2).sum := by
    rw [C74_ggn bs H heig]
    rw [neg_sum_map]
    congr 1
    apply List.map_congr_left
    intro pt hpt
    obtain ⟨b, hb, hpb⟩ := List.mem_flatten.1 hpt
    rw [class_hess hc _ _ _ (hess b hb pt hpb) (fun a => pt.jac a i), neg_neg]
  refine ⟨key, key ▸ List.sum_nonneg ?_⟩
  intro x hx
  obtain ⟨pt, -, rfl⟩ := List.mem_map.1 hx
  exact variance_nonneg _ _ (fun j => ((softmax_spec hc _).1 j).le) (softmax_spec hc _).2

/-- The regression log-probability of a row of means and log-variances. -/
noncomputable def regRow {d : ℕ} (t : Fin d → ℝ) (o : Fin d ⊕ Fin d → ℝ) : ℝ :=
  regLogProb (fun i => o (.inl i)) (fun i => o (.inr i)) t

theorem reg_hess_mean {d : ℕ} (t : Fin d → ℝ) (o : Fin d ⊕ Fin d → ℝ) (H : Fin d ⊕ Fin d → Fin d ⊕ Fin d → ℝ) (hH : IsHess (regRow t) o H)
    (v : Fin d ⊕ Fin d → ℝ) (hv : ∀ i, v (.inr i) = 0) :
    ∑ a, ∑ b, v a * H a b * v b = -∑ i, Real.exp (-o (.inr i)) * v (.inl i) ^ 2 := by
  have hd : (deriv fun τ : ℝ => regRow t fun i => o i + τ * v i) =
      fun τ => ∑ i, Real.exp (-o (.inr i)) * (t i - (o (.inl i) + τ * v (.inl i))) * v (.inl i) := by
    funext τ
    have : HasDerivAt (fun τ : ℝ => regRow t fun i => o i + τ * v i)
        (-(1 / 2) * ∑ i, (Real.exp (-o (.inr i)) * (2 * (t i - (o (.inl i) + τ * v (.inl i))) * -v (.inl i)))) τ := by
      unfold regRow regLogProb
      simp only [hv, mul_zero, add_zero]
      apply HasDerivAt.const_mul
      apply HasDerivAt.fun_sum
      intro i _
      have h1 : HasDerivAt (fun τ : ℝ => t i - (o (.inl i) + τ * v (.inl i))) (-v (.inl i)) τ := by
        simpa using (((hasDerivAt_id τ).mul_const (v (.inl i))).const_add (o (.inl i))).const_sub (t i)
      have h2 := (((h1.pow 2).const_mul (Real.exp (-o (.inr i)))).add_const (o (.inr i))).add_const
        (Real.log (2 * Real.pi))
      exact h2.congr_deriv (by rw [show (2 : ℕ) - 1 = 1 from rfl, pow_one]; push_cast; ring)
    rw [this.deriv, Finset.mul_sum]
    exact Finset.sum_congr rfl fun i _ => by ring
  have h2 := hH.2 v
  rw [hd] at h2
  have h3 : HasDerivAt (fun τ : ℝ => ∑ i, Real.exp (-o (.inr i)) * (t i - (o (.inl i) + τ * v (.inl i))) * v (.inl i))
      (∑ i, Real.exp (-o (.inr i)) * (-v (.inl i)) * v (.inl i)) 0 := by
    apply HasDerivAt.fun_sum
    intro i _
    have h1 : HasDerivAt (fun τ : ℝ => t i - (o (.inl i) + τ * v (.inl i))) (-v (.inl i)) 0 := by
      simpa using (((hasDerivAt_id (0 : ℝ)).mul_const (v (.inl i))).const_add (o (.inl i))).const_sub (t i)
    exact (h1.const_mul _).mul_const _
  rw [h2.unique h3, ← Finset.sum_neg_distrib]
  exact Finset.sum_congr rfl fun i _ => by ring

theorem reg_hess_var {d : ℕ} (t : Fin d → ℝ) (o : Fin d ⊕ Fin d → ℝ) (H : Fin d ⊕ Fin d → Fin d ⊕ Fin d → ℝ) (hH : IsHess (regRow t) o H)
    (v : Fin d ⊕ Fin d → ℝ) (hv : ∀ i, v (.inl i) = 0) :
    ∑ a, ∑ b, v a * H a b * v b =
      -∑ i, Real.exp (-o (.inr i)) * (t i - o (.inl i)) ^ 2 / 2 * v (.inr i) ^ 2 := by
  have hexp : ∀ i τ, HasDerivAt (fun τ : ℝ => Real.exp (-(o (.inr i) + τ * v (.inr i))))
      (Real.exp (-(o (.inr i) + τ * v (.inr i))) * -v (.inr i)) τ := fun i τ => by
    have h1 : HasDerivAt (fun τ : ℝ => -(o (.inr i) + τ * v (.inr i))) (-v (.inr i)) τ := by
      have h0 : HasDerivAt (fun τ : ℝ => o (.inr i) + τ * v (.inr i)) (v (.inr i)) τ := by
        simpa using ((hasDerivAt_id τ).mul_const (v (.inr i))).const_add (o (.inr i))
      exact h0.fun_neg
    exact h1.exp
  have hd : (deriv fun τ : ℝ => regRow t fun i => o i + τ * v i) =
      fun τ => ∑ i, -(1 / 2) * (Real.exp (-(o (.inr i) + τ * v (.inr i))) * -v (.inr i) * (t i - o (.inl i)) ^ 2 +
        v (.inr i)) := by
    funext τ
    have : HasDerivAt (fun τ : ℝ => regRow t fun i => o i + τ * v i)
        (-(1 / 2) * ∑ i, (Real.exp (-(o (.inr i) + τ * v (.inr i))) * -v (.inr i) * (t i - o (.inl i)) ^ 2 +
        v (.inr i))) τ := by
      unfold regRow regLogProb
      simp only [hv, mul_zero, add_zero]
      apply HasDerivAt.const_mul
      apply HasDerivAt.fun_sum
      intro i _
      have h1 : HasDerivAt (fun τ : ℝ => o (.inr i) + τ * v (.inr i)) (v (.inr i)) τ := by
        simpa using ((hasDerivAt_id τ).mul_const (v (.inr i))).const_add (o (.inr i))
      exact (((hexp i τ).mul_const _).add h1).add_const _
    rw [this.deriv, Finset.mul_sum]
  have h2 := hH.2 v
  rw [hd] at h2
  have h3 : HasDerivAt (fun τ : ℝ => ∑ i, -(1 / 2) * (Real.exp (-(o (.inr i) + τ * v (.inr i))) * -v (.inr i) *
      (t i - o (.inl i)) ^ 2 + v (.inr i)))
      (∑ i, -(1 / 2) * (Real.exp (-(o (.inr i) + 0 * v (.inr i))) * -v (.inr i) * -v (.inr i) * (t i - o (.inl i)) ^ 2)) 0 := by
    apply HasDerivAt.fun_sum
    intro i _
    apply HasDerivAt.const_mul
    exact (((hexp i 0).mul_const _).mul_const _).add_const _
  rw [h2.unique h3, ← Finset.sum_neg_distrib]
  exact Finset.sum_congr rfl fun i _ => by rw [zero_mul, add_zero]; ring

/-- **C74, regression.** With separate models for mean and log-variance, so that a parameter moves only means or only
log-variances, the stored Hessian diagonal is never negative either. -/
theorem C74_regression {d : ℕ} (bs : List (List (GGNPoint (Fin d ⊕ Fin d) κ))) (out : GGNPoint (Fin d ⊕ Fin d) κ → Fin d ⊕ Fin d → ℝ)
    (t : GGNPoint (Fin d ⊕ Fin d) κ → Fin d → ℝ) (H : GGNPoint (Fin d ⊕ Fin d) κ → Fin d ⊕ Fin d → Fin d ⊕ Fin d → ℝ)
    (hess : ∀ b ∈ bs, ∀ pt ∈ b, IsHess (regRow (t pt)) (out pt) (H pt))
    (heig : ∀ b ∈ bs, ∀ pt ∈ b, IsEig (H pt) pt) (i : κ)
    (hi : (∀ b ∈ bs, ∀ pt ∈ b, ∀ j, pt.jac (.inr j) i = 0) ∨ (∀ b ∈ bs, ∀ pt ∈ b, ∀ j, pt.jac (.inl j) i = 0)) :
    0 ≤ hessLoop bs i := by
  rw [C74_ggn bs H heig, neg_sum_map]
  apply List.sum_nonneg
  intro x hx
  obtain ⟨pt, hpt, rfl⟩ := List.mem_map.1 hx
  obtain ⟨b, hb, hpb⟩ := List.mem_flatten.1 hpt
  rcases hi with hi | hi
  · rw [reg_hess_mean _ _ _ (hess b hb pt hpb) (fun a => pt.jac a i) (hi b hb pt hpb), neg_neg]
    exact Finset.sum_nonneg fun j _ => mul_nonneg (Real.exp_pos _).le (sq_nonneg _)
  · rw [reg_hess_var _ _ _ (hess b hb pt hpb) (fun a => pt.jac a i) (hi b hb pt hpb), neg_neg]
    exact Finset.sum_nonneg fun j _ =>
      mul_nonneg (div_nonneg (mul_nonneg (Real.exp_pos _).le (sq_nonneg _)) two_pos.le) (sq_nonneg _)

/-- **C74, standard deviations.** With a non-negative Hessian diagonal the standard deviation is positive, its inverse square
is the prior precision plus the Hessian, it never exceeds the prior's standard deviation, shrinks as the Hessian grows and
grows with the prior's log-variance. -/
theorem C74_std (p p' h h' : ℝ) (h0 : 0 ≤ h) (hh : h ≤ h') (hp : p ≤ p') :
    0 < laplaceStd p h ∧ 1 / laplaceStd p h ^ 2 = Real.exp (-p) + h ∧ laplaceStd p h ≤ Real.exp (p / 2) ∧
    laplaceStd p h' ≤ laplaceStd p h ∧ laplaceStd p h ≤ laplaceStd p' h := by
  have hpos : ∀ q, 0 < Real.exp (-q) + h := fun q => by positivity
  have hs : ∀ q, 0 < Real.sqrt (Real.exp (-q) + h) := fun q => Real.sqrt_pos.2 (hpos q)
  refine ⟨by unfold laplaceStd; exact div_pos one_pos (hs p), ?_, ?_, ?_, ?_⟩
  · unfold laplaceStd
    rw [div_pow, Real.sq_sqrt (hpos p).le]
    simp
  · unfold laplaceStd
    rw [div_le_iff₀ (hs p)]
    have h1 : Real.exp (p / 2) * Real.sqrt (Real.exp (-p)) = 1 := by
      rw [show -p = -(p / 2) + -(p / 2) by ring, Real.exp_add, Real.sqrt_mul_self (Real.exp_pos _).le, ← Real.exp_add]
      simp
    calc (1 : ℝ) = Real.exp (p / 2) * Real.sqrt (Real.exp (-p)) := h1.symm
      _ ≤ _ := mul_le_mul_of_nonneg_left (Real.sqrt_le_sqrt (by linarith)) (Real.exp_pos _).le
  · unfold laplaceStd
    exact one_div_le_one_div_of_le (hs p) (Real.sqrt_le_sqrt (by linarith))
  · unfold laplaceStd
    apply one_div_le_one_div_of_le (hs p')
    apply Real.sqrt_le_sqrt
    have := Real.exp_le_exp.2 (neg_le_neg hp)
    linarith

/-! ## The state -/

theorem pair_perm {K V : Type} [DecidableEq K] (l0 l1 : K) {L L' : List (List K × Obj K V)} (h : L.Perm L')
    (hL : L.Pairwise fun a b => Apart a.1 b.1) (d dp : Obj K V)
    (h1 : L.foldlM (fun d po => pairPath l0 l1 po.2 po.1 d) d = .ok dp) :
    L'.foldlM (fun d po => pairPath l0 l1 po.2 po.1 d) d = .ok dp := by
  induction h generalizing d with
  | nil => exact h1
  | cons a h ih =>
    obtain ⟨d1, h2, h3⟩ := foldlM_cons_ok h1
    rw [List.foldlM_cons, h2]
    exact ih (List.pairwise_cons.1 hL).2 d1 h3
  | swap a b l =>
    obtain ⟨d1, h2, h3⟩ := foldlM_cons_ok h1
    obtain ⟨d2, h4, h5⟩ := foldlM_cons_ok h3
    have hap : Apart a.1 b.1 := ((List.pairwise_cons.1 hL).1 a (by simp)).symm
    rw [pairPath_eq] at h2 h4
    obtain ⟨x, o', h6, h7, h8⟩ := modifyAt_isSome h4.2
    have h9 : at? a.1 d = some x := by
      rw [← h6]
      exact (pairAll_frame l0 l1 [b] a.1 (by simpa using hap) d d1 (by
        rw [List.foldlM_cons, (pairPath_eq _ _ _ _ _ _).2 h2]; rfl)).symm
    obtain ⟨d1', h10⟩ := modifyAt_ok (f := fun x => .ok (pairOf l0 l1 x a.2)) h9 h7
    obtain ⟨d3, h11, h12⟩ := modifyAt_diamond hap h10 h2.2
    rw [h4.2] at h12
    cases h12
    rw [List.foldlM_cons, (pairPath_eq _ _ _ _ _ _).2 ⟨h4.1, h10⟩]
    show (b :: l).foldlM (fun d po => pairPath l0 l1 po.2 po.1 d) d1' = _
    rw [List.foldlM_cons, (pairPath_eq _ _ _ _ _ _).2 ⟨h2.1, h11⟩]
    exact h5
  | trans p q ih1 ih2 =>
    exact ih2 ((p.pairwise_iff fun h => h.symm).1 hL) d (ih1 hL d h1)

/-- Pairing at some paths and unpairing at the same paths in any order. -/
theorem pair_unpair_perm4 {K V : Type} [DecidableEq K] (l0 l1 : K) (hl : l0 ≠ l1) (d : Obj K V) (ps ps' : List (List K))
    (of : List K → Obj K V) (hp : ps.Pairwise Apart) (hd : ∀ p ∈ ps, ∃ o, nestedGet d p = .ok o) (hperm : ps.Perm ps') :
    ∃ dp e, nestedPair d ps (ps.map of) l0 l1 = .ok dp ∧ nestedUnpair dp ps' l0 l1 = .ok (d, e) ∧
      (∀ p ∈ ps, nestedGet e p = .ok (of p)) ∧ (∀ p, (∀ q ∈ ps, Apart p q) → ∀ o, nestedGet e p ≠ .ok o) := by
  have hp' : ps'.Pairwise Apart := (hperm.pairwise_iff fun h => h.symm).1 hp
  obtain ⟨dp, e, h1, h2, h3, h4⟩ := C28_round_trip l0 l1 hl d ps' (ps'.map of) (by simp) hp'
    fun p h => hd p (hperm.mem_iff.2 h)
  have hz : ∀ qs : List (List K), qs.zip (qs.map of) = qs.map fun p => (p, of p) := fun qs => by
    conv_lhs => rw [← List.map_id qs, List.map_map]
    rw [List.zip_map']; rfl
  have hlen : ∀ qs : List (List K), ¬ qs.length ≠ (qs.map of).length := by simp
  refine ⟨dp, e, ?_, h2, fun p hps => ?_, fun p hap => h4 p fun q hq => hap q (hperm.mem_iff.2 hq)⟩
  · unfold nestedPair at h1 ⊢
    rw [if_neg (hlen _), hz] at h1
    rw [if_neg (hlen _), hz]
    exact pair_perm l0 l1 (hperm.symm.map _) (List.pairwise_map.2 hp') d dp h1
  · exact h3 (p, of p) (by rw [hz]; exact List.mem_map.2 ⟨p, hperm.mem_iff.1 hps, rfl⟩)

theorem pair_unpair_perm {K V : Type} [DecidableEq K] (l0 l1 : K) (hl : l0 ≠ l1) (d : Obj K V) (ps ps' : List (List K))
    (of : List K → Obj K V) (hp : ps.Pairwise Apart) (hd : ∀ p ∈ ps, ∃ o, nestedGet d p = .ok o) (hperm : ps.Perm ps') :
    ∃ dp e, nestedPair d ps (ps.map of) l0 l1 = .ok dp ∧ nestedUnpair dp ps' l0 l1 = .ok (d, e) ∧
      (∀ p ∈ ps, nestedGet e p = .ok (of p)) := by
  obtain ⟨dp, e, h1, h2, h3, -⟩ := pair_unpair_perm4 l0 l1 hl d ps ps' of hp hd hperm
  exact ⟨dp, e, h1, h2, h3⟩

/-- **C74, back to the MAP.** From a Laplace state on selected parameters the MAP parameters are recovered exactly, in whatever
order the selection is read from the state. -/
theorem C74_recover (params : Obj String (List ℝ)) (ps ps' : List (List String)) (hf : List String → List ℝ)
    (hp : ps.Pairwise Apart) (hd : ∀ p ∈ ps, ∃ o, nestedGet params p = .ok o) (hperm : ps.Perm ps') :
    ∃ st, laplacePair params ps (ps.map hf) = .ok st ∧ laplaceToMap st (some ps') = .ok params := by
  obtain ⟨dp, e, h1, h2, -⟩ := pair_unpair_perm "mean" "hess_lik_diag" (by decide) params ps ps' (fun p => leaf (hf p)) hp hd hperm
  refine ⟨dp, ?_, ?_⟩
  · unfold laplacePair
    rw [List.map_map]; exact h1
  · show Except.map Prod.fst _ = _
    rw [h2]; rfl

theorem nestedGet_mapLeaves {K V : Type} [DecidableEq K] (g : List K → V → V) (d : Obj K V) (p : List K) (v : V)
    (h : nestedGet d p = .ok (leaf v)) : nestedGet (mapLeaves g [] d) p = .ok (leaf (g p v)) := by
  rw [nestedGet_eq] at h ⊢
  refine ⟨h.1, ?_⟩
  rw [at?_mapLeaves, h.2]; rfl

theorem mapM_map_ok {A B : Type} (f : A → Except String B) (g : A → B) (l : List A) (h : ∀ a ∈ l, f a = .ok (g a)) :
    l.mapM f = .ok (l.map g) := by
  induction l with
  | nil => rfl
  | cons a l ih =>
    rw [List.mapM_cons, h a (by simp), ih fun b hb => h b (by simp [hb])]
    rfl

/-- What the parameters of a model look like: a dictionary of models, each holding the collection `"params"` only. -/
def OnlyParams : Obj String (List ℝ) → Prop
  | leaf _ => False
  | nil => True
  | cons _ v r => (∃ x, v = cons "params" x nil) ∧ OnlyParams r

theorem pairAll_spec (l0 l1 : String) (hl : l0 ≠ l1) (hf : List String → List ℝ → List ℝ) (d other : Obj String (List ℝ))
    (hw : WF d) (ho : OnlyParams d) (hod : other.isDict = true)
    (hother : ∀ k v, lookup k d = some v → lookup k other = some (mapLeaves hf [k] v)) :
    ∃ st, pairAll l0 l1 d other = .ok st ∧ projAll l0 st = .ok d ∧ projAll l1 st = .ok (mapLeaves hf [] d) := by
  induction d with
  | leaf _ => exact ho.elim
  | nil => exact ⟨nil, rfl, rfl, rfl⟩
  | cons k v r _ ih =>
    obtain ⟨⟨x, rfl⟩, ho⟩ := ho
    obtain ⟨hk, -, -, hw⟩ := hw
    obtain ⟨st, h1, h2, h3⟩ := ih hw ho fun j v hj => hother j v (by
      have : k ≠ j := by rintro rfl; rw [hk] at hj; cases hj
      simp [lookup, this, hj])
    have h4 := hother k (cons "params" x nil) (by simp [lookup])
    have i1 : item (cons "params" x nil : Obj String (List ℝ)) "params" = .ok x := (item_eq _ _ _).2 (by simp [lookup])
    have i2 : item other k = .ok (mapLeaves hf [k] (cons "params" x nil)) := (item_eq _ _ _).2 h4
    have i3 : item (mapLeaves hf [k] (cons "params" x nil)) "params" = .ok (mapLeaves hf [k, "params"] x) :=
      (item_eq _ _ _).2 (by simp [mapLeaves, lookup])
    have j1 := at?_pairOf l0 l1 hl x (mapLeaves hf [k, "params"] x)
    have i4 : item (cons "params" (pairOf l0 l1 x (mapLeaves hf [k, "params"] x)) nil : Obj String (List ℝ)) "params" =
      .ok (pairOf l0 l1 x (mapLeaves hf [k, "params"] x)) := (item_eq _ _ _).2 (by simp [lookup])
    refine ⟨cons k (cons "params" (pairOf l0 l1 x (mapLeaves hf [k, "params"] x)) nil) st, ?_, ?_, ?_⟩
    · simp only [pairAll, bind, Except.bind, i1, i2, i3, h1]; rfl
    · simp only [projAll, bind, Except.bind, i4, (item_eq _ _ _).2 j1.1, h2]; rfl
    · simp only [projAll, bind, Except.bind, i4, (item_eq _ _ _).2 j1.2, h3]; rfl

theorem lookup_mapLeaves_nil (hf : List String → List ℝ → List ℝ) (k : String) (d : Obj String (List ℝ)) :
    lookup k (mapLeaves hf [] d) = (lookup k d).map (mapLeaves hf [k]) := by
  rw [lookup_mapLeaves]; rfl

theorem mapLeaves_comp {K V : Type} (g h : List K → V → V) (d : Obj K V) (q : List K) :
    mapLeaves g q (mapLeaves h q d) = mapLeaves (fun p v => g p (h p v)) q d := by
  induction d generalizing q with
  | leaf v => rfl
  | nil => rfl
  | cons k o r iho ihr => simp only [mapLeaves, iho, ihr]

/-- **C74, tuning.** On one device, with at least one validation batch, the tuned prior log-variance is the first minimiser of the validation
negative log-probability among the grid and the prior's own value; in particular never worse than the prior's own. If the minimiser
has several entries, as the log-variance of a diagonal prior may have, an exception is raised. -/
theorem C74_tune {C : Type} (n : ℕ) (hn : 0 < n) (size : C → ℕ) (nll : C → ℝ) (grid : List C) (prior : C) :
    ∃ c l r, (tunePrior true 1 n size nll grid prior = if size c = 1 then .ok c else .error "reshape") ∧ grid ++ [prior] = l ++ c :: r ∧
      (∀ c' ∈ l, nll c < nll c') ∧ (∀ c' ∈ grid ++ [prior], nll c ≤ nll c') ∧ nll c ≤ nll prior := by
  have key : ∀ (L : List C), L ≠ [] → ∃ c l r, L.foldl (tuneStep nll) none = some (c, nll c) ∧ L = l ++ c :: r ∧
      (∀ c' ∈ l, nll c < nll c') ∧ (∀ c' ∈ L, nll c ≤ nll c') := by
    intro L
    induction L using List.reverseRecOn with
    | nil => intro h; exact absurd rfl h
    | append_singleton L a ih =>
      intro _
      by_cases hL : L = []
      · subst hL
        exact ⟨a, [], [], rfl, rfl, by simp, by simp⟩
      · obtain ⟨c, l, r, h1, h2, h3, h4⟩ := ih hL
        rw [List.foldl_append, h1]
        by_cases hlt : nll a < nll c
        · refine ⟨a, L, [], ?_, by simp, fun c' hc' => lt_of_lt_of_le hlt (h4 c' hc'), ?_⟩
          · show tuneStep nll (some (c, nll c)) a = _
            unfold tuneStep; dsimp only; rw [if_pos hlt]
          · intro c' hc'
            rcases List.mem_append.1 hc' with h | h
            · exact hlt.le.trans (h4 c' h)
            · rw [List.mem_singleton.1 h]
        · refine ⟨c, l, r ++ [a], ?_, by rw [h2]; simp, h3, ?_⟩
          · show tuneStep nll (some (c, nll c)) a = _
            unfold tuneStep; dsimp only; rw [if_neg hlt]
          · intro c' hc'
            rcases List.mem_append.1 hc' with h | h
            · exact h4 c' h
            · rw [List.mem_singleton.1 h]; exact not_lt.1 hlt
  obtain ⟨c, l, r, h1, h2, h3, h4⟩ := key (grid ++ [prior]) (by simp)
  refine ⟨c, l, r, ?_, h2, h3, h4, h4 prior (by simp)⟩
  unfold tunePrior
  rw [if_pos rfl, if_pos (by simp), if_neg (by omega), h1]

/-- **C74, tuning: failure.** Without distribution over devices (the default of the method, and what `fit` uses unless all
devices are asked for) tuning always raises `NameError`. -/
theorem C74_tune_false {C : Type} (D n : ℕ) (hn : 0 < n) (size : C → ℕ) (nll : C → ℝ) (grid : List C) (prior : C) :
    tunePrior false D n size nll grid prior = .error "NameError" := by
  unfold tunePrior
  rw [if_neg (by simp), if_neg (by omega)]

/-- **C74, tuning: several devices.** Distributed over several devices, tuning with a non-empty grid of scalars raises. -/
theorem C74_tune_devices {C : Type} (D n : ℕ) (hD : 1 < D) (size : C → ℕ) (nll : C → ℝ) (grid : List C) (prior : C) (c : C) (hc : c ∈ grid)
    (h1 : size c = 1) : tunePrior true D n size nll grid prior = .error "reshape" := by
  unfold tunePrior
  rw [if_pos rfl, if_neg]
  intro h
  have := List.all_eq_true.1 h c (List.mem_append_left _ hc)
  rw [h1] at this
  have := Nat.dvd_one.1 (of_decide_eq_true this)
  omega

/-- **C74, tuning: objective.** The loss of a candidate is minus the sum over all validation points of the logarithm of the mean likelihood
over the posterior samples. -/
theorem C74_tune_objective {S P C : Type} (ll : S → P → ℝ) (samples : C → List S) (batches : List (List P)) (c : C) (hs : samples c ≠ []) :
    tuneNll ll samples batches c =
      -((batches.flatten.map fun p => Real.log (((samples c).map fun s => Real.exp (ll s p)).sum / (samples c).length)).sum) := by
  unfold tuneNll tuneLogProb
  congr 1
  have hlen : ((samples c).length : ℝ) ≠ 0 := by exact_mod_cast (List.length_pos_iff.2 hs).ne'
  have hpos : ∀ p, (((samples c).map fun s => Real.exp (ll s p)).sum) ≠ 0 := by
    intro p
    refine (List.sum_pos _ ?_ ?_).ne'
    · intro x hx
      obtain ⟨s, -, rfl⟩ := List.mem_map.1 hx
      exact Real.exp_pos _
    · simpa using hs
  have : ∀ p, Real.log (((samples c).map fun s => Real.exp (ll s p)).sum / (samples c).length) =
      Real.log ((samples c).map fun s => Real.exp (ll s p)).sum - Real.log (samples c).length := fun p => Real.log_div (hpos p) hlen
  simp only [this]
  rw [List.map_flatten]; rfl

/-- **C74, tuning: batches.** The tuned value depends neither on the batches nor on the order of the validation data. -/
theorem C74_tune_batching {S P C : Type} (mode : String) (distribute : Bool) (D : ℕ) (size : C → ℕ) (ll : S → P → ℝ) (samples : C → List S)
    (batches batches' : List (List P)) (grid : List C) (prior : C) (hp : batches.flatten.Perm batches'.flatten) (h1 : batches ≠ [])
    (h2 : batches' ≠ []) :
    priorTuning mode distribute D size ll samples batches grid prior = priorTuning mode distribute D size ll samples batches' grid prior := by
  have hn : tuneNll ll samples batches = tuneNll ll samples batches' := by
    funext c
    have e : ∀ bs : List (List P), bs.flatMap (tuneLogProb ll (samples c)) =
        bs.flatten.map fun p => Real.log ((samples c).map fun s => Real.exp (ll s p)).sum - Real.log (samples c).length := by
      intro bs
      rw [List.map_flatten]; rfl
    unfold tuneNll
    rw [e, e, (hp.map _).sum_eq]
  have l1 : batches.length ≠ 0 := by simpa using h1
  have l2 : batches'.length ≠ 0 := by simpa using h2
  unfold priorTuning tunePrior
  rw [hn]
  simp only [l1, l2, if_false]

/-- **C74, tuning: refused.** Modes other than cross-validation are refused, and so is a loader without batches, whether or not devices are used. -/
theorem C74_tune_refused {S P C : Type} (distribute : Bool) (D : ℕ) (size : C → ℕ) (ll : S → P → ℝ) (samples : C → List S)
    (batches : List (List P)) (grid : List C) (prior : C) :
    priorTuning "marginal_lik" distribute D size ll samples batches grid prior = .error "NotImplementedError" ∧
    (∀ mode, mode ≠ "cv" → mode ≠ "marginal_lik" → priorTuning mode distribute D size ll samples batches grid prior = .error "ValueError") ∧
    priorTuning "cv" false D size ll samples ([] : List (List P)) grid prior = .error "ValueError" ∧
    priorTuning "cv" true 1 size ll samples ([] : List (List P)) grid prior = .error "ValueError" := by
  refine ⟨by unfold priorTuning; rw [if_neg (by decide), if_pos rfl], fun mode a b => by unfold priorTuning; rw [if_neg a, if_neg b], ?_, ?_⟩
  · unfold priorTuning tunePrior
    rw [if_pos rfl, if_neg (by simp), if_pos List.length_nil]
  · unfold priorTuning tunePrior
    rw [if_pos rfl, if_pos rfl, if_pos (by simp), if_pos List.length_nil]

/-! ## Examples -/

/-- On two devices the tuning of the example raises; with a diagonal prior of two entries that is best it raises on one device. -/
example : tunePrior true 2 1 (fun _ => 1) (fun x : ℤ => ((x - 1) ^ 2 : ℤ) * (1 : ℝ)) [-1, 0, 2] 3 = .error "reshape" ∧
    tunePrior true 1 1 (fun x : ℤ => if x = 1 then 2 else 1) (fun x : ℤ => ((x - 1) ^ 2 : ℤ) * (1 : ℝ)) [-1, 0, 2] 1 = .error "reshape" := by
  norm_num [tunePrior, tuneStep]

/-- A point of binary classification with logits `(0, 0)`: the Hessian is `[[-1/4, 1/4], [1/4, -1/4]]`. -/
noncomputable def exPoint : GGNPoint (Fin 2) (Fin 1) :=
  ⟨fun k => if k = 0 then 0 else -1 / 4, fun a k => if k = 1 ∧ a = 1 then -1 else 1, fun a _ => if a = 0 then 3 else 1⟩

/-- The hypotheses of the classification theorem hold for it, and the entry is `1`: the variance of `(3, 1)` under fair
probabilities. -/
example : IsHess (fun o => classLogProb o 0) (fun _ : Fin 2 => 0) (fun a b => if a = b then -1 / 4 else 1 / 4) ∧
    IsEig (fun a b : Fin 2 => if a = b then -1 / 4 else 1 / 4) exPoint ∧ hessLoop [[exPoint], [exPoint]] 0 = 2 := by
  have hsm : ∀ j, softmax (fun _ : Fin 2 => 0) j = 1 / 2 := fun j => by simp [softmax]
  refine ⟨⟨fun a b => by simp only [eq_comm], fun v => ?_⟩, fun a b => ?_, ?_⟩
  · have := class_second (c := 2) (by norm_num) (fun _ => 0) 0 v
    refine this.congr_deriv ?_
    simp only [hsm, Fin.sum_univ_two]
    norm_num
    ring
  · fin_cases a <;> fin_cases b <;> norm_num [exPoint, Fin.sum_univ_two]
  · rw [hessLoop_eq]
    norm_num [exPoint, ztj, Fin.sum_univ_two]

/-- Regression with target and mean 0, log-variance 0: the Hessian is `diag(-1, 0)` (the hypotheses of `C74_regression`). -/
theorem reg_hess_zero : IsHess (regRow (fun _ : Fin 1 => 0)) (fun _ => 0)
    (fun a b => match a, b with | .inl _, .inl _ => -1 | _, _ => 0) := by
  refine ⟨fun a b => by rcases a with a | a <;> rcases b with b | b <;> rfl, fun v => ?_⟩
  have hd : (deriv fun τ : ℝ => regRow (fun _ : Fin 1 => 0) fun i => (0 : ℝ) + τ * v i) =
      fun τ => -(1 / 2) * (Real.exp (-(τ * v (.inr 0))) * -v (.inr 0) * (τ * v (.inl 0)) ^ 2 +
        Real.exp (-(τ * v (.inr 0))) * (2 * (τ * v (.inl 0)) * v (.inl 0)) + v (.inr 0)) := by
    funext τ
    have h1 : HasDerivAt (fun τ : ℝ => τ * v (.inr 0)) (v (.inr 0)) τ := by
      simpa using (hasDerivAt_id τ).mul_const (v (.inr 0))
    have h2 : HasDerivAt (fun τ : ℝ => τ * v (.inl 0)) (v (.inl 0)) τ := by
      simpa using (hasDerivAt_id τ).mul_const (v (.inl 0))
    have h3 := h1.fun_neg.exp
    have h4 : HasDerivAt (fun τ : ℝ => (τ * v (.inl 0)) ^ 2) (2 * (τ * v (.inl 0)) * v (.inl 0)) τ := by
      refine (h2.fun_pow 2).congr_deriv ?_
      norm_num
    have h5 := (((h3.fun_mul h4).fun_add h1).add_const (Real.log (2 * Real.pi))).const_mul (-(1 / 2) : ℝ)
    have h6 : (fun τ : ℝ => regRow (fun _ : Fin 1 => 0) fun i => (0 : ℝ) + τ * v i) = fun τ =>
        -(1 / 2) * (Real.exp (-(τ * v (.inr 0))) * (τ * v (.inl 0)) ^ 2 + τ * v (.inr 0) + Real.log (2 * Real.pi)) := by
      funext τ
      simp [regRow, regLogProb]
    rw [h6]
    exact h5.deriv
  rw [hd]
  have h1 : HasDerivAt (fun τ : ℝ => τ * v (.inr 0)) (v (.inr 0)) 0 := by
    simpa using (hasDerivAt_id (0 : ℝ)).mul_const (v (.inr 0))
  have h2 : HasDerivAt (fun τ : ℝ => τ * v (.inl 0)) (v (.inl 0)) 0 := by
    simpa using (hasDerivAt_id (0 : ℝ)).mul_const (v (.inl 0))
  have h3 := h1.fun_neg.exp
  have h7 := ((((h3.mul_const (-v (.inr 0))).fun_mul (h2.fun_pow 2)).fun_add
    (h3.fun_mul ((h2.const_mul (2 : ℝ)).mul_const (v (.inl 0))))).add_const (v (.inr 0))).const_mul (-(1 / 2) : ℝ)
  refine h7.congr_deriv ?_
  simp [Fintype.sum_sum_type]
  ring

/-- A sample of one selected parameter out of two; the state reads back the MAP values. -/
example : laplacePair (cons "m" (cons "w" (leaf [1, 2]) (cons "b" (leaf [3]) nil)) nil) [["m", "w"]] [[0, 3]] =
      .ok (cons "m" (cons "w" (cons "mean" (leaf [1, 2]) (cons "hess_lik_diag" (leaf [0, 3]) nil)) (cons "b" (leaf [3]) nil)) nil) ∧
    nestedGet (cons "m" (cons "w" (leaf [1, 2]) (cons "b" (leaf [3]) nil)) nil : Obj String (List ℝ)) ["m", "w"] =
      .ok (leaf [1, 2]) ∧ ([["m", "w"]] : List (List String)).Pairwise Apart ∧
    laplaceStd 0 3 = 1 / 2 := by
  refine ⟨by rfl, by rfl, by simp, ?_⟩
  unfold laplaceStd
  rw [neg_zero, Real.exp_zero, show (1 : ℝ) + 3 = 2 * 2 by norm_num, Real.sqrt_mul_self (by norm_num)]

example : OnlyParams (cons "model" (cons "params" (cons "w" (leaf [1]) nil) nil) (cons "var" (cons "params" (leaf [2]) nil) nil)) ∧
    WF (cons "model" (cons "params" (cons "w" (leaf [1]) nil) nil) (cons "var" (cons "params" (leaf [2]) nil) nil) :
      Obj String (List ℝ)) :=
  ⟨⟨⟨_, rfl⟩, ⟨_, rfl⟩, trivial⟩, by simp [WF, lookup, isDict]⟩

/-- Three candidates and the prior; the second minimiser loses the tie. -/
example : tunePrior true 1 1 (fun _ => 1) (fun x : ℤ => ((x - 1) ^ 2 : ℤ) * (1 : ℝ)) [-1, 0, 2] 3 = .ok 0 := by
  norm_num [tunePrior, tuneStep]

/-! ### Concrete cases that meet the hypotheses of the theorems above -/

/-- The Hessian of the point above at logits `(0, 0)`. -/
noncomputable def exGgnHess : Fin 2 → Fin 2 → ℝ := fun a b => if a = b then -1 / 4 else 1 / 4

theorem exGgnHess_isHess : IsHess (fun o => classLogProb o 0) (fun _ : Fin 2 => 0) exGgnHess := by
  have hsm : ∀ j, softmax (fun _ : Fin 2 => 0) j = 1 / 2 := fun j => by simp [softmax]
  refine ⟨fun a b => by simp only [exGgnHess, eq_comm], fun v => ?_⟩
  have := class_second (c := 2) (by norm_num) (fun _ => 0) 0 v
  refine this.congr_deriv ?_
  simp only [hsm, Fin.sum_univ_two, exGgnHess]
  norm_num
  ring

theorem exGgnHess_isEig : IsEig exGgnHess exPoint := fun a b => by
  fin_cases a <;> fin_cases b <;> norm_num [exPoint, exGgnHess, Fin.sum_univ_two]

example := C74_ggn [[exPoint], [exPoint]] (fun _ => exGgnHess) (by simpa using exGgnHess_isEig) 0
example := C74_batching [[exPoint, exPoint], [exPoint]] [[exPoint], [exPoint, exPoint]] (by simp) 0
example := C74_classification (c := 2) (by norm_num) [[exPoint], [exPoint]] (fun _ _ => 0) (fun _ => 0) (fun _ => exGgnHess)
  (by simpa using exGgnHess_isHess) (by simpa using exGgnHess_isEig) 0
example := C74_std 0 1 3 8 (by norm_num) (by norm_num) (by norm_num)
example := C74_recover (cons "m" (cons "w" (leaf [1, 2]) (cons "b" (leaf [3]) nil)) nil) [["m", "w"], ["m", "b"]] [["m", "b"], ["m", "w"]]
  (fun _ => [5]) (by simp [Apart]) (by simp only [List.mem_cons, List.not_mem_nil, or_false, forall_eq_or_imp, forall_eq]; exact ⟨⟨_, rfl⟩, ⟨_, rfl⟩⟩)
  (List.Perm.swap _ _ _)
example := C74_tune 1 one_pos (fun _ => 1) (fun x : ℤ => ((x - 1) ^ 2 : ℤ) * (1 : ℝ)) [-1, 0, 2] 3
example := C74_tune_false 1 1 one_pos (fun _ => 1) (fun x : ℤ => ((x - 1) ^ 2 : ℤ) * (1 : ℝ)) [-1, 0, 2] 3
example := C74_tune_devices 2 1 (by norm_num) (fun _ => 1) (fun x : ℤ => ((x - 1) ^ 2 : ℤ) * (1 : ℝ)) [-1, 0, 2] 3 0 (by simp) rfl
example := C74_tune_objective (fun (s : ℝ) (p : ℝ) => -(s - p) ^ 2) (fun c : ℝ => [c, 2 * c]) [[1, 2], [3]] 5 (by simp)
example := C74_tune_batching "marginal" true 1 (fun _ => 1) (fun (s : ℝ) (p : ℝ) => -(s - p) ^ 2) (fun c : ℝ => [c, 2 * c]) [[1, 2], [3]]
  [[1], [2, 3]] [1, 2] 3 (by simp) (by simp) (by simp)

/-- Scalar regression at mean 0, log-variance 0 and target 0: the Hessian of the log-likelihood has the one entry `-1` at
`(mean, mean)`. -/
def exRegHess : Fin 1 ⊕ Fin 1 → Fin 1 ⊕ Fin 1 → ℝ := fun a b => if a = .inl 0 ∧ b = .inl 0 then -1 else 0

theorem exRegHess_isHess : IsHess (regRow fun _ : Fin 1 => 0) (fun _ => 0) exRegHess := by
  refine ⟨fun a b => by simp only [exRegHess, and_comm], fun v => ?_⟩
  set p := v (.inl 0)
  set q := v (.inr 0)
  have hd : (deriv fun τ : ℝ => regRow (fun _ : Fin 1 => 0) fun i => 0 + τ * v i) =
      fun τ => -(1 / 2) * (Real.exp (-(τ * q)) * (-q) * (τ * p) ^ 2 + Real.exp (-(τ * q)) * (2 * (τ * p) * p) + q) := by
    funext τ
    refine HasDerivAt.deriv ?_
    simp only [regRow, regLogProb, Fin.sum_univ_one, zero_add, zero_sub, neg_sq]
    apply HasDerivAt.const_mul
    apply HasDerivAt.add_const
    have h1 : HasDerivAt (fun τ : ℝ => τ * q) q τ := by simpa using (hasDerivAt_id τ).mul_const q
    have h2 : HasDerivAt (fun τ : ℝ => τ * p) p τ := by simpa using (hasDerivAt_id τ).mul_const p
    exact ((h1.neg.exp.mul (h2.pow 2)).add h1).congr_deriv (by simp)
  rw [hd]
  have h1 : HasDerivAt (fun τ : ℝ => τ * q) q 0 := by simpa using (hasDerivAt_id (0 : ℝ)).mul_const q
  have h2 : HasDerivAt (fun τ : ℝ => τ * p) p 0 := by simpa using (hasDerivAt_id (0 : ℝ)).mul_const p
  have h3 := (((h1.neg.exp.mul_const (-q)).mul (h2.pow 2)).add (h1.neg.exp.mul ((h2.const_mul 2).mul_const p))).add_const q
  refine (h3.const_mul (-(1 / 2))).congr_deriv ?_
  simp [exRegHess, p]
  ring

/-- A point with this Hessian and a Jacobian whose column belongs to the mean model. -/
def exRegPoint : GGNPoint (Fin 1 ⊕ Fin 1) (Fin 1) :=
  ⟨fun k => if k = .inl 0 then -1 else 0, fun a k => if a = k then 1 else 0, fun a _ => if a = .inl 0 then 3 else 0⟩

example := C74_regression (d := 1) [[exRegPoint], [exRegPoint]] (fun _ _ => 0) (fun _ _ => 0) (fun _ => exRegHess)
  (by simpa using exRegHess_isHess)
  (by
    suffices h : IsEig exRegHess exRegPoint by simpa using h
    intro a b
    rcases a with a | a <;> rcases b with b | b <;> simp [exRegHess, exRegPoint, Fin.eq_zero])
  0 (.inl (by simp [exRegPoint]))

end Verif.Props
