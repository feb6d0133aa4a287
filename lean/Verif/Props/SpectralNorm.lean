import Mathlib.Analysis.SpecialFunctions.Pow.Real
import Mathlib.Algebra.BigOperators.Field
import Mathlib.Algebra.Order.Chebyshev
import Mathlib.Tactic.Linarith
import Mathlib.Tactic.Positivity
import Mathlib.Tactic.FieldSimp
import Mathlib.Tactic.NormNum
import Verif.Model.SNGP

/-!
# C79: spectral normalisation
-/

set_option linter.unusedSectionVars false

namespace Verif.Props
open Verif.SNGP

variable {ι κ : Type} [Fintype ι] [Fintype κ]

theorem sq_nonneg_fun (x : ι → ℝ) : 0 ≤ SNGP.sq x := Finset.sum_nonneg fun _ _ => sq_nonneg _

theorem sq_l2norm (eps : ℝ) (he : 0 < eps) (x : ι → ℝ) : SNGP.sq (l2norm eps x) = SNGP.sq x / max (SNGP.sq x) eps := by
  have hm : 0 < max (SNGP.sq x) eps := lt_max_of_lt_right he
  unfold l2norm
  show ∑ i, (x i * (1 / Real.sqrt (max (SNGP.sq x) eps))) ^ 2 = _
  simp only [mul_pow, div_pow, one_pow, Real.sq_sqrt hm.le]
  rw [← Finset.sum_mul]
  show SNGP.sq x * _ = _
  ring

theorem sq_l2norm_le (eps : ℝ) (he : 0 < eps) (x : ι → ℝ) : SNGP.sq (l2norm eps x) ≤ 1 := by
  rw [sq_l2norm eps he]
  exact div_le_one_of_le₀ (le_max_left _ _) (le_max_of_le_right he.le)

theorem dot_l2norm (eps : ℝ) (x : ι → ℝ) :
    ∑ i, l2norm eps x i * x i = SNGP.sq x / Real.sqrt (max (SNGP.sq x) eps) := by
  have : ∀ i, l2norm eps x i * x i = x i ^ 2 / Real.sqrt (max (SNGP.sq x) eps) := fun i => by unfold l2norm; ring
  simp only [this]
  rw [← Finset.sum_div]
  rfl

theorem dot_l2norm_le (eps : ℝ) (he : 0 < eps) (x : ι → ℝ) : ∑ i, l2norm eps x i * x i ≤ Real.sqrt (SNGP.sq x) := by
  rw [dot_l2norm]
  have hx := sq_nonneg_fun x
  have hm : 0 < max (SNGP.sq x) eps := lt_max_of_lt_right he
  rw [div_le_iff₀ (Real.sqrt_pos.2 hm)]
  calc SNGP.sq x = Real.sqrt (SNGP.sq x) * Real.sqrt (SNGP.sq x) := (Real.mul_self_sqrt hx).symm
    _ ≤ _ := mul_le_mul_of_nonneg_left (Real.sqrt_le_sqrt (le_max_left _ _)) (Real.sqrt_nonneg _)

theorem dot_l2norm_eq (eps : ℝ) (he : 0 < eps) (x : ι → ℝ) (h : eps ≤ SNGP.sq x) :
    ∑ i, l2norm eps x i * x i = Real.sqrt (SNGP.sq x) := by
  rw [dot_l2norm, max_eq_left h, Real.div_sqrt]

theorem cauchy (x y : ι → ℝ) : ∑ i, x i * y i ≤ Real.sqrt (SNGP.sq x) * Real.sqrt (SNGP.sq y) := by
  rw [← Real.sqrt_mul (sq_nonneg_fun x)]
  refine Real.le_sqrt_of_sq_le ?_
  exact Finset.sum_mul_sq_le_sq_mul_sq _ _ _

theorem adjoint (w : κ → ι → ℝ) (u : ι → ℝ) (v : κ → ℝ) : ∑ k, kTrans w u k * v k = ∑ i, u i * kApply w v i := by
  unfold kTrans kApply
  simp only [Finset.sum_mul, Finset.mul_sum]
  rw [Finset.sum_comm]
  exact Finset.sum_congr rfl fun i _ => Finset.sum_congr rfl fun k _ => by ring

/-- What a state looks like after at least one iteration. -/
theorem after_step (eps : ℝ) (w : κ → ι → ℝ) (n : ℕ) (hn : 0 < n) (s : PowerState ι κ) :
    ∃ t : PowerState ι κ, (powerStep eps w)^[n] s = powerStep eps w t := by
  obtain ⟨m, rfl⟩ := Nat.exists_eq_succ_of_ne_zero hn.ne'
  exact ⟨(powerStep eps w)^[m] s, Function.iterate_succ_apply' _ _ _⟩

/-- `s` bounds the spectral norm of the kernel. -/
def NormBound (w : κ → ι → ℝ) (s : ℝ) : Prop := 0 ≤ s ∧ ∀ x, SNGP.sq (kApply w x) ≤ s ^ 2 * SNGP.sq x

/-- **C79.** In training, after at least one power iteration, the estimate is nonnegative and at most the spectral norm of the
kernel. -/
theorem C79_estimate (eps : ℝ) (he : 0 < eps) (w : κ → ι → ℝ) (n : ℕ) (hn : 0 < n) (u : ι → ℝ) (v : κ → ℝ) :
    0 ≤ sigmaOf (powerRun eps w true false n u v) ∧
      ∀ s, NormBound w s → sigmaOf (powerRun eps w true false n u v) ≤ s := by
  have e : powerRun eps w true false n u v = (powerStep eps w)^[n] ⟨u, v, kApply w v⟩ := rfl
  obtain ⟨t, ht⟩ := after_step eps w n hn ⟨u, v, kApply w v⟩
  rw [e, ht]
  let v' := l2norm eps (kTrans w t.u)
  have hs : sigmaOf (powerStep eps w t) = ∑ i, l2norm eps (kApply w v') i * kApply w v' i := rfl
  rw [hs]
  constructor
  · rw [dot_l2norm]; exact div_nonneg (sq_nonneg_fun _) (Real.sqrt_nonneg _)
  · intro s hb
    refine (dot_l2norm_le eps he _).trans ?_
    rw [Real.sqrt_le_left hb.1]
    refine (hb.2 v').trans ?_
    exact mul_le_of_le_one_right (by positivity) (sq_l2norm_le eps he _)

/-- **C79.** While the kernel stays the same the estimate never goes down with further iterations (once it is not
negligible). -/
theorem C79_monotone (eps : ℝ) (he : 0 < eps) (w : κ → ι → ℝ) (s : PowerState ι κ)
    (h : eps ≤ SNGP.sq (powerStep eps w s).u') :
    sigmaOf (powerStep eps w s) ≤ sigmaOf (powerStep eps w (powerStep eps w s)) ∧
      eps ≤ SNGP.sq (powerStep eps w (powerStep eps w s)).u' := by
  set t := powerStep eps w s with ht
  have hv : SNGP.sq t.v ≤ 1 := sq_l2norm_le eps he _
  have hu' : t.u' = kApply w t.v := rfl
  have hu : t.u = l2norm eps t.u' := rfl
  have hu1 : SNGP.sq t.u = 1 := by
    rw [hu, sq_l2norm eps he, max_eq_left h, div_self (he.trans_le h).ne']
  have hσ : sigmaOf t = Real.sqrt (SNGP.sq t.u') := by
    show ∑ i, t.u i * t.u' i = _
    rw [hu]; exact dot_l2norm_eq eps he _ h
  -- the transposed product is at least as long
  set b := kTrans w t.u with hb
  have hb1 : Real.sqrt (SNGP.sq t.u') ≤ Real.sqrt (SNGP.sq b) := by
    have h1 : ∑ k, b k * t.v k = Real.sqrt (SNGP.sq t.u') := by
      rw [hb, adjoint, ← hu', ← hσ]; rfl
    have h2 := cauchy b t.v
    rw [h1] at h2
    refine h2.trans (mul_le_of_le_one_right (Real.sqrt_nonneg _) ?_)
    exact (Real.sqrt_le_sqrt hv).trans_eq Real.sqrt_one
  have hbe : eps ≤ SNGP.sq b := h.trans ((Real.sqrt_le_sqrt_iff (sq_nonneg_fun b)).1 hb1)
  -- and so is the next product
  set t' := powerStep eps w t with ht'
  have hv' : t'.v = l2norm eps b := rfl
  have hu'' : t'.u' = kApply w t'.v := rfl
  have hc : Real.sqrt (SNGP.sq b) ≤ Real.sqrt (SNGP.sq t'.u') := by
    have h1 : ∑ i, t.u i * t'.u' i = Real.sqrt (SNGP.sq b) := by
      rw [hu'', ← adjoint, ← hb, hv', ← dot_l2norm_eq eps he b hbe]
      exact Finset.sum_congr rfl fun k _ => mul_comm _ _
    have h2 := cauchy t.u t'.u'
    rw [h1, hu1, Real.sqrt_one, one_mul] at h2
    exact h2
  have he' : eps ≤ SNGP.sq t'.u' := hbe.trans ((Real.sqrt_le_sqrt_iff (sq_nonneg_fun _)).1 hc)
  refine ⟨?_, he'⟩
  have hσ' : sigmaOf t' = Real.sqrt (SNGP.sq t'.u') := by
    show ∑ i, l2norm eps t'.u' i * t'.u' i = _
    exact dot_l2norm_eq eps he _ he'
  rw [hσ, hσ']
  exact hb1.trans hc

/-- **C79.** The kernel used is the kernel itself if the estimate is within the bound, otherwise it is scaled down so that its
estimate is exactly the bound. -/
theorem C79_scaled (bound sigma : ℝ) (hb : 0 < bound) (w : κ → ι → ℝ) :
    (sigma ≤ bound → wHat bound sigma w = w) ∧
    (bound < sigma → ∀ k i, wHat bound sigma w k i = bound / sigma * w k i) ∧
    (bound < sigma → ∀ (u : ι → ℝ) (v : κ → ℝ), ∑ i, u i * kApply w v i = sigma →
      ∑ i, u i * kApply (wHat bound sigma w) v i = bound) := by
  have hlt : bound < sigma → ∀ k i, wHat bound sigma w k i = bound / sigma * w k i := by
    intro h k i
    have : 1 ≤ sigma / bound := by rw [le_div_iff₀ hb]; linarith
    unfold wHat
    rw [max_eq_left this]
    have : sigma ≠ 0 := (hb.trans h).ne'
    field_simp
  refine ⟨fun h => ?_, hlt, fun h u v hs => ?_⟩
  · funext k i
    have : sigma / bound ≤ 1 := by rw [div_le_one hb]; exact h
    unfold wHat
    rw [max_eq_right this, div_one]
  · have hs0 : sigma ≠ 0 := (hb.trans h).ne'
    have : ∀ i, u i * kApply (wHat bound sigma w) v i = bound / sigma * (u i * kApply w v i) := by
      intro i
      unfold kApply
      simp only [hlt h, Finset.mul_sum]
      exact Finset.sum_congr rfl fun k _ => by ring
    simp only [this, ← Finset.mul_sum, hs]
    field_simp

/-- **C79.** The spectral norm of the kernel used is at most the bound times the factor by which the estimate falls short of the
true norm: with an exact estimate it is within the bound. -/
theorem C79_bound (bound sigma s ρ : ℝ) (hb : 0 < bound) (hρ : 0 ≤ ρ) (w : κ → ι → ℝ) (hs : NormBound w s)
    (hσ : s ≤ ρ * max sigma bound) : NormBound (wHat bound sigma w) (ρ * bound) := by
  refine ⟨by positivity, fun x => ?_⟩
  have hm : 0 < max (sigma / bound) 1 := lt_max_of_lt_right one_pos
  have e : SNGP.sq (kApply (wHat bound sigma w) x) = SNGP.sq (kApply w x) / max (sigma / bound) 1 ^ 2 := by
    unfold SNGP.sq
    rw [Finset.sum_div]
    refine Finset.sum_congr rfl fun i _ => ?_
    have : kApply (wHat bound sigma w) x i = kApply w x i / max (sigma / bound) 1 := by
      unfold kApply wHat; rw [Finset.sum_div]; exact Finset.sum_congr rfl fun k _ => by ring
    rw [this, div_pow]
  rw [e, div_le_iff₀ (by positivity)]
  refine (hs.2 x).trans ?_
  have e2 : max sigma bound = bound * max (sigma / bound) 1 := by
    rw [mul_max_of_nonneg _ _ hb.le, mul_one, mul_div_cancel₀ _ hb.ne']
  have h1 : s ≤ ρ * bound * max (sigma / bound) 1 := by rw [e2] at hσ; linarith
  have h2 : s ^ 2 ≤ (ρ * bound * max (sigma / bound) 1) ^ 2 := pow_le_pow_left₀ hs.1 h1 2
  have := mul_le_mul_of_nonneg_right h2 (sq_nonneg_fun x)
  calc s ^ 2 * SNGP.sq x ≤ _ := this
    _ = _ := by ring

/-- **C79.** Outside training, and when the model is initialised, the stored vectors do not change. -/
theorem C79_frozen (eps : ℝ) (w : κ → ι → ℝ) (update initializing : Bool) (h : update = false ∨ initializing = true) (n : ℕ)
    (u : ι → ℝ) (v : κ → ℝ) :
    (powerRun eps w update initializing n u v).u = u ∧ (powerRun eps w update initializing n u v).v = v := by
  have : (update && !initializing) = false := by rcases h with rfl | rfl <;> simp
  unfold powerRun
  rw [this]
  exact ⟨rfl, rfl⟩

/-- **C79 (false).** The bound on the spectral norm is only as good as the estimate: with a stored vector orthogonal to the
leading direction the estimate stays at the smaller singular value, however many iterations are run, and the kernel used has
twice the norm of the bound. -/
theorem C79_bound_false : ∃ (w : Fin 2 → Fin 2 → ℝ) (u v : Fin 2 → ℝ), ∀ n, 0 < n →
    sigmaOf (powerRun (1 / 10 ^ 12) w true false n u v) = 1 ∧
    ∃ x, SNGP.sq x = 1 ∧ SNGP.sq (kApply (wHat 1 (sigmaOf (powerRun (1 / 10 ^ 12) w true false n u v)) w) x) = 2 ^ 2 := by
  let w : Fin 2 → Fin 2 → ℝ := ![![2, 0], ![0, 1]]
  let e : Fin 2 → ℝ := ![0, 1]
  refine ⟨w, e, e, ?_⟩
  have hk : kApply w e = e := by
    funext i; fin_cases i <;> simp [kApply, w, e, Fin.sum_univ_two]
  have ht : kTrans w e = e := by
    funext i; fin_cases i <;> simp [kTrans, w, e, Fin.sum_univ_two]
  have hsq : SNGP.sq e = 1 := by simp [SNGP.sq, e, Fin.sum_univ_two]
  have hn : l2norm (1 / 10 ^ 12) e = e := by
    funext i; unfold l2norm; rw [hsq, max_eq_left (by norm_num), Real.sqrt_one]; norm_num
  have hstep : powerStep (1 / 10 ^ 12) w ⟨e, e, e⟩ = ⟨e, e, e⟩ := by
    unfold powerStep; simp only [ht, hn, hk]
  have hrun : ∀ n, powerRun (1 / 10 ^ 12) w true false n e e = ⟨e, e, e⟩ := by
    intro n
    show (powerStep (1 / 10 ^ 12) w)^[n] ⟨e, e, kApply w e⟩ = _
    rw [hk]
    exact Function.iterate_fixed hstep n
  intro n _
  have hσ : sigmaOf (powerRun (1 / 10 ^ 12) w true false n e e) = 1 := by
    rw [hrun]; simp [sigmaOf, e, Fin.sum_univ_two]
  refine ⟨hσ, ![1, 0], by simp [SNGP.sq, Fin.sum_univ_two], ?_⟩
  rw [hσ, (C79_scaled 1 1 one_pos w).1 le_rfl]
  simp [SNGP.sq, kApply, w, Fin.sum_univ_two]

/-! ## Examples -/

/-- A kernel with spectral norm 2; `2` is a bound of its norm. -/
example : NormBound (![![2, 0], ![0, 1]] : Fin 2 → Fin 2 → ℝ) 2 := by
  refine ⟨by norm_num, fun x => ?_⟩
  simp [SNGP.sq, kApply, Fin.sum_univ_two]
  nlinarith [sq_nonneg (x 1)]

/-- The estimate started at the leading direction is exact and the kernel is scaled to norm 1. -/
example : wHat 1 2 (![![2, 0], ![0, 1]] : Fin 2 → Fin 2 → ℝ) 0 0 = 1 := by
  rw [(C79_scaled 1 2 one_pos _).2.1 (by norm_num)]; norm_num

/-! ### Concrete cases that meet the hypotheses of the theorems above -/

theorem exNormTwo : NormBound (![![2, 0], ![0, 1]] : Fin 2 → Fin 2 → ℝ) 2 := by
  refine ⟨by norm_num, fun x => ?_⟩
  simp [SNGP.sq, kApply, Fin.sum_univ_two]
  nlinarith [sq_nonneg (x 1)]

example := (C79_estimate (1 / 10) (by norm_num) (![![2, 0], ![0, 1]] : Fin 2 → Fin 2 → ℝ) 3 (by norm_num) ![1, 1] ![1, 0]).2 2 exNormTwo
example := C79_monotone (1 / 10) (by norm_num) (![![2, 0], ![0, 1]] : Fin 2 → Fin 2 → ℝ) ⟨![1, 0], ![1, 0], ![1, 0]⟩ (by
  have h4 : √(4 : ℝ) = 2 := by rw [show (4 : ℝ) = 2 ^ 2 by norm_num, Real.sqrt_sq (by norm_num)]
  simp [powerStep, l2norm, kTrans, kApply, SNGP.sq, Fin.sum_univ_two]
  norm_num [h4])
example := C79_bound (κ := Fin 2) (ι := Fin 2) (19 / 20) 2 2 1 (by norm_num) (by norm_num) _ exNormTwo (by norm_num)
example := C79_frozen (1 / 10) (![![2, 0], ![0, 1]] : Fin 2 → Fin 2 → ℝ) false false (Or.inl rfl) 3 ![1, 1] ![1, 0]

end Verif.Props
