import Mathlib.Analysis.SpecialFunctions.Pow.Real
import Mathlib.Analysis.SpecialFunctions.Pow.Continuity
import Mathlib.Analysis.Matrix.Spectrum
import Mathlib.Analysis.InnerProductSpace.PiL2
import Mathlib.MeasureTheory.Measure.Lebesgue.EqHaar
import Mathlib.Tactic.Linarith
import Mathlib.Tactic.Positivity
import Mathlib.Tactic.FieldSimp
import Mathlib.Tactic.NormNum
import Verif.Props.SpectralNorm

/-!
# C125: how fast the spectral norm estimate converges, and when it is never made
-/

set_option linter.unusedSectionVars false

namespace Verif.Props
open Verif.SNGP

variable {ι κ : Type} [Fintype ι] [Fintype κ]

/-! ## Specification: inner products and leading directions -/

/-- The inner product. -/
def dotp (x y : ι → ℝ) : ℝ := ∑ i, x i * y i

/-- `e` is a unit vector which the kernel and its transpose send to `s²` times itself, and no direction is stretched by more than
`s`: `s` is the spectral norm and `e` a leading (left) singular vector. -/
def Leading (w : κ → ι → ℝ) (s : ℝ) (e : ι → ℝ) : Prop :=
  NormBound w s ∧ SNGP.sq e = 1 ∧ ∀ i, kApply w (kTrans w e) i = s ^ 2 * e i

namespace PowerIter

theorem dotp_comm (x y : ι → ℝ) : dotp x y = dotp y x := Finset.sum_congr rfl fun _ _ => mul_comm _ _

theorem dotp_self (x : ι → ℝ) : dotp x x = SNGP.sq x := Finset.sum_congr rfl fun _ _ => (pow_two _).symm

theorem dotp_abs_le (x y : ι → ℝ) : |dotp x y| ≤ Real.sqrt (SNGP.sq x) * Real.sqrt (SNGP.sq y) := by
  rw [← Real.sqrt_mul (sq_nonneg_fun x), ← Real.sqrt_sq_eq_abs]
  exact Real.sqrt_le_sqrt (Finset.sum_mul_sq_le_sq_mul_sq _ _ _)

theorem adj (w : κ → ι → ℝ) (u : ι → ℝ) (v : κ → ℝ) : dotp (kTrans w u) v = dotp u (kApply w v) := adjoint w u v

theorem dotp_l2norm {eps : ℝ} (x y : ι → ℝ) (h : eps ≤ SNGP.sq x) :
    dotp y (l2norm eps x) = dotp y x / Real.sqrt (SNGP.sq x) := by
  unfold dotp l2norm
  rw [max_eq_left h, Finset.sum_div]
  exact Finset.sum_congr rfl fun i _ => by ring

/-- What one power iteration does, for a stored vector of any length. -/
theorem step_facts {eps : ℝ} (he : 0 < eps) (w : κ → ι → ℝ) (t : PowerState ι κ) (r : ℝ) (hr : 0 < r)
    (hu : SNGP.sq t.u = r ^ 2) (hb : eps ≤ SNGP.sq (kTrans w t.u)) (hb' : eps * r ^ 2 ≤ SNGP.sq (kTrans w t.u)) :
    Real.sqrt (SNGP.sq (kTrans w t.u)) ≤ r * sigmaOf (powerStep eps w t) ∧
    eps ≤ SNGP.sq (powerStep eps w t).u' ∧
    sigmaOf (powerStep eps w t) = Real.sqrt (SNGP.sq (powerStep eps w t).u') ∧
    SNGP.sq (powerStep eps w t).u = 1 ∧
    sigmaOf (powerStep eps w t) ≤ Real.sqrt (SNGP.sq (kTrans w (powerStep eps w t).u)) ∧
    ∀ (s : ℝ) (e : ι → ℝ), (∀ i, kApply w (kTrans w e) i = s ^ 2 * e i) →
      Real.sqrt (SNGP.sq (kTrans w t.u)) * sigmaOf (powerStep eps w t) * dotp e (powerStep eps w t).u = s ^ 2 * dotp e t.u := by
  set b := kTrans w t.u with hbd
  have hβ : 0 < Real.sqrt (SNGP.sq b) := Real.sqrt_pos.2 (he.trans_le hb)
  have hv : (powerStep eps w t).v = l2norm eps b := rfl
  have hu' : (powerStep eps w t).u' = kApply w (l2norm eps b) := rfl
  have hun : (powerStep eps w t).u = l2norm eps (powerStep eps w t).u' := rfl
  have h1 : dotp t.u (powerStep eps w t).u' = Real.sqrt (SNGP.sq b) := by
    rw [hu', ← adj, ← hbd, dotp_l2norm _ _ hb, dotp_self, Real.div_sqrt]
  have hlen : Real.sqrt (SNGP.sq b) ≤ r * Real.sqrt (SNGP.sq (powerStep eps w t).u') := by
    have := (le_abs_self _).trans (dotp_abs_le t.u (powerStep eps w t).u')
    rwa [h1, hu, Real.sqrt_sq hr.le] at this
  have h2 : eps ≤ SNGP.sq (powerStep eps w t).u' := by
    have hsq := pow_le_pow_left₀ hβ.le hlen 2
    rw [Real.sq_sqrt (sq_nonneg_fun b), mul_pow, Real.sq_sqrt (sq_nonneg_fun _)] at hsq
    have : eps * r ^ 2 ≤ SNGP.sq (powerStep eps w t).u' * r ^ 2 := by linarith
    exact le_of_mul_le_mul_right this (by positivity)
  have hσ : sigmaOf (powerStep eps w t) = Real.sqrt (SNGP.sq (powerStep eps w t).u') := by
    show ∑ i, (powerStep eps w t).u i * (powerStep eps w t).u' i = _
    rw [hun]; exact dot_l2norm_eq eps he _ h2
  have hone : SNGP.sq (powerStep eps w t).u = 1 := by
    rw [hun, sq_l2norm eps he, max_eq_left h2, div_self (he.trans_le h2).ne']
  refine ⟨hσ ▸ hlen, h2, hσ, hone, ?_, ?_⟩
  · have h3 : dotp (kTrans w (powerStep eps w t).u) (powerStep eps w t).v = sigmaOf (powerStep eps w t) := by
      rw [adj]; rfl
    have h4 := (le_abs_self _).trans (dotp_abs_le (kTrans w (powerStep eps w t).u) (powerStep eps w t).v)
    rw [h3] at h4
    refine h4.trans (mul_le_of_le_one_right (Real.sqrt_nonneg _) ?_)
    exact (Real.sqrt_le_sqrt (sq_l2norm_le eps he _)).trans_eq Real.sqrt_one
  · intro s e hse
    have h5 : dotp e (powerStep eps w t).u * sigmaOf (powerStep eps w t) = dotp e (powerStep eps w t).u' := by
      rw [hσ, hun, dotp_l2norm _ _ h2, div_mul_cancel₀ _ (Real.sqrt_pos.2 (he.trans_le h2)).ne']
    have h6 : dotp e (powerStep eps w t).u' * Real.sqrt (SNGP.sq b) = dotp (kTrans w e) b := by
      rw [hu', ← adj, dotp_l2norm _ _ hb, div_mul_cancel₀ _ hβ.ne']
    have h7 : dotp (kTrans w e) b = s ^ 2 * dotp e t.u := by
      rw [dotp_comm, hbd, adj]
      unfold dotp
      rw [Finset.mul_sum]
      exact Finset.sum_congr rfl fun i _ => by rw [hse i]; ring
    rw [← h7, ← h6, ← h5]; ring

/-- The state after `n + 1` iterations. -/
theorem run_facts {eps : ℝ} (he : 0 < eps) (w : κ → ι → ℝ) (t : PowerState ι κ) (r : ℝ) (hr : 0 < r)
    (hu : SNGP.sq t.u = r ^ 2) (hb : eps ≤ SNGP.sq (kTrans w t.u)) (hb' : eps * r ^ 2 ≤ SNGP.sq (kTrans w t.u))
    (s : ℝ) (e : ι → ℝ) (hse : ∀ i, kApply w (kTrans w e) i = s ^ 2 * e i) (n : ℕ) :
    SNGP.sq ((powerStep eps w)^[n + 1] t).u = 1 ∧
    eps ≤ SNGP.sq (kTrans w ((powerStep eps w)^[n + 1] t).u) ∧
    0 ≤ sigmaOf ((powerStep eps w)^[n + 1] t) ∧
    sigmaOf ((powerStep eps w)^[n + 1] t) ≤ Real.sqrt (SNGP.sq (kTrans w ((powerStep eps w)^[n + 1] t).u)) ∧
    ∃ p, 0 ≤ p ∧ p ≤ r * sigmaOf ((powerStep eps w)^[n + 1] t) ^ (2 * (n + 1)) ∧
      p * dotp e ((powerStep eps w)^[n + 1] t).u = s ^ (2 * (n + 1)) * dotp e t.u := by
  induction n with
  | zero =>
    obtain ⟨h1, h2, h3, h4, h5, h6⟩ := step_facts he w t r hr hu hb hb'
    have h0 : 0 ≤ sigmaOf (powerStep eps w t) := h3 ▸ Real.sqrt_nonneg _
    have h7 : eps ≤ SNGP.sq (kTrans w (powerStep eps w t).u) :=
      h2.trans ((Real.sqrt_le_sqrt_iff (sq_nonneg_fun _)).1 (h3 ▸ h5))
    refine ⟨h4, h7, h0, h5, Real.sqrt (SNGP.sq (kTrans w t.u)) * sigmaOf (powerStep eps w t), by positivity, ?_, ?_⟩
    · show _ ≤ r * sigmaOf (powerStep eps w t) ^ 2
      calc _ ≤ r * sigmaOf (powerStep eps w t) * sigmaOf (powerStep eps w t) := mul_le_mul_of_nonneg_right h1 h0
        _ = _ := by ring
    · exact h6 s e hse
  | succ n ih =>
    obtain ⟨i1, i2, i3, i4, p, hp0, hp1, hp2⟩ := ih
    rw [Function.iterate_succ_apply' _ (n + 1)]
    set q := (powerStep eps w)^[n + 1] t with hq
    obtain ⟨h1, h2, h3, h4, h5, h6⟩ := step_facts he w q 1 one_pos (by rw [i1]; norm_num) i2 (by simpa using i2)
    have h0 : 0 ≤ sigmaOf (powerStep eps w q) := h3 ▸ Real.sqrt_nonneg _
    have h7 : eps ≤ SNGP.sq (kTrans w (powerStep eps w q).u) :=
      h2.trans ((Real.sqrt_le_sqrt_iff (sq_nonneg_fun _)).1 (h3 ▸ h5))
    rw [one_mul] at h1
    refine ⟨h4, h7, h0, h5, p * (Real.sqrt (SNGP.sq (kTrans w q.u)) * sigmaOf (powerStep eps w q)), by positivity, ?_, ?_⟩
    · calc p * (Real.sqrt (SNGP.sq (kTrans w q.u)) * sigmaOf (powerStep eps w q))
          ≤ (r * sigmaOf (powerStep eps w q) ^ (2 * (n + 1))) * (sigmaOf (powerStep eps w q) * sigmaOf (powerStep eps w q)) := by
            refine mul_le_mul (hp1.trans ?_) (mul_le_mul_of_nonneg_right h1 h0) (by positivity) (by positivity)
            exact mul_le_mul_of_nonneg_left (pow_le_pow_left₀ i3 (i4.trans h1) _) hr.le
        _ = _ := by ring
    · have := h6 s e hse
      calc p * (Real.sqrt (SNGP.sq (kTrans w q.u)) * sigmaOf (powerStep eps w q)) * dotp e (powerStep eps w q).u
          = p * (s ^ 2 * dotp e q.u) := by rw [← this]; ring
        _ = s ^ 2 * (p * dotp e q.u) := by ring
        _ = _ := by rw [hp2]; ring

end PowerIter

open PowerIter

/-- The angle between the stored vector and a direction, as a cosine. -/
noncomputable def cosine (u e : ι → ℝ) : ℝ := |dotp u e| / Real.sqrt (SNGP.sq u)

theorem cosine_nonneg (u e : ι → ℝ) : 0 ≤ cosine u e := div_nonneg (abs_nonneg _) (Real.sqrt_nonneg _)

/-- **C125.** Let `e` be any left singular vector of the kernel with singular value `s`. After `n` power iterations the estimate
is at least `s` times the `2n`-th root of the cosine between the stored vector and `e`: whatever the gap to the other singular
values. (`eps` is the constant under the square root of the normalisation; the first product must not be so small that it acts.) -/
theorem C125_rate (eps : ℝ) (he : 0 < eps) (w : κ → ι → ℝ) (u : ι → ℝ) (v : κ → ℝ)
    (h0 : eps * max 1 (SNGP.sq u) ≤ SNGP.sq (kTrans w u)) (s : ℝ) (hs : 0 ≤ s) (e : ι → ℝ) (he1 : SNGP.sq e = 1)
    (hse : ∀ i, kApply w (kTrans w e) i = s ^ 2 * e i) (n : ℕ) (hn : 0 < n) :
    s * cosine u e ^ (1 / (2 * (n : ℝ))) ≤ sigmaOf (powerRun eps w true false n u v) := by
  obtain ⟨m, rfl⟩ := Nat.exists_eq_succ_of_ne_zero hn.ne'
  have hu0 : 0 < SNGP.sq u := by
    rcases (sq_nonneg_fun u).lt_or_eq with h | h
    · exact h
    · exfalso
      have hz : ∀ i, u i = 0 := by
        have h' : ∑ i, u i ^ 2 = 0 := h.symm
        intro i
        have := (Finset.sum_eq_zero_iff_of_nonneg fun i _ => sq_nonneg (u i)).1 h' i (Finset.mem_univ i)
        exact pow_eq_zero_iff (two_ne_zero) |>.1 this
      have hk : SNGP.sq (kTrans w u) = 0 := by simp [SNGP.sq, kTrans, hz]
      rw [hk, ← h] at h0
      have : max (1 : ℝ) 0 = 1 := max_eq_left zero_le_one
      rw [this] at h0
      linarith
  set r := Real.sqrt (SNGP.sq u) with hr
  have hr0 : 0 < r := Real.sqrt_pos.2 hu0
  have hr2 : SNGP.sq u = r ^ 2 := (Real.sq_sqrt hu0.le).symm
  have hb : eps ≤ SNGP.sq (kTrans w u) := le_trans (by nlinarith [le_max_left 1 (SNGP.sq u)]) h0
  have hb' : eps * r ^ 2 ≤ SNGP.sq (kTrans w u) := by
    rw [← hr2]; exact (mul_le_mul_of_nonneg_left (le_max_right _ _) he.le).trans h0
  obtain ⟨h1, _, h3, _, p, hp0, hp1, hp2⟩ := run_facts he w ⟨u, v, kApply w v⟩ r hr0 hr2 hb hb' s e hse m
  have hrun : powerRun eps w true false (m + 1) u v = (powerStep eps w)^[m + 1] ⟨u, v, kApply w v⟩ := rfl
  rw [show m.succ = m + 1 from rfl, hrun]
  set t := (powerStep eps w)^[m + 1] ⟨u, v, kApply w v⟩ with ht
  have hle : |dotp e t.u| ≤ 1 := by
    have := dotp_abs_le e t.u
    rwa [he1, h1, Real.sqrt_one, one_mul] at this
  have key : s ^ (2 * (m + 1)) * cosine u e ≤ sigmaOf t ^ (2 * (m + 1)) := by
    unfold cosine
    rw [← hr, ← mul_div_assoc, div_le_iff₀ hr0, mul_comm (sigmaOf t ^ _)]
    refine le_trans ?_ hp1
    have hp3 : s ^ (2 * (m + 1)) * dotp e u = p * dotp e t.u := hp2.symm
    have : s ^ (2 * (m + 1)) * |dotp u e| = p * |dotp e t.u| := by
      rw [dotp_comm u e]
      rw [← abs_of_nonneg hp0, ← abs_mul, ← hp3, abs_mul, abs_of_nonneg (pow_nonneg hs _)]
    rw [this]
    exact mul_le_of_le_one_right hp0 hle
  have hN : (0 : ℝ) < 2 * ((m + 1 : ℕ) : ℝ) := by positivity
  have e1 : (s * cosine u e ^ (1 / (2 * ((m + 1 : ℕ) : ℝ)))) ^ (2 * (m + 1)) = s ^ (2 * (m + 1)) * cosine u e := by
    rw [mul_pow, ← Real.rpow_natCast (cosine u e ^ _), ← Real.rpow_mul (cosine_nonneg u e)]
    have : 1 / (2 * ((m + 1 : ℕ) : ℝ)) * ((2 * (m + 1) : ℕ) : ℝ) = 1 := by
      rw [Nat.cast_mul, Nat.cast_ofNat]; field_simp
    rw [this, Real.rpow_one]
  refine le_of_pow_le_pow_left₀ (n := 2 * (m + 1)) (by positivity) h3 ?_
  rw [e1]; exact key

/-- **C125.** With the leading direction `e`, the estimate lies between `s·cos^(1/2n)` and the spectral norm `s`. -/
theorem C125_bracket (eps : ℝ) (he : 0 < eps) (w : κ → ι → ℝ) (u : ι → ℝ) (v : κ → ℝ)
    (h0 : eps * max 1 (SNGP.sq u) ≤ SNGP.sq (kTrans w u)) (s : ℝ) (e : ι → ℝ) (hl : Leading w s e) (n : ℕ) (hn : 0 < n) :
    s * cosine u e ^ (1 / (2 * (n : ℝ))) ≤ sigmaOf (powerRun eps w true false n u v) ∧
      sigmaOf (powerRun eps w true false n u v) ≤ s :=
  ⟨C125_rate eps he w u v h0 s hl.1.1 e hl.2.1 hl.2.2 n hn, (C79_estimate eps he w n hn u v).2 s hl.1⟩

/-- **C125.** If the stored vector is not orthogonal to the leading direction the estimate converges to the spectral norm. -/
theorem C125_limit (eps : ℝ) (he : 0 < eps) (w : κ → ι → ℝ) (u : ι → ℝ) (v : κ → ℝ)
    (h0 : eps * max 1 (SNGP.sq u) ≤ SNGP.sq (kTrans w u)) (s : ℝ) (e : ι → ℝ) (hl : Leading w s e) (hc : dotp u e ≠ 0) :
    Filter.Tendsto (fun n : ℕ => sigmaOf (powerRun eps w true false n u v)) Filter.atTop (nhds s) := by
  have hpos : 0 < cosine u e := by
    have : 0 ≠ cosine u e := by
      unfold cosine
      intro h
      rcases div_eq_zero_iff.1 h.symm with h | h
      · exact hc (abs_eq_zero.1 h)
      · have h' : SNGP.sq u = 0 := (Real.sqrt_eq_zero (sq_nonneg_fun u)).1 h
        have := dotp_abs_le u e
        rw [h', Real.sqrt_zero, zero_mul] at this
        exact hc (abs_nonpos_iff.1 this)
    exact lt_of_le_of_ne (cosine_nonneg u e) this
  have hexp : Filter.Tendsto (fun n : ℕ => 1 / (2 * (n : ℝ))) Filter.atTop (nhds 0) := by
    have := (tendsto_one_div_atTop_nhds_zero_nat (𝕜 := ℝ)).const_mul (1 / 2)
    rw [mul_zero] at this
    refine this.congr fun n => ?_
    rw [one_div_mul_one_div]
  have hlow : Filter.Tendsto (fun n : ℕ => s * cosine u e ^ (1 / (2 * (n : ℝ)))) Filter.atTop (nhds s) := by
    have := ((Real.continuousAt_const_rpow hpos.ne').tendsto.comp hexp).const_mul s
    simpa using this
  refine tendsto_of_tendsto_of_tendsto_of_le_of_le' hlow tendsto_const_nhds ?_ ?_
  · filter_upwards [Filter.eventually_gt_atTop 0] with n hn
    exact (C125_bracket eps he w u v h0 s e hl n hn).1
  · filter_upwards [Filter.eventually_gt_atTop 0] with n hn
    exact (C125_bracket eps he w u v h0 s e hl n hn).2

/-- **C125.** The kernel used after `n` iterations has a spectral norm of at most the bound divided by `cos^(1/2n)`. -/
theorem C125_bound (eps bound : ℝ) (he : 0 < eps) (hb : 0 < bound) (w : κ → ι → ℝ) (u : ι → ℝ) (v : κ → ℝ)
    (h0 : eps * max 1 (SNGP.sq u) ≤ SNGP.sq (kTrans w u)) (s : ℝ) (e : ι → ℝ) (hl : Leading w s e) (hc : 0 < cosine u e)
    (n : ℕ) (hn : 0 < n) :
    NormBound (wHat bound (sigmaOf (powerRun eps w true false n u v)) w) ((cosine u e ^ (1 / (2 * (n : ℝ))))⁻¹ * bound) := by
  have hcp : 0 < cosine u e ^ (1 / (2 * (n : ℝ))) := Real.rpow_pos_of_pos hc _
  refine C79_bound bound _ s _ hb (inv_nonneg.2 hcp.le) w hl.1 ?_
  rw [inv_mul_eq_div, le_div_iff₀ hcp]
  exact (C125_rate eps he w u v h0 s hl.1.1 e hl.2.1 hl.2.2 n hn).trans (le_max_left _ _)

/-- **C125.** Every kernel with at least one output has a leading direction. -/
theorem C125_leading [Nonempty ι] (w : κ → ι → ℝ) : ∃ s e, Leading w s e := by
  classical
  let A : Matrix ι ι ℝ := fun i j => ∑ k, w k i * w k j
  have hA : A.IsHermitian := by
    ext i j
    simp only [Matrix.conjTranspose_apply, A, star_trivial]
    exact Finset.sum_congr rfl fun k _ => mul_comm _ _
  have hAx : ∀ x : ι → ℝ, kApply w (kTrans w x) = A.mulVec x := by
    intro x; funext i
    simp only [kApply, kTrans, Matrix.mulVec, dotProduct, A, Finset.sum_mul]
    rw [Finset.sum_comm]
    exact Finset.sum_congr rfl fun j _ => Finset.sum_congr rfl fun k _ => by ring
  obtain ⟨m, -, hm⟩ := Finset.exists_max_image Finset.univ hA.eigenvalues Finset.univ_nonempty
  let B := hA.eigenvectorBasis
  let lam := hA.eigenvalues
  have hsqB : ∀ x : ι → ℝ, SNGP.sq x = ∑ i, inner ℝ (B i) (WithLp.toLp 2 x) ^ 2 := by
    intro x
    have h1 := B.sum_sq_norm_inner_right (WithLp.toLp 2 x)
    have h2 : ‖(WithLp.toLp 2 x : EuclideanSpace ℝ ι)‖ ^ 2 = SNGP.sq x := by
      rw [EuclideanSpace.norm_sq_eq]
      exact Finset.sum_congr rfl fun i _ => by rw [Real.norm_eq_abs, sq_abs]
    rw [← h2, ← h1]
    exact Finset.sum_congr rfl fun i _ => by rw [Real.norm_eq_abs, sq_abs]
  have hin : ∀ (b : EuclideanSpace ℝ ι) (x : ι → ℝ), inner ℝ b (WithLp.toLp 2 x) = dotp (b : ι → ℝ) x := by
    intro b x
    rw [EuclideanSpace.inner_eq_star_dotProduct]
    simp only [dotp, dotProduct, star_trivial]
    exact Finset.sum_congr rfl fun i _ => by simp [mul_comm]
  have hev : ∀ j, A.mulVec (B j : ι → ℝ) = lam j • (B j : ι → ℝ) := fun j => hA.mulVec_eigenvectorBasis j
  have hsymm : ∀ x y : ι → ℝ, dotp x (A.mulVec y) = dotp (A.mulVec x) y := by
    intro x y
    rw [← hAx, ← hAx, ← adj, dotp_comm (kApply w _) y, ← adj, dotp_comm]
  have hlam : ∀ x : ι → ℝ, SNGP.sq (kTrans w x) = ∑ j, lam j * inner ℝ (B j) (WithLp.toLp 2 x) ^ 2 := by
    intro x
    have h1 : SNGP.sq (kTrans w x) = dotp x (A.mulVec x) := by rw [← hAx, ← adj, dotp_self]
    have h2 := B.sum_inner_mul_inner (WithLp.toLp 2 x) (WithLp.toLp 2 (A.mulVec x))
    have h3 : inner ℝ (WithLp.toLp 2 x : EuclideanSpace ℝ ι) (WithLp.toLp 2 (A.mulVec x)) = dotp x (A.mulVec x) := by
      rw [hin]
    rw [h1, ← h3, ← h2]
    refine Finset.sum_congr rfl fun j _ => ?_
    have h4 : inner ℝ (B j) (WithLp.toLp 2 (A.mulVec x)) = lam j * inner ℝ (B j) (WithLp.toLp 2 x) := by
      rw [hin, hin, hsymm, hev]
      simp only [dotp, Pi.smul_apply, smul_eq_mul, Finset.mul_sum]
      exact Finset.sum_congr rfl fun i _ => by ring
    rw [h4, real_inner_comm]; ring
  have hunit : SNGP.sq (B m : ι → ℝ) = 1 := by
    have h1 : ‖B m‖ = 1 := B.orthonormal.1 m
    have h2 := EuclideanSpace.norm_sq_eq (B m)
    rw [h1, one_pow] at h2
    rw [h2]
    exact Finset.sum_congr rfl fun i _ => by rw [Real.norm_eq_abs, sq_abs]
  have hpos : 0 ≤ lam m := by
    have h1 : SNGP.sq (kTrans w (B m : ι → ℝ)) = lam m := by
      have : SNGP.sq (kTrans w (B m : ι → ℝ)) = dotp (B m : ι → ℝ) (A.mulVec (B m : ι → ℝ)) := by rw [← hAx, ← adj, dotp_self]
      rw [this, hev]
      have : dotp (B m : ι → ℝ) (lam m • (B m : ι → ℝ)) = lam m * dotp (B m : ι → ℝ) (B m : ι → ℝ) := by
        simp only [dotp, Pi.smul_apply, smul_eq_mul, Finset.mul_sum]
        exact Finset.sum_congr rfl fun i _ => by ring
      rw [this, dotp_self, hunit, mul_one]
    rw [← h1]; exact sq_nonneg_fun _
  have hT : ∀ x : ι → ℝ, SNGP.sq (kTrans w x) ≤ lam m * SNGP.sq x := by
    intro x
    rw [hlam, hsqB, Finset.mul_sum]
    exact Finset.sum_le_sum fun j hj => mul_le_mul_of_nonneg_right (hm j hj) (sq_nonneg _)
  refine ⟨Real.sqrt (lam m), (B m : ι → ℝ), ⟨Real.sqrt_nonneg _, fun x => ?_⟩, hunit, fun i => ?_⟩
  · rw [Real.sq_sqrt hpos]
    set y := kApply w x with hy
    have h1 : SNGP.sq y = dotp (kTrans w y) x := by rw [adj, ← hy, dotp_self]
    have h2 : SNGP.sq y ^ 2 ≤ SNGP.sq (kTrans w y) * SNGP.sq x := by
      rw [h1]; exact Finset.sum_mul_sq_le_sq_mul_sq _ _ _
    have h3 : SNGP.sq y ^ 2 ≤ lam m * SNGP.sq y * SNGP.sq x :=
      h2.trans (mul_le_mul_of_nonneg_right (hT y) (sq_nonneg_fun x))
    rcases (sq_nonneg_fun y).lt_or_eq with h | h
    · refine le_of_mul_le_mul_left ?_ h
      nlinarith
    · rw [← h]; exact mul_nonneg hpos (sq_nonneg_fun x)
  · rw [Real.sq_sqrt hpos, hAx, hev]; rfl

/-! ## Several calls of one layer -/

namespace PowerIter

theorem step_u (eps : ℝ) (w : κ → ι → ℝ) (s t : PowerState ι κ) (h : s.u = t.u) : powerStep eps w s = powerStep eps w t := by
  unfold powerStep; rw [h]

/-- The carry only depends on the stored left vector and, with no iteration, on the right one. -/
theorem iter_add (eps : ℝ) (w : κ → ι → ℝ) (n m : ℕ) (u : ι → ℝ) (v : κ → ℝ) :
    powerRun eps w true false m (powerRun eps w true false n u v).u (powerRun eps w true false n u v).v =
      powerRun eps w true false (n + m) u v := by
  show (powerStep eps w)^[m] ⟨((powerStep eps w)^[n] ⟨u, v, kApply w v⟩).u, ((powerStep eps w)^[n] ⟨u, v, kApply w v⟩).v,
    kApply w ((powerStep eps w)^[n] ⟨u, v, kApply w v⟩).v⟩ = (powerStep eps w)^[n + m] ⟨u, v, kApply w v⟩
  rw [add_comm n m, Function.iterate_add_apply]
  congr 1
  cases n with
  | zero => rfl
  | succ n => rw [Function.iterate_succ_apply']; rfl

/-- The third component of the carry always is the product of the kernel with the second one. -/
theorem run_u' (eps : ℝ) (w : κ → ι → ℝ) (n : ℕ) (u : ι → ℝ) (v : κ → ℝ) :
    (powerRun eps w true false n u v).u' = kApply w (powerRun eps w true false n u v).v := by
  show ((powerStep eps w)^[n] ⟨u, v, kApply w v⟩).u' = kApply w ((powerStep eps w)^[n] ⟨u, v, kApply w v⟩).v
  cases n with
  | zero => rfl
  | succ n => rw [Function.iterate_succ_apply']; rfl

end PowerIter

/-- **C125.** In an MLP or ResNet, training calls with the same kernel add up: after `c` calls of `n` iterations the prediction uses
the estimate of `n·c` iterations from the first stored vector. -/
theorem C125_calls (eps bound : ℝ) (w : κ → ι → ℝ) (n c : ℕ) (u : ι → ℝ) (v : κ → ℝ) :
    kernelAfter eps bound networkUpdates n (List.replicate c (w, true)) u v w =
      wHat bound (sigmaOf (powerRun eps w true false (n * c) u v)) w := by
  have hst : ∀ c, storedAfter eps networkUpdates n (List.replicate c (w, true)) u v =
      ((powerRun eps w true false (n * c) u v).u, (powerRun eps w true false (n * c) u v).v) := by
    intro c
    induction c with
    | zero => rfl
    | succ c ih =>
      unfold storedAfter at ih ⊢
      rw [List.replicate_succ', List.foldl_append, ih]
      show ((powerRun eps w true false n _ _).u, (powerRun eps w true false n _ _).v) = _
      rw [iter_add, mul_add, mul_one]
  unfold kernelAfter
  rw [hst c]
  have : sigmaOf (powerRun eps w (networkUpdates false) false n (powerRun eps w true false (n * c) u v).u
      (powerRun eps w true false (n * c) u v).v) = sigmaOf (powerRun eps w true false (n * c) u v) := by
    show dotp (powerRun eps w true false (n * c) u v).u (kApply w (powerRun eps w true false (n * c) u v).v) = _
    rw [← run_u']; rfl
  dsimp only
  rw [this]

/-- **C125.** So, with a kernel that has settled, the kernel used for predictions comes within every bound above the one asked for,
if the stored vector was not orthogonal to the leading direction. -/
theorem C125_settled (eps bound bound' : ℝ) (he : 0 < eps) (hb : 0 < bound) (hb' : bound < bound') (w : κ → ι → ℝ) (u : ι → ℝ)
    (v : κ → ℝ) (h0 : eps * max 1 (SNGP.sq u) ≤ SNGP.sq (kTrans w u)) (s : ℝ) (e : ι → ℝ) (hl : Leading w s e)
    (hc : 0 < cosine u e) (n : ℕ) (hn : 0 < n) :
    ∃ C, ∀ c, C ≤ c → NormBound (kernelAfter eps bound networkUpdates n (List.replicate c (w, true)) u v w) bound' := by
  have hexp : Filter.Tendsto (fun n : ℕ => 1 / (2 * (n : ℝ))) Filter.atTop (nhds 0) := by
    have := (tendsto_one_div_atTop_nhds_zero_nat (𝕜 := ℝ)).const_mul (1 / 2)
    rw [mul_zero] at this
    refine this.congr fun n => ?_
    rw [one_div_mul_one_div]
  have hlim : Filter.Tendsto (fun n : ℕ => (cosine u e ^ (1 / (2 * (n : ℝ))))⁻¹ * bound) Filter.atTop (nhds bound) := by
    have h1 := (Real.continuousAt_const_rpow hc.ne').tendsto.comp hexp
    rw [Real.rpow_zero] at h1
    have := (h1.inv₀ one_ne_zero).mul_const bound
    simpa using this
  obtain ⟨N, hN⟩ := Filter.eventually_atTop.1 (hlim.eventually (gt_mem_nhds hb'))
  refine ⟨N + 1, fun c hcN => ?_⟩
  rw [C125_calls]
  have hpos : 0 < n * c := Nat.mul_pos hn (by omega)
  have h1 := C125_bound eps bound he hb w u v h0 s e hl hc (n * c) hpos
  have h2 := hN (n * c) (by nlinarith)
  refine ⟨(hb.trans hb').le, fun x => (h1.2 x).trans ?_⟩
  exact mul_le_mul_of_nonneg_right (pow_le_pow_left₀ h1.1 h2.le 2) (sq_nonneg_fun x)

/-- **C125.** Almost no starting vector is orthogonal to a given direction: under any law with a density (such as the normal one the
code draws from) this has probability zero. -/
theorem C125_almost_surely (e : ι → ℝ) (he : SNGP.sq e = 1) (μ : MeasureTheory.Measure (ι → ℝ))
    (hμ : μ.AbsolutelyContinuous MeasureTheory.volume) : ∀ᵐ u ∂μ, 0 < cosine u e := by
  have hsub : MeasureTheory.volume {u : ι → ℝ | dotp u e = 0} = 0 := by
    let L : (ι → ℝ) →ₗ[ℝ] ℝ :=
      { toFun := fun u => dotp u e
        map_add' := fun x y => by simp [dotp, add_mul, Finset.sum_add_distrib]
        map_smul' := fun c x => by simp [dotp, mul_assoc, Finset.mul_sum] }
    have hne : LinearMap.ker L ≠ ⊤ := by
      intro h
      have : e ∈ LinearMap.ker L := h ▸ Submodule.mem_top
      have h1 : dotp e e = 0 := this
      rw [dotp_self, he] at h1
      exact one_ne_zero h1
    exact MeasureTheory.Measure.addHaar_submodule MeasureTheory.volume (LinearMap.ker L) hne
  have h0 : μ {u : ι → ℝ | dotp u e = 0} = 0 := hμ hsub
  have : ∀ᵐ u ∂μ, ¬ dotp u e = 0 := by
    rw [MeasureTheory.ae_iff]
    simpa using h0
  filter_upwards [this] with u hu
  refine lt_of_le_of_ne (cosine_nonneg u e) fun h => ?_
  unfold cosine at h
  rcases div_eq_zero_iff.1 h.symm with h | h
  · exact hu (abs_eq_zero.1 h)
  · have h' : SNGP.sq u = 0 := (Real.sqrt_eq_zero (sq_nonneg_fun u)).1 h
    have := dotp_abs_le u e
    rw [h', Real.sqrt_zero, zero_mul] at this
    exact hu (abs_nonpos_iff.1 this)

/-! ## The text models -/

/-- **C125.** In the SNGP text models the stored vectors stay those of the initialisation, whatever is trained and for however
long, so that the estimate always is the product of the kernel with two fixed vectors. -/
theorem C125_text_stored (eps : ℝ) (n : ℕ) (calls : List ((κ → ι → ℝ) × Bool)) (u : ι → ℝ) (v : κ → ℝ) :
    storedAfter eps textUpdates n calls u v = (u, v) := by
  unfold storedAfter
  induction calls with
  | nil => rfl
  | cons c cs ih => exact ih

theorem C125_text_kernel (eps bound : ℝ) (n : ℕ) (calls : List ((κ → ι → ℝ) × Bool)) (u : ι → ℝ) (v : κ → ℝ)
    (w : κ → ι → ℝ) :
    kernelAfter eps bound textUpdates n calls u v w = wHat bound (∑ i, u i * ∑ k, v k * w k i) w := by
  unfold kernelAfter
  rw [C125_text_stored]
  rfl

/-- **C125 (false).** In the text models the bound does not bound anything: for all initial vectors of a layer with at least two
inputs, and every number, there is a kernel which is used as it is although its spectral norm is at least that number. -/
theorem C125_text_false (eps bound : ℝ) (hb : 0 < bound) (n : ℕ) (calls : List ((κ → ι → ℝ) × Bool)) (u : ι → ℝ) (v : κ → ℝ)
    (i : ι) (k k' : κ) (hk : k ≠ k') (R : ℝ) :
    ∃ w : κ → ι → ℝ, kernelAfter eps bound textUpdates n calls u v w = w ∧
      ∃ x, SNGP.sq x = 1 ∧ R ^ 2 ≤ SNGP.sq (kApply w x) := by
  classical
  have hsq1 : ∀ j : κ, SNGP.sq (Pi.single j 1 : κ → ℝ) = 1 := by
    intro j; simp [SNGP.sq, Pi.single_apply]
  have hone : ∀ (w : κ → ι → ℝ) (j : κ), w j i ^ 2 ≤ SNGP.sq (kApply w (Pi.single j 1)) := by
    intro w j
    have h1 : kApply w (Pi.single j 1) i = w j i := by simp [kApply, Pi.single_apply]
    rw [← h1]
    exact Finset.single_le_sum (f := fun i => kApply w (Pi.single j 1) i ^ 2) (fun _ _ => sq_nonneg _) (Finset.mem_univ i)
  have hused : ∀ w : κ → ι → ℝ, ∑ i, u i * ∑ k, v k * w k i = 0 → kernelAfter eps bound textUpdates n calls u v w = w := by
    intro w h
    rw [C125_text_kernel, h]
    exact (C79_scaled bound 0 hb w).1 hb.le
  by_cases hv : v k = 0
  · refine ⟨fun a b => if a = k ∧ b = i then R else 0, hused _ ?_, Pi.single k 1, hsq1 k, ?_⟩
    · refine Finset.sum_eq_zero fun b _ => ?_
      rw [Finset.sum_eq_zero, mul_zero]
      intro a _
      by_cases ha : a = k
      · rw [ha, hv, zero_mul]
      · simp [ha]
    · have := hone (fun a b => if a = k ∧ b = i then R else 0) k
      simpa using this
  · refine ⟨fun a b => if b = i then (if a = k' then R else if a = k then -(v k' * R) / v k else 0) else 0, hused _ ?_,
      Pi.single k' 1, hsq1 k', ?_⟩
    · refine Finset.sum_eq_zero fun b _ => ?_
      by_cases hbi : b = i
      · simp only [hbi, if_true]
        have : ∑ a, v a * (if a = k' then R else if a = k then -(v k' * R) / v k else 0) = 0 := by
          have h2 : ∀ a, v a * (if a = k' then R else if a = k then -(v k' * R) / v k else 0) =
              (if a = k' then v k' * R else 0) + (if a = k then -(v k' * R) else 0) := by
            intro a
            by_cases h1 : a = k'
            · simp [h1, hk.symm]
            · by_cases h3 : a = k
              · subst h3; simp [h1]; field_simp
              · simp [h1, h3]
          simp only [h2, Finset.sum_add_distrib, Finset.sum_ite_eq', Finset.mem_univ, if_true]
          ring
        rw [this, mul_zero]
      · simp [hbi]
    · have := hone (fun a b => if b = i then (if a = k' then R else if a = k then -(v k' * R) / v k else 0) else 0) k'
      simpa using this

/-! ## Examples -/

/-- The kernel `diag(2, 1)` has the leading direction `(1, 0)`; the vector `(1, 1)` has a positive cosine with it, and the first
product is not negligible. -/
example : Leading (![![2, 0], ![0, 1]] : Fin 2 → Fin 2 → ℝ) 2 ![1, 0] ∧ 0 < cosine (![1, 1] : Fin 2 → ℝ) ![1, 0] ∧
    (1 / 10 ^ 12 : ℝ) * max 1 (SNGP.sq (![1, 1] : Fin 2 → ℝ)) ≤
      SNGP.sq (kTrans (![![2, 0], ![0, 1]] : Fin 2 → Fin 2 → ℝ) ![1, 1]) := by
  refine ⟨⟨⟨by norm_num, fun x => ?_⟩, by simp [SNGP.sq, Fin.sum_univ_two], fun i => ?_⟩, ?_, ?_⟩
  · simp [SNGP.sq, kApply, Fin.sum_univ_two]
    nlinarith [sq_nonneg (x 1)]
  · fin_cases i <;> simp [kApply, kTrans, Fin.sum_univ_two]; norm_num
  · simp only [cosine, dotp, SNGP.sq, Fin.sum_univ_two]
    simp
  · simp [SNGP.sq, kTrans, Fin.sum_univ_two]; norm_num

/-- A text model with two inputs and one output, initial vectors `1` and `(1, 1)`: the kernel `(R, -R)` is used as it is. -/
example (R : ℝ) (calls : List ((Fin 2 → Fin 1 → ℝ) × Bool)) :
    kernelAfter (1 / 10 ^ 12) (95 / 100) textUpdates 1 calls (fun _ => 1) (fun _ => 1) ![fun _ => R, fun _ => -R] =
      ![fun _ => R, fun _ => -R] := by
  rw [C125_text_kernel]
  have : ∑ i : Fin 1, (1 : ℝ) * ∑ k : Fin 2, 1 * (![fun _ => R, fun _ => -R] : Fin 2 → Fin 1 → ℝ) k i = 0 := by
    simp [Fin.sum_univ_two]
  rw [this]
  exact (C79_scaled _ 0 (by norm_num) _).1 (by norm_num)

/-! ### Concrete cases that meet the hypotheses of the theorems above -/

/-- The matrix with singular values 2 and 1 and a start vector between the singular vectors. -/
theorem exPower : Leading (![![2, 0], ![0, 1]] : Fin 2 → Fin 2 → ℝ) 2 ![1, 0] ∧ 0 < cosine (![1, 1] : Fin 2 → ℝ) ![1, 0] ∧
    (1 / 10 ^ 12 : ℝ) * max 1 (SNGP.sq (![1, 1] : Fin 2 → ℝ)) ≤
      SNGP.sq (kTrans (![![2, 0], ![0, 1]] : Fin 2 → Fin 2 → ℝ) ![1, 1]) := by
  refine ⟨⟨⟨by norm_num, fun x => ?_⟩, by simp [SNGP.sq, Fin.sum_univ_two], fun i => ?_⟩, ?_, ?_⟩
  · simp [SNGP.sq, kApply, Fin.sum_univ_two]
    nlinarith [sq_nonneg (x 1)]
  · fin_cases i <;> simp [kApply, kTrans, Fin.sum_univ_two]; norm_num
  · simp only [cosine, dotp, SNGP.sq, Fin.sum_univ_two]
    simp
  · simp [SNGP.sq, kTrans, Fin.sum_univ_two]; norm_num

example := C125_rate (1 / 10 ^ 12) (by norm_num) _ ![1, 1] ![0, 0] exPower.2.2 2 (by norm_num) _ exPower.1.2.1 exPower.1.2.2 5 (by decide)
example := C125_bracket (1 / 10 ^ 12) (by norm_num) _ ![1, 1] ![0, 0] exPower.2.2 2 _ exPower.1 5 (by decide)
example := C125_limit (1 / 10 ^ 12) (by norm_num) _ ![1, 1] ![0, 0] exPower.2.2 2 _ exPower.1 (by simp [dotp, Fin.sum_univ_two])
example := C125_bound (1 / 10 ^ 12) (95 / 100) (by norm_num) (by norm_num) _ ![1, 1] ![0, 0] exPower.2.2 2 _ exPower.1 exPower.2.1 5 (by decide)
example := C125_settled (1 / 10 ^ 12) (95 / 100) 1 (by norm_num) (by norm_num) (by norm_num) _ ![1, 1] ![0, 0] exPower.2.2 2 _ exPower.1
  exPower.2.1 1 (by decide)
example := C125_almost_surely (![1, 0] : Fin 2 → ℝ) exPower.1.2.1 MeasureTheory.volume MeasureTheory.Measure.AbsolutelyContinuous.rfl

end Verif.Props
