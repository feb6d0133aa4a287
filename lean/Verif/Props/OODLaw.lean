import Mathlib.LinearAlgebra.Matrix.PosDef
import Mathlib.Algebra.Order.Star.Real
import Mathlib.Analysis.Matrix.Spectrum
import Mathlib.Analysis.Matrix.PosDef
import Mathlib.LinearAlgebra.Matrix.Trace
import Mathlib.Tactic.NoncommRing
import Mathlib.LinearAlgebra.Matrix.NonsingularInverse
import Mathlib.Tactic.Linarith
import Mathlib.Tactic.Ring
import Mathlib.Tactic.FieldSimp
import Mathlib.Tactic.NormNum
import Mathlib.Analysis.SpecialFunctions.Log.Basic
import Verif.Model.OOD
import Verif.Props.OOD

/-!
# C123: how the out-of-distribution scores depend on the features

What the scores of the fitted detectors are when the features are changed by an affine map, how large the
scores of the training data are, and which directions of the feature space are not looked at.
-/

set_option linter.unusedSectionVars false

namespace Verif.OODLaw
open Verif.OOD Verif.Props Matrix

variable {n d : ℕ}

/-- The conditions that determine the Moore-Penrose inverse `P` of `S`. -/
structure IsPinv (S P : Matrix (Fin d) (Fin d) ℝ) : Prop where
  sps : S * P * S = S
  psp : P * S * P = P
  sp : (S * P)ᵀ = S * P
  ps : (P * S)ᵀ = P * S

theorem IsPinv.unique {S P Q : Matrix (Fin d) (Fin d) ℝ} (hP : IsPinv S P) (hQ : IsPinv S Q) : P = Q := by
  have h1 : S * P = S * Q := by
    calc S * P = (S * P)ᵀ := hP.sp.symm
      _ = (S * Q * (S * P))ᵀ := by rw [← mul_assoc, hQ.sps]
      _ = (S * P)ᵀ * (S * Q)ᵀ := transpose_mul _ _
      _ = S * P * (S * Q) := by rw [hP.sp, hQ.sp]
      _ = S * Q := by rw [← mul_assoc, hP.sps]
  have h2 : P * S = Q * S := by
    calc P * S = (P * S)ᵀ := hP.ps.symm
      _ = (P * S * (Q * S))ᵀ := by rw [mul_assoc, ← mul_assoc S, hQ.sps]
      _ = (Q * S)ᵀ * (P * S)ᵀ := transpose_mul _ _
      _ = Q * S * (P * S) := by rw [hP.ps, hQ.ps]
      _ = Q * S := by rw [mul_assoc, ← mul_assoc S, hP.sps]
  calc P = P * S * P := hP.psp.symm
    _ = Q * (S * Q) := by rw [h2, mul_assoc, h1]
    _ = Q := by rw [← mul_assoc, hQ.psp]

theorem IsPinv.inv {S P : Matrix (Fin d) (Fin d) ℝ} (hP : IsPinv S P) (hS : IsUnit S.det) : P = S⁻¹ := by
  refine hP.unique ⟨?_, ?_, ?_, ?_⟩
  · rw [mul_nonsing_inv _ hS, one_mul]
  · rw [nonsing_inv_mul _ hS, one_mul]
  · rw [mul_nonsing_inv _ hS, transpose_one]
  · rw [nonsing_inv_mul _ hS, transpose_one]

/-- Every symmetric matrix has one: invert the eigenvalues that are not zero. -/
theorem exists_pinv (S : Matrix (Fin d) (Fin d) ℝ) (hS : Sᵀ = S) : ∃ P, IsPinv S P := by
  have hH : S.IsHermitian := by rw [IsHermitian, conjTranspose_eq_transpose_of_trivial, hS]
  set U : Matrix (Fin d) (Fin d) ℝ := (hH.eigenvectorUnitary : Matrix (Fin d) (Fin d) ℝ) with hU
  set D : Matrix (Fin d) (Fin d) ℝ := diagonal hH.eigenvalues with hD
  set E : Matrix (Fin d) (Fin d) ℝ := diagonal fun i => (hH.eigenvalues i)⁻¹ with hE
  have hUU : Uᵀ * U = 1 := by
    have := (mem_unitaryGroup_iff' (A := U)).1 hH.eigenvectorUnitary.2
    rwa [star_eq_conjTranspose, conjTranspose_eq_transpose_of_trivial] at this
  have hSD : S = U * D * Uᵀ := by
    have := hH.spectral_theorem
    rw [Unitary.conjStarAlgAut_apply] at this
    rw [this]
    simp [hU, hD, star_eq_conjTranspose, conjTranspose_eq_transpose_of_trivial]
  have hDED : D * E * D = D := by
    rw [hD, hE, diagonal_mul_diagonal, diagonal_mul_diagonal]
    congr 1
    funext i
    by_cases h : hH.eigenvalues i = 0
    · simp [h]
    · field_simp
  have hEDE : E * D * E = E := by
    rw [hD, hE, diagonal_mul_diagonal, diagonal_mul_diagonal]
    congr 1
    funext i
    by_cases h : hH.eigenvalues i = 0
    · simp [h]
    · field_simp
  have hDE : D * E = E * D := by
    rw [hD, hE, diagonal_mul_diagonal, diagonal_mul_diagonal]
    congr 1
    funext i
    ring
  have hDt : (D * E)ᵀ = D * E := by rw [hD, hE, diagonal_mul_diagonal, diagonal_transpose]
  have e1 : S * (U * E * Uᵀ) = U * (D * E) * Uᵀ := by
    rw [hSD]
    calc _ = U * D * (Uᵀ * U) * E * Uᵀ := by noncomm_ring
      _ = _ := by rw [hUU, mul_one]; noncomm_ring
  have e2 : U * E * Uᵀ * S = U * (D * E) * Uᵀ := by
    rw [hSD, hDE]
    calc _ = U * E * (Uᵀ * U) * D * Uᵀ := by noncomm_ring
      _ = _ := by rw [hUU, mul_one]; noncomm_ring
  refine ⟨U * E * Uᵀ, ?_, ?_, ?_, ?_⟩
  · rw [e1]
    calc U * (D * E) * Uᵀ * S = U * (D * E) * (Uᵀ * U) * D * Uᵀ := by rw [hSD]; noncomm_ring
      _ = U * (D * E * D) * Uᵀ := by rw [hUU, mul_one]; noncomm_ring
      _ = S := by rw [hDED, ← hSD]
  · rw [e2]
    calc U * (D * E) * Uᵀ * (U * E * Uᵀ) = U * (D * E) * (Uᵀ * U) * E * Uᵀ := by noncomm_ring
      _ = U * (E * D * E) * Uᵀ := by rw [hUU, mul_one, hDE]; noncomm_ring
      _ = _ := by rw [hEDE]
  · rw [e1, transpose_mul, transpose_mul, transpose_transpose, hDt]
    exact (mul_assoc _ _ _).symm
  · rw [e2, transpose_mul, transpose_mul, transpose_transpose, hDt]
    exact (mul_assoc _ _ _).symm

/-- What a direction without variance is mapped to. -/
theorem IsPinv.null {S P : Matrix (Fin d) (Fin d) ℝ} (hP : IsPinv S P) (hS : Sᵀ = S) (u : Fin d → ℝ)
    (hu : S *ᵥ u = 0) : P *ᵥ u = 0 ∧ u ᵥ* P = 0 := by
  constructor
  · have : P = P * Pᵀ * S := by
      calc P = P * (S * P) := by rw [← mul_assoc, hP.psp]
        _ = P * (S * P)ᵀ := by rw [hP.sp]
        _ = P * Pᵀ * S := by rw [transpose_mul, hS, mul_assoc]
    rw [this, ← mulVec_mulVec, hu, mulVec_zero]
  · have : P = S * Pᵀ * P := by
      calc P = (P * S) * P := hP.psp.symm
        _ = (P * S)ᵀ * P := by rw [hP.ps]
        _ = S * Pᵀ * P := by rw [transpose_mul, hS]
    have h : u ᵥ* S = 0 := by rw [← mulVec_transpose, hS, hu]
    rw [this, mul_assoc, ← vecMul_vecMul, h, zero_vecMul]

/-- The deviation of training point `i` from the mean of its class. -/
noncomputable def dev (x : Fin n → Fin d → ℝ) (y : Fin n → ℤ) (i : Fin n) (a : Fin d) : ℝ :=
  x i a - memberMean x y (y i) a

/-- The pooled within-class covariance. -/
noncomputable def pooled (x : Fin n → Fin d → ℝ) (y : Fin n → ℤ) : Matrix (Fin d) (Fin d) ℝ :=
  fun a b => (∑ i, dev x y i a * dev x y i b) / (n : ℝ)

theorem pooled_symm (x : Fin n → Fin d → ℝ) (y : Fin n → ℤ) : (pooled x y)ᵀ = pooled x y := by
  ext a b
  simp only [transpose_apply, pooled]
  congr 1
  exact Finset.sum_congr rfl fun i _ => mul_comm _ _

theorem pooled_mulVec (x : Fin n → Fin d → ℝ) (y : Fin n → ℤ) (u : Fin d → ℝ) (a : Fin d) :
    (pooled x y *ᵥ u) a = (∑ i, dev x y i a * (dev x y i ⬝ᵥ u)) / n := by
  simp only [mulVec, dotProduct, pooled, Finset.mul_sum, div_mul_eq_mul_div, Finset.sum_mul]
  rw [← Finset.sum_div, Finset.sum_comm]
  simp only [mul_assoc]

/-- The fitted detector in terms of the pooled covariance and the class means. -/
theorem fitScore_eq (pinv : (Fin d → Fin d → ℝ) → Fin d → Fin d → ℝ) (x : Fin n → Fin d → ℝ) (y : Fin n → ℤ)
    (classes : ℕ) (hin : ∀ i, 0 ≤ y i ∧ y i < classes) (hall : ∀ k : ℕ, k < classes → ∃ i, y i = k)
    (q : Fin d → ℝ) :
    mahaFitScore pinv x y classes q =
      mahaScore (pinv (pooled x y)) ((List.range classes).map fun k : ℕ => memberMean x y k) q := by
  unfold mahaFitScore
  have hc := C72_covariance x y classes hin hall
  rw [if_neg (by rintro ⟨a, b, h⟩; rw [hc] at h; cases h)]
  congr 1
  · congr 1
    funext a b
    rw [hc]
    rfl
  · refine List.map_congr_left fun k hk => ?_
    funext a
    rw [C72_mean x y k a (hall k (List.mem_range.1 hk))]
    rfl

theorem maha_dot (P : Matrix (Fin d) (Fin d) ℝ) (x m : Fin d → ℝ) :
    mahaDist P x m = (x - m) ⬝ᵥ (P *ᵥ (x - m)) := by
  unfold mahaDist
  simp only [dotProduct, mulVec, Pi.sub_apply, Finset.mul_sum, mul_assoc]

/-- An affine change of features. -/
def affine (A : Matrix (Fin d) (Fin d) ℝ) (b : Fin d → ℝ) (x : Fin d → ℝ) : Fin d → ℝ := A *ᵥ x + b

theorem affine_sub (A : Matrix (Fin d) (Fin d) ℝ) (b x m : Fin d → ℝ) :
    affine A b x - affine A b m = A *ᵥ (x - m) := by
  unfold affine
  rw [mulVec_sub]
  abel

theorem memberMean_affine (A : Matrix (Fin d) (Fin d) ℝ) (b : Fin d → ℝ) (x : Fin n → Fin d → ℝ)
    (y : Fin n → ℤ) (k : ℤ) (hk : ∃ i, y i = k) :
    memberMean (fun i => affine A b (x i)) y k = affine A b (memberMean x y k) := by
  obtain ⟨i0, hi0⟩ := hk
  have hpos : 0 < (Finset.univ.filter fun i => y i = k).card :=
    Finset.card_pos.mpr ⟨i0, by simpa using hi0⟩
  have hpos' : ((Finset.univ.filter fun i => y i = k).card : ℝ) ≠ 0 := by exact_mod_cast hpos.ne'
  funext a
  simp only [memberMean, affine, Pi.add_apply, mulVec, dotProduct]
  rw [Finset.sum_add_distrib, Finset.sum_comm, add_div]
  congr 1
  · rw [Finset.sum_div]
    refine Finset.sum_congr rfl fun j _ => ?_
    rw [← Finset.mul_sum, mul_div_assoc]
  · simp [hpos']

theorem dev_affine (A : Matrix (Fin d) (Fin d) ℝ) (b : Fin d → ℝ) (x : Fin n → Fin d → ℝ)
    (y : Fin n → ℤ) (i : Fin n) : dev (fun i => affine A b (x i)) y i = A *ᵥ dev x y i := by
  have h : dev (fun i => affine A b (x i)) y i =
      affine A b (x i) - memberMean (fun i => affine A b (x i)) y (y i) := rfl
  rw [h, memberMean_affine A b x y (y i) ⟨i, rfl⟩, affine_sub]
  rfl

theorem pooled_affine (A : Matrix (Fin d) (Fin d) ℝ) (b : Fin d → ℝ) (x : Fin n → Fin d → ℝ)
    (y : Fin n → ℤ) : pooled (fun i => affine A b (x i)) y = A * pooled x y * Aᵀ := by
  ext a c
  simp only [pooled, dev_affine]
  rw [mul_apply]
  simp only [mul_apply, transpose_apply, pooled, mulVec, dotProduct]
  simp only [Finset.sum_mul, Finset.mul_sum, mul_div_assoc', div_mul_eq_mul_div]
  simp only [← Finset.sum_div]
  congr 1
  rw [Finset.sum_comm]
  refine Finset.sum_congr rfl fun j _ => ?_
  rw [Finset.sum_comm]
  refine Finset.sum_congr rfl fun k _ => ?_
  refine Finset.sum_congr rfl fun i _ => ?_
  ring

theorem mahaScore_affine (A : Matrix (Fin d) (Fin d) ℝ) (b : Fin d → ℝ) (P P' : Matrix (Fin d) (Fin d) ℝ)
    (h : Aᵀ * P' * A = P) (means : List (Fin d → ℝ)) (q : Fin d → ℝ) :
    mahaScore P' (means.map (affine A b)) (affine A b q) = mahaScore P means q := by
  unfold mahaScore
  rw [List.map_map]
  have : (mahaDist P' (affine A b q) ∘ affine A b) = mahaDist P q := by
    funext m
    simp only [Function.comp]
    rw [maha_dot, maha_dot, affine_sub, ← h, mulVec_mulVec, dotProduct_comm, ← dotProduct_comm,
      ← vecMul_transpose, ← dotProduct_mulVec, mulVec_mulVec, mul_assoc]
  rw [this]

end Verif.OODLaw

namespace Verif.Props
open Verif.OOD Verif.OODLaw Matrix

variable {n d : ℕ}

/-- **C123, Mahalanobis scores do not depend on the coordinates of the features**, if the covariance of the
training features is invertible: fitting and scoring after any invertible linear map and translation of the
features gives the same score. -/
theorem C123_affine (pinv : Matrix (Fin d) (Fin d) ℝ → Matrix (Fin d) (Fin d) ℝ)
    (hp : ∀ S, Sᵀ = S → IsPinv S (pinv S))
    (x : Fin n → Fin d → ℝ) (y : Fin n → ℤ) (classes : ℕ) (hin : ∀ i, 0 ≤ y i ∧ y i < classes)
    (hall : ∀ k : ℕ, k < classes → ∃ i, y i = k) (A : Matrix (Fin d) (Fin d) ℝ) (hA : IsUnit A.det)
    (hS : IsUnit (pooled x y).det) (b q : Fin d → ℝ) :
    mahaFitScore pinv (fun i => affine A b (x i)) y classes (affine A b q) =
      mahaFitScore pinv x y classes q := by
  rw [fitScore_eq pinv _ y classes hin hall, fitScore_eq pinv _ y classes hin hall]
  have hm : ((List.range classes).map fun k : ℕ => memberMean (fun i => affine A b (x i)) y k) =
      ((List.range classes).map fun k : ℕ => memberMean x y k).map (affine A b) := by
    rw [List.map_map]
    exact List.map_congr_left fun k hk => memberMean_affine A b x y k (hall k (List.mem_range.1 hk))
  rw [hm]
  refine mahaScore_affine A b _ _ ?_ _ q
  have hAt : IsUnit Aᵀ.det := by rwa [det_transpose]
  have hS' : IsUnit (A * pooled x y * Aᵀ).det := by
    rw [det_mul, det_mul]
    exact (hA.mul hS).mul hAt
  have hsy : (A * pooled x y * Aᵀ)ᵀ = A * pooled x y * Aᵀ := by rw [← pooled_affine A b, pooled_symm]
  rw [pooled_affine, (hp _ hsy).inv hS', (hp _ (pooled_symm x y)).inv hS, Matrix.mul_inv_rev, Matrix.mul_inv_rev]
  rw [mul_nonsing_inv_cancel_left _ _ hAt, mul_assoc, nonsing_inv_mul _ hA, mul_one]

/-- **C123, rotations.** With any covariance, also a singular one, the score does not change under
orthogonal maps and translations. -/
theorem C123_orthogonal (pinv : Matrix (Fin d) (Fin d) ℝ → Matrix (Fin d) (Fin d) ℝ)
    (hp : ∀ S, Sᵀ = S → IsPinv S (pinv S)) (x : Fin n → Fin d → ℝ) (y : Fin n → ℤ) (classes : ℕ)
    (hin : ∀ i, 0 ≤ y i ∧ y i < classes) (hall : ∀ k : ℕ, k < classes → ∃ i, y i = k)
    (A : Matrix (Fin d) (Fin d) ℝ) (hA : Aᵀ * A = 1) (b q : Fin d → ℝ) :
    mahaFitScore pinv (fun i => affine A b (x i)) y classes (affine A b q) =
      mahaFitScore pinv x y classes q := by
  rw [fitScore_eq pinv _ y classes hin hall, fitScore_eq pinv _ y classes hin hall]
  have hm : ((List.range classes).map fun k : ℕ => memberMean (fun i => affine A b (x i)) y k) =
      ((List.range classes).map fun k : ℕ => memberMean x y k).map (affine A b) := by
    rw [List.map_map]
    exact List.map_congr_left fun k hk => memberMean_affine A b x y k (hall k (List.mem_range.1 hk))
  rw [hm]
  refine mahaScore_affine A b _ _ ?_ _ q
  set S := pooled x y
  set P := pinv S with hP
  have hPS : IsPinv S P := hp S (pooled_symm x y)
  have hsy : (A * S * Aᵀ)ᵀ = A * S * Aᵀ := by rw [← pooled_affine A b, pooled_symm]
  have key : pinv (pooled (fun i => affine A b (x i)) y) = A * P * Aᵀ := by
    rw [pooled_affine]
    refine (hp _ hsy).unique ⟨?_, ?_, ?_, ?_⟩
    · calc A * S * Aᵀ * (A * P * Aᵀ) * (A * S * Aᵀ)
          = A * (S * (Aᵀ * A) * P * (Aᵀ * A) * S) * Aᵀ := by noncomm_ring
        _ = A * S * Aᵀ := by rw [hA, mul_one, mul_one, hPS.sps]
    · calc A * P * Aᵀ * (A * S * Aᵀ) * (A * P * Aᵀ)
          = A * (P * (Aᵀ * A) * S * (Aᵀ * A) * P) * Aᵀ := by noncomm_ring
        _ = A * P * Aᵀ := by rw [hA, mul_one, mul_one, hPS.psp]
    · have : A * S * Aᵀ * (A * P * Aᵀ) = A * (S * P) * Aᵀ := by
        calc _ = A * (S * (Aᵀ * A) * P) * Aᵀ := by noncomm_ring
          _ = _ := by rw [hA, mul_one]
      rw [this, transpose_mul, transpose_mul, transpose_transpose, hPS.sp]
      noncomm_ring
    · have : A * P * Aᵀ * (A * S * Aᵀ) = A * (P * S) * Aᵀ := by
        calc _ = A * (P * (Aᵀ * A) * S) * Aᵀ := by noncomm_ring
          _ = _ := by rw [hA, mul_one]
      rw [this, transpose_mul, transpose_mul, transpose_transpose, hPS.ps]
      noncomm_ring
  show Aᵀ * pinv _ * A = P
  rw [key]
  calc Aᵀ * (A * P * Aᵀ) * A = (Aᵀ * A) * P * (Aᵀ * A) := by noncomm_ring
    _ = P := by rw [hA, one_mul, mul_one]

/-- One class of two points, the second feature is constant. -/
def flatX : Fin 2 → Fin 2 → ℝ := ![![-1, 0], ![1, 0]]

theorem pooled_flat : pooled flatX (fun _ => 0) = !![1, 0; 0, 0] := by
  ext a b
  fin_cases a <;> fin_cases b <;> simp [pooled, dev, memberMean, flatX, Fin.sum_univ_two]

theorem pinv_flat : IsPinv (d := 2) !![1, 0; 0, 0] !![1, 0; 0, 0] := by
  constructor <;> · ext a b; fin_cases a <;> fin_cases b <;> simp [Matrix.mul_apply, Fin.sum_univ_two]

/-- The score of the detector fitted to `flatX` is the square of the first feature. -/
theorem flat_score (pinv : Matrix (Fin 2) (Fin 2) ℝ → Matrix (Fin 2) (Fin 2) ℝ)
    (hp : ∀ S, Sᵀ = S → IsPinv S (pinv S)) (q : Fin 2 → ℝ) :
    mahaFitScore pinv flatX (fun _ => 0) 1 q = some (q 0 ^ 2) := by
  rw [fitScore_eq pinv _ _ 1 (by simp) (by intro k hk; exact ⟨0, by omega⟩)]
  have h1 : pinv (pooled flatX fun _ => 0) = !![1, 0; 0, 0] := by
    have := hp (pooled flatX fun _ => 0) (pooled_symm _ _)
    rw [pooled_flat] at this ⊢
    exact this.unique pinv_flat
  rw [h1]
  simp [mahaScore, mahaDist, memberMean, flatX, Fin.sum_univ_two]
  ring

/-- **C123, singular covariance.** False of the code: that the score does not depend on the coordinates of the
features when the covariance is singular. With a constant second feature the score is the square of the first
feature; adding the second feature to the first, an invertible map, changes the training features not at all
and the score of `(0, t)` from `0` to `t²`. -/
theorem C123_affine_false (pinv : Matrix (Fin 2) (Fin 2) ℝ → Matrix (Fin 2) (Fin 2) ℝ)
    (hp : ∀ S, Sᵀ = S → IsPinv S (pinv S)) (t : ℝ) :
    let A : Matrix (Fin 2) (Fin 2) ℝ := !![1, 1; 0, 1]
    IsUnit A.det ∧ (fun i => affine A 0 (flatX i)) = flatX ∧
    mahaFitScore pinv flatX (fun _ => 0) 1 ![0, t] = some 0 ∧
    mahaFitScore pinv (fun i => affine A 0 (flatX i)) (fun _ => 0) 1 (affine A 0 ![0, t]) = some (t ^ 2) := by
  intro A
  have hx : (fun i => affine A 0 (flatX i)) = flatX := by
    funext i a
    fin_cases i <;> fin_cases a <;> simp [affine, A, flatX]
  refine ⟨by simp [A, det_fin_two], hx, ?_, ?_⟩
  · rw [flat_score pinv hp]
    simp
  · rw [hx, flat_score pinv hp]
    simp [affine, A]

/-- **C123, directions the detector does not look at.** False of the code: that points far from all training
data get a high score. Along every direction in which no training point deviates from its class mean, the
score does not change however far one goes. -/
theorem C123_blind (pinv : Matrix (Fin d) (Fin d) ℝ → Matrix (Fin d) (Fin d) ℝ) (hp : ∀ S, Sᵀ = S → IsPinv S (pinv S))
    (x : Fin n → Fin d → ℝ) (y : Fin n → ℤ) (classes : ℕ) (hin : ∀ i, 0 ≤ y i ∧ y i < classes)
    (hall : ∀ k : ℕ, k < classes → ∃ i, y i = k) (u : Fin d → ℝ)
    (hu : ∀ i, ∑ a, (x i a - memberMean x y (y i) a) * u a = 0) (q : Fin d → ℝ) (t : ℝ) :
    mahaFitScore pinv x y classes (q + t • u) = mahaFitScore pinv x y classes q := by
  rw [fitScore_eq pinv _ y classes hin hall, fitScore_eq pinv _ y classes hin hall]
  have hz : pooled x y *ᵥ u = 0 := by
    funext a
    rw [pooled_mulVec]
    have : ∀ i, dev x y i ⬝ᵥ u = 0 := hu
    simp [this]
  obtain ⟨h1, h2⟩ := (hp (pooled x y) (pooled_symm x y)).null (pooled_symm x y) u hz
  unfold mahaScore
  have : mahaDist (pinv (pooled x y)) (q + t • u) = mahaDist (pinv (pooled x y)) q := by
    funext m
    rw [maha_dot, maha_dot, show q + t • u - m = (q - m) + t • u by abel, mulVec_add, mulVec_smul, h1,
      smul_zero, add_zero, add_dotProduct, smul_dotProduct, dotProduct_mulVec u, h2]
    simp
  rw [this]

/-- **C123, the average distance of the training data.** The squared distances of the training points to the
means of their own classes are on average at most the dimension of the features, and exactly that if the
covariance is invertible. So the average score of the training data is at most the dimension. -/
theorem C123_average (P : Matrix (Fin d) (Fin d) ℝ) (x : Fin n → Fin d → ℝ) (y : Fin n → ℤ) (hn : 0 < n)
    (hP : IsPinv (pooled x y) P) :
    (∑ i, mahaDist P (x i) (memberMean x y (y i))) / n ≤ d ∧
    (IsUnit (pooled x y).det → (∑ i, mahaDist P (x i) (memberMean x y (y i))) / n = d) := by
  have hn' : (n : ℝ) ≠ 0 := by exact_mod_cast hn.ne'
  have htr : (∑ i, mahaDist P (x i) (memberMean x y (y i))) / n = trace (P * pooled x y) := by
    rw [trace]
    simp only [diag_apply, mul_apply, pooled]
    have : ∀ i, mahaDist P (x i) (memberMean x y (y i)) = ∑ a, ∑ b, P a b * (dev x y i b * dev x y i a) := by
      intro i
      unfold mahaDist
      refine Finset.sum_congr rfl fun a _ => Finset.sum_congr rfl fun b _ => ?_
      simp only [dev]
      ring
    simp only [this, mul_div_assoc', Finset.mul_sum]
    simp only [← Finset.sum_div]
    congr 1
    rw [Finset.sum_comm]
    refine Finset.sum_congr rfl fun a _ => ?_
    rw [Finset.sum_comm]
  rw [htr]
  set S := pooled x y
  constructor
  · have hid : (1 - P * S) * (1 - P * S)ᵀ = 1 - P * S := by
      rw [transpose_sub, transpose_one, hP.ps]
      calc (1 - P * S) * (1 - P * S) = 1 - P * S - P * S + P * S * P * S := by noncomm_ring
        _ = 1 - P * S := by rw [hP.psp]; noncomm_ring
    have h0 : 0 ≤ trace ((1 - P * S) * (1 - P * S)ᵀ) := by
      rw [trace]
      refine Finset.sum_nonneg fun a _ => ?_
      simp only [diag_apply, mul_apply, transpose_apply]
      exact Finset.sum_nonneg fun b _ => mul_self_nonneg _
    rw [hid, trace_sub, trace_one, Fintype.card_fin] at h0
    linarith
  · intro hS
    rw [hP.inv hS, nonsing_inv_mul _ hS, trace_one, Fintype.card_fin]

/-- **C123, no training point scores more than the number of training points**, however far out it is: the
squared distance to the mean of its own class is at most `n`. -/
theorem C123_outlier (P : Matrix (Fin d) (Fin d) ℝ) (x : Fin n → Fin d → ℝ) (y : Fin n → ℤ)
    (hP : IsPinv (pooled x y) P) (i : Fin n) : mahaDist P (x i) (memberMean x y (y i)) ≤ n := by
  have hn : (0 : ℝ) < n := by exact_mod_cast (Fin.pos i)
  set S := pooled x y with hSdef
  have hPt : Pᵀ = P := by
    refine IsPinv.unique (S := S) ⟨?_, ?_, ?_, ?_⟩ hP
    · have := congrArg transpose hP.sps
      rwa [transpose_mul, transpose_mul, pooled_symm, ← mul_assoc] at this
    · have := congrArg transpose hP.psp
      rwa [transpose_mul, transpose_mul, pooled_symm, ← mul_assoc] at this
    · have := hP.ps
      rw [transpose_mul, pooled_symm] at this
      rw [this, hP.ps]
    · have := hP.sp
      rw [transpose_mul, pooled_symm] at this
      rw [this, hP.sp]
  set v := dev x y i with hv
  set w := P *ᵥ v with hw
  have hD : mahaDist P (x i) (memberMean x y (y i)) = v ⬝ᵥ w := maha_dot _ _ _
  have hq : v ⬝ᵥ w = w ⬝ᵥ (S *ᵥ w) := by
    have h1 : P *ᵥ (S *ᵥ w) = w := by
      rw [hw, mulVec_mulVec, mulVec_mulVec, hP.psp]
    calc v ⬝ᵥ w = v ⬝ᵥ (P *ᵥ (S *ᵥ w)) := by rw [h1]
      _ = (Pᵀ *ᵥ v) ⬝ᵥ (S *ᵥ w) := by rw [dotProduct_mulVec, mulVec_transpose]
      _ = w ⬝ᵥ (S *ᵥ w) := by rw [hPt]
  have hsum : w ⬝ᵥ (S *ᵥ w) = (∑ j, (dev x y j ⬝ᵥ w) ^ 2) / n := by
    rw [dotProduct]
    simp only [hSdef, pooled_mulVec, mul_div_assoc', Finset.mul_sum]
    rw [← Finset.sum_div, Finset.sum_comm]
    congr 1
    refine Finset.sum_congr rfl fun j _ => ?_
    rw [sq]
    nth_rewrite 2 [dotProduct]
    rw [Finset.sum_mul]
    refine Finset.sum_congr rfl fun a _ => ?_
    ring
  have hge : (v ⬝ᵥ w) ^ 2 / n ≤ v ⬝ᵥ w := by
    rw [hq, hsum, ← hsum, ← hq]
    nth_rewrite 2 [hq]
    rw [hsum]
    refine div_le_div_of_nonneg_right ?_ hn.le
    exact Finset.single_le_sum (f := fun j => (dev x y j ⬝ᵥ w) ^ 2) (fun j _ => sq_nonneg _) (Finset.mem_univ i)
  rw [hD]
  by_contra hc
  push Not at hc
  have : (v ⬝ᵥ w) ^ 2 ≤ (v ⬝ᵥ w) * n := (div_le_iff₀ hn).1 hge
  nlinarith

/-- **C123, scores of the training data.** The scores of the training points average to at most the dimension
of the features, and none is above the number of training points. -/
theorem C123_training (pinv : Matrix (Fin d) (Fin d) ℝ → Matrix (Fin d) (Fin d) ℝ)
    (hp : ∀ S, Sᵀ = S → IsPinv S (pinv S)) (x : Fin n → Fin d → ℝ) (y : Fin n → ℤ) (classes : ℕ)
    (hin : ∀ i, 0 ≤ y i ∧ y i < classes) (hall : ∀ k : ℕ, k < classes → ∃ i, y i = k) (hn : 0 < n) :
    ∃ s : Fin n → ℝ, (∀ i, mahaFitScore pinv x y classes (x i) = some (s i) ∧ s i ≤ n) ∧ (∑ i, s i) / n ≤ d := by
  have hP := hp _ (pooled_symm x y)
  have hs : ∀ i, ∃ s, mahaFitScore pinv x y classes (x i) = some s ∧
      s ≤ mahaDist (pinv (pooled x y)) (x i) (memberMean x y (y i)) := by
    intro i
    rw [fitScore_eq pinv _ y classes hin hall]
    have hmem : memberMean x y (y i) ∈ (List.range classes).map fun k : ℕ => memberMean x y k := by
      obtain ⟨h0, h1⟩ := hin i
      exact List.mem_map.2 ⟨(y i).toNat, List.mem_range.2 (by omega), by rw [Int.toNat_of_nonneg h0]⟩
    unfold mahaScore
    have hm := List.mem_map_of_mem (f := mahaDist (pinv (pooled x y)) (x i)) hmem
    revert hm
    cases ((List.range classes).map fun k : ℕ => memberMean x y k).map (mahaDist (pinv (pooled x y)) (x i)) with
    | nil => intro hm; cases hm
    | cons a t => intro hm; exact ⟨_, rfl, (foldl_min t a).2 _ hm⟩
  choose s hs1 hs2 using hs
  refine ⟨s, fun i => ⟨hs1 i, (hs2 i).trans (C123_outlier _ x y hP i)⟩, ?_⟩
  exact (div_le_div_of_nonneg_right (Finset.sum_le_sum fun i _ => hs2 i) (by positivity)).trans
    (C123_average _ x y hn hP).1

/-- A training set with an invertible covariance. -/
example : IsUnit (pooled (d := 1) (![fun _ => -1, fun _ => 1] : Fin 2 → Fin 1 → ℝ) (fun _ => 0)).det := by
  simp [pooled, dev, memberMean, Fin.sum_univ_two]

/-- A class with an invertible covariance. -/
example : Matrix.PosDef (Matrix.of (rowCov (d := 1) [fun _ => (-1 : ℝ), fun _ => 1])) := by
  have : Matrix.of (rowCov (d := 1) [fun _ => (-1 : ℝ), fun _ => 1]) = diagonal fun _ => 2 := by
    ext a b
    fin_cases a; fin_cases b
    norm_num [rowCov, rowMean]
  rw [this]
  exact posDef_diagonal_iff.2 fun _ => by norm_num

/-- Such pseudo-inverses exist. -/
example : ∃ pinv : Matrix (Fin d) (Fin d) ℝ → Matrix (Fin d) (Fin d) ℝ, ∀ S, Sᵀ = S → IsPinv S (pinv S) := by
  classical
  exact ⟨fun S => if h : Sᵀ = S then (exists_pinv S h).choose else 0, fun S h => by
    dsimp only
    rw [dif_pos h]
    exact (exists_pinv S h).choose_spec⟩

/-- The blind direction of `flatX`. -/
example : ∀ i, ∑ a, (flatX i a - memberMean flatX (fun _ => 0) 0 a) * (![0, 1] : Fin 2 → ℝ) a = 0 := by
  intro i
  fin_cases i <;> simp [memberMean, flatX, Fin.sum_univ_two]

/-! ## Deep deterministic uncertainty -/

open Classical in
/-- `jax.scipy.stats.multivariate_normal.logpdf`: NaN if the Cholesky factorisation fails. -/
noncomputable def normalLogpdf (m : Fin d → ℝ) (C : Fin d → Fin d → ℝ) (z : Fin d → ℝ) : Option ℝ :=
  if Matrix.PosDef (Matrix.of C) then
    some (-(d * Real.log (2 * Real.pi) + Real.log (Matrix.of C).det + (z - m) ⬝ᵥ ((Matrix.of C)⁻¹ *ᵥ (z - m))) / 2)
  else none

theorem rowMean_affine (A : Matrix (Fin d) (Fin d) ℝ) (b : Fin d → ℝ) (rows : List (Fin d → ℝ))
    (h : rows ≠ []) : rowMean (rows.map (affine A b)) = affine A b (rowMean rows) := by
  have hl : (rows.length : ℝ) ≠ 0 := by
    have := List.length_pos_iff.2 h
    exact_mod_cast this.ne'
  funext a
  simp only [rowMean, affine, List.map_map, Function.comp_def, Pi.add_apply, mulVec, dotProduct, List.length_map]
  rw [List.sum_map_add, add_div]
  congr 1
  · have : ∀ l : List (Fin d → ℝ), (l.map fun r => ∑ j, A a j * r j).sum = ∑ j, A a j * (l.map fun r => r j).sum := by
      intro l
      induction l with
      | nil => simp
      | cons r l ih => simp only [List.map_cons, List.sum_cons, ih, mul_add, Finset.sum_add_distrib]
    rw [this, Finset.sum_div]
    exact Finset.sum_congr rfl fun j _ => by rw [mul_div_assoc]
  · simp [hl]

theorem rowCov_affine (A : Matrix (Fin d) (Fin d) ℝ) (b : Fin d → ℝ) (rows : List (Fin d → ℝ))
    (h : rows ≠ []) : Matrix.of (rowCov (rows.map (affine A b))) = A * Matrix.of (rowCov rows) * Aᵀ := by
  ext a c
  have hd : ∀ r a, affine A b r a - affine A b (rowMean rows) a = ∑ j, A a j * (r j - rowMean rows j) := by
    intro r a
    have := congrFun (affine_sub A b r (rowMean rows)) a
    simpa [mulVec, dotProduct] using this
  simp only [of_apply, rowCov]
  rw [rowMean_affine A b rows h, List.map_map]
  simp only [Function.comp_def, hd, List.length_map, mul_apply, transpose_apply, of_apply, rowCov]
  have : ∀ l : List (Fin d → ℝ), (l.map fun r => (∑ j, A a j * (r j - rowMean rows j)) *
      ∑ j, A c j * (r j - rowMean rows j)).sum = ∑ k, ∑ j, A a j *
        (l.map fun r => (r j - rowMean rows j) * (r k - rowMean rows k)).sum * A c k := by
    intro l
    induction l with
    | nil => simp
    | cons r l ih =>
      simp only [List.map_cons, List.sum_cons, ih, mul_add, add_mul, Finset.sum_add_distrib]
      congr 1
      rw [Finset.sum_mul_sum, Finset.sum_comm]
      refine Finset.sum_congr rfl fun k _ => Finset.sum_congr rfl fun j _ => ?_
      ring
  rw [this, Finset.sum_div]
  refine Finset.sum_congr rfl fun k _ => ?_
  rw [Finset.sum_div, Finset.sum_mul]
  refine Finset.sum_congr rfl fun j _ => ?_
  ring

theorem posDef_affine (A C : Matrix (Fin d) (Fin d) ℝ) (hA : IsUnit A.det) (hC : C.PosDef) :
    (A * C * Aᵀ).PosDef := by
  have hU : IsUnit A := (isUnit_iff_isUnit_det A).2 hA
  have := (Matrix.IsUnit.posDef_star_right_conjugate_iff (x := C) hU).2 hC
  rwa [star_eq_conjTranspose, conjTranspose_eq_transpose_of_trivial] at this

/-- The log-density changes by the logarithm of the volume. -/
theorem normalLogpdf_affine (A : Matrix (Fin d) (Fin d) ℝ) (hA : IsUnit A.det) (b : Fin d → ℝ)
    (rows : List (Fin d → ℝ)) (h : rows ≠ []) (hC : Matrix.PosDef (Matrix.of (rowCov rows))) (q : Fin d → ℝ) :
    normalLogpdf (rowMean (rows.map (affine A b))) (rowCov (rows.map (affine A b))) (affine A b q) =
      some ((normalLogpdf (rowMean rows) (rowCov rows) q).getD 0 - Real.log |A.det|) := by
  have hAt : IsUnit Aᵀ.det := by rwa [det_transpose]
  unfold normalLogpdf
  rw [rowCov_affine A b rows h, rowMean_affine A b rows h, affine_sub, if_pos (posDef_affine A _ hA hC), if_pos hC]
  set C := Matrix.of (rowCov rows)
  have hdet : Real.log (A * C * Aᵀ).det = Real.log C.det + 2 * Real.log |A.det| := by
    have h0 : A.det ≠ 0 := hA.ne_zero
    rw [det_mul, det_mul, det_transpose, Real.log_mul (mul_ne_zero h0 hC.det_pos.ne') h0,
      Real.log_mul h0 hC.det_pos.ne', Real.log_abs]
    ring
  have hquad : (A *ᵥ (q - rowMean rows)) ⬝ᵥ ((A * C * Aᵀ)⁻¹ *ᵥ (A *ᵥ (q - rowMean rows))) =
      (q - rowMean rows) ⬝ᵥ (C⁻¹ *ᵥ (q - rowMean rows)) := by
    have : Aᵀ * (A * C * Aᵀ)⁻¹ * A = C⁻¹ := by
      rw [Matrix.mul_inv_rev, Matrix.mul_inv_rev, mul_nonsing_inv_cancel_left _ _ hAt, mul_assoc,
        nonsing_inv_mul _ hA, mul_one]
    rw [← this, mulVec_mulVec, ← vecMul_transpose, ← dotProduct_mulVec, mulVec_mulVec, mul_assoc Aᵀ]
  rw [hdet, hquad, Option.getD_some]
  congr 1
  ring

/-- **C123, deep deterministic uncertainty.** If every class has at least two training points and an
invertible covariance, an invertible affine map of the features adds the same number to every score, the
logarithm of its volume factor: the order of the scores does not change. -/
theorem C123_ddu (tiny : ℝ) (x : Fin n → Fin d → ℝ) (y : Fin n → ℤ) (classes : ℕ) (hc : 0 < classes)
    (h2 : ∀ k : ℕ, k < classes → 2 ≤ (members x y k).length)
    (hpd : ∀ k : ℕ, k < classes → Matrix.PosDef (Matrix.of (rowCov (members x y k))))
    (A : Matrix (Fin d) (Fin d) ℝ) (hA : IsUnit A.det) (b : Fin d → ℝ) :
    ∃ s : (Fin d → ℝ) → ℝ, ∀ q, dduFitScore normalLogpdf tiny x y classes q = .ok (s q) ∧
      dduFitScore normalLogpdf tiny (fun i => affine A b (x i)) y classes (affine A b q) =
        .ok (s q + Real.log |A.det|) := by
  have hmem : ∀ k : ℤ, members (fun i => affine A b (x i)) y k = (members x y k).map (affine A b) := by
    intro k
    unfold members
    rw [List.map_map]
    rfl
  have hne : ∀ k : ℕ, k < classes → members x y k ≠ [] := by
    intro k hk h
    have := h2 k hk
    rw [h] at this
    simp at this
  refine ⟨fun q => _, fun q => ⟨C73_fit_score normalLogpdf tiny x y classes h2 (fun k hk z => ?_) q, ?_⟩⟩
  · unfold normalLogpdf
    rw [if_pos (hpd k hk)]
    rfl
  · rw [C73_fit_score normalLogpdf tiny _ y classes]
    · congr 1
      rw [List.map_congr_left (g := fun k : ℕ => Real.exp
        ((normalLogpdf (rowMean (members x y k)) (rowCov (members x y k)) q).getD 0) * Real.exp (-Real.log |A.det|))]
      · rw [List.sum_map_mul_right, Real.log_mul ?_ (Real.exp_ne_zero _), Real.log_exp]
        · ring
        · refine ne_of_gt ?_
          refine List.sum_pos _ ?_ ?_
          · intro v hv
            obtain ⟨k, -, rfl⟩ := List.mem_map.1 hv
            exact Real.exp_pos _
          · simp; omega
      · intro k hk
        have hk' := List.mem_range.1 hk
        rw [hmem, normalLogpdf_affine A hA b _ (hne k hk') (hpd k hk') q, Option.getD_some, ← Real.exp_add]
        congr 1
    · intro k hk
      rw [hmem, List.length_map]
      exact h2 k hk
    · intro k hk z
      rw [hmem]
      unfold normalLogpdf
      rw [rowCov_affine A b _ (hne k hk), if_pos (posDef_affine A _ hA (hpd k hk))]
      rfl

/-! ### Concrete cases that meet the hypotheses of the theorems above -/

/-- Two features, two classes of three rows each, with covariances of full rank. -/
def exOod : Fin 6 → Fin 2 → ℝ := ![![0, 0], ![2, 0], ![0, 2], ![5, 5], ![7, 5], ![5, 8]]

def exOodY : Fin 6 → ℤ := ![0, 0, 0, 1, 1, 1]

theorem exOod_labels : (∀ i, 0 ≤ exOodY i ∧ exOodY i < (2 : ℕ)) ∧ ∀ k : ℕ, k < 2 → ∃ i, exOodY i = k := by decide +kernel

open Classical in
noncomputable def exPinv (S : Matrix (Fin 2) (Fin 2) ℝ) : Matrix (Fin 2) (Fin 2) ℝ := if h : Sᵀ = S then (exists_pinv S h).choose else 0

theorem exPinv_spec (S : Matrix (Fin 2) (Fin 2) ℝ) (h : Sᵀ = S) : IsPinv S (exPinv S) := by
  unfold exPinv
  rw [dif_pos h]
  exact (exists_pinv S h).choose_spec

theorem exOod_means : memberMean exOod exOodY 0 = ![2 / 3, 2 / 3] ∧ memberMean exOod exOodY 1 = ![17 / 3, 6] := by
  have h0 : (Finset.univ.filter fun i : Fin 6 => exOodY i = 0) = {0, 1, 2} := by decide +kernel
  have h1 : (Finset.univ.filter fun i : Fin 6 => exOodY i = 1) = {3, 4, 5} := by decide +kernel
  constructor <;> · ext a; fin_cases a <;> simp [memberMean, h0, h1, exOod, Finset.sum_insert] <;> norm_num

theorem exOod_full : IsUnit (pooled exOod exOodY).det := by
  have : pooled exOod exOodY = !![8 / 9, -5 / 9; -5 / 9, 13 / 9] := by
    ext a b
    have h : ∀ i, memberMean exOod exOodY (exOodY i) = ![![2 / 3, 2 / 3], ![2 / 3, 2 / 3], ![2 / 3, 2 / 3], ![17 / 3, 6], ![17 / 3, 6],
        ![17 / 3, 6]] i := by
      intro i
      fin_cases i
      · exact exOod_means.1
      · exact exOod_means.1
      · exact exOod_means.1
      · exact exOod_means.2
      · exact exOod_means.2
      · exact exOod_means.2
    simp only [pooled, dev, h, Fin.sum_univ_six]
    fin_cases a <;> fin_cases b <;> simp [exOod] <;> norm_num
  rw [this, det_fin_two_of]
  norm_num

example := C123_affine exPinv exPinv_spec exOod exOodY 2 exOod_labels.1 exOod_labels.2 !![1, 1; 0, 1] (by simp) exOod_full ![3, 4]
example := C123_orthogonal exPinv exPinv_spec exOod exOodY 2 exOod_labels.1 exOod_labels.2 !![0, 1; -1, 0]
  (by ext a b; fin_cases a <;> fin_cases b <;> simp [Matrix.mul_apply, Fin.sum_univ_two]) ![3, 4]
example := C123_affine_false exPinv exPinv_spec 3
example := C123_blind exPinv exPinv_spec flatX (fun _ => 0) 1 (by simp) (by intro k hk; exact ⟨0, by omega⟩) ![0, 1]
  (by intro i; fin_cases i <;> simp [memberMean, flatX, Fin.sum_univ_two]) ![2, 3] 5
example := C123_average (exPinv (pooled exOod exOodY)) exOod exOodY (by decide) (exPinv_spec _ (pooled_symm _ _))
example := C123_outlier (exPinv (pooled exOod exOodY)) exOod exOodY (exPinv_spec _ (pooled_symm _ _)) 4

/-- One feature, two classes of two rows. -/
def exDdu : Fin 4 → Fin 1 → ℝ := ![fun _ => -1, fun _ => 1, fun _ => 4, fun _ => 6]

theorem exDdu_members : members exDdu ![0, 0, 1, 1] 0 = [fun _ => -1, fun _ => 1] ∧ members exDdu ![0, 0, 1, 1] 1 = [fun _ => 4, fun _ => 6] := by
  constructor <;> simp [members, exDdu, List.finRange_succ]

example := C123_ddu (d := 1) 0 exDdu ![0, 0, 1, 1] 2 (by decide)
  (by
    intro k hk
    obtain rfl | rfl : k = 0 ∨ k = 1 := by omega
    · simp [exDdu_members.1]
    · simp [exDdu_members.2])
  (by
    intro k hk
    have : Matrix.of (rowCov (members exDdu ![0, 0, 1, 1] k)) = diagonal fun _ => 2 := by
      ext a b
      fin_cases a; fin_cases b
      obtain rfl | rfl : k = 0 ∨ k = 1 := by omega
      · simp [exDdu_members.1]; norm_num [rowCov, rowMean]
      · simp [exDdu_members.2]; norm_num [rowCov, rowMean]
    rw [this]
    exact posDef_diagonal_iff.2 fun _ => by norm_num) !![3] (by simp) (fun _ => 7)

end Verif.Props
