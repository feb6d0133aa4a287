import Mathlib.Algebra.BigOperators.Fin
import Mathlib.Tactic.Linarith
import Mathlib.Tactic.Positivity
import Mathlib.Tactic.NormNum
import Mathlib.Tactic.IntervalCases
import Verif.Model.SpectralConv
import Verif.Props.PowerIter

/-!
# C127: what the spectral normalisation of convolutions bounds
-/

set_option linter.unusedSectionVars false

namespace Verif.Props
open Verif.SNGP Verif.SpectralConv

variable {kh kw C D : ℕ}

namespace ConvNorm

theorem convMatrix_scaled (H W OH OW sh sw top left : ℕ) (bound sigma : ℝ) (w : ConvKernel kh kw C D) :
    convMatrix H W OH OW sh sw top left (scaled bound sigma w) = wHat bound sigma (convMatrix H W OH OW sh sw top left w) := by
  funext x y
  unfold convMatrix wHat scaled
  simp only [Finset.sum_div]
  refine Finset.sum_congr rfl fun a _ => Finset.sum_congr rfl fun b _ => ?_
  split_ifs <;> simp

/-- What the window at `p`, `q` sees. -/
def patch (H W C kh kw sh sw top left p q : ℕ) (x : Place H W C → ℝ) (t : Fin kh × Fin kw × Fin C) : ℝ :=
  ∑ i : Fin H, ∑ j : Fin W, if (i : ℕ) + top = p * sh + t.1 ∧ (j : ℕ) + left = q * sw + t.2.1 then x (i, j, t.2.2) else 0

theorem apply_patch (H W OH OW sh sw top left : ℕ) (w : ConvKernel kh kw C D) (x : Place H W C → ℝ) (y : Place OH OW D) :
    kApply (convMatrix H W OH OW sh sw top left w) x y =
      kApply (reshaped w) (patch H W C kh kw sh sw top left y.1 y.2.1 x) y.2.2 := by
  unfold kApply convMatrix reshaped patch
  simp only [Fintype.sum_prod_type, Finset.mul_sum, Finset.sum_mul]
  -- order the sums as a, b, c, i, j on both sides
  have h1 : ∀ i : Fin H, ∀ j : Fin W, ∀ c : Fin C, ∀ a : Fin kh, ∀ b : Fin kw,
      x (i, j, c) * (if (i : ℕ) + top = y.1 * sh + a ∧ (j : ℕ) + left = y.2.1 * sw + b then w a b c y.2.2 else 0) =
      (if (i : ℕ) + top = y.1 * sh + a ∧ (j : ℕ) + left = y.2.1 * sw + b then x (i, j, c) else 0) * w a b c y.2.2 := by
    intro i j c a b; split_ifs <;> ring
  simp only [h1]
  calc _ = ∑ i : Fin H, ∑ j : Fin W, ∑ a : Fin kh, ∑ b : Fin kw, ∑ c : Fin C, _ :=
        Finset.sum_congr rfl fun i _ => Finset.sum_congr rfl fun j _ => by
          rw [Finset.sum_comm]
          exact Finset.sum_congr rfl fun a _ => Finset.sum_comm
    _ = ∑ i : Fin H, ∑ a : Fin kh, ∑ b : Fin kw, ∑ c : Fin C, ∑ j : Fin W, _ :=
        Finset.sum_congr rfl fun i _ => by
          rw [Finset.sum_comm]
          refine Finset.sum_congr rfl fun a _ => ?_
          rw [Finset.sum_comm]
          exact Finset.sum_congr rfl fun b _ => Finset.sum_comm
    _ = _ := by
          rw [Finset.sum_comm]
          refine Finset.sum_congr rfl fun a _ => ?_
          rw [Finset.sum_comm]
          refine Finset.sum_congr rfl fun b _ => ?_
          rw [Finset.sum_comm]

/-- A sum over indices of which at most one counts. -/
theorem sum_one {ι : Type} [Fintype ι] (P : ι → Prop) [DecidablePred P] (hP : ∀ i j, P i → P j → i = j) (f : ι → ℝ) :
    (∑ i, if P i then f i else 0) ^ 2 = ∑ i, if P i then f i ^ 2 else 0 := by
  classical
  by_cases h : ∃ i, P i
  · obtain ⟨i, hi⟩ := h
    have e : ∀ g : ι → ℝ, (∑ j, if P j then g j else 0) = g i := by
      intro g
      rw [Finset.sum_eq_single i (fun j _ hj => if_neg fun hpj => hj (hP j i hpj hi)) (fun h => absurd (Finset.mem_univ i) h),
        if_pos hi]
    rw [e, e]
  · have h' : ∀ i, ¬ P i := fun i hi => h ⟨i, hi⟩
    simp [h']

theorem sum_one_le {ι : Type} [Fintype ι] (P : ι → Prop) [DecidablePred P] (hP : ∀ i j, P i → P j → i = j) (c : ℝ) (hc : 0 ≤ c) :
    (∑ i, if P i then c else 0) ≤ c := by
  classical
  by_cases h : ∃ i, P i
  · obtain ⟨i, hi⟩ := h
    rw [Finset.sum_eq_single i (fun j _ hj => if_neg fun hpj => hj (hP j i hpj hi)) (fun h => absurd (Finset.mem_univ i) h),
      if_pos hi]
  · have h' : ∀ i, ¬ P i := fun i hi => h ⟨i, hi⟩
    simp [h', hc]

theorem patches_le (H W C kh kw OH OW sh sw top left : ℕ) (hsh : 0 < sh) (hsw : 0 < sw) (x : Place H W C → ℝ) :
    ∑ p : Fin OH, ∑ q : Fin OW, SNGP.sq (patch H W C kh kw sh sw top left p q x) ≤ (kh * kw : ℕ) * SNGP.sq x := by
  classical
  -- one tap and one channel
  have key : ∀ (a : Fin kh) (b : Fin kw) (c : Fin C),
      ∑ p : Fin OH, ∑ q : Fin OW, patch H W C kh kw sh sw top left p q x (a, b, c) ^ 2 ≤ ∑ i : Fin H, ∑ j : Fin W, x (i, j, c) ^ 2 := by
    intro a b c
    have e1 : ∀ (p : Fin OH) (q : Fin OW), patch H W C kh kw sh sw top left p q x (a, b, c) ^ 2 =
        ∑ ij : Fin H × Fin W, if (ij.1 : ℕ) + top = p * sh + a ∧ (ij.2 : ℕ) + left = q * sw + b then x (ij.1, ij.2, c) ^ 2 else 0 := by
      intro p q
      have e : patch H W C kh kw sh sw top left p q x (a, b, c) = ∑ ij : Fin H × Fin W,
          if (ij.1 : ℕ) + top = p * sh + a ∧ (ij.2 : ℕ) + left = q * sw + b then x (ij.1, ij.2, c) else 0 := by
        rw [Fintype.sum_prod_type]; rfl
      rw [e]
      refine sum_one (fun ij : Fin H × Fin W => (ij.1 : ℕ) + top = p * sh + a ∧ (ij.2 : ℕ) + left = q * sw + b) ?_
        (fun ij => x (ij.1, ij.2, c))
      rintro ⟨i, j⟩ ⟨i', j'⟩ ⟨h1, h2⟩ ⟨h3, h4⟩
      have : i = i' := Fin.ext (by dsimp only at h1 h3; omega)
      have : j = j' := Fin.ext (by dsimp only at h2 h4; omega)
      simp_all
    simp only [e1]
    rw [← Fintype.sum_prod_type' (f := fun (p : Fin OH) (q : Fin OW) => ∑ ij : Fin H × Fin W,
      if (ij.1 : ℕ) + top = p * sh + a ∧ (ij.2 : ℕ) + left = q * sw + b then x (ij.1, ij.2, c) ^ 2 else 0)]
    rw [Finset.sum_comm, ← Fintype.sum_prod_type' (f := fun (i : Fin H) (j : Fin W) => x (i, j, c) ^ 2)]
    refine Finset.sum_le_sum fun ij _ => ?_
    refine sum_one_le (fun pq : Fin OH × Fin OW => (ij.1 : ℕ) + top = pq.1 * sh + a ∧ (ij.2 : ℕ) + left = pq.2 * sw + b) ?_ _
      (sq_nonneg _)
    rintro ⟨p, q⟩ ⟨p', q'⟩ ⟨h1, h2⟩ ⟨h3, h4⟩
    dsimp only at h1 h2 h3 h4
    have hp : (p : ℕ) * sh = p' * sh := by omega
    have hq : (q : ℕ) * sw = q' * sw := by omega
    have : p = p' := Fin.ext (Nat.eq_of_mul_eq_mul_right hsh hp)
    have : q = q' := Fin.ext (Nat.eq_of_mul_eq_mul_right hsw hq)
    simp_all
  have e2 : ∑ p : Fin OH, ∑ q : Fin OW, SNGP.sq (patch H W C kh kw sh sw top left p q x) =
      ∑ a : Fin kh, ∑ b : Fin kw, ∑ c : Fin C, ∑ p : Fin OH, ∑ q : Fin OW,
        patch H W C kh kw sh sw top left p q x (a, b, c) ^ 2 := by
    unfold SNGP.sq
    rw [← Fintype.sum_prod_type' (f := fun (p : Fin OH) (q : Fin OW) =>
      ∑ t, patch H W C kh kw sh sw top left p q x t ^ 2), Finset.sum_comm, Fintype.sum_prod_type]
    refine Finset.sum_congr rfl fun a _ => ?_
    rw [Fintype.sum_prod_type]
    refine Finset.sum_congr rfl fun b _ => Finset.sum_congr rfl fun c _ => ?_
    rw [Fintype.sum_prod_type]
  rw [e2]
  have e3 : SNGP.sq x = ∑ c : Fin C, ∑ i : Fin H, ∑ j : Fin W, x (i, j, c) ^ 2 := by
    unfold SNGP.sq
    simp only [Fintype.sum_prod_type]
    calc _ = ∑ i : Fin H, ∑ c : Fin C, ∑ j : Fin W, x (i, j, c) ^ 2 := Finset.sum_congr rfl fun i _ => Finset.sum_comm
      _ = _ := Finset.sum_comm
  calc _ ≤ ∑ _a : Fin kh, ∑ _b : Fin kw, ∑ c : Fin C, ∑ i : Fin H, ∑ j : Fin W, x (i, j, c) ^ 2 :=
        Finset.sum_le_sum fun a _ => Finset.sum_le_sum fun b _ => Finset.sum_le_sum fun c _ => key a b c
    _ = _ := by
        rw [← e3]
        simp [mul_assoc]

end ConvNorm

open ConvNorm

/-- **C127.** A convolution with padding `SAME` is normalised as a linear map on images: dividing its kernel divides the whole map, and
its norm exceeds the bound by no more than the estimate falls short of the map's norm. All convolutions of the (wide) ResNets but
`conv_init` are of this kind. -/
theorem C127_same (H W sh sw : ℕ) (bound sigma s ρ : ℝ) (hb : 0 < bound) (hρ : 0 ≤ ρ) (w : ConvKernel kh kw C D)
    (hs : NormBound (estimated H W sh sw w) s) (hσ : s ≤ ρ * max sigma bound) :
    estimated H W sh sw (scaled bound sigma w) = wHat bound sigma (estimated H W sh sw w) ∧
      NormBound (estimated H W sh sw (scaled bound sigma w)) (ρ * bound) := by
  have e : estimated H W sh sw (scaled bound sigma w) = wHat bound sigma (estimated H W sh sw w) := convMatrix_scaled ..
  exact ⟨e, e ▸ C79_bound bound sigma s ρ hb hρ _ hs hσ⟩

/-- **C127.** With the power iterations: after `n` of them the convolution has a norm of at most `bound / cos^(1/2n)`. -/
theorem C127_same_iterations (H W sh sw : ℕ) (eps bound : ℝ) (he : 0 < eps) (hb : 0 < bound) (w : ConvKernel kh kw C D)
    (u : Place (Networks.same H sh) (Networks.same W sw) D → ℝ) (v : Place H W C → ℝ)
    (h0 : eps * max 1 (SNGP.sq u) ≤ SNGP.sq (kTrans (estimated H W sh sw w) u)) (s : ℝ)
    (e : Place (Networks.same H sh) (Networks.same W sw) D → ℝ) (hl : Leading (estimated H W sh sw w) s e) (hc : 0 < cosine u e)
    (n : ℕ) (hn : 0 < n) :
    NormBound (estimated H W sh sw (scaled bound (sigmaOf (powerRun eps (estimated H W sh sw w) true false n u v)) w))
      ((cosine u e ^ (1 / (2 * (n : ℝ))))⁻¹ * bound) := by
  have e1 : ∀ σ, estimated H W sh sw (scaled bound σ w) = wHat bound σ (estimated H W sh sw w) := fun σ => convMatrix_scaled ..
  rw [e1]
  exact C125_bound eps bound he hb _ u v h0 s e hl hc n hn

/-- **C127.** `conv_init` of the ResNets asks for padding 3, the estimate uses `SAME`. For odd sides of the image this is the same
padding and the same number of windows, for even sides (which is what images usually have) `SAME` puts only 2 zeros first: the estimate
is one of another map. -/
theorem C127_init_padding (n : ℕ) (hn : 0 < n) :
    Networks.same n 2 = Networks.windowed n 7 2 3 ∧ (n % 2 = 1 → samePad n 7 2 = 3) ∧ (n % 2 = 0 → samePad n 7 2 = 2) := by
  refine ⟨?_, fun h => ?_, fun h => ?_⟩
  · unfold Networks.same Networks.windowed; rw [if_neg (by omega)]; omega
  · unfold samePad Networks.same; omega
  · unfold samePad Networks.same; omega

/-- **C127.** For odd sides `conv_init` is bounded like the others. -/
theorem C127_init_odd (H W : ℕ) (hH : H % 2 = 1) (hW : W % 2 = 1) (w : ConvKernel 7 7 C D) (s : ℝ) :
    NormBound (convInit H W w) s ↔ NormBound (estimated H W 2 2 w) s := by
  have h1 := C127_init_padding H (by omega)
  have h2 := C127_init_padding W (by omega)
  unfold convInit estimated
  rw [h1.2.1 hH, h2.2.1 hW, h1.1, h2.1]

/-- **C127 (false).** For even sides it is not: on images of 2 by 2 there is, for every number, a kernel which the estimate takes for
zero in every training step, so that it is used as it is, and with which `conv_init` stretches an image by that number. -/
theorem C127_init_false (bound R : ℝ) (hb : 0 < bound) : ∃ w : ConvKernel 7 7 1 1,
    (∀ (eps : ℝ) (update initializing : Bool) (n : ℕ) (u : Place (Networks.same 2 2) (Networks.same 2 2) 1 → ℝ) (v : Place 2 2 1 → ℝ),
      sigmaOf (powerRun eps (estimated 2 2 2 2 w) update initializing n u v) = 0 ∧
      scaled bound (sigmaOf (powerRun eps (estimated 2 2 2 2 w) update initializing n u v)) w = w) ∧
    ∃ x : Place 2 2 1 → ℝ, SNGP.sq x = 1 ∧ SNGP.sq (kApply (convInit 2 2 w) x) = R ^ 2 := by
  let w : ConvKernel 7 7 1 1 := fun a b _ _ => if (a : ℕ) = 4 ∧ (b : ℕ) = 4 then R else 0
  have hz : estimated 2 2 2 2 w = fun _ _ => 0 := by
    funext x y
    unfold estimated convMatrix
    refine Finset.sum_eq_zero fun a _ => Finset.sum_eq_zero fun b _ => ?_
    split_ifs with h
    · have h1 : samePad 2 7 2 = 2 := by decide
      have hy : (y.1 : ℕ) < 1 := y.1.2
      rw [h1] at h
      have hx : (x.1 : ℕ) < 2 := x.1.2
      have h2 : (a : ℕ) ≠ 4 := by
        intro h4
        have := h.1
        have h0 : (y.1 : ℕ) = 0 := by omega
        rw [h0, h4] at this
        omega
      simp [w, h2]
    · rfl
  have hrun : ∀ (eps : ℝ) (update initializing : Bool) (n : ℕ) (u : Place (Networks.same 2 2) (Networks.same 2 2) 1 → ℝ)
      (v : Place 2 2 1 → ℝ), (powerRun eps (estimated 2 2 2 2 w) update initializing n u v).u' = fun _ => 0 := by
    intro eps update initializing n u v
    have hk : ∀ v' : Place 2 2 1 → ℝ, kApply (estimated 2 2 2 2 w) v' = fun _ => 0 := by
      intro v'; rw [hz]; funext y; simp [kApply]
    unfold powerRun
    split_ifs
    · cases n with
      | zero => exact hk v
      | succ n => rw [Function.iterate_succ_apply']; exact hk _
    · exact hk v
  have hσ : ∀ (eps : ℝ) (update initializing : Bool) (n : ℕ) (u : Place (Networks.same 2 2) (Networks.same 2 2) 1 → ℝ)
      (v : Place 2 2 1 → ℝ), sigmaOf (powerRun eps (estimated 2 2 2 2 w) update initializing n u v) = 0 := by
    intro eps update initializing n u v
    unfold sigmaOf; rw [hrun]; simp
  refine ⟨w, fun eps update initializing n u v => ⟨hσ .., ?_⟩, fun t => if t = (1, 1, 0) then 1 else 0, ?_, ?_⟩
  · rw [hσ]; funext a b c d; simp [scaled]
  · simp [SNGP.sq]
  · have hout : ∀ y : Place (Networks.windowed 2 7 2 3) (Networks.windowed 2 7 2 3) 1,
        kApply (convInit 2 2 w) (fun t => if t = (1, 1, 0) then 1 else 0) y = R := by
      intro y
      have hy1 : (y.1 : ℕ) = 0 := by have : (y.1 : ℕ) < 1 := y.1.2; omega
      have hy2 : (y.2.1 : ℕ) = 0 := by have : (y.2.1 : ℕ) < 1 := y.2.1.2; omega
      unfold kApply
      simp only [ite_mul, one_mul, zero_mul, Finset.sum_ite_eq', Finset.mem_univ, if_true]
      unfold convInit convMatrix
      rw [Finset.sum_eq_single (4 : Fin 7)]
      · rw [Finset.sum_eq_single (4 : Fin 7)]
        · simp [hy1, hy2, w]
        · intro b _ hb'
          have hb4 : (b : ℕ) ≠ 4 := fun h => hb' (Fin.ext h)
          simp [w, hb4]
        · simp
      · intro a _ ha'
        have ha4 : (a : ℕ) ≠ 4 := fun h => ha' (Fin.ext h)
        simp [w, ha4]
      · simp
    unfold SNGP.sq
    simp only [hout]
    rw [Finset.sum_const, nsmul_eq_mul]
    have : (Finset.univ : Finset (Place (Networks.windowed 2 7 2 3) (Networks.windowed 2 7 2 3) 1)).card = 1 := by decide
    rw [this]; simp

/-- **C127.** `SpectralNormalization` on a convolution bounds the norm of the reshaped kernel: the norm of the convolution (with any
padding and strides) is at most that times the square root of the number of taps. -/
theorem C127_reshaped (H W OH OW sh sw top left : ℕ) (hsh : 0 < sh) (hsw : 0 < sw) (w : ConvKernel kh kw C D) (s : ℝ)
    (hs : NormBound (reshaped w) s) :
    NormBound (convMatrix H W OH OW sh sw top left w) (s * Real.sqrt (kh * kw : ℕ)) := by
  refine ⟨mul_nonneg hs.1 (Real.sqrt_nonneg _), fun x => ?_⟩
  have e : SNGP.sq (kApply (convMatrix H W OH OW sh sw top left w) x) =
      ∑ p : Fin OH, ∑ q : Fin OW, SNGP.sq (kApply (reshaped w) (patch H W C kh kw sh sw top left p q x)) := by
    conv_lhs => unfold SNGP.sq
    simp only [apply_patch, Fintype.sum_prod_type]
    rfl
  rw [e, mul_pow, Real.sq_sqrt (by positivity), mul_assoc]
  calc _ ≤ ∑ p : Fin OH, ∑ q : Fin OW, s ^ 2 * SNGP.sq (patch H W C kh kw sh sw top left p q x) :=
        Finset.sum_le_sum fun p _ => Finset.sum_le_sum fun q _ => hs.2 _
    _ = s ^ 2 * ∑ p : Fin OH, ∑ q : Fin OW, SNGP.sq (patch H W C kh kw sh sw top left p q x) := by
        simp only [Finset.mul_sum]
    _ ≤ _ := mul_le_mul_of_nonneg_left (patches_le H W C kh kw OH OW sh sw top left hsh hsw x) (sq_nonneg _)

/-- **C127 (false).** It does not bound the norm of the convolution itself: the reshaped kernel of the window `(1, 1)/√2` has norm 1,
but the convolution of two pixels stretches `(1, 1)` by the square root of 5/4. -/
theorem C127_reshaped_false : ∃ w : ConvKernel 1 2 1 1, NormBound (reshaped w) 1 ∧
    ∃ x : Place 1 2 1 → ℝ, SNGP.sq (kApply (estimated 1 2 1 1 w) x) = 5 / 4 * SNGP.sq x ∧ 0 < SNGP.sq x := by
  have h2 : (Real.sqrt 2)⁻¹ ^ 2 = 1 / 2 := by rw [inv_pow, Real.sq_sqrt (by norm_num)]; norm_num
  refine ⟨fun _ _ _ _ => (Real.sqrt 2)⁻¹, ⟨zero_le_one, fun x => ?_⟩, fun _ => 1, ?_, ?_⟩
  · simp only [SNGP.sq, kApply, reshaped, Fintype.sum_prod_type, Fin.sum_univ_two, Finset.univ_unique, Fin.default_eq_zero,
      Finset.sum_singleton]
    rw [← add_mul, mul_pow, h2]
    nlinarith [sq_nonneg (x (0, 0, 0) - x (0, 1, 0))]
  · have hp1 : samePad 1 1 1 = 0 := by decide
    have hp2 : samePad 2 2 1 = 0 := by decide
    unfold SNGP.sq kApply estimated convMatrix
    rw [hp1, hp2]
    show ∑ y : Place 1 2 1, (∑ x : Place 1 2 1, 1 * ∑ a : Fin 1, ∑ b : Fin 2, _) ^ 2 = _
    simp only [Fintype.sum_prod_type, Fin.sum_univ_two, Finset.univ_unique, Fin.default_eq_zero, Finset.sum_singleton]
    simp
    norm_num
    rw [← two_mul, mul_pow, h2]
    norm_num
  · simp [SNGP.sq]

/-! ## Examples -/

/-- 224 pixels: `SAME` puts 2 zeros first, the layer 3; both have 112 windows. With 225 pixels they agree. -/
example : samePad 224 7 2 = 2 ∧ Networks.same 224 2 = 112 ∧ Networks.windowed 224 7 2 3 = 112 ∧ samePad 225 7 2 = 3 := by decide

/-- A window of one tap with value 2 is a convolution of norm 2, and its reshaped kernel has norm 2: the bound is attained. -/
example : NormBound (reshaped (fun _ _ _ _ => 2 : ConvKernel 1 1 1 1)) 2 := by
  refine ⟨by norm_num, fun x => ?_⟩
  simp [SNGP.sq, kApply, reshaped, Fintype.sum_prod_type]
  nlinarith

/-! ### Concrete cases that meet the hypotheses of the theorems above -/

/-- A window of one tap with value 2. -/
def exTap : ConvKernel 1 1 1 1 := fun _ _ _ _ => 2

theorem exTap_reshaped : NormBound (reshaped exTap) 2 := by
  refine ⟨by norm_num, fun x => ?_⟩
  simp [SNGP.sq, kApply, reshaped, Fintype.sum_prod_type, exTap]
  nlinarith

theorem exTap_bound : NormBound (estimated 3 4 1 1 exTap) 2 ∧ NormBound (estimated 1 1 1 1 exTap) 2 := by
  unfold estimated
  constructor
  · simpa using C127_reshaped 3 4 _ _ 1 1 _ _ (by decide) (by decide) exTap 2 exTap_reshaped
  · simpa using C127_reshaped 1 1 _ _ 1 1 _ _ (by decide) (by decide) exTap 2 exTap_reshaped

theorem exTap_places : (Finset.univ : Finset (Place (Networks.same 1 1) (Networks.same 1 1) 1)).card = 1 ∧
    (Finset.univ : Finset (Place 1 1 1)).card = 1 := by decide

example := C127_same 3 4 1 1 (19 / 20) (3 / 2) 2 (4 / 3) (by norm_num) (by norm_num) exTap exTap_bound.1 (by norm_num)
example := C127_init_padding 224 (by decide)
example := C127_init_odd (C := 3) (D := 8) 225 31 (by decide) (by decide) (fun _ _ _ _ => 1) 5
example := C127_init_false (19 / 20) 1000 (by norm_num)

theorem exTap_matrix (x : Place 1 1 1) (y : Place (Networks.same 1 1) (Networks.same 1 1) 1) : estimated 1 1 1 1 exTap x y = 2 := by
  obtain ⟨a, b, c⟩ := x
  obtain ⟨p, q, d⟩ := y
  have hp : (p : ℕ) = 0 := by have := p.2; simp only [Networks.same] at this; omega
  have hq : (q : ℕ) = 0 := by have := q.2; simp only [Networks.same] at this; omega
  simp [estimated, convMatrix, exTap, samePad, Networks.same, hp, hq]

example := C127_same_iterations 1 1 1 1 (1 / 100) (19 / 20) (by norm_num) (by norm_num) exTap (fun _ => 3) (fun _ => 0)
  (by
    simp only [SNGP.sq, kTrans, exTap_matrix, Finset.sum_const, exTap_places.1, exTap_places.2]
    norm_num)
  2 (fun _ => 1) ⟨exTap_bound.2, by simp only [SNGP.sq, Finset.sum_const, exTap_places.1]; norm_num, by
    intro i
    simp only [kTrans, kApply, exTap_matrix, Finset.sum_const, exTap_places.1, exTap_places.2]
    norm_num⟩
  (by simp only [cosine, dotp, SNGP.sq, Finset.sum_const, exTap_places.1]; norm_num) 5 (by decide)

end Verif.Props
