import Mathlib.LinearAlgebra.Dimension.Finite
import Mathlib.LinearAlgebra.FiniteDimensional.Lemmas
import Mathlib.Algebra.BigOperators.Fin
import Mathlib.Data.List.GetD
import Mathlib.Tactic.Linarith
import Mathlib.Tactic.Positivity
import Mathlib.Tactic.NormNum
import Verif.Props.Networks
import Verif.Props.SpectralNorm

/-!
# C126: which distances a network with spectrally normalised layers preserves
-/

set_option linter.unusedSectionVars false

namespace Verif.Props
open Verif.SNGP Verif.Networks
open Verif.Props.Networks (affine affine_length run_ok)

/-! ## Specification -/

/-- The Euclidean length of a vector. -/
noncomputable def len {ι : Type} [Fintype ι] (x : ι → ℝ) : ℝ := Real.sqrt (SNGP.sq x)

/-- The first `d` entries of a row. -/
def vec (d : ℕ) (x : List ℝ) (i : Fin d) : ℝ := x.getD i 0

/-- The Euclidean distance of two rows of length `d`. -/
noncomputable def rowDist (d : ℕ) (x y : List ℝ) : ℝ := len fun i => vec d x i - vec d y i

/-- The kernel of a layer as a matrix. -/
def kernelOf (l : Dense ℝ) (i : Fin l.inDim) (j : Fin l.outDim) : ℝ := l.kernel i j

/-- The activation is 1-Lipschitz, as relu, tanh and the sigmoid are. -/
def Contraction (a : ℝ → ℝ) : Prop := ∀ x y, |a x - a y| ≤ |x - y|

namespace DistanceLaw

section
variable {ι : Type} [Fintype ι]

theorem len_nonneg (x : ι → ℝ) : 0 ≤ len x := Real.sqrt_nonneg _

theorem len_sq (x : ι → ℝ) : len x ^ 2 = SNGP.sq x := Real.sq_sqrt (sq_nonneg_fun x)

theorem len_add (x y : ι → ℝ) : len (fun i => x i + y i) ≤ len x + len y := by
  have h : SNGP.sq (fun i => x i + y i) ≤ (len x + len y) ^ 2 := by
    have e : SNGP.sq (fun i => x i + y i) = SNGP.sq x + 2 * ∑ i, x i * y i + SNGP.sq y := by
      unfold SNGP.sq
      rw [Finset.mul_sum, ← Finset.sum_add_distrib, ← Finset.sum_add_distrib]
      exact Finset.sum_congr rfl fun i _ => by ring
    rw [e, ← len_sq x, ← len_sq y]
    have := cauchy x y
    change _ ≤ len x * len y at this
    nlinarith
  exact Real.sqrt_le_iff.2 ⟨add_nonneg (len_nonneg x) (len_nonneg y), h⟩

theorem len_neg (x : ι → ℝ) : len (fun i => -x i) = len x := by simp [len, SNGP.sq]

theorem len_mono {x y : ι → ℝ} (h : ∀ i, |x i| ≤ |y i|) : len x ≤ len y :=
  Real.sqrt_le_sqrt (Finset.sum_le_sum fun i _ => sq_le_sq.2 (h i))

/-- Adding something of at most `c` times the length changes the length by at most that much. -/
theorem len_residual (x y : ι → ℝ) (c : ℝ) (h : len y ≤ c * len x) :
    (1 - c) * len x ≤ len (fun i => x i + y i) ∧ len (fun i => x i + y i) ≤ (1 + c) * len x := by
  have h1 := len_add x y
  have h2 := len_add (fun i => x i + y i) (fun i => -y i)
  rw [len_neg] at h2
  have e : (fun i => x i + y i + -y i) = x := by funext i; ring
  rw [e] at h2
  exact ⟨by linarith, by linarith⟩

end

theorem vec_affine (l : Dense ℝ) (z : List ℝ) (j : Fin l.outDim) :
    vec l.outDim (affine l z) j = kApply (kernelOf l) (vec l.inDim z) j + l.bias j := by
  have e : ((List.range l.inDim).map fun i => z.getD i 0 * l.kernel i j).sum = kApply (kernelOf l) (vec l.inDim z) j := by
    have := Finset.sum_range (n := l.inDim) (fun i => z.getD i 0 * l.kernel i j)
    exact this
  rw [← e]
  unfold vec affine
  rw [List.getD_eq_getElem _ _ (by simp)]
  simp

theorem affine_diff (l : Dense ℝ) (x y : List ℝ) (j : Fin l.outDim) :
    vec l.outDim (affine l x) j - vec l.outDim (affine l y) j =
      kApply (kernelOf l) (fun i => vec l.inDim x i - vec l.inDim y i) j := by
  rw [vec_affine, vec_affine]
  unfold kApply
  simp only [sub_mul, Finset.sum_sub_distrib]
  ring

theorem affine_lip (l : Dense ℝ) (c : ℝ) (h : NormBound (kernelOf l) c) (x y : List ℝ) :
    rowDist l.outDim (affine l x) (affine l y) ≤ c * rowDist l.inDim x y := by
  unfold rowDist
  simp only [affine_diff]
  have h1 := h.2 (fun i => vec l.inDim x i - vec l.inDim y i)
  refine Real.sqrt_le_iff.2 ⟨mul_nonneg h.1 (len_nonneg _), ?_⟩
  rw [mul_pow, len_sq]
  exact h1

/-- A layer followed by its activation, if it has one. -/
noncomputable def act (acts : List (ℝ → ℝ)) (i : ℕ) (l : Dense ℝ) (x : List ℝ) : List ℝ :=
  match acts[i]? with
  | some a => (affine l x).map a
  | none => affine l x

theorem act_length (acts : List (ℝ → ℝ)) (i : ℕ) (l : Dense ℝ) (x : List ℝ) : (act acts i l x).length = l.outDim := by
  unfold act
  split <;> simp [affine_length]

theorem update_ok (acts : List (ℝ → ℝ)) (i : ℕ) (l : Dense ℝ) (x : List ℝ) (hx : x.length = l.inDim) :
    update acts (fun _ x => x) i l x = .ok (act acts i l x) := by
  unfold update
  rw [run_ok l x hx]
  unfold act
  cases acts[i]? <;> rfl

theorem vec_map (d : ℕ) (a : ℝ → ℝ) (x : List ℝ) (hx : x.length = d) (j : Fin d) : vec d (x.map a) j = a (vec d x j) := by
  unfold vec
  rw [List.getD_eq_getElem _ _ (by simp [hx]), List.getD_eq_getElem _ _ (by simp [hx])]
  simp

theorem act_lip (acts : List (ℝ → ℝ)) (ha : ∀ a ∈ acts, Contraction a) (i : ℕ) (l : Dense ℝ) (c : ℝ)
    (h : NormBound (kernelOf l) c) (x y : List ℝ) :
    rowDist l.outDim (act acts i l x) (act acts i l y) ≤ c * rowDist l.inDim x y := by
  refine le_trans ?_ (affine_lip l c h x y)
  unfold act
  cases hi : acts[i]? with
  | none => exact le_rfl
  | some a =>
    refine len_mono fun j => ?_
    dsimp only
    rw [vec_map _ _ _ (affine_length l x), vec_map _ _ _ (affine_length l y)]
    exact ha a (List.mem_of_getElem? hi) _ _

theorem vec_add (d : ℕ) (x y : List ℝ) (hx : x.length = d) (hy : y.length = d) (j : Fin d) :
    vec d (List.zipWith (· + ·) x y) j = vec d x j + vec d y j := by
  unfold vec
  rw [List.getD_eq_getElem _ _ (by simp [hx, hy]), List.getD_eq_getElem _ _ (by simp [hx]), List.getD_eq_getElem _ _ (by simp [hy])]
  simp

end DistanceLaw

open DistanceLaw

/-- **C126.** Outside training, with 1-Lipschitz activations and hidden kernels of spectral norm at most `c`, every residual layer
changes the distance of two rows by a factor between `1 - c` and `1 + c`: all `L` of them together by a factor between `(1 - c)^L`
and `(1 + c)^L`. With `c < 1` rows that differ stay different. -/
theorem C126_residual (acts : List (ℝ → ℝ)) (ha : ∀ a ∈ acts, Contraction a) (d : ℕ) (c : ℝ) (hc : c ≤ 1) (ls : List (Dense ℝ))
    (hd : ∀ l ∈ ls, l.inDim = d ∧ l.outDim = d) (hn : ∀ l ∈ ls, NormBound (kernelOf l) c) (i : ℕ) (x y : List ℝ)
    (hx : x.length = d) (hy : y.length = d) :
    ∃ x' y', residualLoop acts (fun _ x => x) i ls x = .ok x' ∧ residualLoop acts (fun _ x => x) i ls y = .ok y' ∧
      x'.length = d ∧ y'.length = d ∧
      (1 - c) ^ ls.length * rowDist d x y ≤ rowDist d x' y' ∧ rowDist d x' y' ≤ (1 + c) ^ ls.length * rowDist d x y := by
  induction ls generalizing i x y with
  | nil => exact ⟨x, y, rfl, rfl, hx, hy, by simp, by simp⟩
  | cons l ls ih =>
    obtain ⟨h1, h2⟩ := hd l (by simp)
    have hl := hn l (by simp)
    have hadd : ∀ z : List ℝ, z.length = d → addRows z (act acts i l z) = .ok (List.zipWith (· + ·) z (act acts i l z)) := by
      intro z hz
      unfold addRows
      rw [if_pos (by rw [hz, act_length, h2])]
    have hlen : ∀ z : List ℝ, z.length = d → (List.zipWith (· + ·) z (act acts i l z)).length = d := by
      intro z hz; simp [hz, act_length, h2]
    obtain ⟨x', y', e1, e2, l1, l2, b1, b2⟩ := ih (fun l hl => hd l (by simp [hl])) (fun l hl => hn l (by simp [hl])) (i + 1)
      (List.zipWith (· + ·) x (act acts i l x)) (List.zipWith (· + ·) y (act acts i l y)) (hlen x hx) (hlen y hy)
    have hloop : ∀ z : List ℝ, z.length = d → residualLoop acts (fun _ x => x) i (l :: ls) z =
        residualLoop acts (fun _ x => x) (i + 1) ls (List.zipWith (· + ·) z (act acts i l z)) := by
      intro z hz
      show (update acts (fun _ x => x) i l z).bind (fun y => (addRows z y).bind _) = _
      rw [update_ok acts i l z (by rw [hz, h1])]
      show (addRows z (act acts i l z)).bind _ = _
      rw [hadd z hz]
      rfl
    have hact : rowDist d (act acts i l x) (act acts i l y) ≤ c * rowDist d x y := by
      have := act_lip acts ha i l c hl x y
      rw [h1] at this
      rwa [h2] at this
    have hz : rowDist d (List.zipWith (· + ·) x (act acts i l x)) (List.zipWith (· + ·) y (act acts i l y)) =
        len (fun j => (vec d x j - vec d y j) + (vec d (act acts i l x) j - vec d (act acts i l y) j)) := by
      unfold rowDist
      congr 1; funext j
      rw [vec_add d _ _ hx (by rw [act_length, h2]), vec_add d _ _ hy (by rw [act_length, h2])]
      ring
    obtain ⟨r1, r2⟩ := len_residual (fun j => vec d x j - vec d y j)
      (fun j => vec d (act acts i l x) j - vec d (act acts i l y) j) c hact
    rw [← hz] at r1 r2
    have hc0 : 0 ≤ c := hl.1
    refine ⟨x', y', by rw [hloop x hx, e1], by rw [hloop y hy, e2], l1, l2, ?_, ?_⟩
    · refine le_trans ?_ b1
      calc (1 - c) ^ (l :: ls).length * rowDist d x y = (1 - c) ^ ls.length * ((1 - c) * rowDist d x y) := by
            rw [List.length_cons]; ring
        _ ≤ _ := mul_le_mul_of_nonneg_left r1 (pow_nonneg (by linarith) _)
    · refine b2.trans ?_
      calc _ ≤ (1 + c) ^ ls.length * ((1 + c) * rowDist d x y) := mul_le_mul_of_nonneg_left r2 (by positivity)
        _ = _ := by rw [List.length_cons]; ring

/-- **C126.** The whole feature extractor of a residual network: the distance of the features is, up to the same factors, the
distance of the outputs of the first layer, and at most `c (1 + c)^L` times the distance of the inputs. -/
theorem C126_features (acts : List (ℝ → ℝ)) (ha : ∀ a ∈ acts, Contraction a) (c : ℝ) (hc : c ≤ 1) (l : Dense ℝ)
    (ls : List (Dense ℝ)) (hd : ∀ l' ∈ ls, l'.inDim = l.outDim ∧ l'.outDim = l.outDim)
    (hn : ∀ l' ∈ l :: ls, NormBound (kernelOf l') c) (x y : List ℝ) (hx : x.length = l.inDim) (hy : y.length = l.inDim) :
    ∃ x₁ y₁ x' y', l.run x = .ok x₁ ∧ l.run y = .ok y₁ ∧
      residualFeatures acts (fun _ x => x) (l :: ls) x = .ok x' ∧ residualFeatures acts (fun _ x => x) (l :: ls) y = .ok y' ∧
      (1 - c) ^ ls.length * rowDist l.outDim x₁ y₁ ≤ rowDist l.outDim x' y' ∧
      rowDist l.outDim x' y' ≤ (1 + c) ^ ls.length * rowDist l.outDim x₁ y₁ ∧
      rowDist l.outDim x' y' ≤ c * (1 + c) ^ ls.length * rowDist l.inDim x y := by
  obtain ⟨x', y', e1, e2, -, -, b1, b2⟩ := C126_residual acts ha l.outDim c hc ls hd (fun l' h => hn l' (by simp [h])) 1
    (affine l x) (affine l y) (affine_length l x) (affine_length l y)
  have hc0 : 0 ≤ c := (hn l (by simp)).1
  refine ⟨affine l x, affine l y, x', y', run_ok l x hx, run_ok l y hy, ?_, ?_, b1, b2, b2.trans ?_⟩
  · show (l.run x).bind _ = _
    rw [run_ok l x hx]; exact e1
  · show (l.run y).bind _ = _
    rw [run_ok l y hy]; exact e2
  · calc _ ≤ (1 + c) ^ ls.length * (c * rowDist l.inDim x y) :=
          mul_le_mul_of_nonneg_left (affine_lip l c (hn l (by simp)) x y) (by positivity)
      _ = _ := by ring

/-- The layers fit together. -/
def Chain : ℕ → List (Dense ℝ) → ℕ → Prop
  | d, [], d' => d = d'
  | d, l :: ls, d' => l.inDim = d ∧ Chain l.outDim ls d'

/-- **C126.** The feature extractor of an MLP does not increase distances by more than the product of the bounds of its layers. -/
theorem C126_mlp (acts : List (ℝ → ℝ)) (ha : ∀ a ∈ acts, Contraction a) (c : ℝ) (hc : 0 ≤ c) (ls : List (Dense ℝ)) (d d' : ℕ)
    (hd : Chain d ls d') (hn : ∀ l ∈ ls, NormBound (kernelOf l) c) (i : ℕ) (x y : List ℝ) (hx : x.length = d)
    (hy : y.length = d) :
    ∃ x' y', features acts (fun _ x => x) i ls x = .ok x' ∧ features acts (fun _ x => x) i ls y = .ok y' ∧
      rowDist d' x' y' ≤ c ^ ls.length * rowDist d x y := by
  induction ls generalizing i x y d with
  | nil => exact ⟨x, y, rfl, rfl, by cases hd; simp⟩
  | cons l ls ih =>
    obtain ⟨h1, h2⟩ := hd
    subst h1
    obtain ⟨x', y', e1, e2, b⟩ := ih l.outDim h2 (fun l hl => hn l (by simp [hl])) (i + 1) (act acts i l x) (act acts i l y)
      (act_length _ _ _ _) (act_length _ _ _ _)
    have hloop : ∀ z : List ℝ, z.length = l.inDim → features acts (fun _ x => x) i (l :: ls) z =
        features acts (fun _ x => x) (i + 1) ls (act acts i l z) := by
      intro z hz
      show (update acts (fun _ x => x) i l z).bind _ = _
      rw [update_ok acts i l z hz]
      rfl
    refine ⟨x', y', by rw [hloop x hx, e1], by rw [hloop y hy, e2], b.trans ?_⟩
    calc _ ≤ c ^ ls.length * (c * rowDist l.inDim x y) :=
          mul_le_mul_of_nonneg_left (act_lip acts ha i l c (hn l (by simp)) x y) (by positivity)
      _ = _ := by rw [List.length_cons]; ring

/-- **C126 (false).** A residual network whose first layer is narrower than the inputs preserves no distances at all, whatever its
kernels: there are inputs as far apart as one likes with the same features. -/
theorem C126_narrow_false (acts : List (ℝ → ℝ)) (l : Dense ℝ) (ls : List (Dense ℝ)) (hw : l.outDim < l.inDim) (R : ℝ) (hR : 0 ≤ R) :
    ∃ x y : List ℝ, x.length = l.inDim ∧ y.length = l.inDim ∧ rowDist l.inDim x y = R ∧
      residualFeatures acts (fun _ x => x) (l :: ls) x = residualFeatures acts (fun _ x => x) (l :: ls) y := by
  let L : (Fin l.inDim → ℝ) →ₗ[ℝ] (Fin l.outDim → ℝ) :=
    { toFun := kApply (kernelOf l)
      map_add' := fun x y => by funext j; simp [kApply, add_mul, Finset.sum_add_distrib]
      map_smul' := fun a x => by funext j; simp [kApply, mul_assoc, Finset.mul_sum] }
  have hker : LinearMap.ker L ≠ ⊥ := LinearMap.ker_ne_bot_of_finrank_lt (by simpa using hw)
  obtain ⟨z, hz, hz0⟩ := Submodule.exists_mem_ne_zero_of_ne_bot hker
  have hzl : 0 < len z := by
    refine Real.sqrt_pos.2 (lt_of_le_of_ne (sq_nonneg_fun z) fun h => hz0 ?_)
    funext i
    have := (Finset.sum_eq_zero_iff_of_nonneg fun i _ => sq_nonneg (z i)).1 h.symm i (Finset.mem_univ i)
    exact pow_eq_zero_iff two_ne_zero |>.1 this
  let x : List ℝ := List.ofFn fun i => R / len z * z i
  let y : List ℝ := List.replicate l.inDim 0
  have hvx : ∀ i, vec l.inDim x i = R / len z * z i := by
    intro i; unfold vec; rw [List.getD_eq_getElem _ _ (by simp [x])]; simp [x]
  have hvy : ∀ i, vec l.inDim y i = 0 := by
    intro i; unfold vec; rw [List.getD_eq_getElem _ _ (by simp [y])]; simp [y]
  have hx : x.length = l.inDim := by simp [x]
  have hy : y.length = l.inDim := by simp [y]
  have haff : affine l x = affine l y := by
    refine List.ext_getElem (by simp [affine_length]) fun n h1 h2 => ?_
    rw [affine_length] at h1
    have h3 := affine_diff l x y ⟨n, h1⟩
    have h4 : kApply (kernelOf l) (fun i => vec l.inDim x i - vec l.inDim y i) ⟨n, h1⟩ = 0 := by
      have e : (fun i => vec l.inDim x i - vec l.inDim y i) = (R / len z) • z := by
        funext i; rw [hvx, hvy, sub_zero]; rfl
      rw [e]
      have : L ((R / len z) • z) = 0 := by rw [L.map_smul, LinearMap.mem_ker.1 hz, smul_zero]
      exact congrFun this ⟨n, h1⟩
    rw [h4] at h3
    unfold vec at h3
    rw [List.getD_eq_getElem _ _ (by simpa [affine_length] using h1), List.getD_eq_getElem _ _ (by simpa [affine_length] using h1)] at h3
    exact sub_eq_zero.1 h3
  refine ⟨x, y, hx, hy, ?_, ?_⟩
  · unfold rowDist
    simp only [hvx, hvy, sub_zero]
    unfold len at hzl ⊢
    have e : SNGP.sq (fun i => R / Real.sqrt (SNGP.sq z) * z i) = R ^ 2 := by
      unfold SNGP.sq
      simp only [mul_pow, ← Finset.mul_sum]
      have : (∑ i, z i ^ 2) = Real.sqrt (SNGP.sq z) ^ 2 := (Real.sq_sqrt (sq_nonneg_fun z)).symm
      change (R / Real.sqrt (SNGP.sq z)) ^ 2 * (∑ i, z i ^ 2) = _
      rw [this, div_pow, div_mul_cancel₀ _ (by positivity)]
    rw [e, Real.sqrt_sq hR]
  · show (l.run x).bind _ = (l.run y).bind _
    rw [run_ok l x hx, run_ok l y hy, haff]

/-- **C126 (false).** Nor does an MLP: with relu, a kernel of norm 1 and no bias, all negative inputs have the same features. -/
theorem C126_mlp_false : ∃ l : Dense ℝ, NormBound (kernelOf l) 1 ∧ ∀ x y : ℝ, x ≤ 0 → y ≤ 0 →
    features [fun v => max v 0] (fun _ x => x) 0 [l] [x] = features [fun v => max v 0] (fun _ x => x) 0 [l] [y] := by
  refine ⟨⟨1, 1, fun _ _ => 1, fun _ => 0⟩, ⟨zero_le_one, fun x => by simp [SNGP.sq, kApply, kernelOf]⟩, fun x y hx hy => ?_⟩
  have h : ∀ z : ℝ, z ≤ 0 → features [fun v => max v 0] (fun _ x => x) 0 [(⟨1, 1, fun _ _ => 1, fun _ => 0⟩ : Dense ℝ)] [z] =
      .ok [0] := by
    intro z hz
    simp [features, update, Dense.run, bind, Except.bind, List.range_succ, hz]
  rw [h x hx, h y hy]

/-- **C126 (false).** And a bound of 1 is not enough for a residual layer: with `c = 1` it can send all inputs to the same row. -/
theorem C126_one_false : ∃ l : Dense ℝ, NormBound (kernelOf l) 1 ∧ ∀ x : ℝ,
    residualLoop [] (fun _ x => x) 1 [l] [x] = .ok [0] := by
  refine ⟨⟨1, 1, fun _ _ => -1, fun _ => 0⟩, ⟨zero_le_one, fun x => by simp [SNGP.sq, kApply, kernelOf]⟩, fun x => ?_⟩
  simp [residualLoop, update, Dense.run, addRows, bind, Except.bind, List.range_succ]

/-! ## Examples -/

/-- relu is 1-Lipschitz. -/
example : Contraction fun v => max v 0 := fun x y => by
  simpa using abs_max_sub_max_le_abs x y 0

/-- A residual layer with the kernel `1/2` and relu: the rows `[2]` and `[0]` are 2 apart before and 3 apart afterwards, between
`2·(1 - 1/2)` and `2·(1 + 1/2)`. -/
example : residualLoop [fun v => v, fun v => max v 0] (fun _ x => x) 1 [(⟨1, 1, fun _ _ => 1 / 2, fun _ => 0⟩ : Dense ℝ)] [2] = .ok [3] ∧
    residualLoop [fun v => v, fun v => max v 0] (fun _ x => x) 1 [(⟨1, 1, fun _ _ => 1 / 2, fun _ => 0⟩ : Dense ℝ)] [0] = .ok [0] ∧
    NormBound (kernelOf (⟨1, 1, fun _ _ => 1 / 2, fun _ => 0⟩ : Dense ℝ)) (1 / 2) := by
  refine ⟨?_, ?_, by norm_num, fun x => ?_⟩
  · simp [residualLoop, update, Dense.run, addRows, bind, Except.bind, List.range_succ]; norm_num
  · simp [residualLoop, update, Dense.run, addRows, bind, Except.bind, List.range_succ]
  · simp [SNGP.sq, kApply, kernelOf, mul_pow]; linarith

/-! ### Concrete cases that meet the hypotheses of the theorems above -/

/-- A layer that halves a number. -/
noncomputable def exHalf : Dense ℝ := ⟨1, 1, fun _ _ => 1 / 2, fun _ => 0⟩

theorem exHalf_norm : NormBound (kernelOf exHalf) (1 / 2) := by
  refine ⟨by norm_num, fun x => ?_⟩
  unfold exHalf
  simp [SNGP.sq, kApply, kernelOf, mul_pow]; linarith

theorem exRelu : ∀ a ∈ [fun v : ℝ => max v 0], Contraction a := by
  intro a ha
  rw [List.mem_singleton.1 ha]
  intro x y
  simpa using abs_max_sub_max_le_abs x y 0

example := C126_residual [fun v : ℝ => max v 0] exRelu 1 (1 / 2) (by norm_num) [exHalf, exHalf] (by simp [exHalf])
  (by intro l hl; simp at hl; rw [hl]; exact exHalf_norm) 0 [2] [0] rfl rfl
example := C126_features [fun v : ℝ => max v 0] exRelu (1 / 2) (by norm_num) exHalf [exHalf, exHalf] (by simp [exHalf])
  (by intro l hl; simp at hl; rw [hl]; exact exHalf_norm) [2] [0] rfl rfl
example := C126_mlp [fun v : ℝ => max v 0] exRelu (1 / 2) (by norm_num) [exHalf, exHalf] 1 1 ⟨rfl, rfl, rfl⟩
  (by intro l hl; simp at hl; rw [hl]; exact exHalf_norm) 0 [2] [0] rfl rfl
example := C126_narrow_false [fun v : ℝ => max v 0] ⟨2, 1, fun _ _ => 1, fun _ => 0⟩ [exHalf] (by norm_num) 5 (by norm_num)

end Verif.Props
