import Mathlib.Data.Finset.Card
import Mathlib.Data.Finset.Range
import Mathlib.Tactic.Ring
import Mathlib.Tactic.Linarith
import Mathlib.Algebra.Order.Field.Rat
import Mathlib.Algebra.Order.Field.Basic
import Verif.Model.Networks

/-!
# C90: built-in networks
-/

set_option linter.unusedSectionVars false

namespace Verif.Props.Networks
open Verif.Networks

/-! ## Multi-layer perceptrons -/

section mlp
variable {K : Type} [Field K]

/-- The affine map of a dense layer. -/
def affine (l : Dense K) (x : List K) : List K :=
  (List.range l.outDim).map fun j =>
    ((List.range l.inDim).map fun i => x.getD i 0 * l.kernel i j).sum + l.bias j

/-- The layers fit: each takes what the one before gives, starting from rows of length `d`. -/
def Fits : ℕ → List (Dense K) → Dense K → Prop
  | d, [], last => last.inDim = d
  | d, l :: ls, last => l.inDim = d ∧ Fits l.outDim ls last

/-- A feed-forward network: affine map, activation and dropout for every hidden layer, then an affine map. -/
def net (drop : ℕ → List K → List K) : ℕ → List (Dense K × (K → K)) → Dense K → List K → List K
  | _, [], last, x => affine last x
  | i, (l, a) :: ls, last, x => net drop (i + 1) ls last (drop i ((affine l x).map a))

theorem affine_length (l : Dense K) (x : List K) : (affine l x).length = l.outDim := by simp [affine]

theorem run_ok (l : Dense K) (x : List K) (h : x.length = l.inDim) : l.run x = .ok (affine l x) := by
  unfold Dense.run
  rw [if_neg (by simpa using h)]
  rfl

theorem net_length (drop : ℕ → List K → List K) (i : ℕ) (ls : List (Dense K × (K → K))) (last : Dense K)
    (x : List K) : (net drop i ls last x).length = last.outDim := by
  induction ls generalizing i x with
  | nil => exact affine_length _ _
  | cons p ls ih => obtain ⟨l, a⟩ := p; exact ih _ _

theorem features_net (acts : List (K → K)) (a : K → K) (drop : ℕ → List K → List K)
    (hlen : ∀ i x, (drop i x).length = x.length)
    (hcomm : ∀ i x, (drop i x).map a = drop i (x.map a)) (last : Dense K) (i : ℕ) (ls : List (Dense K))
    (x : List K) (hls : ls.length + i = acts.length + 1) (hne : ls ≠ []) (hfit : Fits x.length ls last) :
    (features acts drop i ls x).bind (output a last) =
      .ok (net drop i (ls.zip ((acts ++ [a]).drop i)) last x) := by
  induction ls generalizing i x with
  | nil => exact absurd rfl hne
  | cons l ls ih =>
    obtain ⟨hin, hfit⟩ := hfit
    have hi : i < (acts ++ [a]).length := by simp at hls ⊢; omega
    rw [List.drop_eq_getElem_cons hi, List.zip_cons_cons]
    simp only [features, update, run_ok l x hin.symm, bind, Except.bind, net]
    cases hl : ls with
    | nil =>
      subst hl
      have hi' : acts[i]? = none := by
        rw [List.getElem?_eq_none]
        simp at hls
        omega
      have hai : (acts ++ [a])[i] = a := by
        rw [List.getElem_append_right (by simp at hls; omega)]
        simp at hls
        simp
      simp only [hi', features, output, hai, List.zip_nil_left, net]
      rw [hcomm, run_ok]
      rw [hlen, List.length_map, affine_length]
      exact hfit.symm
    | cons l' ls' =>
      rw [← hl]
      have hia : i < acts.length := by rw [hl] at hls; simp at hls; omega
      have hai : (acts ++ [a])[i] = acts[i] := List.getElem_append_left hia
      simp only [List.getElem?_eq_getElem hia, hai]
      have := ih (i + 1) (drop i ((affine l x).map acts[i])) (by simp at hls ⊢; omega) (by rw [hl]; simp)
        (by rw [hlen, List.length_map, affine_length]; exact hfit)
      simp only [Except.bind] at this
      exact this

/-- **C90, multi-layer perceptron.** With as many activations as hidden layers (at least one), and variables
that fit, `MLP` is the feed-forward network: every hidden layer is an affine map followed by its activation,
the last layer is affine. The result has `output_dim` entries, whatever the depth and the widths. -/
theorem C90_mlp (acts : List (K → K)) (hidden : List (Dense K)) (last : Dense K) (x : List K)
    (hlen : hidden.length = acts.length) (hne : acts ≠ []) (hfit : Fits x.length hidden last) :
    mlp false acts hidden last (fun _ x => x) x = .ok (net (fun _ x => x) 0 (hidden.zip acts) last x) ∧
    (net (fun _ x => x) 0 (hidden.zip acts) last x).length = last.outDim := by
  refine ⟨?_, net_length _ _ _ _ _⟩
  have h := features_net acts.dropLast (acts.getLast hne) (fun _ x => x) (fun _ _ => rfl) (fun _ _ => rfl)
    last 0 hidden x (by have := List.length_pos_iff.mpr hne; simp; omega)
    (by intro h; rw [h] at hlen; exact hne (List.length_eq_zero_iff.mp hlen.symm)) hfit
  rw [List.dropLast_concat_getLast, List.drop_zero] at h
  unfold mlp
  rw [if_neg (by simpa using hlen), List.getLast?_eq_some_getLast hne]
  exact h

/-- **C90, refusals.** A network whose numbers of widths and of activations differ is refused, and so is one
without hidden layers. -/
theorem C90_mlp_refused (residual : Bool) (acts : List (K → K)) (hidden : List (Dense K)) (last : Dense K)
    (drop : ℕ → List K → List K) (x : List K) :
    (hidden.length ≠ acts.length → mlp residual acts hidden last drop x = .error "Exception") ∧
    (hidden = [] → acts = [] → mlp residual acts hidden last drop x = .error "IndexError") := by
  refine ⟨fun h => ?_, ?_⟩
  · unfold mlp
    rw [if_pos h]
  · rintro rfl rfl
    simp [mlp]

variable [LinearOrder K] [IsStrictOrderedRing K]

/-- Dropout: every entry is multiplied by a non-negative number (zero, or the inverse keep probability). -/
def dropout (m : ℕ → ℕ → K) (i : ℕ) (x : List K) : List K := x.mapIdx fun j v => m i j * v

/-- **C90, dropout.** During training every hidden layer's activations are dropped out, provided that the last
activation is positively homogeneous, as the rectifier is. -/
theorem C90_dropout (acts : List (K → K)) (hidden : List (Dense K)) (last : Dense K) (x : List K)
    (m : ℕ → ℕ → K) (hm : ∀ i j, 0 ≤ m i j) (hlen : hidden.length = acts.length) (hne : acts ≠ [])
    (hhom : ∀ c v, 0 ≤ c → acts.getLast hne (c * v) = c * acts.getLast hne v)
    (hfit : Fits x.length hidden last) :
    mlp false acts hidden last (dropout m) x = .ok (net (dropout m) 0 (hidden.zip acts) last x) := by
  have h := features_net acts.dropLast (acts.getLast hne) (dropout m) (fun _ _ => by simp [dropout])
    (fun i x => by
      unfold dropout
      apply List.ext_getElem?
      intro j
      simp only [List.getElem?_map, List.getElem?_mapIdx, Option.map_map]
      congr 1
      funext v
      exact hhom _ _ (hm i j))
    last 0 hidden x (by have := List.length_pos_iff.mpr hne; simp; omega)
    (by intro h; rw [h] at hlen; exact hne (List.length_eq_zero_iff.mp hlen.symm)) hfit
  rw [List.dropLast_concat_getLast, List.drop_zero] at h
  unfold mlp
  rw [if_neg (by simpa using hlen), List.getLast?_eq_some_getLast hne]
  exact h

/-- The rectifier is positively homogeneous. -/
theorem relu_homogeneous (c v : K) (hc : 0 ≤ c) : max (c * v) 0 = c * max v 0 := by
  rcases le_total v 0 with h | h
  · rw [max_eq_right h, max_eq_right (mul_nonpos_of_nonneg_of_nonpos hc h), mul_zero]
  · rw [max_eq_left h, max_eq_left (mul_nonneg hc h)]

/-- A layer with the given sizes, all weights one and bias zero. -/
def ones (a b : ℕ) : Dense ℚ := { inDim := a, outDim := b, kernel := fun _ _ => 1, bias := fun _ => 0 }

example : mlp false [fun v => max v 0, fun v => max v 0] [ones 2 3, ones 3 2] (ones 2 2) (fun _ x => x)
    [1, 1] = .ok [12, 12] := by decide +kernel

example : Fits 2 [ones 2 3, ones 3 2] (ones 2 2) := by simp [Fits, ones]

/-- **Dropout of the last hidden layer comes before its activation.** With an activation that is not zero at
zero, a unit of the last hidden layer that is dropped still contributes to the output. -/
theorem C90_dropout_false :
    let act : ℚ → ℚ := fun v => v + 1
    let drop : ℕ → List ℚ → List ℚ := dropout fun _ _ => 0
    mlp false [act] [ones 1 2] (ones 2 1) drop [5] = .ok [2] ∧
    net drop 0 [(ones 1 2, act)] (ones 2 1) [5] = [0] := by
  decide +kernel

/-- **C90, residual network.** `r` after the first layer, then `r + act (W r + b)` for every further hidden
layer but without activation in the last one of them. -/
def residualNet : List (Dense K × (K → K)) → List K → List K
  | [], x => x
  | (l, a) :: ls, x => residualNet ls (List.zipWith (· + ·) x ((affine l x).map a))

theorem residualLoop_ok (acts : List (K → K)) (w : ℕ) (i : ℕ) (ls : List (Dense K)) (x : List K)
    (hls : ls.length + i = acts.length + 1) (hx : x.length = w)
    (hw : ∀ l ∈ ls, l.inDim = w ∧ l.outDim = w) :
    residualLoop acts (fun _ x => x) i ls x = .ok (residualNet (ls.zip ((acts ++ [id]).drop i)) x) ∧
    (residualNet (ls.zip ((acts ++ [id]).drop i)) x).length = w := by
  induction ls generalizing i x with
  | nil => exact ⟨rfl, hx⟩
  | cons l ls ih =>
    obtain ⟨h1, h2⟩ := hw l (by simp)
    have hi : i < (acts ++ [id]).length := by simp at hls ⊢; omega
    rw [List.drop_eq_getElem_cons hi, List.zip_cons_cons]
    have hz : (List.zipWith (· + ·) x ((affine l x).map (acts ++ [id])[i])).length = w := by
      simp [affine_length, h2, hx]
    have hu : update acts (fun _ x => x) i l x = .ok ((affine l x).map (acts ++ [id])[i]) := by
      simp only [update, run_ok l x (by rw [hx, h1]), bind, Except.bind]
      by_cases hia : i < acts.length
      · rw [List.getElem_append_left hia, List.getElem?_eq_getElem hia]
      · rw [List.getElem?_eq_none (by omega), List.getElem_append_right (by omega)]
        simp
    have ha : addRows x ((affine l x).map (acts ++ [id])[i]) =
        .ok (List.zipWith (· + ·) x ((affine l x).map (acts ++ [id])[i])) := by
      unfold addRows
      rw [if_pos (by simp [affine_length, h2, hx])]
    simp only [residualLoop, hu, ha, bind, Except.bind, residualNet]
    exact ih (i + 1) _ (by simp at hls ⊢; omega) hz fun l' hl' => hw l' (by simp [hl'])

/-- **C90, residual network.** With hidden layers of equal width, `DeepResidualNet` is the residual network
described by `residualNet`, followed by the last activation and the output layer. -/
theorem C90_residual (acts : List (K → K)) (l : Dense K) (ls : List (Dense K)) (last : Dense K) (x : List K)
    (hlen : ls.length + 1 = acts.length) (hne : acts ≠ []) (w : ℕ)
    (hl : l.inDim = x.length) (hlw : l.outDim = w) (hw : ∀ l ∈ ls, l.inDim = w ∧ l.outDim = w)
    (hlast : last.inDim = w) :
    mlp true acts (l :: ls) last (fun _ x => x) x =
      .ok (affine last ((residualNet (ls.zip ((acts.dropLast ++ [id]).drop 1)) (affine l x)).map
        (acts.getLast hne))) := by
  unfold mlp
  rw [if_neg (by simpa using hlen), List.getLast?_eq_some_getLast hne]
  obtain ⟨h1, h2⟩ := residualLoop_ok acts.dropLast w 1 ls (affine l x) (by simp; omega)
    (by rw [affine_length, hlw]) hw
  simp only [residualFeatures, run_ok l x hl.symm, bind, Except.bind, h1, if_true, output]
  rw [run_ok]
  rw [List.length_map, h2, hlast]

/-- **The first activation of a residual network is never used**, as soon as there are two hidden layers. -/
theorem C90_residual_activation_false (a b : K → K) (acts : List (K → K)) (hne : acts ≠ [])
    (hidden : List (Dense K)) (last : Dense K) (drop : ℕ → List K → List K) (x : List K) :
    mlp true (a :: acts) hidden last drop x = mlp true (b :: acts) hidden last drop x := by
  have hupd : ∀ i (l : Dense K) (y : List K), update (a :: acts.dropLast) drop (i + 1) l y =
      update (b :: acts.dropLast) drop (i + 1) l y := by
    intro i l y
    simp [update]
  have hloop : ∀ (ls : List (Dense K)) i (y : List K), residualLoop (a :: acts.dropLast) drop (i + 1) ls y =
      residualLoop (b :: acts.dropLast) drop (i + 1) ls y := by
    intro ls
    induction ls with
    | nil => intro i y; rfl
    | cons l ls ih =>
      intro i y
      simp only [residualLoop, hupd, ih]
  unfold mlp
  have hd : ∀ c : K → K, (c :: acts).dropLast = c :: acts.dropLast := by
    intro c
    cases acts with
    | nil => exact absurd rfl hne
    | cons d t => rfl
  have hg : ∀ c : K → K, (c :: acts).getLast? = acts.getLast? := by
    intro c
    cases acts with
    | nil => exact absurd rfl hne
    | cons d t => rfl
  rw [hd, hd, hg, hg]
  simp only [List.length_cons]
  split
  · rfl
  · split
    · rfl
    · cases hidden with
      | nil => rfl
      | cons l ls =>
        have := fun y => hloop ls 0 y
        simp only [Nat.zero_add] at this
        simp only [residualFeatures, this]
        rfl

/-- **Residual networks with different widths.** Widths two and three are refused when the network is run, not
when it is built; widths two and one, or one and two, are accepted: the single unit is added to both. -/
theorem C90_residual_widths_false :
    mlp true [id, id] [ones 1 2, ones 2 3] (ones 3 1) (fun _ x => x) [(5 : ℚ)] = .error "TypeError" ∧
    mlp true [id, id] [ones 1 2, ones 2 1] (ones 2 1) (fun _ x => x) [(5 : ℚ)] = .ok [30] ∧
    mlp true [id, id] [ones 1 1, ones 1 2] (ones 2 1) (fun _ x => x) [(5 : ℚ)] = .ok [20] := by
  decide +kernel

example : mlp true [fun _ => 0, fun v => max v 0, fun v => max v 0] [ones 2 2, ones 2 2, ones 2 2] (ones 2 1)
    (fun _ x => x) [(1 : ℚ), -2] = .ok [0] ∧
  mlp true [fun _ => 0, fun v => max v 0, fun v => max v 0] [ones 2 2, ones 2 2, ones 2 2] (ones 2 1)
    (fun _ x => x) [(1 : ℚ), 2] = .ok [54] := by decide +kernel

end mlp

/-! ## Convolutional networks -/

theorem same_one (n : ℕ) : same n 1 = n := by simp [same]

theorem same_pos (n s : ℕ) (hn : 0 < n) (hs : 0 < s) : 0 < same n s := by
  unfold same
  exact Nat.div_pos (by omega) hs

/-- The shape after a block: strides divide height and width, rounding up. -/
def after (c s : ℕ) (x : Shape) : Shape := { h := same x.h s, w := same x.w s, c := c }

/-- **C90, residual blocks.** In every block of a (wide) residual network, residual and output have the same
shape: the sum is never refused and never broadcast, whatever the input's size and channels. -/
theorem C90_blocks (filters s : ℕ) (x : Shape) :
    resBlock filters s x = .ok (after filters s x) ∧
    bottleneckBlock filters s x = .ok (after (filters * 4) s x) ∧
    wideBlock filters s x = .ok (after filters s x) := by
  refine ⟨?_, ?_, ?_⟩
  · unfold resBlock
    have hy : conv filters 1 (conv filters s x) = after filters s x := by simp [conv, after, same_one]
    simp only [hy]
    by_cases h : x ≠ after filters s x
    · rw [if_pos h]
      exact if_pos rfl
    · rw [if_neg h]
      push Not at h
      unfold addShape
      rw [if_pos h, ← h]
  · unfold bottleneckBlock
    have hy : conv (filters * 4) 1 (conv filters s (conv filters 1 x)) = after (filters * 4) s x := by
      simp [conv, after, same_one]
    simp only [hy]
    by_cases h : x ≠ after (filters * 4) s x
    · rw [if_pos h]
      exact if_pos rfl
    · rw [if_neg h]
      push Not at h
      unfold addShape
      rw [if_pos h, ← h]
  · unfold wideBlock
    have hy : conv filters 1 (conv filters s x) = after filters s x := by simp [conv, after, same_one]
    simp only [hy]
    by_cases h : x.c ≠ filters ∨ s ≠ 1
    · rw [if_pos h]
      exact if_pos rfl
    · rw [if_neg h]
      push Not at h
      obtain ⟨h1, h2⟩ := h
      subst h2
      have : x = after filters 1 x := by
        cases x
        simp [after, same_one] at h1 ⊢
        exact h1
      unfold addShape
      rw [if_pos this, ← this]

theorem stage_ok (block : ℕ → ℕ → Shape → Except String Shape) (e : ℕ)
    (hb : ∀ f s x, block f s x = .ok (after (f * e) s x)) (filters i n j : ℕ) (x : Shape)
    (hx : 0 < x.h ∧ 0 < x.w) :
    ∃ y, stage block filters i n j x = .ok y ∧ 0 < y.h ∧ 0 < y.w ∧
      y.c = if n = 0 then x.c else filters * 2 ^ i * e := by
  induction n generalizing j x with
  | zero => exact ⟨x, rfl, hx.1, hx.2, by simp⟩
  | succ n ih =>
    have hs : 0 < (if i > 0 ∧ j = 0 then 2 else 1 : ℕ) := by split <;> omega
    obtain ⟨y, h1, h2, h3, h4⟩ := ih (j + 1)
      (after (filters * 2 ^ i * e) (if i > 0 ∧ j = 0 then 2 else 1) x)
      ⟨same_pos _ _ hx.1 hs, same_pos _ _ hx.2 hs⟩
    refine ⟨y, ?_, h2, h3, ?_⟩
    · simp only [stage, hb, bind, Except.bind]
      exact h1
    · rw [h4]
      simp [after]

theorem stages_ok (block : ℕ → ℕ → Shape → Except String Shape) (e : ℕ)
    (hb : ∀ f s x, block f s x = .ok (after (f * e) s x)) (filters i : ℕ) (sizes : List ℕ)
    (hs : ∀ n ∈ sizes, 0 < n) (x : Shape) (hx : 0 < x.h ∧ 0 < x.w) :
    ∃ y, stages block filters i sizes x = .ok y ∧ 0 < y.h ∧ 0 < y.w ∧
      y.c = if sizes = [] then x.c else filters * 2 ^ (i + sizes.length - 1) * e := by
  induction sizes generalizing i x with
  | nil => exact ⟨x, rfl, hx.1, hx.2, by simp⟩
  | cons n ns ih =>
    obtain ⟨y, h1, h2, h3, h4⟩ := stage_ok block e hb filters i n 0 x hx
    obtain ⟨z, k1, k2, k3, k4⟩ := ih (i + 1) (fun m hm => hs m (by simp [hm])) y ⟨h2, h3⟩
    refine ⟨z, ?_, k2, k3, ?_⟩
    · simp only [stages, h1, bind, Except.bind]
      exact k1
    · rw [k4, h4]
      have hn : n ≠ 0 := by have := hs n (by simp); omega
      cases ns with
      | nil => simp [hn]
      | cons m t =>
        rw [if_neg (by simp), if_neg (by simp)]
        simp only [List.length_cons]
        congr 3
        omega

/-- **C90.** The size of the output of a convolution or pooling without automatic padding is the number of positions of the window
inside the padded input. -/
theorem C90_windows (n k s p : ℕ) (hs : 0 < s) :
    windowed n k s p = ((Finset.range (n + 2 * p + 1)).filter fun j => j * s + k ≤ n + 2 * p).card := by
  unfold windowed
  split
  next h =>
    rw [eq_comm, Finset.card_eq_zero, Finset.filter_eq_empty_iff]
    intro j _ hj
    omega
  next h =>
    have : ((Finset.range (n + 2 * p + 1)).filter fun j => j * s + k ≤ n + 2 * p) =
        Finset.range ((n + 2 * p - k) / s + 1) := by
      ext j
      rw [Finset.mem_filter, Finset.mem_range, Finset.mem_range, Nat.lt_succ_iff, Nat.lt_succ_iff, Nat.le_div_iff_mul_le hs]
      have := Nat.le_mul_of_pos_right j hs
      omega
    rw [this, Finset.card_range]

example : windowed 28 7 2 3 = 14 := by decide +kernel

theorem windowed_pos (n : ℕ) (hn : 0 < n) : 0 < windowed n 7 2 3 := by
  unfold windowed
  rw [if_neg (by omega)]
  omega

/-- **C90, residual networks.** On images of any size, with any positive numbers of blocks per stage, a
residual network has `num_filters · 2 ^ (stages − 1)` features, four times as many with bottleneck blocks,
so that the output layer's kernel does not depend on the size of the images. -/
theorem C90_resnet (filters : ℕ) (sizes : List ℕ) (hne : sizes ≠ []) (hs : ∀ n ∈ sizes, 0 < n) (x : Shape)
    (hx : 0 < x.h ∧ 0 < x.w) :
    resnetFeatures resBlock filters sizes x = .ok (filters * 2 ^ (sizes.length - 1)) ∧
    resnetFeatures bottleneckBlock filters sizes x = .ok (filters * 2 ^ (sizes.length - 1) * 4) := by
  have key : ∀ block e, (∀ f s x, block f s x = .ok (after (f * e) s x)) →
      resnetFeatures block filters sizes x = .ok (filters * 2 ^ (sizes.length - 1) * e) := by
    intro block e hb
    obtain ⟨y, h1, h2, h3, h4⟩ := stages_ok block e hb filters 0 sizes hs
      { h := same (windowed x.h 7 2 3) 2, w := same (windowed x.w 7 2 3) 2, c := filters }
      ⟨same_pos _ _ (windowed_pos _ hx.1) (by omega), same_pos _ _ (windowed_pos _ hx.2) (by omega)⟩
    unfold resnetFeatures
    simp only [h1, bind, Except.bind]
    rw [if_neg (Nat.mul_pos h2 h3).ne', h4, if_neg hne, Nat.zero_add]
  refine ⟨?_, key bottleneckBlock 4 fun f s x => (C90_blocks f s x).2.1⟩
  have := key resBlock 1 fun f s x => by rw [(C90_blocks f s x).1, mul_one]
  rwa [mul_one] at this

/-- The features of the named networks. -/
example : resnetFeatures resBlock 64 [2, 2, 2, 2] ⟨224, 224, 3⟩ = .ok 512 ∧
    resnetFeatures bottleneckBlock 64 [3, 4, 6, 3] ⟨32, 32, 3⟩ = .ok 2048 := by decide +kernel

theorem wideGroup_ok (filters s n i : ℕ) (x : Shape) :
    wideGroup filters s n i x = .ok (if n = 0 then x else if i = 0 then after filters s x else after filters 1 x) := by
  induction n generalizing i x with
  | zero => rfl
  | succ n ih =>
    have h1 := (C90_blocks filters (if i = 0 then s else 1) x).2.2
    simp only [wideGroup, h1, bind, Except.bind]
    rw [ih (i + 1)]
    congr 1
    by_cases hn : n = 0 <;> by_cases hi : i = 0 <;> simp [hn, hi, after, same_one]

theorem windowed_eight (q : ℕ) : windowed q 8 1 0 = q - 7 := by
  unfold windowed
  split <;> omega

theorem same_two_two (n : ℕ) : same (same n 2) 2 = (n + 3) / 4 := by
  unfold same
  omega

/-- **C90, wide residual networks.** With at least one block per group (`depth ≥ 10`) a wide residual network
has `64 k` features for every position of an 8 × 8 window in the image reduced four times: exactly `64 k`
features on images of 29 to 32 pixels. Smaller images leave no features at all. -/
theorem C90_wide (depth k : ℕ) (hd : 10 ≤ depth) (x : Shape) :
    wideFeatures depth k x = .ok (((x.h + 3) / 4 - 7) * ((x.w + 3) / 4 - 7) * (64 * k)) ∧
    (0 < k → ((∃ n, wideFeatures depth k x = .ok n ∧ 0 < n) ↔ 29 ≤ x.h ∧ 29 ≤ x.w)) := by
  have hn : (depth - 4) / 6 ≠ 0 := by omega
  have h : wideFeatures depth k x = .ok (((x.h + 3) / 4 - 7) * ((x.w + 3) / 4 - 7) * (64 * k)) := by
    unfold wideFeatures
    simp only [wideGroup_ok, bind, Except.bind, hn, if_false, if_true, conv, after, same_one, windowed_eight,
      same_two_two]
  refine ⟨h, fun hk => ?_⟩
  rw [h]
  constructor
  · rintro ⟨n, hn, hpos⟩
    simp only [Except.ok.injEq] at hn
    subst hn
    have h1 : (x.h + 3) / 4 - 7 ≠ 0 := by rintro h0; rw [h0] at hpos; simp at hpos
    have h2 : (x.w + 3) / 4 - 7 ≠ 0 := by rintro h0; rw [h0] at hpos; simp at hpos
    omega
  · rintro ⟨h1, h2⟩
    refine ⟨_, rfl, ?_⟩
    have : 0 < (x.h + 3) / 4 - 7 := by omega
    have : 0 < (x.w + 3) / 4 - 7 := by omega
    positivity

/-- **Wide residual networks and small images, small depths.** On the 28 × 28 images of MNIST the default wide
residual network has no features; a depth below ten silently has no residual block, and depths 28 to 33 are
the same network. -/
theorem C90_wide_false :
    wideFeatures 28 10 ⟨28, 28, 1⟩ = .ok 0 ∧
    wideFeatures 9 10 ⟨32, 32, 3⟩ = .ok (25 * 25 * 16) ∧
    (∀ x, wideFeatures 33 10 x = wideFeatures 28 10 x) := by
  refine ⟨by decide +kernel, by decide +kernel, fun x => ?_⟩
  rw [(C90_wide 33 10 (by omega) x).1, (C90_wide 28 10 (by omega) x).1]

/-- **C90, LeNet and CNN.** Number of features on images of any size; LeNet needs images of at least 16 × 16,
the small CNN of at least 4 × 4. -/
theorem C90_lenet_cnn (x : Shape) :
    lenetFlat x = (((x.h - 4) / 2 - 4) / 2) * (((x.w - 4) / 2 - 4) / 2) * 16 ∧
    cnnFlat x = ((x.h - 2) / 2) * ((x.w - 2) / 2) * 32 ∧
    (0 < lenetFlat x ↔ 16 ≤ x.h ∧ 16 ≤ x.w) ∧ (0 < cnnFlat x ↔ 4 ≤ x.h ∧ 4 ≤ x.w) := by
  have h5 : ∀ n, windowed n 5 1 0 = n - 4 := by intro n; unfold windowed; split <;> omega
  have h3 : ∀ n, windowed n 3 1 0 = n - 2 := by intro n; unfold windowed; split <;> omega
  have h2 : ∀ n, windowed n 2 2 0 = n / 2 := by intro n; unfold windowed; split <;> omega
  have e1 : lenetFlat x = (((x.h - 4) / 2 - 4) / 2) * (((x.w - 4) / 2 - 4) / 2) * 16 := by
    simp [lenetFlat, h5, h2]
  have e2 : cnnFlat x = ((x.h - 2) / 2) * ((x.w - 2) / 2) * 32 := by simp [cnnFlat, h3, h2]
  refine ⟨e1, e2, ?_, ?_⟩
  · rw [e1, Nat.mul_pos_iff_of_pos_right (by omega), Nat.pos_iff_ne_zero, Nat.mul_ne_zero_iff]
    omega
  · rw [e2, Nat.mul_pos_iff_of_pos_right (by omega), Nat.pos_iff_ne_zero, Nat.mul_ne_zero_iff]
    omega

example : lenetFlat ⟨32, 32, 3⟩ = 400 ∧ lenetFlat ⟨28, 28, 1⟩ = 256 ∧ cnnFlat ⟨28, 28, 1⟩ = 5408 := by
  decide +kernel

/-- **The `activation` of a wide residual network has no effect**: it is `nn.relu` everywhere. In a residual
network it is used in all blocks, but not after the first convolution. -/
theorem C90_activation_false {F : Type} (relu a b : F) (depth : ℕ) (sizes : List ℕ) :
    wideActs relu a depth = wideActs relu b depth ∧ (∀ f ∈ wideActs relu a depth, f = relu) ∧
    (wideActs relu a depth).length = 6 * ((depth - 4) / 6) + 1 ∧
    (resnetActs relu a sizes).head? = some relu ∧ (∀ f ∈ (resnetActs relu a sizes).tail, f = a) ∧
    (resnetActs relu a sizes).length = 2 * sizes.sum + 1 := by
  refine ⟨rfl, ?_, ?_, rfl, ?_, ?_⟩
  · intro f hf
    simp [wideActs, wideBlockActs] at hf
    tauto
  · simp [wideActs, wideBlockActs, List.length_flatMap]
    omega
  · intro f hf
    simp [resnetActs, resBlockActs] at hf
    tauto
  · induction sizes with
    | nil => rfl
    | cons n sizes ih =>
      simp only [resnetActs, resBlockActs, List.length_cons, List.flatMap_cons, List.length_append, List.sum_cons] at ih ⊢
      have : ((List.range n).flatMap fun _ => [a, a]).length = n * 2 := by simp [List.length_flatMap]
      omega

/-! ## Constants and input shapes -/

section constants
variable {K X : Type}

/-- **C90, constant models.** Constant and hyper-parameter models return one row per input, the same for all
inputs whatever they are: the parameter vector, or `output_dim` copies of the scalar. Hyper-parameter models
refuse values that are not vectors, or not Python floats. -/
theorem C90_constant (c : List K) (v : K) (d ndim : ℕ) (fl : Bool) (xs : List X) :
    ((constantModel c xs).length = xs.length ∧ ∀ r ∈ constantModel c xs, r = c) ∧
    ((scalarConstant d v xs).length = xs.length ∧
      ∀ r ∈ scalarConstant d v xs, r.length = d ∧ ∀ u ∈ r, u = v) ∧
    (hyperModel ndim c xs = if ndim = 1 then .ok (constantModel c xs) else .error "ValueError") ∧
    (scalarHyper fl d v xs = if fl then .ok (scalarConstant d v xs) else .error "ValueError") := by
  refine ⟨⟨by simp [constantModel], ?_⟩, ⟨by simp [scalarConstant], ?_⟩, ?_, ?_⟩
  · intro r hr
    simp [constantModel] at hr
    exact hr.2
  · intro r hr
    simp [scalarConstant] at hr
    obtain ⟨-, rfl⟩ := hr
    exact ⟨by simp, fun u hu => (List.mem_replicate.mp hu).2⟩
  · by_cases h : ndim = 1 <;> simp [hyperModel, constantModel, h]
  · cases fl <;> simp [scalarHyper, scalarConstant]

example : scalarConstant 2 (7 : ℕ) ["a", "b"] = [[7, 7], [7, 7]] := by decide

end constants

/-- **C90, input shapes.** The dummy inputs made to initialise a network have one row, and otherwise the shape
of the data they were made for, array by array. -/
theorem C90_input_shape (s : Inputs) :
    getInputShape (getInputsFromShape s) = s ∧
    (∀ b t, getInputsFromShape (getInputShape (.array (b :: t))) = .array (1 :: t)) ∧
    (∀ d : List (String × ℕ × List ℕ),
      getInputsFromShape (getInputShape (.dict (d.map fun p => (p.1, p.2.1 :: p.2.2)))) =
        .dict (d.map fun p => (p.1, 1 :: p.2.2))) := by
  refine ⟨?_, fun b t => rfl, fun d => ?_⟩
  · cases s with
    | array s => rfl
    | dict d =>
      simp only [getInputShape, getInputsFromShape, List.map_map]
      congr 1
      conv_rhs => rw [← List.map_id d]
      rfl
  · simp [getInputShape, getInputsFromShape]

example : getInputsFromShape (getInputShape (.dict [("input_ids", [32, 128]), ("mask", [32, 128])])) =
    .dict [("input_ids", [1, 128]), ("mask", [1, 128])] := by decide

/-! ### Concrete cases that meet the hypotheses of the theorems above -/

example := C90_mlp [fun v => max v 0, fun v => max v 0] [ones 2 3, ones 3 2] (ones 2 2) [1, 1] rfl (by simp) (by simp [Fits, ones])
example := C90_mlp_refused true [fun v => max v 0] [ones 2 3, ones 3 2] (ones 2 2) (fun _ x => x) [1, 1]
example := C90_residual [fun v => max v 0, fun v => max v 0] (ones 2 3) [ones 3 3] (ones 3 2) [1, 1] rfl (by simp) 3 rfl rfl (by simp [ones]) rfl
example := C90_residual_activation_false (fun v => max v 0) (fun v : ℚ => -v) [fun v => max v 0] (by simp) [ones 2 3, ones 3 3] (ones 3 2) (fun _ x => x) [1, 1]
example := C90_wide 28 10 (by decide) ⟨32, 32, 3⟩

end Verif.Props.Networks
