import Verif.Props.ProperScores
import Mathlib.Analysis.Calculus.Deriv.MeanValue
import Mathlib.Analysis.SpecialFunctions.Log.Deriv
import Mathlib.Analysis.SpecialFunctions.ExpDeriv

/-!
Property C120: which temperature the calibration of a classifier by the cross-entropy looks for.
-/
set_option linter.unusedSectionVars false

namespace Verif.Props.TempLaw

open Verif.Props Verif.ArrayOps Verif.Calibration Verif.OutputLayer Verif.Props.ProperScores Finset

variable {c : ℕ}

/-- Logits with their label. -/
abbrev Row (c : ℕ) := (Fin c → ℝ) × Fin c

/-- The calibration loss as a function of the parameter of the scaler, the logarithm of the temperature. -/
noncomputable def tempLoss (rows : List (Row c)) (φ : ℝ) : ℝ :=
  crossEntropy (rowsOf (rows.map fun r => (scaleLogits φ r.1, r.2)))

/-- A row whose logits are not all the same. -/
def Varied (r : Row c) : Prop := ∃ i j, r.1 i ≠ r.1 j

/-- The logit expected from the calibrated probabilities. -/
noncomputable def meanLogit (φ : ℝ) (o : Fin c → ℝ) : ℝ := ∑ j, softmax (scaleLogits φ o) j * o j

/-- The largest logit of a row. -/
noncomputable def maxLogit (r : Row c) : ℝ := univ.sup' ⟨r.2, mem_univ _⟩ r.1

/-- The average logit of a row. -/
noncomputable def avgLogit (r : Row c) : ℝ := (∑ j, r.1 j) / c

/-! ## In terms of the inverse temperature -/

noncomputable def S0 (o : Fin c → ℝ) (β : ℝ) : ℝ := ∑ j, Real.exp (o j * β)

noncomputable def S1 (o : Fin c → ℝ) (β : ℝ) : ℝ := ∑ j, o j * Real.exp (o j * β)

noncomputable def S2 (o : Fin c → ℝ) (β : ℝ) : ℝ := ∑ j, o j ^ 2 * Real.exp (o j * β)

noncomputable def tilt (o : Fin c → ℝ) (β : ℝ) : ℝ := S1 o β / S0 o β

theorem S0_pos (r : Row c) (β : ℝ) : 0 < S0 r.1 β := sum_pos (fun j _ => Real.exp_pos _) ⟨r.2, mem_univ _⟩

theorem S0_deriv (o : Fin c → ℝ) (β : ℝ) : HasDerivAt (S0 o) (S1 o β) β := by
  unfold S0 S1
  refine HasDerivAt.fun_sum fun j _ => ?_
  have := ((hasDerivAt_id β).const_mul (o j)).exp
  simp only [id_eq, mul_one] at this
  rwa [mul_comm] at this

theorem S1_deriv (o : Fin c → ℝ) (β : ℝ) : HasDerivAt (S1 o) (S2 o β) β := by
  unfold S1 S2
  refine HasDerivAt.fun_sum fun j _ => ?_
  have := (((hasDerivAt_id β).const_mul (o j)).exp).const_mul (o j)
  simp only [id_eq, mul_one] at this
  exact this.congr_deriv (by ring)

theorem spread_eq (o : Fin c → ℝ) (β : ℝ) :
    2 * (S2 o β * S0 o β - S1 o β ^ 2) = ∑ i, ∑ j, Real.exp (o i * β) * Real.exp (o j * β) * (o i - o j) ^ 2 := by
  have h : ∀ i j, Real.exp (o i * β) * Real.exp (o j * β) * (o i - o j) ^ 2 =
      (o i ^ 2 * Real.exp (o i * β)) * Real.exp (o j * β) + Real.exp (o i * β) * (o j ^ 2 * Real.exp (o j * β))
        - 2 * ((o i * Real.exp (o i * β)) * (o j * Real.exp (o j * β))) := fun i j => by ring
  simp only [h, sum_sub_distrib, sum_add_distrib, ← mul_sum, ← sum_mul]
  unfold S0 S1 S2
  ring

theorem spread_nonneg (o : Fin c → ℝ) (β : ℝ) : 0 ≤ S2 o β * S0 o β - S1 o β ^ 2 := by
  have := spread_eq o β
  have h2 : 0 ≤ ∑ i, ∑ j, Real.exp (o i * β) * Real.exp (o j * β) * (o i - o j) ^ 2 :=
    sum_nonneg fun i _ => sum_nonneg fun j _ => by positivity
  linarith

theorem spread_pos (r : Row c) (h : Varied r) (β : ℝ) : 0 < S2 r.1 β * S0 r.1 β - S1 r.1 β ^ 2 := by
  obtain ⟨i, j, hij⟩ := h
  have := spread_eq r.1 β
  have h2 : 0 < ∑ i, ∑ j, Real.exp (r.1 i * β) * Real.exp (r.1 j * β) * (r.1 i - r.1 j) ^ 2 := by
    refine sum_pos' (fun i _ => sum_nonneg fun j _ => by positivity) ⟨i, mem_univ _, ?_⟩
    refine sum_pos' (fun j _ => by positivity) ⟨j, mem_univ _, ?_⟩
    have : r.1 i - r.1 j ≠ 0 := sub_ne_zero.2 hij
    positivity
  linarith

theorem tilt_deriv (r : Row c) (β : ℝ) : HasDerivAt (tilt r.1) ((S2 r.1 β * S0 r.1 β - S1 r.1 β ^ 2) / S0 r.1 β ^ 2) β := by
  have := (S1_deriv r.1 β).div (S0_deriv r.1 β) (S0_pos r β).ne'
  exact this.congr_deriv (by ring)

theorem tilt_mono (r : Row c) : Monotone (tilt r.1) :=
  monotone_of_deriv_nonneg (fun β => (tilt_deriv r β).differentiableAt) fun β => by
    rw [(tilt_deriv r β).deriv]
    exact div_nonneg (spread_nonneg r.1 β) (by positivity)

theorem tilt_strict (r : Row c) (h : Varied r) : StrictMono (tilt r.1) :=
  strictMono_of_deriv_pos fun β => by
    rw [(tilt_deriv r β).deriv]
    exact div_pos (spread_pos r h β) (pow_pos (S0_pos r β) 2)

/-- The sum of the losses of the rows, and its derivative. -/
noncomputable def F (rows : List (Row c)) (β : ℝ) : ℝ := (rows.map fun r => Real.log (S0 r.1 β) - r.1 r.2 * β).sum

noncomputable def G (rows : List (Row c)) (β : ℝ) : ℝ := (rows.map fun r => tilt r.1 β - r.1 r.2).sum

theorem sum_map_sub' {α : Type} (l : List α) (f g : α → ℝ) : (l.map fun x => f x - g x).sum = (l.map f).sum - (l.map g).sum := by
  induction l with
  | nil => simp
  | cons a t ih => simp only [List.map_cons, List.sum_cons, ih]; ring

theorem F_deriv (rows : List (Row c)) (β : ℝ) : HasDerivAt (F rows) (G rows β) β := by
  induction rows with
  | nil => exact hasDerivAt_const β (0 : ℝ)
  | cons r t ih =>
    have h1 : HasDerivAt (fun β => Real.log (S0 r.1 β) - r.1 r.2 * β) (tilt r.1 β - r.1 r.2) β := by
      have := ((S0_deriv r.1 β).log (S0_pos r β).ne').fun_sub ((hasDerivAt_id β).const_mul (r.1 r.2))
      simpa [tilt] using this
    have := h1.fun_add ih
    unfold F G at *
    simpa [List.map_cons, List.sum_cons] using this

theorem G_mono (rows : List (Row c)) : Monotone (G rows) := by
  intro a b hab
  exact List.sum_le_sum fun r _ => sub_le_sub_right (tilt_mono r hab) _

theorem G_strict (rows : List (Row c)) (h : ∃ r ∈ rows, Varied r) : StrictMono (G rows) := by
  obtain ⟨r, hr, hv⟩ := h
  intro a b hab
  refine List.sum_lt_sum _ _ (fun r _ => sub_le_sub_right (tilt_mono r hab.le) _) ⟨r, hr, ?_⟩
  exact sub_lt_sub_right (tilt_strict r hv hab) _

theorem G_continuous (rows : List (Row c)) : Continuous (G rows) := by
  unfold G
  refine continuous_list_sum _ fun r _ => ?_
  have : Continuous (tilt r.1) := continuous_iff_continuousAt.2 fun β => (tilt_deriv r β).continuousAt
  exact this.sub continuous_const

theorem scale_eq (φ : ℝ) (o : Fin c → ℝ) (j : Fin c) : scaleLogits φ o j = o j * Real.exp (-φ) := rfl

theorem tempLoss_eq (rows : List (Row c)) (φ : ℝ) : tempLoss rows φ = F rows (Real.exp (-φ)) / rows.length := by
  unfold tempLoss crossEntropy mean F
  congr 1
  · unfold rowsOf
    rw [List.map_map, List.map_map]
    congr 1
    apply List.map_congr_left
    intro r _
    simp only [Function.comp]
    rw [oneHot_sum_in]
    rfl
  · simp [rowsOf]

theorem meanLogit_eq (φ : ℝ) (o : Fin c → ℝ) : meanLogit φ o = tilt o (Real.exp (-φ)) := by
  unfold meanLogit tilt softmax S1 S0
  rw [sum_div]
  refine sum_congr rfl fun j _ => ?_
  simp only [scale_eq]
  ring

theorem tempLoss_deriv (rows : List (Row c)) (φ : ℝ) :
    HasDerivAt (tempLoss rows) (-(Real.exp (-φ) * G rows (Real.exp (-φ)) / rows.length)) φ := by
  have e : tempLoss rows = fun φ => F rows (Real.exp (-φ)) / rows.length := funext (tempLoss_eq rows)
  rw [e]
  have h1 : HasDerivAt (fun φ : ℝ => Real.exp (-φ)) (-Real.exp (-φ)) φ := by
    simpa using (hasDerivAt_id φ).neg.exp
  have := ((F_deriv rows (Real.exp (-φ))).comp φ h1).div_const (rows.length : ℝ)
  exact this.congr_deriv (by ring)

/-- Where the derivative vanishes the sum of losses is smallest. -/
theorem F_min (rows : List (Row c)) (β : ℝ) (h : G rows β = 0) (β' : ℝ) : F rows β ≤ F rows β' := by
  have hd : Differentiable ℝ (F rows) := fun x => (F_deriv rows x).differentiableAt
  rcases le_total β β' with hle | hle
  · refine monotoneOn_of_deriv_nonneg (convex_Ici β) hd.continuous.continuousOn hd.differentiableOn (fun x hx => ?_) (Set.mem_Ici.2 le_rfl) (Set.mem_Ici.2 hle) hle
    rw [(F_deriv rows x).deriv, ← h]
    rw [interior_Ici] at hx
    exact G_mono rows (le_of_lt hx)
  · refine antitoneOn_of_deriv_nonpos (convex_Iic β) hd.continuous.continuousOn hd.differentiableOn (fun x hx => ?_) (Set.mem_Iic.2 hle) (Set.mem_Iic.2 le_rfl) hle
    rw [(F_deriv rows x).deriv, ← h]
    rw [interior_Iic] at hx
    exact G_mono rows (le_of_lt hx)

theorem length_pos_of_varied {rows : List (Row c)} (h : ∃ r ∈ rows, Varied r) : (0 : ℝ) < rows.length := by
  obtain ⟨r, hr, _⟩ := h
  exact_mod_cast List.length_pos_of_mem hr

/-! ## The theorems -/

/-- **C120, stationary temperatures.** The gradient of the calibration loss vanishes exactly at the temperatures with the smallest loss of all, and these are the ones at which the
logits of the labels are, in total, what the calibrated probabilities expect. -/
theorem C120_stationary (rows : List (Row c)) (φ : ℝ) :
    (deriv (tempLoss rows) φ = 0 ↔ ∀ φ', tempLoss rows φ ≤ tempLoss rows φ') ∧
    (deriv (tempLoss rows) φ = 0 ↔ (rows.map fun r => meanLogit φ r.1).sum = (rows.map fun r => r.1 r.2).sum) := by
  have hG : G rows (Real.exp (-φ)) = (rows.map fun r => meanLogit φ r.1).sum - (rows.map fun r => r.1 r.2).sum := by
    unfold G
    rw [sum_map_sub']
    simp only [meanLogit_eq]
  rcases rows.eq_nil_or_concat with rfl | ⟨l, a, hl⟩
  · have e : ∀ φ, tempLoss ([] : List (Row c)) φ = 0 := fun φ => by rw [tempLoss_eq]; simp [F]
    have e' : tempLoss ([] : List (Row c)) = fun _ => 0 := funext e
    simp [e']
  · have hpos : (0 : ℝ) < rows.length := by rw [hl]; simp; positivity
    have hd : deriv (tempLoss rows) φ = 0 ↔ G rows (Real.exp (-φ)) = 0 := by
      rw [(tempLoss_deriv rows φ).deriv, neg_eq_zero, div_eq_zero_iff]
      simp [hpos.ne', (Real.exp_pos (-φ)).ne']
    refine ⟨⟨fun h φ' => ?_, fun h => ?_⟩, ?_⟩
    · rw [tempLoss_eq, tempLoss_eq]
      exact div_le_div_of_nonneg_right (F_min rows _ (hd.1 h) _) hpos.le
    · exact IsLocalMin.deriv_eq_zero (Filter.Eventually.of_forall h)
    · rw [hd, hG, sub_eq_zero]

/-- **C120, unique temperature.** If the logits of some row differ, there is at most one best temperature, and at every other one the gradient points away from it and
the loss is larger. -/
theorem C120_direction (rows : List (Row c)) (h : ∃ r ∈ rows, Varied r) (φ : ℝ) (hφ : ∀ φ', tempLoss rows φ ≤ tempLoss rows φ') (φ' : ℝ) (hne : φ' ≠ φ) :
    0 < (φ' - φ) * deriv (tempLoss rows) φ' ∧ tempLoss rows φ < tempLoss rows φ' := by
  have hpos := length_pos_of_varied h
  have hd : ∀ φ, deriv (tempLoss rows) φ = 0 ↔ G rows (Real.exp (-φ)) = 0 := fun φ => by
    rw [(tempLoss_deriv rows φ).deriv, neg_eq_zero, div_eq_zero_iff]
    simp [hpos.ne', (Real.exp_pos (-φ)).ne']
  have h0 : G rows (Real.exp (-φ)) = 0 := (hd φ).1 ((C120_stationary rows φ).1.2 hφ)
  have key : 0 < (φ' - φ) * deriv (tempLoss rows) φ' := by
    rw [(tempLoss_deriv rows φ').deriv]
    rcases lt_or_gt_of_ne hne with hlt | hlt
    · have : G rows (Real.exp (-φ)) < G rows (Real.exp (-φ')) := G_strict rows h (Real.exp_lt_exp.2 (by linarith))
      rw [h0] at this
      have h2 : 0 < Real.exp (-φ') * G rows (Real.exp (-φ')) / rows.length := by positivity
      nlinarith
    · have : G rows (Real.exp (-φ')) < G rows (Real.exp (-φ)) := G_strict rows h (Real.exp_lt_exp.2 (by linarith))
      rw [h0] at this
      have h2 : 0 < -(Real.exp (-φ') * G rows (Real.exp (-φ')) / rows.length) := by
        rw [neg_pos]
        exact div_neg_of_neg_of_pos (mul_neg_of_pos_of_neg (Real.exp_pos _) this) hpos
      nlinarith
  refine ⟨key, lt_of_le_of_ne (hφ φ') fun heq => ?_⟩
  have : deriv (tempLoss rows) φ' = 0 := (C120_stationary rows φ').1.2 fun ψ => heq ▸ hφ ψ
  rw [this, mul_zero] at key
  exact lt_irrefl _ key

/-- **C120, gradient steps.** From every other temperature all gradient steps that are short enough bring the parameter nearer to the best one. -/
theorem C120_step (rows : List (Row c)) (h : ∃ r ∈ rows, Varied r) (φ : ℝ) (hφ : ∀ φ', tempLoss rows φ ≤ tempLoss rows φ') (φ' : ℝ) (hne : φ' ≠ φ) :
    ∃ η₀ > 0, ∀ η, 0 < η → η < η₀ → |φ' - η * deriv (tempLoss rows) φ' - φ| < |φ' - φ| := by
  obtain ⟨h1, _⟩ := C120_direction rows h φ hφ φ' hne
  set g := deriv (tempLoss rows) φ'
  have hg : g ≠ 0 := fun h0 => by rw [h0, mul_zero] at h1; exact lt_irrefl _ h1
  have hg2 : 0 < g ^ 2 := by positivity
  refine ⟨2 * ((φ' - φ) * g) / g ^ 2, by positivity, fun η h0 hη => ?_⟩
  rw [lt_div_iff₀ hg2] at hη
  rw [← sq_lt_sq]
  nlinarith

theorem le_maxLogit (r : Row c) (j : Fin c) : r.1 j ≤ maxLogit r := le_sup' r.1 (mem_univ j)

theorem max_sub_tilt (r : Row c) (β : ℝ) : (maxLogit r - tilt r.1 β) * S0 r.1 β = ∑ j, (maxLogit r - r.1 j) * Real.exp (r.1 j * β) := by
  unfold tilt
  rw [sub_mul, div_mul_cancel₀ _ (S0_pos r β).ne']
  simp only [sub_mul, sum_sub_distrib, ← mul_sum]
  rfl

theorem tilt_le_max (r : Row c) (β : ℝ) : tilt r.1 β ≤ maxLogit r := by
  have h := max_sub_tilt r β
  have h2 : 0 ≤ ∑ j, (maxLogit r - r.1 j) * Real.exp (r.1 j * β) :=
    sum_nonneg fun j _ => mul_nonneg (sub_nonneg.2 (le_maxLogit r j)) (Real.exp_pos _).le
  rw [← h] at h2
  have := nonneg_of_mul_nonneg_left h2 (S0_pos r β)
  linarith

theorem tilt_lt_max (r : Row c) (hv : Varied r) (β : ℝ) : tilt r.1 β < maxLogit r := by
  have h := tilt_strict r hv (show β < β + 1 by linarith)
  exact h.trans_le (tilt_le_max r _)

/-- The expected logit approaches the largest one as the temperature falls. -/
theorem max_sub_tilt_le (r : Row c) (β : ℝ) (hβ : 0 < β) : maxLogit r - tilt r.1 β ≤ c / β := by
  have h := max_sub_tilt r β
  obtain ⟨m, _, hm⟩ := exists_mem_eq_sup' ⟨r.2, mem_univ r.2⟩ r.1
  have hm' : maxLogit r = r.1 m := hm
  have hS : Real.exp (maxLogit r * β) ≤ S0 r.1 β := by
    rw [hm']
    exact single_le_sum (f := fun j => Real.exp (r.1 j * β)) (fun j _ => (Real.exp_pos _).le) (mem_univ m)
  have hterm : ∀ j, (maxLogit r - r.1 j) * Real.exp (r.1 j * β) ≤ Real.exp (maxLogit r * β) / β := fun j => by
    set x := maxLogit r - r.1 j with hx
    have hx0 : 0 ≤ x := sub_nonneg.2 (le_maxLogit r j)
    have he : Real.exp (r.1 j * β) = Real.exp (maxLogit r * β) * Real.exp (-(x * β)) := by
      rw [← Real.exp_add]; congr 1; rw [hx]; ring
    have h1 : x * β + 1 ≤ Real.exp (x * β) := Real.add_one_le_exp _
    have h2 : Real.exp (-(x * β)) * Real.exp (x * β) = 1 := by rw [← Real.exp_add]; simp
    have h3 : x * β * Real.exp (-(x * β)) ≤ 1 := by
      have := Real.exp_pos (-(x * β))
      nlinarith
    rw [he, le_div_iff₀ hβ]
    have := Real.exp_pos (maxLogit r * β)
    calc x * (Real.exp (maxLogit r * β) * Real.exp (-(x * β))) * β = Real.exp (maxLogit r * β) * (x * β * Real.exp (-(x * β))) := by ring
      _ ≤ Real.exp (maxLogit r * β) * 1 := by gcongr
      _ = _ := mul_one _
  have hsum : (maxLogit r - tilt r.1 β) * S0 r.1 β ≤ c * (Real.exp (maxLogit r * β) / β) := by
    rw [h]
    refine (sum_le_sum fun j _ => hterm j).trans ?_
    simp
  have hS0 := S0_pos r β
  rw [← le_div_iff₀ hS0] at hsum
  refine hsum.trans ?_
  rw [div_le_div_iff₀ hS0 hβ]
  have : c * (Real.exp (maxLogit r * β) / β) * β = c * Real.exp (maxLogit r * β) := by
    field_simp
  rw [this]
  gcongr

theorem tilt_zero (r : Row c) : tilt r.1 0 = avgLogit r := by
  simp [tilt, S1, S0, avgLogit]

theorem tilt_const (r : Row c) (h : ¬ Varied r) (β : ℝ) : tilt r.1 β = r.1 r.2 := by
  have hc : ∀ j, r.1 j = r.1 r.2 := fun j => by
    by_contra hne
    exact h ⟨j, r.2, hne⟩
  have : S1 r.1 β = r.1 r.2 * S0 r.1 β := by
    unfold S1 S0
    rw [mul_sum]
    exact sum_congr rfl fun j _ => by rw [hc j]
  unfold tilt
  rw [this, mul_div_assoc, div_self (S0_pos r β).ne', mul_one]

/-- **C120, when a best temperature exists.** There is a temperature with the smallest loss exactly if the logits of every row are all the same (then all are best), or the logits
of the labels are in total larger than the average logits and smaller than the largest logits. -/
theorem C120_exists (rows : List (Row c)) :
    (∃ φ, ∀ φ', tempLoss rows φ ≤ tempLoss rows φ') ↔
      (∀ r ∈ rows, ¬ Varied r) ∨
      ((rows.map avgLogit).sum < (rows.map fun r => r.1 r.2).sum ∧ (rows.map fun r => r.1 r.2).sum < (rows.map maxLogit).sum) := by
  by_cases hv : ∃ r ∈ rows, Varied r
  · have hpos := length_pos_of_varied hv
    have hstat : ∀ φ, (∀ φ', tempLoss rows φ ≤ tempLoss rows φ') ↔ G rows (Real.exp (-φ)) = 0 := fun φ => by
      rw [← (C120_stationary rows φ).1, (tempLoss_deriv rows φ).deriv, neg_eq_zero, div_eq_zero_iff]
      simp [hpos.ne', (Real.exp_pos (-φ)).ne']
    have h0 : G rows 0 = (rows.map avgLogit).sum - (rows.map fun r => r.1 r.2).sum := by
      unfold G
      rw [sum_map_sub']
      simp only [tilt_zero]
    have hn : ¬ ∀ r ∈ rows, ¬ Varied r := fun h => by
      obtain ⟨r, hr, hvr⟩ := hv
      exact h r hr hvr
    simp only [hn, false_or]
    constructor
    · rintro ⟨φ, hφ⟩
      have hz := (hstat φ).1 hφ
      constructor
      · have := G_strict rows hv (Real.exp_pos (-φ))
        rw [hz, h0] at this
        linarith
      · have h1 : G rows (Real.exp (-φ)) = (rows.map fun r => tilt r.1 (Real.exp (-φ))).sum - (rows.map fun r => r.1 r.2).sum := by
          unfold G
          rw [sum_map_sub']
        have h2 : (rows.map fun r => tilt r.1 (Real.exp (-φ))).sum < (rows.map maxLogit).sum := by
          obtain ⟨r, hr, hvr⟩ := hv
          exact List.sum_lt_sum _ _ (fun r _ => tilt_le_max r _) ⟨r, hr, tilt_lt_max r hvr _⟩
        linarith
    · rintro ⟨hlo, hhi⟩
      have hc : 0 < c := by
        obtain ⟨r, _, _⟩ := hv
        exact r.2.pos
      set δ := (rows.map maxLogit).sum - (rows.map fun r => r.1 r.2).sum with hδ
      have hδ0 : 0 < δ := by rw [hδ]; linarith
      set β := (rows.length * c + 1) / δ with hβ
      have hβ0 : 0 < β := by rw [hβ]; positivity
      have hlow : (rows.map maxLogit).sum - rows.length * (c / β) ≤ (rows.map fun r => tilt r.1 β).sum := by
        have : (rows.map fun r => maxLogit r - c / β).sum ≤ (rows.map fun r => tilt r.1 β).sum :=
          List.sum_le_sum fun r _ => by linarith [max_sub_tilt_le r β hβ0]
        rw [sum_map_sub'] at this
        simpa using this
      have hGpos : 0 < G rows β := by
        have h1 : G rows β = (rows.map fun r => tilt r.1 β).sum - (rows.map fun r => r.1 r.2).sum := by
          unfold G
          rw [sum_map_sub']
        have h2 : (rows.length : ℝ) * (c / β) < δ := by
          rw [hβ]
          have : (0 : ℝ) < rows.length * c + 1 := by positivity
          rw [div_div_eq_mul_div, mul_div_assoc', div_lt_iff₀ this]
          nlinarith
        rw [h1]
        linarith
      have hGneg : G rows 0 < 0 := by rw [h0]; linarith
      obtain ⟨b, hb, hb0⟩ := intermediate_value_Ioo hβ0.le (G_continuous rows).continuousOn ⟨hGneg, hGpos⟩
      refine ⟨-Real.log b, (hstat _).2 ?_⟩
      rw [neg_neg, Real.exp_log hb.1]
      exact hb0
  · push Not at hv
    refine iff_of_true ⟨0, ?_⟩ (Or.inl hv)
    intro φ'
    refine (C120_stationary rows 0).1.1 ?_ φ'
    rw [(tempLoss_deriv rows 0).deriv]
    have : G rows (Real.exp (-0)) = 0 := by
      unfold G
      apply List.sum_eq_zero
      intro x hx
      obtain ⟨r, hr, rfl⟩ := List.mem_map.1 hx
      rw [tilt_const r (hv r hr), sub_self]
    rw [this]
    simp

/-- **C120, refuted: calibration always has an optimum.** For a classifier that is right on all calibration data every lower temperature is better, so that descent
makes it ever more confident; if the labels' logits are in total at most the average logits every higher one is. -/
theorem C120_exists_false (rows : List (Row c)) (hv : ∃ r ∈ rows, Varied r) :
    ((∀ r ∈ rows, ∀ j, r.1 j ≤ r.1 r.2) → StrictMono (tempLoss rows)) ∧
    ((rows.map fun r => r.1 r.2).sum ≤ (rows.map avgLogit).sum → StrictAnti (tempLoss rows)) := by
  have hpos := length_pos_of_varied hv
  constructor
  · intro h
    refine strictMono_of_deriv_pos fun φ => ?_
    rw [(tempLoss_deriv rows φ).deriv, neg_pos]
    have h1 : G rows (Real.exp (-φ)) < 0 := by
      refine (G_strict rows hv (show Real.exp (-φ) < Real.exp (-φ) + 1 by linarith)).trans_le ?_
      have : G rows (Real.exp (-φ) + 1) ≤ (rows.map fun _ => (0 : ℝ)).sum := List.sum_le_sum fun r hr => ?_
      · simpa using this
      have h2 : maxLogit r ≤ r.1 r.2 := sup'_le _ _ fun j _ => h r hr j
      linarith [tilt_le_max r (Real.exp (-φ) + 1)]
    exact div_neg_of_neg_of_pos (mul_neg_of_pos_of_neg (Real.exp_pos _) h1) hpos
  · intro h
    refine strictAnti_of_deriv_neg fun φ => ?_
    rw [(tempLoss_deriv rows φ).deriv, neg_lt_zero]
    have h0 : G rows 0 = (rows.map avgLogit).sum - (rows.map fun r => r.1 r.2).sum := by
      unfold G
      rw [sum_map_sub']
      simp only [tilt_zero]
    have h1 : 0 < G rows (Real.exp (-φ)) := by
      have := G_strict rows hv (Real.exp_pos (-φ))
      linarith
    positivity

/-- **C120, scale of the logits.** Multiplying all logits by a positive number moves the best temperature by the same factor and leaves the calibrated logits as they are. -/
theorem C120_scale (rows : List (Row c)) (a : ℝ) (ha : 0 < a) (φ : ℝ) :
    ((∀ φ', tempLoss rows φ ≤ tempLoss rows φ') ↔
      ∀ φ', tempLoss (rows.map fun r => (fun j => a * r.1 j, r.2)) (φ + Real.log a) ≤ tempLoss (rows.map fun r => (fun j => a * r.1 j, r.2)) φ') ∧
    ∀ o : Fin c → ℝ, scaleLogits (φ + Real.log a) (fun j => a * o j) = scaleLogits φ o := by
  have key : ∀ (ψ : ℝ) (o : Fin c → ℝ), scaleLogits (ψ + Real.log a) (fun j => a * o j) = scaleLogits ψ o := fun ψ o => by
    funext j
    simp only [scale_eq]
    rw [neg_add, Real.exp_add, Real.exp_neg (Real.log a), Real.exp_log ha]
    field_simp
  have hl : ∀ ψ, tempLoss (rows.map fun r => (fun j => a * r.1 j, r.2)) (ψ + Real.log a) = tempLoss rows ψ := fun ψ => by
    unfold tempLoss
    rw [List.map_map]
    congr 2
    apply List.map_congr_left
    intro r _
    simp only [Function.comp, key]
  refine ⟨⟨fun h φ' => ?_, fun h φ' => ?_⟩, key φ⟩
  · have := h (φ' - Real.log a)
    rwa [← hl φ, ← hl (φ' - Real.log a), sub_add_cancel] at this
  · have := h (φ' + Real.log a)
    rwa [hl, hl] at this

/-- **C120, the true temperature.** If the labels of an input are drawn from its softmax probabilities at some temperature, the expected loss is smallest at that temperature and, if
its logits differ, at no other. -/
theorem C120_truth (o : Fin c → ℝ) (hc : 0 < c) (φ₀ φ : ℝ) :
    expected crossEntropy (softmax (scaleLogits φ₀ o)) (scaleLogits φ₀ o) ≤ expected crossEntropy (softmax (scaleLogits φ₀ o)) (scaleLogits φ o) ∧
    ((∃ i j, o i ≠ o j) → expected crossEntropy (softmax (scaleLogits φ₀ o)) (scaleLogits φ o) =
      expected crossEntropy (softmax (scaleLogits φ₀ o)) (scaleLogits φ₀ o) → φ = φ₀) := by
  obtain ⟨hp, hp1⟩ := softmax_spec hc (scaleLogits φ₀ o)
  have h0 := C112_cross_entropy hc _ (fun y => (hp y).le) hp1 (scaleLogits φ₀ o)
  have h1 := C112_cross_entropy hc _ (fun y => (hp y).le) hp1 (scaleLogits φ o)
  have e0 := h0.2.2 rfl
  refine ⟨by rw [e0]; exact h1.1, fun ⟨i, j, hij⟩ heq => ?_⟩
  have hs := h1.2.1 (heq.trans e0)
  have hm : meanLogit φ o = meanLogit φ₀ o := by unfold meanLogit; rw [hs]
  rw [meanLogit_eq, meanLogit_eq] at hm
  have hinj := (tilt_strict ((o, i) : Row c) ⟨i, j, hij⟩).injective hm
  have := Real.exp_injective hinj
  linarith

/-! ## Examples -/

/-- Three inputs with two classes, one of them misclassified: a best temperature exists. -/
def exRows : List (Row 2) := [(![2, 0], 0), (![0, 3], 1), (![1, 0], 1)]

/-- The logits of a row differ. -/
theorem ex_varied : ∃ r ∈ exRows, Varied r := ⟨(![2, 0], 0), by simp [exRows], 0, 1, by norm_num⟩

example : ∃ φ, ∀ φ', tempLoss exRows φ ≤ tempLoss exRows φ' := by
  rw [C120_exists]
  right
  have h1 : maxLogit ((![2, 0], 0) : Row 2) = 2 :=
    le_antisymm (sup'_le _ _ fun j _ => by fin_cases j <;> norm_num) (le_maxLogit ((![2, 0], 0) : Row 2) 0)
  have h2 : maxLogit ((![0, 3], 1) : Row 2) = 3 :=
    le_antisymm (sup'_le _ _ fun j _ => by fin_cases j <;> norm_num) (le_maxLogit ((![0, 3], 1) : Row 2) 1)
  have h3 : maxLogit ((![1, 0], 1) : Row 2) = 1 :=
    le_antisymm (sup'_le _ _ fun j _ => by fin_cases j <;> norm_num) (le_maxLogit ((![1, 0], 1) : Row 2) 0)
  constructor
  · simp [exRows, avgLogit, Fin.sum_univ_two]; norm_num
  · simp only [exRows, List.map_cons, List.map_nil, List.sum_cons, List.sum_nil, h1, h2, h3]; norm_num

example : StrictMono (tempLoss ([(![2, 0], 0)] : List (Row 2))) :=
  (C120_exists_false _ ⟨(![2, 0], 0), by simp, 0, 1, by norm_num⟩).1 fun r hr j => by
    simp only [List.mem_singleton] at hr
    subst hr
    fin_cases j <;> norm_num

/-! ### Concrete cases that meet the hypotheses of the theorems above -/

example (φ : ℝ) (hφ : ∀ φ', tempLoss exRows φ ≤ tempLoss exRows φ') := C120_direction exRows ex_varied φ hφ (φ + 1) (by simp)
example (φ : ℝ) (hφ : ∀ φ', tempLoss exRows φ ≤ tempLoss exRows φ') := C120_step exRows ex_varied φ hφ (φ + 1) (by simp)
example := C120_scale exRows 2 (by norm_num) 0

end Verif.Props.TempLaw
