import Verif.Model.AdaptiveConformal
import Mathlib.Tactic.Linarith
import Mathlib.Tactic.NormNum
import Mathlib.Tactic.FieldSimp
import Mathlib.Algebra.Order.BigOperators.Group.List
import Mathlib.Data.List.Pairwise
import Mathlib.Algebra.Order.Archimedean.Basic

/-! Properties C06 and C07: adaptive conformal updates. -/
namespace Verif.Props

open Verif.AdaptiveConformal

theorem clip01_mem (x : ℚ) : 0 ≤ clip01 x ∧ clip01 x ≤ 1 := by
  unfold clip01; dsimp only; split_ifs <;> constructor <;> linarith

theorem clip01_of_mem (x : ℚ) (h0 : 0 ≤ x) (h1 : x ≤ 1) : clip01 x = x := by
  unfold clip01; dsimp only; split_ifs <;> linarith

theorem clip01_mono {x y : ℚ} (h : x ≤ y) : clip01 x ≤ clip01 y := by
  unfold clip01; dsimp only; split_ifs <;> linarith

/-- **C06.** Whatever the inputs, an accepted update returns an error level in `[0,1]`. -/
theorem C06_update_in_unit_interval (b : Bool) (e g τ : ℚ) (w were : Option (List ℚ)) (r : ℚ)
    (h : updateError b e g τ w were = .ok r) : 0 ≤ r ∧ r ≤ 1 := by
  unfold updateError at h
  split at h
  · cases h
  · split at h
    · cases h
    · cases h
    · cases h; exact clip01_mem _
    · split_ifs at h <;> (cases h; exact clip01_mem _)

/-- **C06.** Along every history the error level stays in `[0,1]`. -/
theorem C06_run_in_unit_interval (g τ e : ℚ) (bs : List Bool) (r : ℚ) (he : 0 ≤ e ∧ e ≤ 1)
    (h : run g τ e bs = .ok r) : 0 ≤ r ∧ r ≤ 1 := by
  induction bs generalizing e with
  | nil => cases h; exact he
  | cons b bs ih =>
    unfold run at h
    split at h
    · next e' he' => exact ih e' (C06_update_in_unit_interval _ _ _ _ _ _ _ he') h
    · cases h

example : run (1 / 10) (1 / 5) (1 / 2) [true, false, true] = .ok (23 / 50) := by decide +kernel

/-- **C06.** Covered targets never lower the error level, missed targets never raise it. -/
theorem C06_direction (b : Bool) (e g τ r : ℚ) (he : 0 ≤ e ∧ e ≤ 1) (hτ : 0 ≤ τ ∧ τ ≤ 1)
    (h : updateError b e g τ none none = .ok r) : (b = true → e ≤ r) ∧ (b = false → r ≤ e) := by
  unfold updateError at h
  split at h
  · cases h
  · next hg =>
    cases h
    have hg : 0 < g := not_le.1 hg
    rw [show e = clip01 e from (clip01_of_mem e he.1 he.2).symm]
    constructor
    · rintro rfl
      apply clip01_mono
      rw [clip01_of_mem e he.1 he.2]
      have : 0 ≤ g * τ := mul_nonneg hg.le hτ.1
      simp; linarith
    · rintro rfl
      apply clip01_mono
      rw [clip01_of_mem e he.1 he.2]
      have : 0 ≤ g * (1 - τ) := mul_nonneg hg.le (by linarith [hτ.2])
      simp; linarith

example : (0 : ℚ) ≤ 1 / 2 ∧ updateError true (1 / 2) (1 / 10) (1 / 5) none none = .ok (13 / 25) :=
  ⟨by norm_num, by decide +kernel⟩

/-- Independent description of acceptable weights: ascending, within `[0,1]`, summing to 1 up to the tolerance. -/
def ValidWeights (w : List ℚ) : Prop :=
  w.Pairwise (· ≤ ·) ∧ (∀ x ∈ w, 0 ≤ x ∧ x ≤ 1) ∧ |w.sum - 1| ≤ 1001 / 100000000

theorem anyDescent_false_iff (w : List ℚ) : anyDescent w = false ↔ w.Pairwise (· ≤ ·) := by
  induction w with
  | nil => simp [anyDescent]
  | cons a w ih =>
    cases w with
    | nil => simp [anyDescent]
    | cons b w =>
      rw [anyDescent, Bool.or_eq_false_iff, ih, decide_eq_false_iff_not, not_lt]
      constructor
      · rintro ⟨hab, hp⟩
        refine List.pairwise_cons.2 ⟨?_, hp⟩
        intro x hx
        rcases List.mem_cons.1 hx with rfl | hx
        · exact hab
        · exact le_trans hab ((List.pairwise_cons.1 hp).1 x hx)
      · intro hp
        exact ⟨(List.pairwise_cons.1 hp).1 b (by simp), (List.pairwise_cons.1 hp).2⟩

theorem badWeights_false_iff (w : List ℚ) : badWeights w = false ↔ ValidWeights w := by
  unfold badWeights ValidWeights allcloseOne
  simp only [Bool.or_eq_false_iff, anyDescent_false_iff, List.any_eq_false, decide_eq_true_eq, not_lt,
    Bool.not_eq_false', and_assoc]
  constructor
  · rintro ⟨h1, h2, h3, h4⟩
    refine ⟨h1, fun x hx => ⟨h2 x hx, h3 x hx⟩, ?_⟩
    norm_num at h4 ⊢; exact h4
  · rintro ⟨h1, h2, h3⟩
    refine ⟨h1, fun x hx => (h2 x hx).1, fun x hx => (h2 x hx).2, ?_⟩
    norm_num at h3 ⊢; exact h3

/-- **C06.** `update_error` succeeds exactly on valid arguments. -/
theorem C06_accepts_iff (b : Bool) (e g τ : ℚ) (w were : Option (List ℚ)) :
    (∃ r, updateError b e g τ w were = .ok r) ↔
      0 < g ∧ ((w = none ∧ were = none) ∨ ∃ ws hist, w = some ws ∧ were = some hist ∧ ValidWeights ws ∧
        (∀ x ∈ hist, x = 0 ∨ x = 1) ∧ ws.length = hist.length + 1) := by
  unfold updateError
  by_cases hg : g ≤ 0
  · simp [hg]
  · have hg' : 0 < g := not_le.1 hg
    rw [if_neg hg]
    rcases w with _ | ws <;> rcases were with _ | hist
    · simp [hg']
    · simp
    · simp
    · simp only [hg', reduceCtorEq, false_and, Option.some.injEq, true_and, false_or]
      by_cases h1 : badWeights ws = true
      · have : ¬ ValidWeights ws := fun h => by rw [(badWeights_false_iff ws).2 h] at h1; cases h1
        simp only [h1, if_true]
        constructor
        · rintro ⟨r, hr⟩; cases hr
        · rintro ⟨ws', hist', rfl, rfl, hv, _⟩; exact absurd hv this
      · have hv : ValidWeights ws := (badWeights_false_iff ws).1 (by simpa using h1)
        by_cases h2 : hist.any (fun x => decide (x ≠ 0 ∧ x ≠ 1)) = true
        · simp only [h1, h2, if_true]
          constructor
          · rintro ⟨r, hr⟩; cases hr
          · rintro ⟨ws', hist', rfl, rfl, _, hb, _⟩
            obtain ⟨x, hx, hd⟩ := List.any_eq_true.1 h2
            simp only [decide_eq_true_eq] at hd
            rcases hb x hx with h | h
            · exact absurd h hd.1
            · exact absurd h hd.2
        · have hb : ∀ x ∈ hist, x = 0 ∨ x = 1 := by
            intro x hx
            by_contra hcon
            apply h2
            rw [List.any_eq_true]
            exact ⟨x, hx, by simpa [not_or] using hcon⟩
          by_cases h3 : hist.length + 1 ≠ ws.length
          · rw [if_neg h1, if_neg h2, if_pos h3]
            constructor
            · rintro ⟨r, hr⟩; cases hr
            · rintro ⟨ws', hist', rfl, rfl, _, _, hl⟩; exact absurd hl.symm h3
          · push Not at h3
            simp only [h1, h2, h3]
            constructor
            · intro _; exact ⟨ws, hist, rfl, rfl, hv, hb, h3.symm⟩
            · intro _; simp

example : ValidWeights [1 / 4, 3 / 4] ∧ ∃ r, updateError false (1 / 2) (1 / 10) (1 / 5) (some [1 / 4, 3 / 4]) (some [1]) = .ok r :=
  ⟨by unfold ValidWeights; norm_num, ⟨89 / 200, by decide +kernel⟩⟩

/-- Weighted frequency of misses: `∑ w_i (1 - in_i)` over the history and the current outcome. -/
def weightedMisses (ws hist : List ℚ) (b : Bool) : ℚ :=
  ((ws.zip (hist ++ [if b then 1 else 0])).map fun p => p.1 * (1 - p.2)).sum

/-- **C06.** With weights, the update is the exact clipped step of size `gamma` from the current level along target error
minus the weighted frequency of misses; so the level rises if there were fewer misses than targeted and falls if there
were more. -/
theorem C06_weighted_update (b : Bool) (e g τ r : ℚ) (ws hist : List ℚ) (he : 0 ≤ e ∧ e ≤ 1)
    (h : updateError b e g τ (some ws) (some hist) = .ok r) :
    r = max 0 (min 1 (e + g * (τ - weightedMisses ws hist b))) ∧
    (weightedMisses ws hist b ≤ τ → e ≤ r) ∧ (τ ≤ weightedMisses ws hist b → r ≤ e) := by
  have hclip : ∀ x : ℚ, clip01 x = max 0 (min 1 x) := by
    intro x
    unfold clip01; dsimp only
    rcases le_total x 1 with h1 | h1 <;> rcases le_total 0 x with h0 | h0
    · rw [min_eq_right h1, max_eq_right h0, if_neg (not_lt.2 h1), if_neg (not_lt.2 h0)]
    · rw [min_eq_right h1, max_eq_left h0, if_neg (not_lt.2 h1)]
      split_ifs with h2
      · rfl
      · linarith
    · rw [min_eq_left h1, max_eq_right zero_le_one]
      split_ifs <;> linarith
    · linarith
  have hdot : dot ws ((hist ++ [if b then 1 else 0]).map (1 - ·)) = weightedMisses ws hist b := by
    unfold dot weightedMisses
    generalize hist ++ [if b then 1 else 0] = v
    congr 1
    clear h
    induction ws generalizing v with
    | nil => simp
    | cons w ws ih =>
      cases v with
      | nil => simp
      | cons x v => simp [ih]
  have hr : 0 < g ∧ r = clip01 (e + g * (τ - weightedMisses ws hist b)) := by
    unfold updateError at h
    split at h
    · cases h
    next hg =>
    refine ⟨not_le.1 hg, ?_⟩
    dsimp only at h
    rw [← hdot]
    split_ifs at h with _ _ _ hb <;> cases h
    · simp [hb]
    · simp [hb]
  obtain ⟨hg, hr⟩ := hr
  refine ⟨by rw [hr, hclip], ?_, ?_⟩
  · intro hle
    rw [hr, show e = clip01 e from (clip01_of_mem e he.1 he.2).symm]
    apply clip01_mono
    rw [clip01_of_mem e he.1 he.2]
    nlinarith
  · intro hle
    rw [hr, show e = clip01 e from (clip01_of_mem e he.1 he.2).symm]
    apply clip01_mono
    rw [clip01_of_mem e he.1 he.2]
    nlinarith

example : weightedMisses [1 / 4, 3 / 4] [1] false = 3 / 4 ∧
    updateError false (1 / 2) (1 / 10) (1 / 5) (some [1 / 4, 3 / 4]) (some [1]) = .ok (89 / 200) := by decide +kernel

/-- **C06.** Without weights the step is along target error minus the indicator of a miss. -/
theorem C06_unweighted_update (b : Bool) (e g τ r : ℚ) (h : updateError b e g τ none none = .ok r) :
    r = max 0 (min 1 (e + g * (τ - (if b then 0 else 1)))) := by
  unfold updateError at h
  split at h
  · cases h
  cases h
  have e1 : e + g * (τ - 1 + (if b then 1 else 0)) = e + g * (τ - (if b then 0 else 1)) := by
    cases b <;> simp
  rw [e1]
  generalize e + g * (τ - (if b then 0 else 1)) = x
  unfold clip01; dsimp only
  rcases le_total x 1 with h1 | h1 <;> rcases le_total 0 x with h0 | h0
  · rw [min_eq_right h1, max_eq_right h0, if_neg (not_lt.2 h1), if_neg (not_lt.2 h0)]
  · rw [min_eq_right h1, max_eq_left h0, if_neg (not_lt.2 h1)]
    split_ifs with h2
    · rfl
    · linarith
  · rw [min_eq_left h1, max_eq_right zero_le_one]
    split_ifs <;> linarith
  · linarith

/-- Number of missed targets in an outcome sequence. -/
def misses (bs : List Bool) : ℚ := (bs.count false : ℚ)

/-- The trajectory of error levels, each computed by `update_error`; every *unclipped* value stays in `[0,1]`. -/
def NoClip (g τ : ℚ) : ℚ → List Bool → Prop
  | _, [] => True
  | e, b :: bs => 0 ≤ e + g * (τ - (if b then 0 else 1)) ∧ e + g * (τ - (if b then 0 else 1)) ≤ 1 ∧
      NoClip g τ (e + g * (τ - (if b then 0 else 1))) bs

/-- **C07, no clipping.** If clipping never triggers, total misses are exactly `T·τ + (e₀ - e_T)/γ`, hence
the miscoverage rate is within `1/(γ T)` of the target. With clipping this fails, see `C07_with_clipping_false`. -/
theorem C07_long_run_miscoverage (g τ e r : ℚ) (hg : 0 < g) (bs : List Bool) (he : 0 ≤ e ∧ e ≤ 1)
    (hclip : NoClip g τ e bs) (h : run g τ e bs = .ok r) :
    misses bs = bs.length * τ + (e - r) / g ∧ |misses bs - bs.length * τ| ≤ 1 / g := by
  have hr := C06_run_in_unit_interval g τ e bs r he h
  have main : misses bs = bs.length * τ + (e - r) / g := by
    clear hr
    induction bs generalizing e with
    | nil => cases h; simp [misses]
    | cons b bs ih =>
      obtain ⟨h0, h1, hc⟩ := hclip
      have hstep : updateError b e g τ none none = .ok (e + g * (τ - (if b then 0 else 1))) := by
        unfold updateError
        rw [if_neg (not_le.2 hg)]
        have : e + g * (τ - 1 + (if b then 1 else 0)) = e + g * (τ - (if b then 0 else 1)) := by
          cases b <;> simp
        simp only [this]
        rw [clip01_of_mem _ h0 h1]
      simp only [run, hstep] at h
      have := ih _ ⟨h0, h1⟩ hc h
      unfold misses at this ⊢
      rw [List.count_cons]
      push_cast
      rw [this]
      cases b
      · simp; field_simp; ring
      · simp; field_simp; ring
  refine ⟨main, ?_⟩
  rw [main, show (bs.length * τ + (e - r) / g - bs.length * τ) = (e - r) / g by ring, abs_div, abs_of_pos hg]
  apply div_le_div_of_nonneg_right _ hg.le
  rw [abs_le]; constructor <;> linarith [he.1, he.2, hr.1, hr.2]

example : NoClip (1 / 10) (1 / 5) (1 / 2) [true, false, true] ∧ ∃ r, run (1 / 10) (1 / 5) (1 / 2) [true, false, true] = .ok r :=
  ⟨by simp only [NoClip]; norm_num, ⟨23 / 50, by decide +kernel⟩⟩

/-- No update goes below 0 before clipping. -/
def NoClipLow (g τ : ℚ) : ℚ → List Bool → Prop
  | _, [] => True
  | e, b :: bs => 0 ≤ e + g * (τ - (if b then 0 else 1)) ∧ NoClipLow g τ (min 1 (e + g * (τ - (if b then 0 else 1)))) bs

/-- **C07, clipping at 1 only.** If no update goes below 0 before clipping, misses are at most `T·τ + e₀/γ`. -/
theorem C07_one_sided (g τ e r : ℚ) (hg : 0 < g) (bs : List Bool) (he : 0 ≤ e ∧ e ≤ 1)
    (hclip : NoClipLow g τ e bs) (h : run g τ e bs = .ok r) : misses bs ≤ bs.length * τ + e / g := by
  have hr := C06_run_in_unit_interval g τ e bs r he h
  have main : misses bs ≤ bs.length * τ + (e - r) / g := by
    clear hr
    induction bs generalizing e with
    | nil => cases h; simp [misses]
    | cons b bs ih =>
      obtain ⟨h0, hc⟩ := hclip
      have hstep : updateError b e g τ none none = .ok (min 1 (e + g * (τ - (if b then 0 else 1)))) := by
        unfold updateError
        rw [if_neg (not_le.2 hg)]
        have : e + g * (τ - 1 + (if b then 1 else 0)) = e + g * (τ - (if b then 0 else 1)) := by
          cases b <;> simp
        simp only [this]
        unfold clip01; dsimp only
        rcases le_or_gt (e + g * (τ - (if b then 0 else 1))) 1 with h1 | h1
        · rw [if_neg (not_lt.2 h1), if_neg (not_lt.2 h0), min_eq_right h1]
        · rw [if_pos h1, if_neg (by norm_num), min_eq_left h1.le]
      simp only [run, hstep] at h
      have := ih _ ⟨le_min (by norm_num) h0, min_le_left _ _⟩ hc h
      unfold misses at this ⊢
      rw [List.count_cons]
      push_cast
      have hmin : (min 1 (e + g * (τ - (if b then 0 else 1))) - r) / g ≤ (e + g * (τ - (if b then 0 else 1)) - r) / g := by
        apply div_le_div_of_nonneg_right _ hg.le
        linarith [min_le_right 1 (e + g * (τ - (if b then 0 else 1)))]
      have hexp : (e + g * (τ - (if b then 0 else 1)) - r) / g = (e - r) / g + τ - (if b then 0 else 1) := by
        field_simp; ring
      cases b
      · simp at this hmin hexp ⊢; linarith
      · simp at this hmin hexp ⊢; linarith
  refine le_trans main ?_
  have : (e - r) / g ≤ e / g := div_le_div_of_nonneg_right (by linarith [hr.1]) hg.le
  linarith

example : NoClipLow (1 / 10) (1 / 5) (19 / 20) [true, true, true, false] ∧
    ∃ r, run (1 / 10) (1 / 5) (19 / 20) [true, true, true, false] = .ok r :=
  ⟨by simp only [NoClipLow]; norm_num, ⟨23 / 25, by decide +kernel⟩⟩

/-- No update goes above 1 before clipping. -/
def NoClipHigh (g τ : ℚ) : ℚ → List Bool → Prop
  | _, [] => True
  | e, b :: bs => e + g * (τ - (if b then 0 else 1)) ≤ 1 ∧ NoClipHigh g τ (max 0 (e + g * (τ - (if b then 0 else 1)))) bs

/-- **C07, clipping at 0 only.** If no update goes above 1 before clipping, misses are at least `T·τ - (1 - e₀)/γ`. -/
theorem C07_one_sided_below (g τ e r : ℚ) (hg : 0 < g) (bs : List Bool) (he : 0 ≤ e ∧ e ≤ 1)
    (hclip : NoClipHigh g τ e bs) (h : run g τ e bs = .ok r) : bs.length * τ - (1 - e) / g ≤ misses bs := by
  have hr := C06_run_in_unit_interval g τ e bs r he h
  have main : bs.length * τ + (e - r) / g ≤ misses bs := by
    clear hr
    induction bs generalizing e with
    | nil => cases h; simp [misses]
    | cons b bs ih =>
      obtain ⟨h0, hc⟩ := hclip
      have hstep : updateError b e g τ none none = .ok (max 0 (e + g * (τ - (if b then 0 else 1)))) := by
        unfold updateError
        rw [if_neg (not_le.2 hg)]
        have : e + g * (τ - 1 + (if b then 1 else 0)) = e + g * (τ - (if b then 0 else 1)) := by
          cases b <;> simp
        simp only [this]
        unfold clip01; dsimp only
        rw [if_neg (not_lt.2 h0)]
        rcases le_or_gt 0 (e + g * (τ - (if b then 0 else 1))) with h1 | h1
        · rw [if_neg (not_lt.2 h1), max_eq_right h1]
        · rw [if_pos h1, max_eq_left h1.le]
      simp only [run, hstep] at h
      have := ih _ ⟨le_max_left _ _, max_le (by norm_num) h0⟩ hc h
      unfold misses at this ⊢
      rw [List.count_cons]
      push_cast
      have hmax : (e + g * (τ - (if b then 0 else 1)) - r) / g ≤ (max 0 (e + g * (τ - (if b then 0 else 1))) - r) / g := by
        apply div_le_div_of_nonneg_right _ hg.le
        linarith [le_max_right 0 (e + g * (τ - (if b then 0 else 1)))]
      have hexp : (e + g * (τ - (if b then 0 else 1)) - r) / g = (e - r) / g + τ - (if b then 0 else 1) := by
        field_simp; ring
      cases b
      · simp at this hmax hexp ⊢; linarith
      · simp at this hmax hexp ⊢; linarith
  refine le_trans ?_ main
  have : -((1 - e) / g) ≤ (e - r) / g := by
    rw [← neg_div]
    exact div_le_div_of_nonneg_right (by linarith [hr.2]) hg.le
  linarith

example : NoClipHigh (1 / 10) (1 / 5) (1 / 20) [false, false, true] ∧
    ∃ r, run (1 / 10) (1 / 5) (1 / 20) [false, false, true] = .ok r :=
  ⟨by simp only [NoClipHigh]; norm_num, ⟨1 / 50, by decide +kernel⟩⟩

/-- `k` repetitions of "covered, missed". -/
def alternating : ℕ → List Bool
  | 0 => []
  | k + 1 => true :: false :: alternating k

/-- **C07, false of the code with clipping.** With `γ = τ = 1/10` and starting at error level 0 (where any set covers),
the alternating outcome sequence — covered whenever the level is 0 — misses half of the time forever: no bound of the
form `|misses - T·τ| ≤ c` holds. -/
theorem C07_with_clipping_false (c : ℚ) : ∃ bs : List Bool,
    run (1 / 10) (1 / 10) 0 bs = .ok 0 ∧ ¬ |misses bs - bs.length * (1 / 10)| ≤ c := by
  have hrun : ∀ k, run (1 / 10) (1 / 10) 0 (alternating k) = .ok 0 := by
    intro k
    induction k with
    | zero => rfl
    | succ k ih =>
      have h1 : updateError true 0 (1 / 10) (1 / 10) none none = .ok (1 / 100) := by decide +kernel
      have h2 : updateError false (1 / 100) (1 / 10) (1 / 10) none none = .ok 0 := by decide +kernel
      simp only [alternating, run, h1, h2, ih]
  have hlen : ∀ k, (alternating k).length = 2 * k ∧ (alternating k).count false = k := by
    intro k
    induction k with
    | zero => simp [alternating]
    | succ k ih => simp [alternating, ih.1, ih.2]; omega
  obtain ⟨k, hk⟩ := exists_nat_gt (c * (5 / 4))
  refine ⟨alternating k, hrun k, ?_⟩
  unfold misses
  rw [(hlen k).1, (hlen k).2, not_le]
  push_cast
  have : (k : ℚ) - 2 * k * (1 / 10) = 4 / 5 * k := by ring
  rw [this]
  refine lt_of_lt_of_le ?_ (le_abs_self _)
  linarith

/-! ### Concrete cases that meet the hypotheses of the theorems above -/

example := C06_update_in_unit_interval true (9 / 10) (1 / 2) (1 / 2) none none 1 (by decide +kernel)
example := C06_unweighted_update true (9 / 10) (1 / 2) (1 / 2) 1 (by decide +kernel)

end Verif.Props
