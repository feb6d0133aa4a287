import Verif.Props.MonteCarlo
import Verif.Lemmas.Exchangeable
import Verif.Lemmas.ListAux
import Mathlib.MeasureTheory.Measure.Typeclasses.NoAtoms
import Mathlib.MeasureTheory.Measure.Prod
import Mathlib.Probability.Distributions.Gaussian.Real

/-!
Property C114: the probability with which a quantile, or a credible interval, estimated from predictive samples bounds a new target drawn
from the predictive distribution.
-/
set_option linter.unusedSectionVars false

namespace Verif.Props.CredibleCoverage

open Verif.Predictive Verif.Quantile Verif.Props MeasureTheory ProbabilityTheory Finset

/-! ### Quantiles and counts -/

theorem interp_le_ceil {s : List ℝ} (hs : s.Pairwise (· ≤ ·)) (hne : s ≠ []) (p : ℝ) : interp s p ≤ atClamped s ⌈p⌉ := by
  by_cases h : ((⌊p⌋ : ℤ) : ℝ) = p
  · have hc : ⌈p⌉ = ⌊p⌋ := by rw [← h]; simp
    rw [interp_eq, hc, h]; simp
  · have hc : ⌊p⌋ + 1 ≤ ⌈p⌉ := by
      rw [Int.add_one_le_iff, Int.lt_ceil]
      exact lt_of_le_of_ne (Int.floor_le p) h
    exact (interp_le_atClamped hs hne p).trans (atClamped_mono hs hne hc)

variable {n : ℕ}

/-- The samples, without the last coordinate. -/
def rest (x : Fin (n + 1) → ℝ) : List ℝ := List.ofFn fun i : Fin n => x i.castSucc

/-- How many coordinates are below coordinate `i`. -/
noncomputable def below (x : Fin (n + 1) → ℝ) (i : Fin (n + 1)) : ℕ := (univ.filter fun j => x j < x i).card

/-- How many coordinates are above coordinate `i`. -/
noncomputable def above (x : Fin (n + 1) → ℝ) (i : Fin (n + 1)) : ℕ := (univ.filter fun j => x i < x j).card

theorem countP_below (x : Fin (n + 1) → ℝ) :
    (rest x).countP (fun y => decide (y < x (Fin.last n))) = below x (Fin.last n) := by
  unfold below rest
  rw [Finset.card_filter, Fin.sum_univ_castSucc, ← Finset.card_filter, Verif.ListAux.countP_ofFn]
  simp

theorem countP_above (x : Fin (n + 1) → ℝ) :
    (rest x).countP (fun y => decide (x (Fin.last n) < y)) = above x (Fin.last n) := by
  unfold above rest
  rw [Finset.card_filter, Fin.sum_univ_castSucc, ← Finset.card_filter, Verif.ListAux.countP_ofFn]
  simp

theorem countP_le (x : Fin (n + 1) → ℝ) :
    (rest x).countP (fun y => decide (y ≤ x (Fin.last n))) + above x (Fin.last n) = n := by
  rw [← countP_above]
  have h := List.length_eq_countP_add_countP (fun y => decide (y ≤ x (Fin.last n))) (l := rest x)
  rw [show (rest x).length = n by simp [rest]] at h
  refine Eq.trans ?_ h.symm
  congr 2
  funext y
  simp

theorem rest_ne (hn : 1 ≤ n) (x : Fin (n + 1) → ℝ) : rest x ≠ [] := by
  intro h
  have := congrArg List.length h
  simp [rest] at this
  omega

theorem rest_length (x : Fin (n + 1) → ℝ) : (rest x).length = n := by simp [rest]

theorem pos_bounds (hn : 1 ≤ n) {p : ℝ} (hp0 : 0 ≤ p) (hp1 : p ≤ 1) :
    0 ≤ p * ((n : ℝ) - 1) ∧ p * ((n : ℝ) - 1) ≤ (n : ℝ) - 1 := by
  have : (1 : ℝ) ≤ n := by exact_mod_cast hn
  exact ⟨mul_nonneg hp0 (by linarith), by nlinarith⟩

/-- The position that the quantile interpolates around, rounded down and up. -/
noncomputable def lowPos (n : ℕ) (p : ℝ) : ℕ := ⌊p * ((n : ℝ) - 1)⌋₊

noncomputable def highPos (n : ℕ) (p : ℝ) : ℕ := ⌈p * ((n : ℝ) - 1)⌉₊

theorem highPos_lt (hn : 1 ≤ n) {p : ℝ} (hp0 : 0 ≤ p) (hp1 : p ≤ 1) : highPos n p < n := by
  have h := (pos_bounds hn hp0 hp1).2
  have h2 : highPos n p ≤ n - 1 := Nat.ceil_le.2 (by rw [Nat.cast_sub hn]; simpa using h)
  omega

theorem low_le_high (n : ℕ) (p : ℝ) : lowPos n p ≤ highPos n p := Nat.floor_le_ceil _

/-- The quantile lies between the samples at the two positions. -/
theorem quantile_between (hn : 1 ≤ n) {p : ℝ} (hp0 : 0 ≤ p) (hp1 : p ≤ 1) (x : Fin (n + 1) → ℝ) :
    ∃ v, quantileOf (rest x) p = some v ∧ ∃ (h1 : lowPos n p < (sort (rest x)).length) (h2 : highPos n p < (sort (rest x)).length),
      (sort (rest x))[lowPos n p] ≤ v ∧ v ≤ (sort (rest x))[highPos n p] := by
  have hne := rest_ne hn x
  have hhi := highPos_lt hn hp0 hp1
  have hlo := low_le_high n p
  have hlen : (sort (rest x)).length = n := by rw [Quantile.length_sort, rest_length]
  have hpos := (pos_bounds hn hp0 hp1).1
  have hf : (lowPos n p : ℤ) = ⌊p * ((n : ℝ) - 1)⌋ := Int.natCast_floor_eq_floor hpos
  have hc : (highPos n p : ℤ) = ⌈p * ((n : ℝ) - 1)⌉ := Int.natCast_ceil_eq_ceil hpos
  refine ⟨_, quantile_of_ne hne p, by omega, by omega, ?_, ?_⟩
  · rw [rest_length]
    obtain ⟨j, hj, hjv, hje⟩ := atClamped_eq (sort (rest x)) (sort_ne_nil hne) ⌊p * ((n : ℝ) - 1)⌋
    refine le_trans (le_of_eq ?_) (atClamped_le_interp (sort_sorted _) (sort_ne_nil hne) _)
    rw [hje]
    congr 1
    omega
  · rw [rest_length]
    obtain ⟨j, hj, hjv, hje⟩ := atClamped_eq (sort (rest x)) (sort_ne_nil hne) ⌈p * ((n : ℝ) - 1)⌉
    refine le_trans (interp_le_ceil (sort_sorted _) (sort_ne_nil hne) _) (le_of_eq ?_)
    rw [hje]
    congr 1
    omega

/-- At most the quantile if few are below. -/
theorem le_quantile (hn : 1 ≤ n) {p v : ℝ} (hp0 : 0 ≤ p) (hp1 : p ≤ 1) (x : Fin (n + 1) → ℝ) (hv : quantileOf (rest x) p = some v)
    (h : below x (Fin.last n) ≤ lowPos n p) : x (Fin.last n) ≤ v := by
  obtain ⟨v', hv', h1, h2, h3, h4⟩ := quantile_between hn hp0 hp1 x
  rw [hv] at hv'; cases hv'
  have := le_kth_of_few_below (rest x) (lowPos n p + 1) (by omega) (by simpa using h1) (x (Fin.last n)) (by rw [countP_below]; omega)
  exact this.trans h3

/-- At least the quantile if few are above. -/
theorem quantile_le (hn : 1 ≤ n) {p v : ℝ} (hp0 : 0 ≤ p) (hp1 : p ≤ 1) (x : Fin (n + 1) → ℝ) (hv : quantileOf (rest x) p = some v)
    (h : above x (Fin.last n) + highPos n p < n) : v ≤ x (Fin.last n) := by
  obtain ⟨v', hv', h1, h2, h3, h4⟩ := quantile_between hn hp0 hp1 x
  rw [hv] at hv'; cases hv'
  refine h4.trans ?_
  rw [sorted_getElem_le_iff (sort_sorted _) _ h2, (sort_perm _).countP_eq]
  have := countP_le x
  omega

/-- Conversely, a coordinate different from all others and at most the quantile has few below. -/
theorem below_of_le (hn : 1 ≤ n) {p v : ℝ} (hp0 : 0 ≤ p) (hp1 : p ≤ 1) (x : Fin (n + 1) → ℝ) (hx : Function.Injective x)
    (hv : quantileOf (rest x) p = some v) (h : x (Fin.last n) ≤ v) : n ≤ above x (Fin.last n) + highPos n p := by
  by_contra hc
  obtain ⟨v', hv', h1, h2, h3, h4⟩ := quantile_between hn hp0 hp1 x
  rw [hv] at hv'; cases hv'
  have hle : (sort (rest x))[highPos n p] ≤ x (Fin.last n) := by
    rw [sorted_getElem_le_iff (sort_sorted _) _ h2, (sort_perm _).countP_eq]
    have := countP_le x
    omega
  have heq : (sort (rest x))[highPos n p] = x (Fin.last n) := le_antisymm hle (h.trans h4)
  have hmem : (sort (rest x))[highPos n p] ∈ rest x := (sort_perm _).mem_iff.1 (List.getElem_mem _)
  rw [heq, rest, List.mem_ofFn] at hmem
  obtain ⟨i, hi⟩ := hmem
  exact absurd (hx hi) (Fin.castSucc_lt_last i).ne

theorem above_of_le (hn : 1 ≤ n) {p v : ℝ} (hp0 : 0 ≤ p) (hp1 : p ≤ 1) (x : Fin (n + 1) → ℝ) (hx : Function.Injective x)
    (hv : quantileOf (rest x) p = some v) (h : v ≤ x (Fin.last n)) : lowPos n p < below x (Fin.last n) := by
  by_contra hc
  obtain ⟨v', hv', h1, h2, h3, h4⟩ := quantile_between hn hp0 hp1 x
  rw [hv] at hv'; cases hv'
  have hle : x (Fin.last n) ≤ (sort (rest x))[lowPos n p] := by
    have := le_kth_of_few_below (rest x) (lowPos n p + 1) (by omega) (by simpa using h1) (x (Fin.last n)) (by rw [countP_below]; omega)
    simpa using this
  have heq : (sort (rest x))[lowPos n p] = x (Fin.last n) := le_antisymm (h3.trans h) hle
  have hmem : (sort (rest x))[lowPos n p] ∈ rest x := (sort_perm _).mem_iff.1 (List.getElem_mem _)
  rw [heq, rest, List.mem_ofFn] at hmem
  obtain ⟨i, hi⟩ := hmem
  exact absurd (hx hi) (Fin.castSucc_lt_last i).ne

theorem below_add_above (x : Fin (n + 1) → ℝ) (hx : Function.Injective x) (i : Fin (n + 1)) : below x i + above x i = n := by
  unfold below above
  rw [← Finset.card_union_of_disjoint]
  · rw [← Finset.filter_or]
    have : (univ.filter fun j => x j < x i ∨ x i < x j) = univ.erase i := by
      ext j
      simp only [mem_filter, mem_univ, true_and, mem_erase, and_true]
      rw [← ne_iff_lt_or_gt]
      exact ⟨fun h h' => h (by rw [h']), fun h h' => h (hx h')⟩
    rw [this, card_erase_of_mem (mem_univ _)]
    simp
  · rw [Finset.disjoint_left]
    intro j h1 h2
    simp only [mem_filter, mem_univ, true_and] at h1 h2
    exact absurd h1 h2.le.not_gt

theorem below_swap (x : Fin (n + 1) → ℝ) (i : Fin (n + 1)) :
    below (x ∘ Equiv.swap i (Fin.last n)) (Fin.last n) = below x i := by
  unfold below
  simp only [Function.comp_apply, Equiv.swap_apply_right]
  apply card_bij (fun k _ => Equiv.swap i (Fin.last n) k)
  · intro k hk; simpa using hk
  · intro a _ b _ h; exact (Equiv.injective _) h
  · intro b hb
    exact ⟨Equiv.swap i (Fin.last n) b, by simpa using hb, by simp⟩

theorem above_swap (x : Fin (n + 1) → ℝ) (i : Fin (n + 1)) :
    above (x ∘ Equiv.swap i (Fin.last n)) (Fin.last n) = above x i := by
  unfold above
  simp only [Function.comp_apply, Equiv.swap_apply_right]
  apply card_bij (fun k _ => Equiv.swap i (Fin.last n) k)
  · intro k hk; simpa using hk
  · intro a _ b _ h; exact (Equiv.injective _) h
  · intro b hb
    exact ⟨Equiv.swap i (Fin.last n) b, by simpa using hb, by simp⟩

theorem many_below (x : Fin (n + 1) → ℝ) (k : ℕ) (hk : k ≤ n + 1) : k ≤ (univ.filter fun i => below x i < k).card := by
  obtain ⟨A, hA, hA'⟩ := Verif.ListAux.exists_few_below x (k : ℝ) (by rw [Fintype.card_fin]; exact_mod_cast hk)
  have h1 : k ≤ A.card := by exact_mod_cast hA
  refine h1.trans (card_le_card fun i hi => ?_)
  simp only [mem_filter, mem_univ, true_and]
  exact_mod_cast hA' i hi

theorem many_above (x : Fin (n + 1) → ℝ) (k : ℕ) (hk : k ≤ n + 1) : k ≤ (univ.filter fun i => above x i < k).card := by
  obtain ⟨A, hA, hA'⟩ := Verif.ListAux.exists_few_above x (k : ℝ) (by rw [Fintype.card_fin]; exact_mod_cast hk)
  have h1 : k ≤ A.card := by exact_mod_cast hA
  refine h1.trans (card_le_card fun i hi => ?_)
  simp only [mem_filter, mem_univ, true_and]
  exact_mod_cast hA' i hi

theorem measurable_below (i : Fin (n + 1)) : Measurable fun x : Fin (n + 1) → ℝ => below x i := by
  unfold below
  simp only [Finset.card_filter]
  exact Finset.measurable_sum _ fun j _ =>
    Measurable.ite (measurableSet_lt (measurable_pi_apply j) (measurable_pi_apply i)) measurable_const measurable_const

theorem measurable_above (i : Fin (n + 1)) : Measurable fun x : Fin (n + 1) → ℝ => above x i := by
  unfold above
  simp only [Finset.card_filter]
  exact Finset.measurable_sum _ fun j _ =>
    Measurable.ite (measurableSet_lt (measurable_pi_apply i) (measurable_pi_apply j)) measurable_const measurable_const

/-! ### Probabilities -/

section prob
variable {Ω : Type} [MeasurableSpace Ω] {μ : Measure Ω} [IsProbabilityMeasure μ] {S : Fin (n + 1) → Ω → ℝ}
  (hS : ∀ i, Measurable (S i)) (hex : Exchangeable μ S)
include hS hex

theorem coverage_real {C : Set (Fin (n + 1) → ℝ)} (hC : MeasurableSet C) {T : ℝ}
    (h : ∀ x : Fin (n + 1) → ℝ, ∃ A : Finset (Fin (n + 1)), T ≤ (A.card : ℝ) ∧ ∀ i ∈ A, (x ∘ Equiv.swap i (Fin.last n)) ∈ C) :
    T / (n + 1) ≤ μ.real {ω | (fun i => S i ω) ∈ C} := by
  have := Exchangeable.coverage μ S hS hex C hC T h
  rw [ENNReal.ofReal_le_iff_le_toReal (measure_ne_top _ _)] at this
  exact this

/-- The same when it is only known for different values and ties have probability zero. -/
theorem coverage_no_ties (hties : ∀ i j, i ≠ j → μ {ω | S i ω = S j ω} = 0) {C : Set (Fin (n + 1) → ℝ)} (hC : MeasurableSet C) {T : ℝ}
    (hT : T ≤ n + 1) (h : ∀ x : Fin (n + 1) → ℝ, Function.Injective x →
      ∃ A : Finset (Fin (n + 1)), T ≤ (A.card : ℝ) ∧ ∀ i ∈ A, (x ∘ Equiv.swap i (Fin.last n)) ∈ C)
    {E : Ω → Prop} (hE : ∀ ω, Function.Injective (fun i => S i ω) → E ω → (fun i => S i ω) ∉ C) :
    μ.real {ω | E ω} ≤ 1 - T / (n + 1) := by
  classical
  let inj : Set (Fin (n + 1) → ℝ) := {x | Function.Injective x}
  have hinj : MeasurableSet inj := by
    have : inj = ⋂ i, ⋂ j, ⋂ _ : i ≠ j, {x : Fin (n + 1) → ℝ | x i = x j}ᶜ := by
      ext x
      simp only [inj, Set.mem_iInter, Set.mem_compl_iff, Set.mem_ofPred_eq]
      exact ⟨fun h i j hne => h.ne hne, fun h i j hij => by_contra fun hne => h i j hne hij⟩
    rw [this]
    exact MeasurableSet.iInter fun i => MeasurableSet.iInter fun j => MeasurableSet.iInter fun _ =>
      (measurableSet_eq_fun (measurable_pi_apply i) (measurable_pi_apply j)).compl
  have hmain := coverage_real hS hex (hC.union hinj.compl) (T := T) (by
    intro x
    by_cases hx : Function.Injective x
    · obtain ⟨A, hA, hA'⟩ := h x hx
      exact ⟨A, hA, fun i hi => Or.inl (hA' i hi)⟩
    · refine ⟨univ, ?_, fun i _ => Or.inr fun hc => hx ?_⟩
      · rw [card_univ, Fintype.card_fin]; push_cast; exact hT
      · have hc : Function.Injective (x ∘ Equiv.swap i (Fin.last n)) := hc
        exact ((Equiv.swap i (Fin.last n)).injective_comp x).1 hc)
  have hjoint : Measurable fun ω i => S i ω := measurable_pi_lambda _ hS
  have hnull : μ {ω | (fun i => S i ω) ∈ injᶜ} = 0 := by
    have : {ω | (fun i => S i ω) ∈ injᶜ} ⊆ ⋃ i, ⋃ j, ⋃ _ : i ≠ j, {ω | S i ω = S j ω} := by
      intro ω hω
      simp only [inj, Set.mem_ofPred_eq, Set.mem_compl_iff, Function.Injective, not_forall] at hω
      obtain ⟨i, j, h, hne⟩ := hω
      simp only [Set.mem_iUnion]
      exact ⟨i, j, hne, h⟩
    refine measure_mono_null this ?_
    simp only [measure_iUnion_null_iff]
    exact hties
  have hmeas : MeasurableSet {ω | (fun i => S i ω) ∈ C ∪ injᶜ} := hjoint (hC.union hinj.compl)
  have hcompl := measureReal_compl (μ := μ) hmeas
  rw [probReal_univ] at hcompl
  have hsub : {ω | E ω} ⊆ {ω | (fun i => S i ω) ∈ C ∪ injᶜ}ᶜ ∪ {ω | (fun i => S i ω) ∈ injᶜ} := by
    intro ω hω
    by_cases hx : Function.Injective fun i => S i ω
    · refine Or.inl ?_
      intro hc
      rcases hc with hc | hc
      · exact hE ω hx hω hc
      · exact hc hx
    · exact Or.inr hx
  have h1 : μ.real {ω | E ω} ≤ μ.real {ω | (fun i => S i ω) ∈ C ∪ injᶜ}ᶜ + μ.real {ω | (fun i => S i ω) ∈ injᶜ} :=
    (measureReal_mono hsub).trans (measureReal_union_le _ _)
  have h0 : μ.real {ω | (fun i => S i ω) ∈ injᶜ} = 0 := by rw [Measure.real, hnull]; rfl
  linarith

/-- **C114, quantiles.** The quantile of level `p` of `n` samples is at least a new draw with probability at least
`(⌊p(n-1)⌋+1)/(n+1)`, and at most it with probability at least `(n-⌈p(n-1)⌉)/(n+1)`. -/
theorem C114_quantile (hn : 1 ≤ n) {p : ℝ} (hp0 : 0 ≤ p) (hp1 : p ≤ 1) :
    ((⌊p * ((n : ℝ) - 1)⌋₊ : ℝ) + 1) / (n + 1) ≤
      μ.real {ω | ∃ v, quantileOf (List.ofFn fun i : Fin n => S i.castSucc ω) p = some v ∧ S (Fin.last n) ω ≤ v} ∧
    ((n : ℝ) - ⌈p * ((n : ℝ) - 1)⌉₊) / (n + 1) ≤
      μ.real {ω | ∃ v, quantileOf (List.ofFn fun i : Fin n => S i.castSucc ω) p = some v ∧ v ≤ S (Fin.last n) ω} := by
  have hhi := highPos_lt hn hp0 hp1
  have hlo := low_le_high n p
  constructor
  · refine (coverage_real hS hex (C := {x | below x (Fin.last n) < lowPos n p + 1})
      (measurable_below _ measurableSet_Iio) (T := (lowPos n p : ℝ) + 1) (fun x => ?_)).trans (measureReal_mono fun ω hω => ?_)
    · refine ⟨univ.filter fun i => below x i < lowPos n p + 1, ?_, fun i hi => ?_⟩
      · exact_mod_cast many_below x (lowPos n p + 1) (by omega)
      · simp only [mem_filter, mem_univ, true_and] at hi
        simp only [Set.mem_ofPred_eq]
        rwa [below_swap]
    · obtain ⟨v, hv, -⟩ := quantile_between hn hp0 hp1 fun i => S i ω
      exact ⟨v, hv, le_quantile hn hp0 hp1 (fun i => S i ω) hv (Nat.lt_succ_iff.1 hω)⟩
  · refine (coverage_real hS hex (C := {x | above x (Fin.last n) < n - highPos n p})
      (measurable_above _ measurableSet_Iio) (T := (n : ℝ) - highPos n p) (fun x => ?_)).trans (measureReal_mono fun ω hω => ?_)
    · refine ⟨univ.filter fun i => above x i < n - highPos n p, ?_, fun i hi => ?_⟩
      · rw [← Nat.cast_sub hhi.le]
        exact_mod_cast many_above x (n - highPos n p) (by omega)
      · simp only [mem_filter, mem_univ, true_and] at hi
        simp only [Set.mem_ofPred_eq]
        rwa [above_swap]
    · obtain ⟨v, hv, -⟩ := quantile_between hn hp0 hp1 fun i => S i ω
      have hω : above (fun i => S i ω) (Fin.last n) < n - highPos n p := hω
      exact ⟨v, hv, quantile_le hn hp0 hp1 (fun i => S i ω) hv (by omega)⟩

/-- **C114, quantiles, the other side.** Without ties the two probabilities are at most `(⌈p(n-1)⌉+1)/(n+1)` and
`(n-⌊p(n-1)⌋)/(n+1)`. -/
theorem C114_quantile_upper (hties : ∀ i j, i ≠ j → μ {ω | S i ω = S j ω} = 0) (hn : 1 ≤ n) {p : ℝ} (hp0 : 0 ≤ p) (hp1 : p ≤ 1) :
    μ.real {ω | ∃ v, quantileOf (List.ofFn fun i : Fin n => S i.castSucc ω) p = some v ∧ S (Fin.last n) ω ≤ v} ≤
      ((⌈p * ((n : ℝ) - 1)⌉₊ : ℝ) + 1) / (n + 1) ∧
    μ.real {ω | ∃ v, quantileOf (List.ofFn fun i : Fin n => S i.castSucc ω) p = some v ∧ v ≤ S (Fin.last n) ω} ≤
      ((n : ℝ) - ⌊p * ((n : ℝ) - 1)⌋₊) / (n + 1) := by
  have hhi := highPos_lt hn hp0 hp1
  have hlo := low_le_high n p
  have hn1 : (0 : ℝ) < (n : ℝ) + 1 := by positivity
  constructor
  · refine (coverage_no_ties hS hex hties (C := {x | above x (Fin.last n) < n - highPos n p})
      (measurable_above _ measurableSet_Iio) (T := (n : ℝ) - highPos n p) (by linarith [Nat.cast_nonneg (α := ℝ) (highPos n p)])
      (fun x _ => ?_) (fun ω hx hω hc => ?_)).trans (le_of_eq ?_)
    · refine ⟨univ.filter fun i => above x i < n - highPos n p, ?_, fun i hi => ?_⟩
      · rw [← Nat.cast_sub hhi.le]
        exact_mod_cast many_above x (n - highPos n p) (by omega)
      · simp only [mem_filter, mem_univ, true_and] at hi
        simp only [Set.mem_ofPred_eq]
        rwa [above_swap]
    · obtain ⟨v, hv, hle⟩ := hω
      have h1 := below_of_le hn hp0 hp1 _ hx hv hle
      have hc : above (fun i => S i ω) (Fin.last n) < n - highPos n p := hc
      omega
    · change 1 - ((n : ℝ) - highPos n p) / (n + 1) = ((highPos n p : ℝ) + 1) / (n + 1)
      field_simp; ring
  · refine (coverage_no_ties hS hex hties (C := {x | below x (Fin.last n) < lowPos n p + 1})
      (measurable_below _ measurableSet_Iio) (T := (lowPos n p : ℝ) + 1) (by
        have : ((lowPos n p : ℕ) : ℝ) ≤ n := by exact_mod_cast (by omega : lowPos n p ≤ n)
        linarith)
      (fun x _ => ?_) (fun ω hx hω hc => ?_)).trans (le_of_eq ?_)
    · refine ⟨univ.filter fun i => below x i < lowPos n p + 1, ?_, fun i hi => ?_⟩
      · exact_mod_cast many_below x (lowPos n p + 1) (by omega)
      · simp only [mem_filter, mem_univ, true_and] at hi
        simp only [Set.mem_ofPred_eq]
        rwa [below_swap]
    · obtain ⟨v, hv, hle⟩ := hω
      have h1 := above_of_le hn hp0 hp1 _ hx hv hle
      have hc : below (fun i => S i ω) (Fin.last n) < lowPos n p + 1 := hc
      omega
    · change 1 - ((lowPos n p : ℝ) + 1) / (n + 1) = ((n : ℝ) - lowPos n p) / (n + 1)
      field_simp; ring

/-- The two-tailed interval of the samples contains the new draw. -/
def TwoTailed (samples : List ℝ) (e y : ℝ) : Prop :=
  ∃ a b, credibleInterval samples e "two-tailed" = .ok [a, b] ∧ a ≤ y ∧ y ≤ b

omit hS hex in
theorem high_compl (hn : 1 ≤ n) {q : ℝ} (hq0 : 0 ≤ q) (hq1 : q ≤ 1) : lowPos n (1 - q) + highPos n q + 1 = n ∧
    highPos n (1 - q) + lowPos n q + 1 = n := by
  have hp := pos_bounds hn hq0 hq1
  have hp' := pos_bounds hn (sub_nonneg.2 hq1) (by linarith : 1 - q ≤ 1)
  have key : ∀ r : ℝ, 0 ≤ r → r ≤ 1 → (lowPos n (1 - r) : ℤ) + highPos n r + 1 = n := by
    intro r hr0 hr1
    have h1 : (lowPos n (1 - r) : ℤ) = ⌊(1 - r) * ((n : ℝ) - 1)⌋ :=
      Int.natCast_floor_eq_floor (pos_bounds hn (sub_nonneg.2 hr1) (by linarith)).1
    have h2 : (highPos n r : ℤ) = ⌈r * ((n : ℝ) - 1)⌉ := Int.natCast_ceil_eq_ceil (pos_bounds hn hr0 hr1).1
    have h3 : (1 - r) * ((n : ℝ) - 1) = (((n : ℤ) - 1 : ℤ) : ℝ) + -(r * ((n : ℝ) - 1)) := by push_cast; ring
    rw [h1, h2, h3, Int.floor_intCast_add, Int.floor_neg]
    ring
  have k1 := key q hq0 hq1
  have k2 := key (1 - q) (sub_nonneg.2 hq1) (by linarith)
  rw [sub_sub_cancel] at k2
  omega

/-- **C114, two-tailed intervals.** The interval contains a new draw with probability at least `(n-1-2⌈e(n-1)/2⌉)/(n+1)`. -/
theorem C114_two_tailed (hn : 1 ≤ n) {e : ℝ} (he0 : 0 ≤ e) (he1 : e ≤ 1) :
    ((n : ℝ) - 1 - 2 * ⌈1 / 2 * e * ((n : ℝ) - 1)⌉₊) / (n + 1) ≤
      μ.real {ω | TwoTailed (List.ofFn fun i : Fin n => S i.castSucc ω) e (S (Fin.last n) ω)} := by
  have hq0 : 0 ≤ 1 / 2 * e := by linarith
  have hq1 : 1 / 2 * e ≤ 1 := by linarith
  have hn1 : (0 : ℝ) < (n : ℝ) + 1 := by positivity
  set k := highPos n (1 / 2 * e) with hk
  have hkn : k < n := highPos_lt hn hq0 hq1
  have hc := (high_compl hn hq0 hq1).1
  have hA := coverage_real hS hex (C := {x | below x (Fin.last n) < n - k})
      (measurable_below _ measurableSet_Iio) (T := (n : ℝ) - k) (fun x => ⟨univ.filter fun i => below x i < n - k, by
        rw [← Nat.cast_sub hkn.le]; exact_mod_cast many_below x (n - k) (by omega), fun i hi => by
        simp only [mem_filter, mem_univ, true_and] at hi
        simp only [Set.mem_ofPred_eq]
        rwa [below_swap]⟩)
  have hB := coverage_real hS hex (C := {x | above x (Fin.last n) < n - k})
      (measurable_above _ measurableSet_Iio) (T := (n : ℝ) - k) (fun x => ⟨univ.filter fun i => above x i < n - k, by
        rw [← Nat.cast_sub hkn.le]; exact_mod_cast many_above x (n - k) (by omega), fun i hi => by
        simp only [mem_filter, mem_univ, true_and] at hi
        simp only [Set.mem_ofPred_eq]
        rwa [above_swap]⟩)
  have hjoint : Measurable fun ω i => S i ω := measurable_pi_lambda _ hS
  set A : Set Ω := {ω | (fun i => S i ω) ∈ {x | below x (Fin.last n) < n - k}} with hAdef
  set B : Set Ω := {ω | (fun i => S i ω) ∈ {x | above x (Fin.last n) < n - k}} with hBdef
  have hBm : MeasurableSet B := hjoint (measurable_above _ measurableSet_Iio)
  have hun := measureReal_union_add_inter (μ := μ) (s := A) hBm
  have hle : μ.real (A ∪ B) ≤ 1 := measureReal_le_one
  have hsub : A ∩ B ⊆ {ω | TwoTailed (List.ofFn fun i : Fin n => S i.castSucc ω) e (S (Fin.last n) ω)} := by
    rintro ω ⟨h1, h2⟩
    obtain ⟨a, b, hi, ha, hb⟩ := interval_two (rest fun i => S i ω) e (rest_ne hn _)
    have h1 : below (fun i => S i ω) (Fin.last n) < n - k := h1
    have h2 : above (fun i => S i ω) (Fin.last n) < n - k := h2
    exact ⟨a, b, hi, quantile_le hn hq0 hq1 _ ha (by omega), le_quantile hn (by linarith) (by linarith) _ hb (by omega)⟩
  have hmono := measureReal_mono (μ := μ) hsub
  have heq : ((n : ℝ) - 1 - 2 * k) / (n + 1) = ((n : ℝ) - k) / (n + 1) + ((n : ℝ) - k) / (n + 1) - 1 := by
    field_simp; ring
  have hgoal : ((n : ℝ) - 1 - 2 * k) / (n + 1) ≤
      μ.real {ω | TwoTailed (List.ofFn fun i : Fin n => S i.castSucc ω) e (S (Fin.last n) ω)} := by
    rw [heq]; linarith
  exact hgoal

/-- **C114, two-tailed intervals, the other side.** Without ties the probability is at most `(n-1-2⌊e(n-1)/2⌋)/(n+1)`. -/
theorem C114_two_tailed_upper (hties : ∀ i j, i ≠ j → μ {ω | S i ω = S j ω} = 0) (hn : 1 ≤ n) {e : ℝ} (he0 : 0 ≤ e) (he1 : e ≤ 1) :
    μ.real {ω | TwoTailed (List.ofFn fun i : Fin n => S i.castSucc ω) e (S (Fin.last n) ω)} ≤
      ((n : ℝ) - 1 - 2 * ⌊1 / 2 * e * ((n : ℝ) - 1)⌋₊) / (n + 1) := by
  have hq0 : 0 ≤ 1 / 2 * e := by linarith
  have hq1 : 1 / 2 * e ≤ 1 := by linarith
  have hn1 : (0 : ℝ) < (n : ℝ) + 1 := by positivity
  have hn1' : (1 : ℝ) ≤ n := by exact_mod_cast hn
  set k := lowPos n (1 / 2 * e) with hk
  have hc := (high_compl hn hq0 hq1).2
  have hk2 : 2 * k + 1 ≤ n := by
    have h1 : (k : ℝ) ≤ 1 / 2 * e * ((n : ℝ) - 1) := Nat.floor_le (pos_bounds hn hq0 hq1).1
    have h2 : 2 * (k : ℝ) + 1 ≤ n := by nlinarith
    exact_mod_cast h2
  refine (coverage_no_ties hS hex hties (C := {x | below x (Fin.last n) < k + 1} ∪ {x | above x (Fin.last n) < k + 1})
      ((measurable_below _ measurableSet_Iio).union (measurable_above _ measurableSet_Iio)) (T := 2 * (k : ℝ) + 2)
      (by have : 2 * (k : ℝ) + 1 ≤ n := by exact_mod_cast hk2
          linarith)
      (fun x hx => ?_) (fun ω hx hω hcov => ?_)).trans (le_of_eq ?_)
  · refine ⟨(univ.filter fun i => below x i < k + 1) ∪ (univ.filter fun i => above x i < k + 1), ?_, fun i hi => ?_⟩
    · rw [Finset.card_union_of_disjoint]
      · have h1 := many_below x (k + 1) (by omega)
        have h2 := many_above x (k + 1) (by omega)
        have : 2 * k + 2 ≤ (univ.filter fun i => below x i < k + 1).card + (univ.filter fun i => above x i < k + 1).card := by omega
        exact_mod_cast this
      · rw [Finset.disjoint_left]
        intro i h1 h2
        simp only [mem_filter, mem_univ, true_and] at h1 h2
        have := below_add_above x hx i
        omega
    · simp only [mem_union, mem_filter, mem_univ, true_and] at hi
      simp only [Set.mem_union, Set.mem_ofPred_eq]
      rwa [below_swap, above_swap]
  · obtain ⟨a, b, hi, hla, hlb⟩ := hω
    obtain ⟨a', b', hi', ha, hb⟩ := interval_two (rest fun i => S i ω) e (rest_ne hn _)
    have : Except.ok [a, b] = Except.ok (ε := String) [a', b'] := hi.symm.trans hi'
    simp only [Except.ok.injEq, List.cons.injEq, and_true] at this
    obtain ⟨rfl, rfl⟩ := this
    have h1 := above_of_le hn hq0 hq1 _ hx ha hla
    have h2 := below_of_le hn (by linarith) (by linarith) _ hx hb hlb
    rcases hcov with hcov | hcov
    · have hcov : below (fun i => S i ω) (Fin.last n) < k + 1 := hcov
      omega
    · have hcov : above (fun i => S i ω) (Fin.last n) < k + 1 := hcov
      omega
  · change 1 - (2 * (k : ℝ) + 2) / (n + 1) = ((n : ℝ) - 1 - 2 * k) / (n + 1)
    field_simp; ring

/-- **C114, close to nominal.** A two-tailed interval with error `e` contains a new draw with probability more than
`1 - e - (4 - 2e)/(n + 1)`, a left-tailed bound is at most it, and a right-tailed one at least it, with probability at least
`1 - e - 2(1 - e)/(n + 1)`. -/
theorem C114_nominal (hn : 1 ≤ n) {e : ℝ} (he0 : 0 ≤ e) (he1 : e ≤ 1) :
    1 - e - (4 - 2 * e) / (n + 1) ≤ μ.real {ω | TwoTailed (List.ofFn fun i : Fin n => S i.castSucc ω) e (S (Fin.last n) ω)} ∧
    1 - e - 2 * (1 - e) / (n + 1) ≤ μ.real {ω | ∃ a, credibleInterval (List.ofFn fun i : Fin n => S i.castSucc ω) e "left-tailed" = .ok [a] ∧
      a ≤ S (Fin.last n) ω} ∧
    1 - e - 2 * (1 - e) / (n + 1) ≤ μ.real {ω | ∃ b, credibleInterval (List.ofFn fun i : Fin n => S i.castSucc ω) e "right-tailed" = .ok [b] ∧
      S (Fin.last n) ω ≤ b} := by
  have hn1 : (0 : ℝ) < (n : ℝ) + 1 := by positivity
  refine ⟨le_trans ?_ (C114_two_tailed hS hex hn he0 he1), ?_, ?_⟩
  · have h : (⌈1 / 2 * e * ((n : ℝ) - 1)⌉₊ : ℝ) < 1 / 2 * e * ((n : ℝ) - 1) + 1 :=
      Nat.ceil_lt_add_one (pos_bounds hn (by linarith) (by linarith)).1
    rw [le_div_iff₀ hn1, sub_mul, div_mul_cancel₀ _ hn1.ne']
    linarith
  · refine le_trans ?_ ((C114_quantile hS hex hn he0 he1).2.trans (measureReal_mono fun ω hω => ?_))
    · have h : (⌈e * ((n : ℝ) - 1)⌉₊ : ℝ) < e * ((n : ℝ) - 1) + 1 := Nat.ceil_lt_add_one (pos_bounds hn he0 he1).1
      rw [le_div_iff₀ hn1, sub_mul, div_mul_cancel₀ _ hn1.ne']
      linarith
    · obtain ⟨v, hv, hle⟩ := hω
      obtain ⟨a, ha, hi⟩ := (C48_one_tailed (rest fun i => S i ω) (rest_ne hn _) e).1
      have : some v = some a := hv.symm.trans ha
      cases this
      exact ⟨v, hi, hle⟩
  · refine le_trans ?_ ((C114_quantile hS hex hn (sub_nonneg.2 he1) (by linarith : 1 - e ≤ 1)).1.trans (measureReal_mono fun ω hω => ?_))
    · have h : (1 - e) * ((n : ℝ) - 1) < (⌊(1 - e) * ((n : ℝ) - 1)⌋₊ : ℝ) + 1 := Nat.lt_floor_add_one _
      rw [le_div_iff₀ hn1, sub_mul, div_mul_cancel₀ _ hn1.ne']
      linarith
    · obtain ⟨v, hv, hle⟩ := hω
      obtain ⟨b, hb, hi⟩ := (C48_one_tailed (rest fun i => S i ω) (rest_ne hn _) e).2.1
      have : some v = some b := hv.symm.trans hb
      cases this
      exact ⟨v, hi, hle⟩

/-- **C114, negation.** The nominal probability is not reached: without ties, whenever `e(n-1)/2` is a whole number the interval
contains a new draw with probability exactly `(1-e)(n-1)/(n+1)`, which is less than `1-e` unless `e = 1`. -/
theorem C114_nominal_false (hties : ∀ i j, i ≠ j → μ {ω | S i ω = S j ω} = 0) (hn : 1 ≤ n) {e : ℝ} (he0 : 0 ≤ e) (he1 : e < 1) (k : ℕ)
    (hk : 1 / 2 * e * ((n : ℝ) - 1) = k) :
    μ.real {ω | TwoTailed (List.ofFn fun i : Fin n => S i.castSucc ω) e (S (Fin.last n) ω)} = (1 - e) * (n - 1) / (n + 1) ∧
    (1 - e) * (n - 1) / (n + 1) < 1 - e := by
  have hn1 : (0 : ℝ) < (n : ℝ) + 1 := by positivity
  have h1 := C114_two_tailed hS hex hn he0 he1.le
  have h2 := C114_two_tailed_upper hS hex hties hn he0 he1.le
  rw [hk, Nat.ceil_natCast] at h1
  rw [hk, Nat.floor_natCast] at h2
  have h3 : (1 - e) * ((n : ℝ) - 1) = (n : ℝ) - 1 - 2 * k := by rw [← hk]; ring
  rw [h3]
  refine ⟨le_antisymm h2 h1, ?_⟩
  rw [← h3, div_lt_iff₀ hn1]
  nlinarith

end prob

/-! ### Independent draws -/

section draws
variable {Key Ω : Type} [MeasurableSpace Ω] {y : Key → Ω → ℝ} {Q : Measure ℝ} {μ : Measure Ω} [IsProbabilityMeasure μ]

/-- Targets drawn with different keys are exchangeable. -/
theorem draws_exchangeable (D : MonteCarlo.Draws y Q μ) (ks : Fin (n + 1) → Key) (hks : Function.Injective ks) :
    Exchangeable μ fun i => y (ks i) := by
  intro σ
  have key : ∀ τ : Equiv.Perm (Fin (n + 1)), μ.map (fun ω i => y (ks (τ i)) ω) = Measure.pi fun _ : Fin (n + 1) => Q := by
    intro τ
    have hi : iIndepFun (fun i => y (ks (τ i))) μ := D.indep.precomp (hks.comp τ.injective)
    rw [iIndepFun_iff_map_fun_eq_pi_map fun i => (D.meas _).aemeasurable] at hi
    rw [hi]
    congr 1
    funext i
    exact D.law _
  have h1 := key σ
  have h2 := key 1
  simp only [Equiv.Perm.coe_one, id_eq] at h2
  rw [h1, h2]

/-- Ties have probability zero if no target has a positive probability. -/
theorem draws_no_ties (D : MonteCarlo.Draws y Q μ) [NullSingletonClass Q] (ks : Fin (n + 1) → Key) (hks : Function.Injective ks)
    (i j : Fin (n + 1)) (hij : i ≠ j) : μ {ω | y (ks i) ω = y (ks j) ω} = 0 := by
  have : IsProbabilityMeasure Q := by
    rw [← D.law (ks 0)]
    exact Measure.isProbabilityMeasure_map (D.meas _).aemeasurable
  have hind : IndepFun (y (ks i)) (y (ks j)) μ := D.indep.indepFun fun h => hij (hks h)
  rw [indepFun_iff_map_prod_eq_prod_map_map (D.meas _).aemeasurable (D.meas _).aemeasurable, D.law, D.law] at hind
  have hdiag : MeasurableSet {p : ℝ × ℝ | p.1 = p.2} := measurableSet_eq_fun measurable_fst measurable_snd
  have h := Measure.map_apply (μ := μ) ((D.meas (ks i)).prodMk (D.meas (ks j))) hdiag
  rw [hind] at h
  have h0 : (Q.prod Q) {p : ℝ × ℝ | p.1 = p.2} = 0 := by
    rw [Measure.measure_prod_null hdiag]
    filter_upwards with a
    have : Prod.mk a ⁻¹' {p : ℝ × ℝ | p.1 = p.2} = {a} := by
      ext b
      simp only [Set.mem_preimage, Set.mem_ofPred_eq, Set.mem_singleton_iff]
      exact eq_comm
    rw [this]
    exact measure_singleton a
  rw [h0] at h
  exact h.symm

/-- **C114, independent targets.** With targets drawn independently from a predictive distribution without atoms, a two-tailed
interval from `n` of them contains another with probability between `1 - e - (4 - 2e)/(n+1)` and `1 - e + 2e/(n+1)`, so close to
nominal for many samples. -/
theorem C114_draws (D : MonteCarlo.Draws y Q μ) [NullSingletonClass Q] (ks : Fin (n + 1) → Key) (hks : Function.Injective ks) (hn : 1 ≤ n) {e : ℝ}
    (he0 : 0 ≤ e) (he1 : e ≤ 1) :
    |μ.real {ω | TwoTailed (List.ofFn fun i : Fin n => y (ks i.castSucc) ω) e (y (ks (Fin.last n)) ω)} - (1 - e)| ≤ 4 / (n + 1) := by
  have hn1 : (0 : ℝ) < (n : ℝ) + 1 := by positivity
  have hS : ∀ i, Measurable (y (ks i)) := fun i => D.meas _
  have hex := draws_exchangeable D ks hks
  have h1 := (C114_nominal hS hex hn he0 he1).1
  have h2 := C114_two_tailed_upper hS hex (draws_no_ties D ks hks) hn he0 he1
  set P := μ.real {ω | TwoTailed (List.ofFn fun i : Fin n => y (ks i.castSucc) ω) e (y (ks (Fin.last n)) ω)} with hP
  have h3 : 1 / 2 * e * ((n : ℝ) - 1) < (⌊1 / 2 * e * ((n : ℝ) - 1)⌋₊ : ℝ) + 1 := Nat.lt_floor_add_one _
  have h4 : P ≤ 1 - e + 2 * e / (n + 1) := by
    refine h2.trans ?_
    rw [div_le_iff₀ hn1, add_mul, div_mul_cancel₀ _ hn1.ne']
    linarith
  rw [abs_le]
  constructor
  · have : (4 - 2 * e) / ((n : ℝ) + 1) ≤ 4 / (n + 1) := by gcongr; linarith
    linarith
  · have : 2 * e / ((n : ℝ) + 1) ≤ 4 / (n + 1) := by gcongr; linarith
    linarith

end draws

/-! ### A standard Gaussian predictive -/

theorem gauss_draws : MonteCarlo.Draws (Key := ℕ) (fun k (ω : ℕ → ℝ) => ω k) (gaussianReal 0 1)
    (Measure.infinitePi fun _ : ℕ => gaussianReal 0 1) :=
  ⟨fun k => measurable_pi_apply k, iIndepFun_infinitePi (X := fun _ x => x) fun _ => measurable_id, fun k => Measure.infinitePi_map_eval _ k⟩

/-- A 90% interval from 21 samples of a standard Gaussian contains another sample with probability 9/11. -/
example : (Measure.infinitePi fun _ : ℕ => gaussianReal 0 1).real
    {ω | TwoTailed (List.ofFn fun i : Fin 21 => ω i.castSucc) (1 / 10) (ω (Fin.last 21))} = 9 / 11 := by
  have : NullSingletonClass (gaussianReal 0 1) := nullSingletonClass_gaussianReal one_ne_zero
  have hinj : Function.Injective fun i : Fin (21 + 1) => (i : ℕ) := Fin.val_injective
  have h := (C114_nominal_false (fun i => gauss_draws.meas _) (draws_exchangeable gauss_draws _ hinj) (draws_no_ties gauss_draws _ hinj)
    (by norm_num) (e := 1 / 10) (by norm_num) (by norm_num) 1 (by norm_num)).1
  norm_num at h ⊢
  exact h

/-! ### Concrete cases that meet the hypotheses of the theorems above -/

/-- 21 samples and a target. -/
theorem gauss_scores : (∀ i : Fin 22, Measurable fun ω : ℕ → ℝ => ω i) ∧
    Exchangeable (Measure.infinitePi fun _ : ℕ => gaussianReal 0 1) (fun (i : Fin 22) ω => ω i) ∧
    ∀ i j : Fin 22, i ≠ j → (Measure.infinitePi fun _ : ℕ => gaussianReal 0 1) {ω | ω i = ω j} = 0 := by
  have : NullSingletonClass (gaussianReal 0 1) := nullSingletonClass_gaussianReal one_ne_zero
  have hinj : Function.Injective fun i : Fin (21 + 1) => (i : ℕ) := Fin.val_injective
  exact ⟨fun i => gauss_draws.meas _, draws_exchangeable gauss_draws _ hinj, draws_no_ties gauss_draws _ hinj⟩

example := C114_quantile (n := 21) gauss_scores.1 gauss_scores.2.1 (by norm_num) (p := 9 / 10) (by norm_num) (by norm_num)
example := C114_quantile_upper (n := 21) gauss_scores.1 gauss_scores.2.1 gauss_scores.2.2 (by norm_num) (p := 9 / 10) (by norm_num) (by norm_num)
example := C114_two_tailed (n := 21) gauss_scores.1 gauss_scores.2.1 (by norm_num) (e := 1 / 10) (by norm_num) (by norm_num)
example := C114_two_tailed_upper (n := 21) gauss_scores.1 gauss_scores.2.1 gauss_scores.2.2 (by norm_num) (e := 1 / 10) (by norm_num) (by norm_num)
example := C114_nominal (n := 21) gauss_scores.1 gauss_scores.2.1 (by norm_num) (e := 1 / 10) (by norm_num) (by norm_num)

end Verif.Props.CredibleCoverage
