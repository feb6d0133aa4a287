import Verif.Props.ConformalRegression
import Verif.Props.ClassCoverage
import Verif.Props.JackknifeCoverage

/-!
Property C10, continued: from exchangeable data and a model to the coverage of conformal intervals, and how far they can exceed it.
-/
set_option linter.unusedSectionVars false

namespace Verif.Props.RegressionCoverage

open Verif Verif.Quantile Verif.ConformalRegression Verif.Props Finset MeasureTheory

section Counting

variable {K : Type*} [Field K] [LinearOrder K] [IsStrictOrderedRing K] [FloorRing K]

/-- At most `⌈(n + 1) (1 - e)⌉` scores are smaller than a number which is at most the quantile. -/
theorem few_below_quantile (s : List K) (x e q : K) (hq : scoresQuantile s e = .ok q) (hx : x ≤ q) :
    ((s.countP fun y => decide (y < x) : ℕ) : ℤ) ≤ ⌈((s.length : K) + 1) * (1 - e)⌉ := by
  obtain ⟨h0, h1, hq⟩ := scoresQuantile_ok hq
  obtain ⟨hs, rfl⟩ := quantile_some hq
  have hn : 1 ≤ s.length := List.length_pos_iff.2 hs
  have hnK : (1 : K) ≤ s.length := by exact_mod_cast hn
  set k : ℤ := ⌈((s.length : K) + 1) * (1 - e)⌉ with hk
  have hk0 : 0 ≤ k := Int.ceil_nonneg (mul_nonneg (by linarith) (by linarith))
  have hup : interp (sort s) ((k : K) / s.length * ((s.length : K) - 1)) ≤ atClamped (sort s) k := by
    rcases hk0.eq_or_lt with h | h
    · rw [← h, interp_eq]
      simp
    · refine (interp_le_atClamped (sort_sorted s) (sort_ne_nil hs) _).trans
        (atClamped_mono (sort_sorted s) (sort_ne_nil hs) ?_)
      have : ⌊(k : K) / s.length * ((s.length : K) - 1)⌋ < k := by
        rw [Int.floor_lt]
        have hkK : (0 : K) < k := by exact_mod_cast h
        have h3 : (k : K) / s.length * ((s.length : K) - 1) = k - (k : K) / s.length := by
          field_simp
        rw [h3]
        have : 0 < (k : K) / s.length := by positivity
        linarith
      omega
  have hxk := hx.trans hup
  rcases lt_or_ge k (s.length : ℤ) with hkn | hkn
  · obtain ⟨b, hb, hbv, hbe⟩ := atClamped_eq (sort s) (sort_ne_nil hs) k
    rw [hbe] at hxk
    rw [Quantile.length_sort] at hbv
    have hbk : (b : ℤ) = k := by omega
    rw [← (sort_perm s).countP_eq, ← List.take_append_drop b (sort s), List.countP_append]
    have h2 : (List.drop b (sort s)).countP (fun y => decide (y < x)) = 0 := by
      rw [List.countP_eq_zero]
      intro y hy
      rw [List.mem_drop_iff_getElem] at hy
      obtain ⟨i, hi, rfl⟩ := hy
      have := sorted_getElem_le (sort_sorted s) hb (show b + i < _ by omega) (by omega)
      simpa using hxk.trans this
    have h3 : (List.take b (sort s)).countP (fun y => decide (y < x)) ≤ b := List.countP_le_length.trans (by simp)
    omega
  · have := List.countP_le_length (p := fun y => decide (y < x)) (l := s)
    omega

theorem uCovered_iff (cal : List (K × K × K)) (pt : K × K × K) (e : K) (hpos : ∀ d ∈ cal, 0 < d.2.1) (hpt : 0 < pt.2.1) :
    UCovered cal pt e ↔ ∃ q, scoresQuantile (cal.map uScoreOf) e = .ok q ∧ uScoreOf pt ≤ q := by
  constructor
  · rintro ⟨iv, h, hin⟩
    unfold onedimInterval at h
    rw [if_neg (by simpa using hpt)] at h
    cases hqq : onedimQuantile (cal.map (·.1)) (cal.map (·.2.1)) (cal.map (·.2.2)) e with
    | error m =>
      rw [hqq] at h
      cases h
    | ok q =>
      rw [hqq] at h
      have h' : [(pt.1 - pt.2.1 * q, pt.1 + pt.2.1 * q)] = [iv] := by
        injection h
      cases h'
      refine ⟨q, ?_, ?_⟩
      · unfold onedimQuantile at hqq
        rw [onedimScore_map _ hpos] at hqq
        split at hqq
        · cases hqq
        · exact hqq
      · rw [isIn_singleton] at hin
        unfold uScoreOf
        rw [div_le_iff₀ hpt, abs_le]
        dsimp only at hin
        constructor <;> linarith [hin.1, hin.2]
  · rintro ⟨q, hq, hle⟩
    exact uCovered_of cal pt e hpos hpt q hq hle

end Counting

/-! ### Probabilities -/

theorem exchangeable_scores_at_most {Ω : Type*} [MeasurableSpace Ω] (μ : Measure Ω) [IsProbabilityMeasure μ] {n : ℕ}
    (S : Fin (n + 1) → Ω → ℝ) (hS : ∀ i, Measurable (S i)) (hex : Exchangeable μ S)
    (hties : ∀ i j, i ≠ j → μ {ω | S i ω = S j ω} = 0) (e : ℝ) (he1 : e ≤ 1) :
    μ {ω | ∃ q, scoresQuantile (List.ofFn fun i : Fin n => S i.castSucc ω) e = .ok q ∧ S (Fin.last n) ω ≤ q} ≤
      ENNReal.ofReal ((⌈((n : ℝ) + 1) * (1 - e)⌉₊ + 1) / (n + 1)) := by
  have hneg : Exchangeable μ fun i ω => -S i ω :=
    ClassCoverage.exchangeable_comp hS hex (g := fun x => -x) measurable_neg
  have h := ClassCoverage.exchangeable_at_most μ (fun i ω => -S i ω) (fun i => (hS i).neg) hneg
    (fun i j hne => by simpa only [neg_inj] using hties i j hne) ((⌈((n : ℝ) + 1) * (1 - e)⌉₊ + 1 : ℕ) : ℚ)
  rw [Nat.ceil_natCast] at h
  push_cast at h
  refine (measure_mono ?_).trans h
  rintro ω ⟨q, hq, hle⟩
  have hb := few_below_quantile _ _ _ _ hq hle
  simp only [Set.mem_ofPred_eq, neg_lt_neg_iff]
  have hcnt : (List.ofFn fun i : Fin n => S i.castSucc ω).countP (fun v => decide (v < S (Fin.last n) ω)) =
      (univ.filter fun j => S j ω < S (Fin.last n) ω).card := by
    rw [Finset.card_filter, Fin.sum_univ_castSucc]
    simp only [lt_self_iff_false, if_false, add_zero]
    rw [← Finset.card_filter, Verif.ListAux.countP_ofFn]
    simp
  rw [hcnt, List.length_ofFn, ← Int.natCast_ceil_eq_ceil (mul_nonneg (by positivity) (by linarith))] at hb
  exact_mod_cast Nat.lt_succ_of_le (by exact_mod_cast hb)

variable {X : Type*} [MeasurableSpace X] {n : ℕ}

/-- The interval for the last point, calibrated on the others, covers its target; `lo` and `hi` are the bounds that a model gives. -/
def QuantileCovers (lo hi : X → ℝ) (e : ℝ) (z : Fin (n + 1) → X × ℝ) : Prop :=
  ∃ iv, quantileInterval (List.ofFn fun i : Fin n => lo (z i.castSucc).1) (List.ofFn fun i : Fin n => hi (z i.castSucc).1)
      [lo (z (Fin.last n)).1] [hi (z (Fin.last n)).1] (List.ofFn fun i : Fin n => (z i.castSucc).2) e none = .ok [iv] ∧
    isIn [(z (Fin.last n)).2] [iv] = [true]

/-- The same with a prediction and an uncertainty. -/
def OnedimCovers (pred unc : X → ℝ) (e : ℝ) (z : Fin (n + 1) → X × ℝ) : Prop :=
  ∃ iv, onedimInterval (List.ofFn fun i : Fin n => pred (z i.castSucc).1) (List.ofFn fun i : Fin n => unc (z i.castSucc).1)
      [pred (z (Fin.last n)).1] [unc (z (Fin.last n)).1] (List.ofFn fun i : Fin n => (z i.castSucc).2) e none = .ok [iv] ∧
    isIn [(z (Fin.last n)).2] [iv] = [true]

theorem quantileCovers_iff (lo hi : X → ℝ) (e : ℝ) (z : Fin (n + 1) → X × ℝ) :
    QuantileCovers lo hi e z ↔ QCovered (List.ofFn fun i : Fin n => (lo (z i.castSucc).1, hi (z i.castSucc).1, (z i.castSucc).2))
      (lo (z (Fin.last n)).1, hi (z (Fin.last n)).1, (z (Fin.last n)).2) e := by
  unfold QuantileCovers QCovered
  simp only [List.map_ofFn, Function.comp_def]

theorem onedimCovers_iff (pred unc : X → ℝ) (e : ℝ) (z : Fin (n + 1) → X × ℝ) :
    OnedimCovers pred unc e z ↔ UCovered (List.ofFn fun i : Fin n => (pred (z i.castSucc).1, unc (z i.castSucc).1, (z i.castSucc).2))
      (pred (z (Fin.last n)).1, unc (z (Fin.last n)).1, (z (Fin.last n)).2) e := by
  unfold OnedimCovers UCovered
  simp only [List.map_ofFn, Function.comp_def]

/-- **C10, from data.** Exchangeable data and any model of bounds: the interval of `QuantileConformalRegressor` covers the test target with
probability at least `1 - e`; without ties of scores, at most `(⌈(n + 1) (1 - e)⌉ + 1) / (n + 1)`. -/
theorem C10_quantile_data {Ω : Type*} [MeasurableSpace Ω] (μ : Measure Ω) [IsProbabilityMeasure μ] (hn : 1 ≤ n) (lo hi : X → ℝ)
    (hlo : Measurable lo) (hhi : Measurable hi) (D : Fin (n + 1) → Ω → X × ℝ) (hD : ∀ i, Measurable (D i)) (hex : Exchangeable μ D)
    (e : ℝ) (he : 1 / ((n : ℝ) + 1) ≤ e) (he1 : e ≤ 1) :
    ENNReal.ofReal (1 - e) ≤ μ {ω | QuantileCovers lo hi e fun i => D i ω} ∧
    ((∀ i j, i ≠ j → μ {ω | max (lo (D i ω).1 - (D i ω).2) ((D i ω).2 - hi (D i ω).1) =
        max (lo (D j ω).1 - (D j ω).2) ((D j ω).2 - hi (D j ω).1)} = 0) →
      μ {ω | QuantileCovers lo hi e fun i => D i ω} ≤ ENNReal.ofReal ((⌈((n : ℝ) + 1) * (1 - e)⌉₊ + 1) / (n + 1))) := by
  have hg : Measurable fun z : X × ℝ => qScoreOf (lo z.1, hi z.1, z.2) := by
    unfold qScoreOf
    exact ((hlo.comp measurable_fst).sub measurable_snd).max (measurable_snd.sub (hhi.comp measurable_fst))
  have hS : ∀ i, Measurable fun ω => qScoreOf (lo (D i ω).1, hi (D i ω).1, (D i ω).2) := fun i => hg.comp (hD i)
  have hexS := ClassCoverage.exchangeable_comp hD hex hg
  simp only [quantileCovers_iff]
  refine ⟨C10_quantile_exchangeable μ hn (fun i ω => (lo (D i ω).1, hi (D i ω).1, (D i ω).2)) hS hexS e he he1, fun hties => ?_⟩
  refine (measure_mono ?_).trans (exchangeable_scores_at_most μ _ hS hexS hties e he1)
  intro ω hω
  simp only [Set.mem_ofPred_eq, qCovered_iff, List.map_ofFn] at hω
  exact hω

/-- **C10, from data**, for `OneDimensionalUncertaintyConformalRegressor`. -/
theorem C10_onedim_data {Ω : Type*} [MeasurableSpace Ω] (μ : Measure Ω) [IsProbabilityMeasure μ] (hn : 1 ≤ n) (pred unc : X → ℝ)
    (hpred : Measurable pred) (hunc : Measurable unc) (hpos : ∀ x, 0 < unc x) (D : Fin (n + 1) → Ω → X × ℝ)
    (hD : ∀ i, Measurable (D i)) (hex : Exchangeable μ D) (e : ℝ) (he : 1 / ((n : ℝ) + 1) ≤ e) (he1 : e ≤ 1) :
    ENNReal.ofReal (1 - e) ≤ μ {ω | OnedimCovers pred unc e fun i => D i ω} ∧
    ((∀ i j, i ≠ j → μ {ω | |(D i ω).2 - pred (D i ω).1| / unc (D i ω).1 = |(D j ω).2 - pred (D j ω).1| / unc (D j ω).1} = 0) →
      μ {ω | OnedimCovers pred unc e fun i => D i ω} ≤ ENNReal.ofReal ((⌈((n : ℝ) + 1) * (1 - e)⌉₊ + 1) / (n + 1))) := by
  have hg : Measurable fun z : X × ℝ => uScoreOf (pred z.1, unc z.1, z.2) := by
    unfold uScoreOf
    exact (measurable_snd.sub (hpred.comp measurable_fst)).abs.div (hunc.comp measurable_fst)
  have hS : ∀ i, Measurable fun ω => uScoreOf (pred (D i ω).1, unc (D i ω).1, (D i ω).2) := fun i => hg.comp (hD i)
  have hexS := ClassCoverage.exchangeable_comp hD hex hg
  simp only [onedimCovers_iff]
  refine ⟨C10_onedim_exchangeable μ hn (fun i ω => (pred (D i ω).1, unc (D i ω).1, (D i ω).2)) (fun _ _ => hpos _) hS hexS e he he1,
    fun hties => ?_⟩
  refine (measure_mono ?_).trans (exchangeable_scores_at_most μ _ hS hexS hties e he1)
  intro ω hω
  simp only [Set.mem_ofPred_eq] at hω
  rw [uCovered_iff _ _ _ (by
    intro d hd
    rw [List.mem_ofFn] at hd
    obtain ⟨i, rfl⟩ := hd
    exact hpos _) (hpos _), List.map_ofFn] at hω
  exact hω

/-! ### The bound from above is attained -/

/-- Targets `0, 1, …, k` and others that are much larger. -/
noncomputable def farAfter (n k : ℕ) (i : Fin (n + 1)) : ℝ := if i.val ≤ k then (i.val : ℝ) else n * k + i.val

theorem le_farAfter (n k : ℕ) (i : Fin (n + 1)) : (i.val : ℝ) ≤ farAfter n k i := by
  unfold farAfter
  split
  · exact le_rfl
  · have : (0 : ℝ) ≤ (n : ℝ) * k := by positivity
    linarith

theorem farAfter_strictMono (n k : ℕ) : StrictMono (farAfter n k) := by
  intro i j hij
  have hlt : (i.val : ℝ) < (j.val : ℝ) := by exact_mod_cast hij
  have h0 : (0 : ℝ) ≤ (n : ℝ) * k := by positivity
  unfold farAfter
  have hij' : i.val < j.val := hij
  by_cases h1 : i.val ≤ k
  · rw [if_pos h1]
    split <;> linarith
  · rw [if_neg h1, if_neg (by omega)]
    linarith

theorem countP_rest {n : ℕ} (v : Fin (n + 1) → ℝ) (τ : Equiv.Perm (Fin (n + 1))) (x : ℝ) (B : Finset (Fin (n + 1)))
    (hB : ∀ i, i ≠ τ (Fin.last n) → v i < x → i ∈ B) :
    (List.ofFn fun i : Fin n => v (τ i.castSucc)).countP (fun y => decide (y < x)) ≤ B.card := by
  rw [Verif.ListAux.countP_ofFn]
  apply card_le_card_of_injOn (fun i : Fin n => τ i.castSucc)
  · intro i hi
    simp only [coe_filter, mem_univ, true_and, Set.mem_ofPred_eq, decide_eq_true_eq] at hi
    refine hB _ (fun h => ?_) hi
    exact (Fin.castSucc_lt_last i).ne (τ.injective h)
  · intro i _ j _ h
    exact Fin.castSucc_injective _ (τ.injective h)

theorem card_val_lt (n m : ℕ) : (univ.filter fun i : Fin (n + 1) => i.val < m).card ≤ m := by
  rw [← card_range m]
  apply card_le_card_of_injOn (fun i : Fin (n + 1) => i.val)
  · intro i hi
    simpa using hi
  · intro i _ j _ h
    exact Fin.ext h

theorem farAfter_covered {n : ℕ} (e : ℝ) (he0 : 0 ≤ e) (he1 : e ≤ 1) (k : ℕ) (hk : (k : ℤ) = ⌈((n : ℝ) + 1) * (1 - e)⌉) (hk1 : 1 ≤ k)
    (hkn : k < n) (τ : Equiv.Perm (Fin (n + 1))) (hτ : (τ (Fin.last n)).val ≤ k) :
    ∃ q, scoresQuantile (List.ofFn fun i : Fin n => farAfter n k (τ i.castSucc)) e = .ok q ∧ farAfter n k (τ (Fin.last n)) ≤ q := by
  set s := List.ofFn fun i : Fin n => farAfter n k (τ i.castSucc) with hs
  have hlen : s.length = n := by simp [hs]
  have hne : s ≠ [] := by
    intro h0
    rw [h0] at hlen
    simp at hlen
    omega
  have hnK : (0 : ℝ) < n := by
    have : 0 < n := by omega
    exact_mod_cast this
  obtain ⟨q, hq⟩ := scoresQuantile_of_ne hne he0 he1
  refine ⟨q, hq, ?_⟩
  have he : 1 / ((n : ℝ) + 1) ≤ e := by
    rw [div_le_iff₀ (by linarith)]
    have h1 : ((n : ℝ) + 1) * (1 - e) ≤ (k : ℝ) := by
      have := Int.le_ceil (((n : ℝ) + 1) * (1 - e))
      rw [← hk] at this
      exact_mod_cast this
    have h2 : (k : ℝ) ≤ n := by exact_mod_cast hkn.le
    linarith
  have hval : farAfter n k (τ (Fin.last n)) = (τ (Fin.last n)).val := if_pos hτ
  rcases hτ.lt_or_eq with hlt | heq
  · refine le_scoresQuantile s hne _ e q (by rw [hlen]; exact he) ?_ hq
    rw [hlen, ← hk]
    have := countP_rest (farAfter n k) τ (farAfter n k (τ (Fin.last n))) (univ.filter fun i => i.val < (τ (Fin.last n)).val) (by
      intro i _ hi
      rw [hval] at hi
      have := (le_farAfter n k i).trans_lt hi
      simpa using (by exact_mod_cast this : i.val < (τ (Fin.last n)).val))
    have h2 := card_val_lt n (τ (Fin.last n)).val
    rw [← hs] at this
    omega
  · rw [hval, heq]
    obtain ⟨-, -, hq⟩ := scoresQuantile_ok hq
    obtain ⟨-, rfl⟩ := quantile_some hq
    rw [hlen, ← hk]
    set p : ℝ := ((k : ℤ) : ℝ) / n * ((n : ℝ) - 1) with hp
    have hpk : p = k - (k : ℝ) / n := by
      rw [hp]
      push_cast
      field_simp
    have hkK : (0 : ℝ) < k := by exact_mod_cast hk1
    have hkn' : (k : ℝ) / n < 1 := by
      rw [div_lt_one hnK]
      exact_mod_cast hkn
    have hkn0 : 0 < (k : ℝ) / n := by positivity
    have hfl : ⌊p⌋ = (k : ℤ) - 1 := by
      rw [Int.floor_eq_iff]
      push_cast
      constructor <;> linarith
    rw [interp_eq, hfl]
    obtain ⟨a, ha, -, hae⟩ := atClamped_eq (sort s) (sort_ne_nil hne) ((k : ℤ) - 1)
    obtain ⟨b, hb, hbv, hbe⟩ := atClamped_eq (sort s) (sort_ne_nil hne) ((k : ℤ) - 1 + 1)
    rw [Quantile.length_sort, hlen] at hbv
    have hbk : b = k := by omega
    have ha0 : 0 ≤ (sort s)[a] := by
      have hmem : (sort s)[a] ∈ s := (sort_perm s).mem_iff.1 (List.getElem_mem ha)
      obtain ⟨i, hi⟩ := (List.mem_ofFn (f := fun i : Fin n => farAfter n k (τ i.castSucc))).1 hmem
      rw [← hi]
      exact (by positivity : (0 : ℝ) ≤ ((τ i.castSucc).val : ℝ)).trans (le_farAfter n k _)
    have hbig : (n : ℝ) * k ≤ (sort s)[b] := by
      have hc := countP_rest (farAfter n k) τ ((n : ℝ) * k) (univ.filter fun i => i.val < k) (by
        intro i hi hlt
        simp only [mem_filter, mem_univ, true_and]
        by_contra hcon
        rcases (not_lt.1 hcon).lt_or_eq with h | h
        · unfold farAfter at hlt
          rw [if_neg (by omega)] at hlt
          have : (0 : ℝ) ≤ (i.val : ℝ) := by positivity
          linarith
        · exact hi (Fin.ext (by omega)))
      have h2 := card_val_lt n k
      rw [← hs] at hc
      have := le_kth_of_few_below s (k + 1) (by omega) (by rw [Quantile.length_sort, hlen]; omega) ((n : ℝ) * k) (by omega)
      simpa [hbk] using this
    rw [hae, hbe]
    push_cast
    have hw : p - ((k : ℝ) - 1) = 1 - (k : ℝ) / n := by rw [hpk]; ring
    rw [hw]
    have hw0 : 1 / (n : ℝ) ≤ 1 - (k : ℝ) / n := by
      rw [← sub_nonneg]
      have : 1 - (k : ℝ) / n - 1 / n = ((n : ℝ) - k - 1) / n := by field_simp
      rw [this]
      apply div_nonneg _ hnK.le
      have : (k : ℝ) + 1 ≤ n := by exact_mod_cast hkn
      linarith
    have h5 : (k : ℝ) ≤ (sort s)[b] * (1 - (k : ℝ) / n) := by
      have : (k : ℝ) = ((n : ℝ) * k) * (1 / n) := by field_simp
      calc (k : ℝ) = ((n : ℝ) * k) * (1 / n) := this
        _ ≤ (sort s)[b] * (1 - (k : ℝ) / n) := mul_le_mul hbig hw0 (by positivity) (by nlinarith)
    nlinarith

/-- **C10, the bound from above is attained.** For every error with `1 ≤ ⌈(n + 1) (1 - e)⌉ < n` there are different targets which in a random
order (hence exchangeable) are covered with probability at least `(⌈(n + 1) (1 - e)⌉ + 1) / (n + 1)`, which is `1 - e + 1 / (n + 1)` or
more: the usual bound `1 - e + 1 / (n + 1)` of split conformal prediction does not hold. -/
theorem C10_usual_upper_bound_false {n : ℕ} (e : ℝ) (he0 : 0 ≤ e) (he1 : e ≤ 1) (k : ℕ) (hk : (k : ℤ) = ⌈((n : ℝ) + 1) * (1 - e)⌉)
    (hk1 : 1 ≤ k) (hkn : k < n) :
    ∃ d : Fin (n + 1) → Unit × ℝ, Function.Injective (fun i => max (0 - (d i).2) ((d i).2 - 0)) ∧
      @Exchangeable _ _ _ ⊤ _ (JackknifeCoverage.shuffle n) (fun i σ => d (σ i)) ∧
      ENNReal.ofReal (((k + 1 : ℕ) : ℝ) / (n + 1)) ≤
        JackknifeCoverage.shuffle n {σ | QuantileCovers (fun _ => 0) (fun _ => 0) e (d ∘ σ)} ∧
      1 - e + 1 / (n + 1) ≤ ((k + 1 : ℕ) : ℝ) / (n + 1) := by
  have hscore : ∀ i, max (0 - farAfter n k i) (farAfter n k i - 0) = farAfter n k i := by
    intro i
    have : 0 ≤ farAfter n k i := (by positivity : (0 : ℝ) ≤ (i.val : ℝ)).trans (le_farAfter n k i)
    rw [max_eq_right (by linarith), sub_zero]
  refine ⟨fun i => ((), farAfter n k i), ?_, JackknifeCoverage.shuffle_exchangeable (fun i => ((), farAfter n k i)), ?_, ?_⟩
  · simp only [hscore]
    exact (farAfter_strictMono n k).injective
  · refine JackknifeCoverage.shuffle_lower _ {z | QuantileCovers (fun _ => 0) (fun _ => 0) e z} (k + 1) (by omega) fun σ => ?_
    refine ⟨univ.filter fun i => (σ i).val ≤ k, ?_, fun i hi => ?_⟩
    · have : (univ.filter fun i : Fin (n + 1) => (σ i).val ≤ k) = (univ.filter fun i : Fin (n + 1) => i.val ≤ k).map σ.symm.toEmbedding := by
        ext i
        simp
      rw [this, card_map]
      have h3 : (range (k + 1)).card ≤ (univ.filter fun i : Fin (n + 1) => i.val ≤ k).card := by
        apply card_le_card_of_surjOn (fun i : Fin (n + 1) => i.val)
        intro j hj
        simp only [coe_range, Set.mem_Iio] at hj
        exact ⟨⟨j, by omega⟩, by simp; omega, rfl⟩
      simpa using h3
    · simp only [mem_filter, mem_univ, true_and] at hi
      rw [Set.mem_ofPred_eq, quantileCovers_iff, qCovered_iff, List.map_ofFn]
      have := farAfter_covered e he0 he1 k hk hk1 hkn (σ * Equiv.swap i (Fin.last n)) (by simpa using hi)
      simpa only [Function.comp_def, qScoreOf, hscore, Equiv.Perm.coe_mul] using this
  · have hpos : (0 : ℝ) < n + 1 := by positivity
    rw [le_div_iff₀ hpos, add_mul, one_div, inv_mul_cancel₀ hpos.ne']
    have := Int.le_ceil (((n : ℝ) + 1) * (1 - e))
    rw [← hk] at this
    push_cast at this ⊢
    linarith

/-- Two calibration points and error 0.9: the bound is 2/3, and `1 - e + 1 / (n + 1)` is below 0.44. -/
example : ((1 : ℕ) : ℤ) = ⌈((2 : ℕ) + 1 : ℝ) * (1 - 9 / 10)⌉ ∧ (1 : ℕ) < 2 := by
  refine ⟨?_, by norm_num⟩
  symm
  rw [Int.ceil_eq_iff]
  norm_num

/-- Independent data, any model and error 1/10. -/
example (ν : Measure (ℝ × ℝ)) [IsProbabilityMeasure ν] (f : ℝ → ℝ) (hf : Measurable f) :
    ENNReal.ofReal (1 - 1 / 10) ≤ (Measure.pi fun _ : Fin (9 + 1) => ν) {ω | QuantileCovers f (fun x => f x + 1) (1 / 10) fun i => ω i} :=
  (C10_quantile_data (n := 9) (Measure.pi fun _ : Fin (9 + 1) => ν) (by norm_num) f (fun x => f x + 1) hf (hf.add_const 1)
    (fun i ω => ω i) (fun i => measurable_pi_apply i) (exchangeable_iid ν (9 + 1)) (1 / 10) (by norm_num) (by norm_num)).1

/-! ### Concrete cases that meet the hypotheses of the theorems above -/

example (ν : Measure (ℝ × ℝ)) [IsProbabilityMeasure ν] := C10_onedim_data (n := 9) (Measure.pi fun _ : Fin (9 + 1) => ν) (by norm_num) (fun x => 2 * x) (fun x => 1 + x ^ 2)
  (by fun_prop) (by fun_prop) (fun x => by positivity) (fun i ω => ω i) (fun i => measurable_pi_apply i) (exchangeable_iid ν (9 + 1)) (1 / 10)
  (by norm_num) (by norm_num)

end Verif.Props.RegressionCoverage
