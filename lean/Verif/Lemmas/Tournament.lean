import Mathlib.Algebra.BigOperators.Group.Finset.Basic
import Mathlib.Algebra.Order.BigOperators.Group.Finset
import Mathlib.Data.Fintype.Prod
import Mathlib.Tactic.Linarith
import Mathlib.Tactic.Ring
import Verif.Lemmas.Quantile

/-!
Counting for leave-one-out and cross-validation intervals: how many points can beat most of the others, and how many values lie beyond
an interpolated quantile.
-/
set_option linter.unusedSectionVars false

namespace Verif.Tournament
open Finset

/-- In a tournament between points of groups of at most `m`, where points of one group do not meet, at most `2c + m` points lose
at most `c` of their matches. -/
theorem few_strong {ι κ : Type*} [Fintype ι] [DecidableEq ι] [DecidableEq κ] (f : ι → κ) (m c : ℕ)
    (hm : ∀ i, (univ.filter fun j => f j = f i).card ≤ m) (W : ι → ι → Prop) [∀ i j, Decidable (W i j)]
    (hW : ∀ i j, f i ≠ f j → W i j → ¬ W j i) (S : Finset ι)
    (hS : ∀ i ∈ S, (univ.filter fun j => f j ≠ f i).card ≤ (univ.filter fun j => f j ≠ f i ∧ W i j).card + c) :
    S.card ≤ 2 * c + m := by
  set d : ι → ℕ := fun i => (S.filter fun j => f j ≠ f i).card with hd
  set t : ι → ℕ := fun i => (S.filter fun j => f j ≠ f i ∧ W i j).card with ht
  -- a strong point loses at most c of its matches against strong points
  have h1 : ∀ i ∈ S, d i ≤ t i + c := by
    intro i hi
    have h := hS i hi
    have e1 : (univ.filter fun j => f j ≠ f i).card = d i + (Sᶜ.filter fun j => f j ≠ f i).card := by
      rw [hd, ← card_union_of_disjoint]
      · congr 1; ext j; simp only [mem_filter, mem_univ, true_and, mem_union, mem_compl]; tauto
      · exact disjoint_filter_filter (disjoint_compl_right)
    have e2 : (univ.filter fun j => f j ≠ f i ∧ W i j).card ≤ t i + (Sᶜ.filter fun j => f j ≠ f i).card := by
      refine le_trans (card_le_card ?_) (card_union_le _ _)
      intro j
      simp only [mem_filter, mem_univ, true_and, mem_union, mem_compl]
      tauto
    omega
  -- at most half of these matches are won
  have h2 : 2 * ∑ i ∈ S, t i ≤ ∑ i ∈ S, d i := by
    have e1 : ∀ (P : ι → ι → Prop) [∀ i j, Decidable (P i j)], ∑ i ∈ S, (S.filter fun j => P i j).card =
        ∑ i ∈ S, ∑ j ∈ S, if P i j then 1 else 0 := by
      intro P _; exact sum_congr rfl fun i _ => card_filter _ _
    have e2 : ∑ i ∈ S, t i = ∑ i ∈ S, ∑ j ∈ S, if f i ≠ f j ∧ W j i then 1 else 0 := by
      rw [ht, e1, sum_comm]
    have e3 : 2 * ∑ i ∈ S, t i = ∑ i ∈ S, ∑ j ∈ S, ((if f j ≠ f i ∧ W i j then 1 else 0) + if f i ≠ f j ∧ W j i then 1 else 0) := by
      rw [two_mul]
      nth_rewrite 2 [e2]
      rw [ht, e1, ← sum_add_distrib]
      simp only [sum_add_distrib]
    rw [e3, hd, e1]
    refine sum_le_sum fun i _ => sum_le_sum fun j _ => ?_
    by_cases hij : f j = f i
    · simp [hij]
    · have hij' : f i ≠ f j := fun h => hij h.symm
      have := hW i j hij'
      by_cases hw : W i j
      · simp [hij, hij', hw, this hw]
      · by_cases hw' : W j i <;> simp [hij, hij', hw, hw']
  have h3 : ∀ i ∈ S, S.card ≤ d i + m := by
    intro i hi
    have e : S.card = d i + (S.filter fun j => f j = f i).card := by
      rw [hd]
      have := card_filter_add_card_filter_not (s := S) (fun j => f j = f i)
      simp only [ne_eq]
      omega
    have := le_trans (card_le_card (filter_subset_filter (fun j => f j = f i) (subset_univ S))) (hm i)
    omega
  by_contra hcon
  have hpos : 0 < S.card := by omega
  have s1 : ∑ i ∈ S, d i ≤ ∑ i ∈ S, t i + S.card * c := by
    calc ∑ i ∈ S, d i ≤ ∑ i ∈ S, (t i + c) := sum_le_sum h1
      _ = _ := by rw [sum_add_distrib, sum_const, smul_eq_mul]
  have s2 : S.card * S.card ≤ ∑ i ∈ S, d i + S.card * m := by
    calc S.card * S.card = ∑ _i ∈ S, S.card := by rw [sum_const, smul_eq_mul]
      _ ≤ ∑ i ∈ S, (d i + m) := sum_le_sum h3
      _ = _ := by rw [sum_add_distrib, sum_const, smul_eq_mul]
  have s3 : S.card * S.card ≤ S.card * (2 * c + m) := by
    have : ∑ i ∈ S, d i ≤ 2 * (S.card * c) := by omega
    nlinarith
  exact hcon (Nat.le_of_mul_le_mul_left s3 hpos)

/-- At most `c + 1` points have all their values above the value against them of all but `c` others. -/
theorem few_dominant {ι K : Type*} [Fintype ι] [DecidableEq ι] [LinearOrder K] (R : ι → ι → K) (n c : ℕ)
    (hn : Fintype.card ι = n + 1) (hn1 : 1 ≤ n) (S : Finset ι)
    (hS : ∀ i ∈ S, n ≤ (univ.filter fun j => j ≠ i ∧ ∀ k, k ≠ i → R j i < R i k).card + c) :
    S.card ≤ c + 1 := by
  by_cases hne : S.Nonempty
  swap
  · rw [not_nonempty_iff_eq_empty.1 hne]; simp
  have hpair : ((S ×ˢ univ).filter fun p : ι × ι => p.2 ≠ p.1).Nonempty := by
    obtain ⟨i, hi⟩ := hne
    have : Nontrivial ι := Fintype.one_lt_card_iff_nontrivial.1 (by omega)
    obtain ⟨k, hk⟩ := exists_ne i
    exact ⟨(i, k), by simp [hi, hk]⟩
  obtain ⟨⟨i, k⟩, hik, hmin⟩ := exists_min_image _ (fun p : ι × ι => R p.1 p.2) hpair
  simp only [mem_filter, mem_product, mem_univ, and_true] at hik hmin
  have hsub : (univ.filter fun j => j ≠ i ∧ ∀ k, k ≠ i → R j i < R i k) ⊆ Sᶜ := by
    intro j
    simp only [mem_filter, mem_univ, true_and, mem_compl]
    rintro ⟨hji, hj⟩ hjS
    have := hmin (j, i) ⟨hjS, fun h => hji h.symm⟩
    exact absurd (hj k hik.2) (not_lt.2 this)
  have h1 := card_le_card hsub
  rw [card_compl, hn] at h1
  have h2 := hS i hik.1
  have h3 : S.card ≤ n + 1 := by rw [← hn]; exact card_le_univ S
  omega

end Verif.Tournament

namespace Verif.Quantile
variable {K : Type*} [Field K] [LinearOrder K] [IsStrictOrderedRing K] [FloorRing K]

/-- A value above the `1 - e` quantile is above all but at most `⌈e (n - 1)⌉` of the `n` values. -/
theorem above_quantile {l : List K} {e q y : K} (he0 : 0 ≤ e) (he1 : e ≤ 1) (h : quantile l (1 - e) = some q) (hy : q < y) :
    l.length ≤ l.countP (fun x => decide (x < y)) + ⌈e * ((l.length : K) - 1)⌉₊ := by
  obtain ⟨hne, rfl⟩ := quantile_some h
  have hn := len_sub_one_nonneg hne
  have hl : 0 < l.length := List.length_pos_iff.2 hne
  set p := (1 - e) * ((l.length : K) - 1) with hp
  have hp0 : 0 ≤ p := mul_nonneg (by linarith) hn
  have hp1 : p ≤ (l.length : K) - 1 := by
    have : 0 ≤ e * ((l.length : K) - 1) := mul_nonneg he0 hn
    rw [hp]; linarith
  have hf0 : 0 ≤ ⌊p⌋ := Int.floor_nonneg.2 hp0
  have hf1 : ⌊p⌋ ≤ (l.length : ℤ) - 1 := by
    have : ((⌊p⌋ : ℤ) : K) ≤ (l.length : K) - 1 := le_trans (Int.floor_le p) hp1
    have h2 : ((⌊p⌋ : ℤ) : K) ≤ (((l.length : ℤ) - 1 : ℤ) : K) := by push_cast; exact this
    exact_mod_cast h2
  obtain ⟨k, hk, hkv, hke⟩ := atClamped_eq (sort l) (sort_ne_nil hne) ⌊p⌋
  rw [length_sort] at hkv
  have hkf : (k : ℤ) = ⌊p⌋ := by rw [hkv]; omega
  have hlt : (sort l)[k] < y := lt_of_le_of_lt (by rw [← hke]; exact atClamped_le_interp (sort_sorted l) (sort_ne_nil hne) p) hy
  have hcount := (sorted_getElem_le_iff (sort_sorted l) k hk _).1 le_rfl
  rw [(sort_perm l).countP_eq] at hcount
  have hmono : l.countP (fun x => decide (x ≤ (sort l)[k])) ≤ l.countP (fun x => decide (x < y)) := by
    refine List.countP_mono_left fun x _ hx => ?_
    simp only [decide_eq_true_eq] at hx ⊢
    exact lt_of_le_of_lt hx hlt
  have hceil : (l.length : ℤ) - 1 - ⌊p⌋ ≤ (⌈e * ((l.length : K) - 1)⌉₊ : ℤ) := by
    have h1 := Nat.le_ceil (e * ((l.length : K) - 1))
    have h2 : (((l.length : ℤ) - 1 - (⌈e * ((l.length : K) - 1)⌉₊ : ℤ) : ℤ) : K) ≤ p := by
      push_cast; rw [hp]; linarith
    have := Int.le_floor.2 h2
    omega
  omega

/-- A value below the `e` quantile is below all but at most `⌈e (n - 1)⌉` of the `n` values. -/
theorem below_quantile {l : List K} {e q y : K} (he0 : 0 ≤ e) (he1 : e ≤ 1) (h : quantile l e = some q) (hy : y < q) :
    l.length ≤ l.countP (fun x => decide (y < x)) + ⌈e * ((l.length : K) - 1)⌉₊ := by
  obtain ⟨hne, rfl⟩ := quantile_some h
  have hn := len_sub_one_nonneg hne
  have hl : 0 < l.length := List.length_pos_iff.2 hne
  set p := e * ((l.length : K) - 1) with hp
  have hp0 : 0 ≤ p := mul_nonneg he0 hn
  have hp1 : p ≤ (l.length : K) - 1 := by
    have : 0 ≤ (1 - e) * ((l.length : K) - 1) := mul_nonneg (by linarith) hn
    rw [hp]; linarith
  have hc1 : ⌈p⌉₊ ≤ l.length - 1 := by
    rw [Nat.ceil_le, Nat.cast_sub (by omega)]; simpa using hp1
  have hle : interp (sort l) p ≤ atClamped (sort l) ⌈p⌉ := by
    by_cases hint : ((⌊p⌋ : ℤ) : K) = p
    · have : ⌈p⌉ = ⌊p⌋ := by
        rw [Int.ceil_eq_iff]; constructor <;> rw [hint]; linarith
      rw [this, interp_eq, hint]; simp
    · have : ⌈p⌉ = ⌊p⌋ + 1 := by
        rw [Int.ceil_eq_iff]
        constructor
        · push_cast
          have := lt_of_le_of_ne (Int.floor_le p) hint
          linarith
        · push_cast; exact (Int.lt_floor_add_one p).le
      rw [this]; exact interp_le_atClamped (sort_sorted l) (sort_ne_nil hne) p
  obtain ⟨k, hk, hkv, hke⟩ := atClamped_eq (sort l) (sort_ne_nil hne) ⌈p⌉
  rw [length_sort] at hkv
  have hcc : ((⌈p⌉₊ : ℕ) : ℤ) = ⌈p⌉ := Int.natCast_ceil_eq_ceil hp0
  have hkc : k = ⌈p⌉₊ := by omega
  have hlt : ¬ (sort l)[k] ≤ y := by
    rw [not_le, ← hke]; exact lt_of_lt_of_le hy hle
  rw [sorted_getElem_le_iff (sort_sorted l) k hk, (sort_perm l).countP_eq] at hlt
  have hsum : l.length = l.countP (fun x => decide (x ≤ y)) + l.countP (fun x => decide (y < x)) := by
    rw [List.length_eq_countP_add_countP (fun x => decide (x ≤ y))]
    congr 1
    refine List.countP_congr fun x _ => ?_
    simp
  omega

end Verif.Quantile
