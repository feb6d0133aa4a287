import Mathlib.Data.Rat.Floor
import Mathlib.Data.List.MinMax
import Mathlib.Data.Finset.Card
import Mathlib.Data.Fintype.Card
import Mathlib.Data.Finset.Max
import Mathlib.Algebra.BigOperators.Fin
import Mathlib.Order.Interval.Finset.Nat
import Mathlib.Data.Real.Basic
import Mathlib.Tactic.Linarith

/-! Counting lemmas about lists. -/
namespace Verif.ListAux

variable {α : Type*} [LinearOrder α]

theorem exists_max (l : List α) (h : l ≠ []) : ∃ m ∈ l, ∀ x ∈ l, x ≤ m := by
  induction l with
  | nil => exact absurd rfl h
  | cons a l ih =>
    by_cases hl : l = []
    · exact ⟨a, by simp, by simp [hl]⟩
    · obtain ⟨m, hm, hmax⟩ := ih hl
      rcases le_total a m with h1 | h1
      · exact ⟨m, by simp [hm], by simpa using ⟨h1, hmax⟩⟩
      · exact ⟨a, by simp, by simpa using fun x hx => le_trans (hmax x hx) h1⟩

/-- Among the entries of `l`, at least `T` have fewer than `T` entries strictly above them. -/
theorem count_few_above (l : List α) (T : ℚ) (hT : T ≤ l.length) :
    T ≤ (l.countP fun x => decide (((l.countP fun y => decide (y > x) : ℕ) : ℚ) < T) : ℕ) := by
  by_cases hall : ∀ x ∈ l, ((l.countP fun y => decide (y > x) : ℕ) : ℚ) < T
  · have : l.countP (fun x => decide (((l.countP fun y => decide (y > x) : ℕ) : ℚ) < T)) = l.length := by
      rw [List.countP_eq_length]; intro x hx; simpa using hall x hx
    rw [this]; exact hT
  · push Not at hall
    obtain ⟨x0, hx0, hb0⟩ := hall
    -- the bad elements; choose the largest
    let bad := l.filter fun x => decide (T ≤ ((l.countP fun y => decide (y > x) : ℕ) : ℚ))
    have hne : bad ≠ [] := by
      apply List.ne_nil_of_mem (a := x0)
      simp [bad, hx0, hb0]
    obtain ⟨m, hmem, hmax⟩ := exists_max bad hne
    have hmb : m ∈ l ∧ T ≤ ((l.countP fun y => decide (y > m) : ℕ) : ℚ) := by
      simpa [bad] using hmem
    refine le_trans hmb.2 ?_
    have : l.countP (fun y => decide (y > m)) ≤
        l.countP (fun x => decide (((l.countP fun y => decide (y > x) : ℕ) : ℚ) < T)) := by
      apply List.countP_mono_left
      intro x hx hxm
      simp only [decide_eq_true_eq] at hxm ⊢
      by_contra hcon
      push Not at hcon
      have hxb : x ∈ bad := by simp only [bad, List.mem_filter, decide_eq_true_eq]; exact ⟨hx, hcon⟩
      have := hmax x hxb
      exact absurd hxm (not_lt.2 this)
    exact_mod_cast this

/-- Among the entries of `l`, at least `T` have fewer than `T` entries strictly below them. -/
theorem count_few_below (l : List α) (T : ℚ) (hT : T ≤ l.length) :
    T ≤ (l.countP fun x => decide (((l.countP fun y => decide (y < x) : ℕ) : ℚ) < T) : ℕ) :=
  count_few_above (α := αᵒᵈ) l T hT

omit [LinearOrder α] in
theorem countP_eraseIdx_of_false (l : List α) (p : α → Bool) (i : ℕ) (h : i < l.length) (hp : p l[i] = false) :
    (l.eraseIdx i).countP p = l.countP p := by
  induction l generalizing i with
  | nil => simp
  | cons a l ih =>
    cases i with
    | zero => simp at hp; simp [hp]
    | succ i => simp at hp h; simp [List.countP_cons, ih i h hp]

omit [LinearOrder α] in
/-- `countP` counts indices. -/
theorem countP_eq_card (l : List α) (p : α → Bool) :
    l.countP p = ((Finset.range l.length).filter fun i => (l[i]?).any p = true).card := by
  induction l with
  | nil => simp
  | cons a l ih =>
    rw [List.countP_cons, ih, List.length_cons, Finset.card_filter, Finset.card_filter, Finset.sum_range_succ']
    simp

omit [LinearOrder α] in
/-- `countP` over `List.ofFn` as a cardinality. -/
theorem countP_ofFn {n : ℕ} (f : Fin n → α) (p : α → Bool) :
    (List.ofFn f).countP p = (Finset.univ.filter fun i => p (f i) = true).card := by
  induction n with
  | zero => simp
  | succ n ih =>
    rw [List.ofFn_succ, List.countP_cons, ih, Finset.card_filter, Finset.card_filter, Fin.sum_univ_succ]
    rw [add_comm]

/-- Finite-type version of `count_few_above`. -/
theorem exists_few_above {ι : Type*} [Fintype ι] (x : ι → α) (T : ℝ) (hT : T ≤ Fintype.card ι) :
    ∃ A : Finset ι, T ≤ (A.card : ℝ) ∧ ∀ i ∈ A, (((Finset.univ.filter fun j => x i < x j).card : ℕ) : ℝ) < T := by
  classical
  refine ⟨Finset.univ.filter fun i => (((Finset.univ.filter fun j => x i < x j).card : ℕ) : ℝ) < T, ?_, by simp⟩
  by_cases hbad : (Finset.univ.filter fun i => T ≤ (((Finset.univ.filter fun j => x i < x j).card : ℕ) : ℝ)).Nonempty
  · obtain ⟨m, hm, hmax⟩ := Finset.exists_max_image _ x hbad
    simp only [Finset.mem_filter, Finset.mem_univ, true_and] at hm hmax
    refine le_trans hm ?_
    norm_cast
    apply Finset.card_le_card
    intro j hj
    simp only [Finset.mem_filter, Finset.mem_univ, true_and] at hj ⊢
    by_contra hcon
    exact absurd (hmax j (not_lt.1 hcon)) (not_le.2 hj)
  · have : (Finset.univ.filter fun i => (((Finset.univ.filter fun j => x i < x j).card : ℕ) : ℝ) < T) = Finset.univ := by
      ext i
      simp only [Finset.mem_filter, Finset.mem_univ, true_and, iff_true]
      by_contra hcon
      exact hbad ⟨i, by simpa using hcon⟩
    rw [this]; simpa using hT

/-- Finite-type version of `count_few_below`. -/
theorem exists_few_below {ι : Type*} [Fintype ι] (x : ι → α) (T : ℝ) (hT : T ≤ Fintype.card ι) :
    ∃ A : Finset ι, T ≤ (A.card : ℝ) ∧ ∀ i ∈ A, (((Finset.univ.filter fun j => x j < x i).card : ℕ) : ℝ) < T :=
  exists_few_above (α := αᵒᵈ) x T hT

end Verif.ListAux
