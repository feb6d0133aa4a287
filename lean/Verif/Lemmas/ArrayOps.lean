import Verif.Model.ArrayOps
import Mathlib.Algebra.Order.BigOperators.Group.List
import Mathlib.Tactic.Linarith
import Mathlib.Tactic.Positivity
import Mathlib.Tactic.FieldSimp

/-! Lemmas about the array primitives. -/
namespace Verif.ArrayOps

section order
variable {α : Type*} [LinearOrder α]

theorem argmaxFrom_spec (l : List α) (best : α) (bi i : ℕ) (pre : List α) (hi : i = pre.length)
    (hb : pre[bi]? = some best) (hmax : ∀ x ∈ pre, x ≤ best) (hfirst : ∀ (j : ℕ) (y : α), j < bi → pre[j]? = some y → y < best) :
    ∃ m, (pre ++ l)[argmaxFrom best bi i l]? = some m ∧ (∀ x ∈ pre ++ l, x ≤ m) ∧
      ∀ (j : ℕ) (y : α), j < argmaxFrom best bi i l → (pre ++ l)[j]? = some y → y < m := by
  induction l generalizing best bi i pre with
  | nil => exact ⟨best, by simpa [argmaxFrom] using hb, by simpa using hmax, by simpa [argmaxFrom] using hfirst⟩
  | cons x xs ih =>
    unfold argmaxFrom
    have hassoc : pre ++ x :: xs = (pre ++ [x]) ++ xs := by simp
    rw [hassoc]
    split
    · next hlt =>
      apply ih
      · simp [hi]
      · simp [hi]
      · intro y hy
        rw [List.mem_append, List.mem_singleton] at hy
        rcases hy with hy | rfl
        · exact (hmax y hy).trans hlt.le
        · exact le_rfl
      · intro j y hj hy
        rw [List.getElem?_append_left (by omega)] at hy
        exact lt_of_le_of_lt (hmax y (List.mem_of_getElem? hy)) hlt
    · next hnlt =>
      have hbi : bi < pre.length := (List.getElem?_eq_some_iff.1 hb).1
      apply ih
      · simp [hi]
      · rw [List.getElem?_append_left hbi]; exact hb
      · intro y hy
        rw [List.mem_append, List.mem_singleton] at hy
        rcases hy with hy | rfl
        · exact hmax y hy
        · exact not_lt.1 hnlt
      · intro j y hj hy
        rw [List.getElem?_append_left (by omega)] at hy
        exact hfirst j y hj hy

/-- The first index of a maximal entry. -/
theorem argmax_spec (l : List α) (h : l ≠ []) :
    ∃ m, l[argmax l]? = some m ∧ (∀ x ∈ l, x ≤ m) ∧ ∀ (j : ℕ) (y : α), j < argmax l → l[j]? = some y → y < m := by
  cases l with
  | nil => exact absurd rfl h
  | cons x xs =>
    have := argmaxFrom_spec xs x 0 1 [x] rfl rfl (by simp) (by simp)
    simpa [argmax] using this

theorem argmax_lt (l : List α) (h : l ≠ []) : argmax l < l.length := by
  obtain ⟨m, hm, _⟩ := argmax_spec l h
  exact (List.getElem?_eq_some_iff.1 hm).1

theorem argmin_spec (l : List α) (h : l ≠ []) :
    ∃ m, l[argmin l]? = some m ∧ (∀ x ∈ l, m ≤ x) ∧ ∀ (j : ℕ) (y : α), j < argmin l → l[j]? = some y → m < y :=
  argmax_spec (α := αᵒᵈ) l h

theorem argmin_lt (l : List α) (h : l ≠ []) : argmin l < l.length := argmax_lt (α := αᵒᵈ) l h

end order

section field
variable {K : Type*} [Field K] [LinearOrder K] [IsStrictOrderedRing K]

omit [IsStrictOrderedRing K] in
theorem clip_mem (x lo hi : K) (h : lo ≤ hi) : lo ≤ clip x lo hi ∧ clip x lo hi ≤ hi :=
  ⟨le_min (le_max_right _ _) h, min_le_right _ _⟩

omit [IsStrictOrderedRing K] in
theorem clip_eq {x lo hi : K} (h1 : lo ≤ x) (h2 : x ≤ hi) : clip x lo hi = x := by
  unfold clip; rw [max_eq_left h1, min_eq_left h2]

/-- Clipping moves a value closer to every point of the interval. -/
theorem sq_clip_sub_le (x y lo hi : K) (h1 : lo ≤ y) (h2 : y ≤ hi) : (clip x lo hi - y) ^ 2 ≤ (x - y) ^ 2 := by
  unfold clip
  rcases le_total x lo with h | h
  · rw [max_eq_right h, min_eq_left (h1.trans h2)]; nlinarith
  · rw [max_eq_left h]
    rcases le_total x hi with h' | h'
    · rw [min_eq_left h']
    · rw [min_eq_right h']; nlinarith

theorem mean_mem {l : List K} (hne : l ≠ []) {lo hi : K} (h1 : ∀ x ∈ l, lo ≤ x) (h2 : ∀ x ∈ l, x ≤ hi) :
    lo ≤ mean l ∧ mean l ≤ hi := by
  have hl : (0 : K) < l.length := by
    have := List.length_pos_iff.2 hne
    exact_mod_cast this
  unfold mean
  rw [le_div_iff₀ hl, div_le_iff₀ hl]
  constructor
  · have := List.card_nsmul_le_sum l lo h1
    rw [nsmul_eq_mul] at this; linarith
  · have := List.sum_le_card_nsmul l hi h2
    rw [nsmul_eq_mul] at this; linarith

theorem mem_linspace {a b x : K} {n : ℕ} (hab : a ≤ b) (h : x ∈ linspace a b n) : a ≤ x ∧ x ≤ b := by
  unfold linspace at h
  rw [List.mem_map] at h
  obtain ⟨i, hi, rfl⟩ := h
  rw [List.mem_range] at hi
  by_cases hn : n - 1 = 0
  · obtain rfl : i = 0 := by omega
    simp [hab]
  · have hpos : (0 : K) < ((n - 1 : ℕ) : K) := by
      have : 0 < n - 1 := by omega
      exact_mod_cast this
    have hi' : (i : K) ≤ ((n - 1 : ℕ) : K) := by
      have : i ≤ n - 1 := by omega
      exact_mod_cast this
    have h0 : (0 : K) ≤ (i : K) := by positivity
    have hd : 0 ≤ (b - a) / ((n - 1 : ℕ) : K) := div_nonneg (by linarith) hpos.le
    constructor
    · have := mul_nonneg h0 hd; linarith
    · have h3 : (i : K) * ((b - a) / ((n - 1 : ℕ) : K)) ≤ ((n - 1 : ℕ) : K) * ((b - a) / ((n - 1 : ℕ) : K)) :=
        mul_le_mul_of_nonneg_right hi' hd
      have h4 : ((n - 1 : ℕ) : K) * ((b - a) / ((n - 1 : ℕ) : K)) = b - a := by field_simp
      linarith

theorem linspace_head (a b : K) (n : ℕ) (hn : 0 < n) : (linspace a b n)[0]? = some a := by
  unfold linspace
  simp [hn]

end field

end Verif.ArrayOps
