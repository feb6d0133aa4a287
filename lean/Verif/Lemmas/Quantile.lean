import Verif.Model.Quantile
import Verif.Lemmas.ListAux
import Mathlib.Tactic.Linarith
import Mathlib.Tactic.Ring
import Mathlib.Tactic.FieldSimp
import Mathlib.Data.List.Forall2

set_option linter.unusedSectionVars false

namespace Verif.Quantile

variable {K : Type*} [Field K] [LinearOrder K] [IsStrictOrderedRing K] [FloorRing K]

theorem sort_perm (l : List K) : (sort l).Perm l := List.perm_insertionSort _ _

theorem sort_sorted (l : List K) : (sort l).Pairwise (· ≤ ·) := List.pairwise_insertionSort _ _

@[simp] theorem length_sort (l : List K) : (sort l).length = l.length := (sort_perm l).length_eq

theorem sort_eq_of_perm {l l' : List K} (h : l.Perm l') : sort l = sort l' := by
  apply List.Perm.eq_of_pairwise (le := (· ≤ ·))
  · intro a b _ _ h1 h2; exact le_antisymm h1 h2
  · exact sort_sorted l
  · exact sort_sorted l'
  · exact (sort_perm l).trans (h.trans (sort_perm l').symm)

/-- Index form of `atClamped`. -/
theorem atClamped_eq (s : List K) (hs : s ≠ []) (i : ℤ) :
    ∃ (j : ℕ) (hj : j < s.length), (j : ℤ) = max 0 (min i ((s.length : ℤ) - 1)) ∧ atClamped s i = s[j] := by
  have hl : 0 < s.length := List.length_pos_iff.2 hs
  have h0 : 0 ≤ max 0 (min i ((s.length : ℤ) - 1)) := le_max_left _ _
  have h1 : max 0 (min i ((s.length : ℤ) - 1)) < s.length := by omega
  refine ⟨(max 0 (min i ((s.length : ℤ) - 1))).toNat, by omega, by omega, ?_⟩
  unfold atClamped
  rw [List.getD_eq_getElem?_getD, List.getElem?_eq_getElem (by omega)]
  rfl

theorem sorted_getElem_le {s : List K} (hs : s.Pairwise (· ≤ ·)) {i j : ℕ} (hi : i < s.length) (hj : j < s.length)
    (hij : i ≤ j) : s[i] ≤ s[j] := by
  rcases Nat.eq_or_lt_of_le hij with h | h
  · subst h; exact le_rfl
  · exact List.pairwise_iff_getElem.1 hs i j hi hj h

theorem atClamped_mono {s : List K} (hs : s.Pairwise (· ≤ ·)) (hne : s ≠ []) {i j : ℤ} (hij : i ≤ j) :
    atClamped s i ≤ atClamped s j := by
  obtain ⟨a, ha, hav, hae⟩ := atClamped_eq s hne i
  obtain ⟨b, hb, hbv, hbe⟩ := atClamped_eq s hne j
  rw [hae, hbe]
  exact sorted_getElem_le hs ha hb (by omega)

/-- The interpolated value as a point on the segment between consecutive order statistics. -/
theorem interp_eq (s : List K) (p : K) :
    interp s p = atClamped s ⌊p⌋ + (atClamped s (⌊p⌋ + 1) - atClamped s ⌊p⌋) * (p - ⌊p⌋) := by
  unfold interp; dsimp only
  by_cases h : ((⌊p⌋ : ℤ) : K) = p
  · rw [h]; ring
  · have : ⌈p⌉ = ⌊p⌋ + 1 := by
      rw [Int.ceil_eq_iff]
      push_cast
      constructor
      · have := Int.floor_le p
        rw [add_sub_cancel_right]; exact lt_of_le_of_ne this h
      · exact (Int.lt_floor_add_one p).le
    rw [this]; ring

theorem atClamped_le_interp {s : List K} (hs : s.Pairwise (· ≤ ·)) (hne : s ≠ []) (p : K) :
    atClamped s ⌊p⌋ ≤ interp s p := by
  rw [interp_eq]
  have h1 := atClamped_mono hs hne (show ⌊p⌋ ≤ ⌊p⌋ + 1 by omega)
  have h2 := Int.floor_le p
  nlinarith

theorem interp_le_atClamped {s : List K} (hs : s.Pairwise (· ≤ ·)) (hne : s ≠ []) (p : K) :
    interp s p ≤ atClamped s (⌊p⌋ + 1) := by
  rw [interp_eq]
  have h1 := atClamped_mono hs hne (show ⌊p⌋ ≤ ⌊p⌋ + 1 by omega)
  have h2 := Int.lt_floor_add_one p
  nlinarith

theorem interp_mono {s : List K} (hs : s.Pairwise (· ≤ ·)) (hne : s ≠ []) {p p' : K} (h : p ≤ p') :
    interp s p ≤ interp s p' := by
  have hfl : ⌊p⌋ ≤ ⌊p'⌋ := Int.floor_le_floor h
  rcases eq_or_lt_of_le hfl with heq | hlt
  · rw [interp_eq, interp_eq, heq]
    have h1 := atClamped_mono hs hne (show ⌊p'⌋ ≤ ⌊p'⌋ + 1 by omega)
    nlinarith
  · exact le_trans (interp_le_atClamped hs hne p)
      (le_trans (atClamped_mono hs hne (by omega)) (atClamped_le_interp hs hne p'))

theorem sorted_getElem_le_iff {s : List K} (hs : s.Pairwise (· ≤ ·)) (i : ℕ) (hi : i < s.length) (x : K) :
    s[i] ≤ x ↔ i < s.countP (fun y => decide (y ≤ x)) := by
  induction s generalizing i with
  | nil => simp at hi
  | cons a s ih =>
    rw [List.pairwise_cons] at hs
    rw [List.countP_cons]
    by_cases hax : a ≤ x
    · simp only [hax, decide_true, if_true]
      cases i with
      | zero => simp [hax]
      | succ i =>
        simp only [List.getElem_cons_succ, Nat.add_lt_add_iff_right]
        exact ih hs.2 i (by simpa using hi)
    · have hall : s.countP (fun y => decide (y ≤ x)) = 0 := by
        rw [List.countP_eq_zero]
        intro y hy
        simp only [decide_eq_true_eq]
        exact fun h => hax (le_trans (hs.1 y hy) h)
      simp only [hax, hall]
      simp only [decide_false, Bool.false_eq_true, if_false, Nat.add_zero, Nat.not_lt_zero, iff_false, not_le]
      cases i with
      | zero => simpa using hax
      | succ i =>
        simp only [List.getElem_cons_succ]
        exact lt_of_lt_of_le (not_le.1 hax) (hs.1 _ (List.getElem_mem _))

theorem countP_forall₂ {l l' : List K} (h : List.Forall₂ (· ≤ ·) l l') (x : K) :
    l'.countP (fun y => decide (y ≤ x)) ≤ l.countP (fun y => decide (y ≤ x)) := by
  induction h with
  | nil => simp
  | cons hab _ ih =>
    rw [List.countP_cons, List.countP_cons]
    rename_i a b _ _ _
    by_cases hb : b ≤ x
    · have ha : a ≤ x := le_trans hab hb
      simp [ha, hb, ih]
    · simp only [hb, decide_false, Bool.false_eq_true, if_false]; omega

/-- Sorting preserves pointwise order. -/
theorem sort_forall₂ {l l' : List K} (h : List.Forall₂ (· ≤ ·) l l') (i : ℕ) (hi : i < (sort l).length)
    (hi' : i < (sort l').length) : (sort l)[i] ≤ (sort l')[i] := by
  rw [sorted_getElem_le_iff (sort_sorted l)]
  have h1 := (sorted_getElem_le_iff (sort_sorted l') i hi' _).1 le_rfl
  rw [(sort_perm l).countP_eq]
  rw [(sort_perm l').countP_eq] at h1
  exact lt_of_lt_of_le h1 (countP_forall₂ h _)

theorem interp_le_of_pointwise {s t : List K} (hlen : s.length = t.length) (hne : s ≠ [])
    (h : ∀ (i : ℕ) (h1 : i < s.length) (h2 : i < t.length), s[i] ≤ t[i]) (p : K) : interp s p ≤ interp t p := by
  have hne' : t ≠ [] := by
    intro h0; apply hne; rw [← List.length_eq_zero_iff, hlen, h0]; rfl
  have hat : ∀ i : ℤ, atClamped s i ≤ atClamped t i := by
    intro i
    obtain ⟨a, ha, hav, hae⟩ := atClamped_eq s hne i
    obtain ⟨b, hb, hbv, hbe⟩ := atClamped_eq t hne' i
    have : a = b := by rw [hlen] at hav; omega
    subst this
    rw [hae, hbe]; exact h a ha hb
  have h1 := hat ⌊p⌋
  have h2 := hat (⌊p⌋ + 1)
  have h3 : 0 ≤ p - ⌊p⌋ := by linarith [Int.floor_le p]
  have h4 : 0 ≤ 1 - (p - ⌊p⌋) := by linarith [Int.lt_floor_add_one p]
  rw [interp_eq, interp_eq]
  nlinarith [mul_nonneg h4 (sub_nonneg.2 h1), mul_nonneg h3 (sub_nonneg.2 h2)]

theorem quantile_some {l : List K} {q v : K} (h : quantile l q = some v) :
    l ≠ [] ∧ v = interp (sort l) (q * ((l.length : K) - 1)) := by
  unfold quantile at h
  split at h
  · cases h
  · next hne => exact ⟨hne, by injection h with h; exact h.symm⟩

theorem quantile_of_ne {l : List K} (h : l ≠ []) (q : K) :
    quantile l q = some (interp (sort l) (q * ((l.length : K) - 1))) := by
  unfold quantile; rw [if_neg h]

theorem sort_ne_nil {l : List K} (h : l ≠ []) : sort l ≠ [] := by
  intro h0; apply h; rw [← List.length_eq_zero_iff, ← length_sort, h0]; rfl

theorem len_sub_one_nonneg {l : List K} (h : l ≠ []) : (0 : K) ≤ (l.length : K) - 1 := by
  have : 1 ≤ l.length := List.length_pos_iff.2 h
  have : (1 : K) ≤ (l.length : K) := by exact_mod_cast this
  linarith

/-- The quantile is monotone in the level. -/
theorem quantile_mono_level {l : List K} {q q' v v' : K} (hq : q ≤ q') (h : quantile l q = some v)
    (h' : quantile l q' = some v') : v ≤ v' := by
  obtain ⟨hne, rfl⟩ := quantile_some h
  obtain ⟨_, rfl⟩ := quantile_some h'
  exact interp_mono (sort_sorted l) (sort_ne_nil hne)
    (mul_le_mul_of_nonneg_right hq (len_sub_one_nonneg hne))

/-- The quantile is monotone in the data. -/
theorem quantile_mono_data {l l' : List K} (h : List.Forall₂ (· ≤ ·) l l') {q v v' : K} (hv : quantile l q = some v)
    (hv' : quantile l' q = some v') : v ≤ v' := by
  obtain ⟨hne, rfl⟩ := quantile_some hv
  obtain ⟨hne', rfl⟩ := quantile_some hv'
  rw [h.length_eq]
  exact interp_le_of_pointwise (by simp [h.length_eq]) (sort_ne_nil hne) (fun i h1 h2 => sort_forall₂ h i h1 h2) _

/-- The quantile does not depend on the order of the data. -/
theorem quantile_perm {l l' : List K} (h : l.Perm l') (q : K) : quantile l q = quantile l' q := by
  by_cases hne : l = []
  · subst hne; rw [h.nil_eq]
  · have hne' : l' ≠ [] := fun h0 => hne (by rw [h0] at h; exact h.eq_nil)
    rw [quantile_of_ne hne, quantile_of_ne hne', sort_eq_of_perm h, h.length_eq]

/-- The quantile lies between any lower and upper bound of the data. -/
theorem quantile_mem_range {l : List K} {q v lo hi : K} (h : quantile l q = some v) (hlo : ∀ x ∈ l, lo ≤ x)
    (hhi : ∀ x ∈ l, x ≤ hi) : lo ≤ v ∧ v ≤ hi := by
  obtain ⟨hne, rfl⟩ := quantile_some h
  set p := q * ((l.length : K) - 1)
  have hs := sort_sorted l
  have hsn := sort_ne_nil hne
  have hb : ∀ i : ℤ, lo ≤ atClamped (sort l) i ∧ atClamped (sort l) i ≤ hi := by
    intro i
    obtain ⟨a, ha, _, hae⟩ := atClamped_eq _ hsn i
    rw [hae]
    have : (sort l)[a] ∈ l := (sort_perm l).mem_iff.1 (List.getElem_mem _)
    exact ⟨hlo _ this, hhi _ this⟩
  exact ⟨le_trans (hb _).1 (atClamped_le_interp hs hsn p), le_trans (interp_le_atClamped hs hsn p) (hb _).2⟩

/-- If fewer than `k` entries lie strictly below `x`, then `x` is at most the `k`-th smallest entry. -/
theorem le_kth_of_few_below (l : List K) (k : ℕ) (hk : 1 ≤ k) (hkn : k - 1 < (sort l).length) (x : K)
    (h : l.countP (fun y => decide (y < x)) < k) : x ≤ (sort l)[k - 1] := by
  by_contra hcon
  have hcon := not_le.1 hcon
  have hs := sort_sorted l
  -- the first k entries are all < x
  have : k ≤ (sort l).countP (fun y => decide (y < x)) := by
    have h1 : ((sort l).take k).countP (fun y => decide (y < x)) = ((sort l).take k).length := by
      rw [List.countP_eq_length]
      intro y hy
      obtain ⟨i, hi, rfl⟩ := List.getElem_of_mem hy
      simp only [List.length_take] at hi
      rw [List.getElem_take]
      simp only [decide_eq_true_eq]
      exact lt_of_le_of_lt (sorted_getElem_le hs (by omega) hkn (by omega)) hcon
    have h2 : ((sort l).take k).length = k := by rw [List.length_take]; omega
    calc k = ((sort l).take k).countP (fun y => decide (y < x)) := by rw [h1, h2]
      _ ≤ _ := (List.take_sublist k (sort l)).countP_le
  rw [(sort_perm l).countP_eq] at this
  omega

end Verif.Quantile
