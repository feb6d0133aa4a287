import Verif.Model.ConformalRegression
import Verif.Lemmas.Quantile
import Verif.Lemmas.ListAux

/-! Lemmas for the conformal regression model. -/
set_option linter.unusedSectionVars false

namespace Verif

/-- A successful `mapM` relates inputs and outputs pointwise. -/
theorem mapM_ok {ε α β : Type*} {f : α → Except ε β} {l : List α} {out : List β} :
    l.mapM f = .ok out ↔ List.Forall₂ (fun a b => f a = .ok b) l out := by
  induction l generalizing out with
  | nil =>
    simp only [List.mapM_nil, List.forall₂_nil_left_iff]
    constructor
    · intro h; cases h; rfl
    · rintro rfl; rfl
  | cons a l ih =>
    rw [List.mapM_cons]
    constructor
    · intro h
      cases hf : f a with
      | error e => rw [hf] at h; cases h
      | ok b =>
        rw [hf] at h
        cases hl : l.mapM f with
        | error e => rw [hl] at h; cases h
        | ok bs =>
          rw [hl] at h
          cases h
          exact List.Forall₂.cons hf (ih.1 hl)
    · intro h
      cases h with
      | cons h1 h2 => rw [h1, ih.2 h2]; rfl

theorem mapM_range_ok {ε β : Type*} {f : ℕ → Except ε β} {m : ℕ} {out : List β}
    (h : (List.range m).mapM f = .ok out) : out.length = m ∧ ∀ j (hj : j < out.length), f j = .ok out[j] := by
  have h2 := mapM_ok.1 h
  have hl := h2.length_eq
  simp only [List.length_range] at hl
  refine ⟨hl.symm, fun j hj => ?_⟩
  have := h2.get (i := j) (by simpa [hl] using hj) hj
  simpa using this

/-- A successful `Except` bind. -/
theorem bind_ok {ε α β : Type _} {x : Except ε α} {f : α → Except ε β} {b : β} :
    (x >>= f) = .ok b ↔ ∃ a, x = .ok a ∧ f a = .ok b := by
  cases x with
  | error e => constructor
               · intro h; cases h
               · rintro ⟨a, h, _⟩; cases h
  | ok a => constructor
            · intro h; exact ⟨a, rfl, h⟩
            · rintro ⟨a', h, h'⟩; cases h; exact h'

namespace Quantile

variable {K : Type*} [Field K] [LinearOrder K] [IsStrictOrderedRing K] [FloorRing K]

theorem sort_map_sub (c : K) (l : List K) : sort (l.map (c - ·)) = ((sort l).map (c - ·)).reverse := by
  apply List.Perm.eq_of_pairwise (le := (· ≤ ·))
  · intro a b _ _ h1 h2; exact le_antisymm h1 h2
  · exact sort_sorted _
  · rw [List.pairwise_reverse, List.pairwise_map]
    exact (sort_sorted l).imp (fun {a b} h => sub_le_sub_left h c)
  · exact (sort_perm _).trans (((sort_perm l).symm.map _).trans (List.reverse_perm _).symm)

theorem atClamped_reverse_map (f : K → K) (s : List K) (hs : s ≠ []) (i : ℤ) :
    atClamped (s.map f).reverse i = f (atClamped s ((s.length : ℤ) - 1 - i)) := by
  have hne : (s.map f).reverse ≠ [] := by simpa using hs
  obtain ⟨a, ha, hav, hae⟩ := atClamped_eq _ hne i
  obtain ⟨b, hb, hbv, hbe⟩ := atClamped_eq s hs ((s.length : ℤ) - 1 - i)
  rw [hae, hbe, List.getElem_reverse, List.getElem_map]
  congr 2
  simp only [List.length_reverse, List.length_map] at hav ha ⊢
  omega

theorem interp_reverse_map (c : K) (s : List K) (hs : s ≠ []) (p : K) :
    interp (s.map (c - ·)).reverse p = c - interp s ((s.length : K) - 1 - p) := by
  rw [interp_eq, interp_eq, atClamped_reverse_map _ _ hs, atClamped_reverse_map _ _ hs]
  have hcast : ((s.length : K) - 1 - p) = (((s.length : ℤ) - 1 : ℤ) : K) - p := by push_cast; ring
  by_cases h : ((⌊p⌋ : ℤ) : K) = p
  · have hf : ⌊(s.length : K) - 1 - p⌋ = (s.length : ℤ) - 1 - ⌊p⌋ := by
      rw [hcast, ← h, Int.floor_intCast, ← Int.cast_sub, Int.floor_intCast]
    rw [hf]
    push_cast
    rw [h]
    ring
  · have hf : ⌊(s.length : K) - 1 - p⌋ = (s.length : ℤ) - 1 - (⌊p⌋ + 1) := by
      rw [Int.floor_eq_iff]
      have h1 := lt_of_le_of_ne (Int.floor_le p) h
      have h2 := Int.lt_floor_add_one p
      push_cast
      constructor <;> linarith
    rw [hf]
    have e1 : (s.length : ℤ) - 1 - (⌊p⌋ + 1) + 1 = (s.length : ℤ) - 1 - ⌊p⌋ := by ring
    rw [e1]
    push_cast
    ring

/-- Reflecting the data reflects the quantile. -/
theorem quantile_map_sub (c : K) (l : List K) (q : K) :
    quantile (l.map (c - ·)) q = (quantile l (1 - q)).map (c - ·) := by
  by_cases hne : l = []
  · subst hne; rfl
  · have hne' : l.map (c - ·) ≠ [] := by simpa using hne
    rw [quantile_of_ne hne, quantile_of_ne hne', sort_map_sub, interp_reverse_map _ _ (sort_ne_nil hne)]
    simp only [List.length_map, length_sort, Option.map_some, Option.some.injEq]
    congr 2
    ring

theorem quantile_map_add (c : K) (l : List K) (q : K) :
    quantile (l.map (c + ·)) q = (quantile l q).map (c + ·) := by
  have h : l.map (c + ·) = (l.map ((0 : K) - ·)).map (c - ·) := by simp
  rw [h, quantile_map_sub, quantile_map_sub, sub_sub_cancel, Option.map_map]
  congr 1
  funext x
  simp

end Quantile

namespace ConformalRegression

open Quantile

variable {K : Type*} [Field K] [LinearOrder K] [IsStrictOrderedRing K] [FloorRing K]

theorem ofNan_ok {o : Option K} {v : K} : ofNan o = .ok v ↔ o = some v := by
  cases o with
  | none => simp [ofNan]
  | some w => simp [ofNan]

theorem scoresQuantile_ok {s : List K} {e q : K} (h : scoresQuantile s e = .ok q) :
    0 ≤ e ∧ e ≤ 1 ∧ quantile s ((⌈((s.length : K) + 1) * (1 - e)⌉ : K) / s.length) = some q := by
  unfold scoresQuantile at h
  split at h
  · cases h
  · next hne =>
    push Not at hne
    exact ⟨hne.1, hne.2, ofNan_ok.1 h⟩

theorem scoresQuantile_of_ne {s : List K} (hs : s ≠ []) {e : K} (h0 : 0 ≤ e) (h1 : e ≤ 1) :
    ∃ q, scoresQuantile s e = .ok q := by
  unfold scoresQuantile
  rw [if_neg (by push Not; exact ⟨h0, h1⟩)]
  simp only [quantile_of_ne hs]
  exact ⟨_, rfl⟩

/-- A value with fewer than `⌈(n+1)(1-e)⌉` scores strictly below it is at most the calibrated quantile. -/
theorem le_scoresQuantile (s : List K) (hs : s ≠ []) (x e q : K) (he : 1 / ((s.length : K) + 1) ≤ e)
    (hc : ((s.countP (fun y => decide (y < x)) : ℕ) : ℤ) < ⌈((s.length : K) + 1) * (1 - e)⌉)
    (hq : scoresQuantile s e = .ok q) : x ≤ q := by
  obtain ⟨h0, h1, hq⟩ := scoresQuantile_ok hq
  obtain ⟨_, rfl⟩ := quantile_some hq
  have hn : 1 ≤ s.length := List.length_pos_iff.2 hs
  have hnK : (1 : K) ≤ s.length := by exact_mod_cast hn
  set k : ℤ := ⌈((s.length : K) + 1) * (1 - e)⌉ with hk
  have hk1 : 1 ≤ k := by omega
  have hkn : k ≤ s.length := by
    rw [hk, Int.ceil_le]
    have : 1 ≤ e * ((s.length : K) + 1) := by
      rwa [div_le_iff₀ (by linarith)] at he
    push_cast
    linarith
  obtain ⟨m, hm⟩ : ∃ m : ℕ, (m : ℤ) = k := ⟨k.toNat, by omega⟩
  have hlt : m - 1 < (sort s).length := by rw [length_sort]; omega
  refine le_trans (le_kth_of_few_below s m (by omega) hlt x (by omega)) ?_
  have hfl : (m : ℤ) - 1 ≤ ⌊(k : K) / s.length * ((s.length : K) - 1)⌋ := by
    rw [Int.le_floor]
    have hkK : (k : K) ≤ s.length := by exact_mod_cast hkn
    have hmk : ((m : ℤ) : K) = (k : K) := by rw [hm]
    push_cast at hmk ⊢
    have : (k : K) / s.length ≤ 1 := by rw [div_le_one (by linarith)]; exact hkK
    have h3 : (k : K) / s.length * ((s.length : K) - 1) = k - (k : K) / s.length := by
      field_simp
    rw [h3, hmk]
    linarith
  refine le_trans ?_ (atClamped_le_interp (sort_sorted s) (sort_ne_nil hs) _)
  refine le_trans ?_ (atClamped_mono (sort_sorted s) (sort_ne_nil hs) hfl)
  obtain ⟨b, hb, hbv, hbe⟩ := atClamped_eq (sort s) (sort_ne_nil hs) ((m : ℤ) - 1)
  rw [hbe]
  exact sorted_getElem_le (sort_sorted s) _ _ (by rw [length_sort] at hbv; omega)

/-- The calibrated quantile is antitone in the error level. -/
theorem scoresQuantile_anti {s : List K} {e₁ e₂ q₁ q₂ : K} (h : e₁ ≤ e₂) (h₁ : scoresQuantile s e₁ = .ok q₁)
    (h₂ : scoresQuantile s e₂ = .ok q₂) : q₂ ≤ q₁ := by
  obtain ⟨_, _, h₁⟩ := scoresQuantile_ok h₁
  obtain ⟨_, _, h₂⟩ := scoresQuantile_ok h₂
  refine quantile_mono_level ?_ h₂ h₁
  have hn : (0 : K) ≤ s.length := by positivity
  apply div_le_div_of_nonneg_right _ hn
  have : ⌈((s.length : K) + 1) * (1 - e₂)⌉ ≤ ⌈((s.length : K) + 1) * (1 - e₁)⌉ := by
    apply Int.ceil_le_ceil
    nlinarith
  exact_mod_cast this

end ConformalRegression
end Verif
