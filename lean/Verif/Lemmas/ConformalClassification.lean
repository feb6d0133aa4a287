import Verif.Model.ConformalClassification
import Verif.Lemmas.ListAux

namespace Verif.ConformalClassification

variable {α : Type*} [LinearOrder α]

theorem length_whereTrue (bs : List Bool) (k : ℕ) : (whereTrue bs k).length = bs.count true := by
  induction bs generalizing k with
  | nil => simp [whereTrue]
  | cons b bs ih => cases b <;> simp [whereTrue, ih]

theorem mem_whereTrue (bs : List Bool) (k j : ℕ) :
    j ∈ whereTrue bs k ↔ ∃ m, j = k + m ∧ bs[m]? = some true := by
  induction bs generalizing k with
  | nil => simp [whereTrue]
  | cons b bs ih =>
    have key : (∃ m, j = k + m ∧ (b :: bs)[m]? = some true) ↔
        (j = k ∧ b = true) ∨ ∃ m, j = k + 1 + m ∧ bs[m]? = some true := by
      constructor
      · rintro ⟨m, rfl, hm⟩
        cases m with
        | zero => left; simpa using hm
        | succ m => right; exact ⟨m, by omega, by simpa using hm⟩
      · rintro (⟨rfl, rfl⟩ | ⟨m, rfl, hm⟩)
        · exact ⟨0, by simp, by simp⟩
        · exact ⟨m + 1, by omega, by simpa using hm⟩
    rw [key]
    cases b <;> simp [whereTrue, ih]

theorem whereTrue_ge (bs : List Bool) (k j : ℕ) (h : j ∈ whereTrue bs k) : k ≤ j := by
  obtain ⟨m, rfl, _⟩ := (mem_whereTrue bs k j).1 h; omega

theorem sorted_whereTrue (bs : List Bool) (k : ℕ) : (whereTrue bs k).Pairwise (· < ·) := by
  induction bs generalizing k with
  | nil => simp [whereTrue]
  | cons b bs ih =>
    cases b
    · simpa [whereTrue] using ih (k + 1)
    · simp only [whereTrue, List.pairwise_cons]
      exact ⟨fun j hj => by have := whereTrue_ge _ _ _ hj; omega, ih _⟩

theorem nodup_whereTrue (bs : List Bool) (k : ℕ) : (whereTrue bs k).Nodup :=
  (sorted_whereTrue bs k).imp (fun h => Nat.ne_of_lt h)

theorem mem_idxOfSize (sz : List ℕ) (us i : ℕ) : i ∈ idxOfSize sz us ↔ sz[i]? = some us := by
  unfold idxOfSize
  rw [mem_whereTrue]
  constructor
  · rintro ⟨m, rfl, hm⟩
    simpa using hm
  · intro h
    exact ⟨i, by simp, by simpa using h⟩

theorem chunk_flatten (us : ℕ) (hus : 0 < us) (ls : List (List ℕ)) (h : ∀ l ∈ ls, l.length = us) :
    chunk us ls.flatten = ls := by
  induction ls with
  | nil => rw [chunk]; simp
  | cons l ls ih =>
    have hl : l.length = us := h l (by simp)
    rw [chunk]
    have hne : ¬ (us = 0 ∨ (l :: ls).flatten = []) := by
      rintro (h0 | h0)
      · omega
      · rw [List.flatten_cons, List.append_eq_nil_iff] at h0
        simp [h0.1] at hl; omega
    rw [dif_neg hne, List.flatten_cons, ← hl, List.take_left' rfl, List.drop_left' rfl]
    rw [hl, ih (fun l' h' => h l' (by simp [h']))]

theorem getElem?_scatter (idx : List ℕ) (f : ℕ → List ℕ) (sets : List (Option (List ℕ)))
    (hb : ∀ i ∈ idx, i < sets.length) (i : ℕ) :
    (scatter sets idx (idx.map f))[i]? = if i ∈ idx then some (some (f i)) else sets[i]? := by
  induction idx generalizing sets with
  | nil => simp [scatter]
  | cons a idx ih =>
    simp only [List.map_cons, scatter]
    rw [ih]
    · by_cases h1 : i ∈ idx
      · simp [h1]
      · by_cases h2 : a = i
        · subst h2
          have := hb a (by simp)
          simp [h1, this]
        · have h3 : ¬ i = a := fun h => h2 h.symm
          simp [h1, h2, h3]
    · intro j hj; simpa using hb j (by simp [hj])

theorem getElem?_scatterAll (idx : List ℕ) (v : List ℕ) (sets : List (Option (List ℕ)))
    (hb : ∀ i ∈ idx, i < sets.length) (i : ℕ) :
    (scatterAll sets idx v)[i]? = if i ∈ idx then some (some v) else sets[i]? := by
  unfold scatterAll
  induction idx generalizing sets with
  | nil => simp
  | cons a idx ih =>
    simp only [List.foldl_cons]
    rw [ih]
    · by_cases h1 : i ∈ idx
      · simp [h1]
      · by_cases h2 : a = i
        · subst h2
          have := hb a (by simp)
          simp [h1, this]
        · have h3 : ¬ i = a := fun h => h2 h.symm
          simp [h1, h2, h3]
    · intro j hj; simpa using hb j (by simp [hj])

theorem length_scatter (idx : List ℕ) (vs : List (List ℕ)) (sets : List (Option (List ℕ))) :
    (scatter sets idx vs).length = sets.length := by
  induction idx generalizing sets vs with
  | nil => simp [scatter]
  | cons a idx ih => cases vs <;> simp [scatter, ih]

theorem length_scatterAll (idx : List ℕ) (v : List ℕ) (sets : List (Option (List ℕ))) :
    (scatterAll sets idx v).length = sets.length := by
  unfold scatterAll
  induction idx generalizing sets with
  | nil => simp
  | cons a idx ih => simp [ih]

theorem length_stepSize (c : List (List Bool)) (sets : List (Option (List ℕ))) (us : ℕ) :
    (stepSize c sets us).length = sets.length := by
  unfold stepSize; dsimp only; split
  · exact length_scatterAll _ _ _
  · exact length_scatter _ _ _

theorem filterMap_getElem? (c : List (List Bool)) (idx : List ℕ) (h : ∀ i ∈ idx, i < c.length) :
    (idx.filterMap fun i => c[i]?) = idx.map fun i => (c[i]?).getD [] := by
  induction idx with
  | nil => rfl
  | cons a idx ih =>
    have ha := h a (by simp)
    simp [ha, ih (fun i hi => h i (by simp [hi]))]

/-- One iteration of the loop writes exactly the rows of size `us`. -/
theorem getElem?_stepSize (c : List (List Bool)) (sets : List (Option (List ℕ))) (us : ℕ)
    (hlen : sets.length = c.length) (i : ℕ) (r : List Bool) (hr : c[i]? = some r) :
    (stepSize c sets us)[i]? =
      if r.count true = us then some (some (whereTrue r 0)) else sets[i]? := by
  have hsz : (sizes c)[i]? = some (r.count true) := by simp [sizes, hr]
  have hb : ∀ j ∈ idxOfSize (sizes c) us, j < sets.length := by
    intro j hj
    have := (mem_idxOfSize _ _ _).1 hj
    have := (List.getElem?_eq_some_iff.1 this).1
    simpa [sizes, hlen] using this
  have hmem : i ∈ idxOfSize (sizes c) us ↔ r.count true = us := by
    rw [mem_idxOfSize, hsz]; simp
  unfold stepSize; dsimp only
  split
  · next h0 =>
    rw [getElem?_scatterAll _ _ _ hb]
    by_cases h : r.count true = us
    · have : whereTrue r 0 = [] := by
        rw [← List.length_eq_zero_iff, length_whereTrue]; omega
      simp [hmem, h, this]
    · simp [hmem, h]
  · next h0 =>
    have hb' : ∀ j ∈ idxOfSize (sizes c) us, j < c.length := by rw [← hlen]; exact hb
    rw [filterMap_getElem? c _ hb', List.flatMap_map]
    have hfl : (List.flatMap (fun a => whereTrue (c[a]?.getD []) 0) (idxOfSize (sizes c) us)) =
        ((idxOfSize (sizes c) us).map fun a => whereTrue (c[a]?.getD []) 0).flatten := by
      rw [List.flatMap_def]
    rw [hfl, chunk_flatten us (by omega)]
    · rw [getElem?_scatter _ _ _ hb]
      simp [hmem, hr]
    · intro l hl
      obtain ⟨j, hj, rfl⟩ := List.mem_map.1 hl
      rw [length_whereTrue]
      have := (mem_idxOfSize _ _ _).1 hj
      simp only [sizes, List.getElem?_map, Option.map_eq_some_iff] at this
      obtain ⟨r', hr', h'⟩ := this
      simp [hr', h']

theorem foldl_stepSize (c : List (List Bool)) (us : List ℕ) (sets : List (Option (List ℕ)))
    (hlen : sets.length = c.length) :
    (us.foldl (stepSize c) sets).length = c.length ∧
    ∀ (i : ℕ) r, c[i]? = some r → (us.foldl (stepSize c) sets)[i]? =
      if r.count true ∈ us then some (some (whereTrue r 0)) else sets[i]? := by
  induction us generalizing sets with
  | nil => simp [hlen]
  | cons u us ih =>
    have hl : (stepSize c sets u).length = c.length := by rw [length_stepSize, hlen]
    obtain ⟨h1, h2⟩ := ih _ hl
    refine ⟨by simpa using h1, ?_⟩
    intro i r hr
    rw [List.foldl_cons, h2 i r hr, getElem?_stepSize c sets u hlen i r hr]
    by_cases ha : r.count true ∈ us <;> by_cases hb : r.count true = u <;> simp [ha, hb]

/-- The whole function is a row-wise map. -/
theorem conformalSetsFromScores_eq (val : List α) (test : List (List α)) (e : ℚ) :
    conformalSetsFromScores val test e = test.map fun row => some (whereTrue (condRow val row e) 0) := by
  unfold conformalSetsFromScores; dsimp only
  have hlen : (List.replicate test.length (none : Option (List ℕ))).length = (conds val test e).length := by
    simp [conds]
  obtain ⟨h1, h2⟩ := foldl_stepSize (conds val test e) (unique (sizes (conds val test e))) _ hlen
  apply List.ext_getElem?
  intro i
  by_cases hi : i < test.length
  · have hc : (conds val test e)[i]? = some (condRow val test[i] e) := by simp [conds, hi]
    rw [h2 i _ hc]
    have : (condRow val test[i] e).count true ∈ unique (sizes (conds val test e)) := by
      unfold unique
      rw [List.mem_mergeSort, List.mem_dedup]
      apply List.mem_of_getElem? (i := i)
      simp [sizes, hc]
    simp [this, hi]
  · rw [List.getElem?_eq_none (by rw [h1]; simpa [conds] using hi), List.getElem?_eq_none (by simpa using hi)]

theorem mem_set_iff (val row : List α) (e : ℚ) (j : ℕ) :
    j ∈ whereTrue (condRow val row e) 0 ↔
      ∃ t, row[j]? = some t ∧ ((val.countP fun v => decide (v > t) : ℕ) : ℚ) < (1 - e) * ((val.length : ℚ) + 1) := by
  rw [mem_whereTrue]
  simp [condRow]

end Verif.ConformalClassification
