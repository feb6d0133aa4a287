import Verif.Model.AdaptivePrediction
import Verif.Props.ConformalClassification
import Verif.Props.Exact
import Verif.Props.JackknifeCoverage

/-!
Property C104: the scores and sets of adaptive and simple prediction classifiers, from probabilities to sets.
-/
set_option linter.unusedSectionVars false

namespace Verif.Props.AdaptivePrediction

open Verif Verif.AdaptivePrediction Verif.ConformalClassification Finset

/-! ### Orders -/

section order
variable {α : Type*} [LinearOrder α] [Zero α]

theorem argsort_perm (l : List α) : (argsort l).Perm (List.range l.length) := List.perm_insertionSort _ _

theorem no_swap {L : List ℕ} (h : L.Nodup) {a b : ℕ} (h1 : [a, b].Sublist L) (h2 : [b, a].Sublist L) : False := by
  induction L with
  | nil => simp at h1
  | cons x L ih =>
    obtain ⟨hx, hL⟩ := List.nodup_cons.1 h
    cases h1 with
    | cons _ h1 =>
      cases h2 with
      | cons _ h2 => exact ih hL h1 h2
      | cons_cons _ h2 => exact hx (h1.subset (by simp))
    | cons_cons _ h1 =>
      cases h2 with
      | cons _ h2 => exact hx (h2.subset (by simp))
      | cons_cons _ h2 => exact hx (h1.subset (by simp))

/-- `argsort` is ascending, with equal values in the order of their positions. -/
theorem argsort_order (l : List α) :
    (argsort l).Pairwise fun a b => l.getD a 0 < l.getD b 0 ∨ (l.getD a 0 = l.getD b 0 ∧ a < b) := by
  have hnd : (argsort l).Nodup := (argsort_perm l).nodup_iff.2 List.nodup_range
  have hsorted : (argsort l).Pairwise fun a b => l.getD a 0 ≤ l.getD b 0 := by
    have : Std.Total (fun a b : ℕ => l.getD a 0 ≤ l.getD b 0) := ⟨fun a b => le_total _ _⟩
    have : IsTrans ℕ (fun a b : ℕ => l.getD a 0 ≤ l.getD b 0) := ⟨fun a b c => le_trans⟩
    exact List.pairwise_insertionSort _ _
  rw [List.pairwise_iff_forall_sublist] at hsorted ⊢
  intro a b hab
  rcases (hsorted hab).lt_or_eq with h | h
  · exact Or.inl h
  · refine Or.inr ⟨h, ?_⟩
    by_contra hlt
    have hne : a ≠ b := by
      have := List.Nodup.sublist hab hnd
      simpa using this
    have hba : b < a := by omega
    have ha : a < l.length := List.mem_range.1 ((argsort_perm l).subset (hab.subset (by simp)))
    refine no_swap hnd hab ?_
    refine List.pair_sublist_insertionSort (r := fun a b => l.getD a 0 ≤ l.getD b 0) h.ge ?_
    have hp : (List.range l.length).Pairwise (· < ·) := List.pairwise_lt_range
    have : [b, a] = (List.range l.length).filter fun x => x = b ∨ x = a := by
      apply List.Perm.eq_of_pairwise (le := (· < ·)) (fun _ _ _ _ h1 h2 => absurd (lt_trans h1 h2) (lt_irrefl _))
        (by simpa using hba) (hp.filter _)
      rw [List.perm_ext_iff_of_nodup (by simp; omega) (List.nodup_range.filter _)]
      intro x
      simp
      omega
    rw [this]
    exact List.filter_sublist

/-- `argsort` of a rearrangement of `0 … n - 1` is its inverse. -/
theorem argsort_inverse (q : List ℕ) (hq : q.Perm (List.range q.length)) (y : ℕ) (hy : y < q.length) :
    ∃ i, (argsort q)[y]? = some i ∧ q[i]? = some y := by
  have hlen : (argsort q).length = q.length := by simpa using (argsort_perm q).length_eq
  have hrange : (List.range q.length).map (q.getD · 0) = q := by
    apply List.ext_getElem
    · simp
    · intro i h1 h2; simp [List.getD_eq_getElem?_getD, h2]
  have hmap : (argsort q).map (q.getD · 0) = List.range q.length := by
    apply List.Perm.eq_of_pairwise (le := (· ≤ ·)) (fun a b _ _ h1 h2 => le_antisymm h1 h2)
    · rw [List.pairwise_map]
      exact (argsort_order q).imp fun h => h.elim le_of_lt fun h => h.1.le
    · exact List.pairwise_lt_range.imp le_of_lt
    · refine ((argsort_perm q).map _).trans ?_
      rw [hrange]; exact hq
  have hy' : y < (argsort q).length := by omega
  refine ⟨(argsort q)[y], by simp [hy'], ?_⟩
  have hi : (argsort q)[y] < q.length := List.mem_range.1 ((argsort_perm q).subset (List.getElem_mem hy'))
  have h2 : ((argsort q).map (q.getD · 0))[y]? = some y := by rw [hmap]; simp [hy]
  simp only [List.getElem?_map, List.getElem?_eq_getElem hy', Option.map_some, Option.some.injEq] at h2
  rw [List.getD_eq_getElem?_getD, List.getElem?_eq_getElem hi] at h2
  rw [List.getElem?_eq_getElem hi]
  simpa using h2

end order

/-! ### Scores -/

variable {K : Type} [Field K] [LinearOrder K] [IsStrictOrderedRing K]

/-- The labels which come before `y` or are `y`: those which are more likely, and among the equally likely ones those from `y` on. -/
def ahead (p : List K) (y : ℕ) : Finset ℕ :=
  (range p.length).filter fun z => p.getD y 0 < p.getD z 0 ∨ (p.getD z 0 = p.getD y 0 ∧ y ≤ z)

/-- **C104, the adaptive score.** The score of a label is the sum of the probabilities of the labels that are more likely, of the
equally likely labels with a larger index, and of the label itself. -/
theorem C104_score (p : List K) (y : ℕ) :
    adaptiveScore p y = if y < p.length then some (∑ z ∈ ahead p y, p.getD z 0) else none := by
  set perm := (argsort p).reverse with hperm
  have hp : perm.Perm (List.range p.length) := (List.reverse_perm _).trans (argsort_perm p)
  have hlen : perm.length = p.length := by simpa using hp.length_eq
  have hord : perm.Pairwise fun a b => p.getD b 0 < p.getD a 0 ∨ (p.getD b 0 = p.getD a 0 ∧ b < a) := by
    rw [hperm, List.pairwise_reverse]; exact argsort_order p
  unfold adaptiveScore
  simp only [← hperm]
  by_cases hy : y < p.length
  · rw [if_pos hy]
    obtain ⟨i, hi, hq⟩ := argsort_inverse perm (by rw [hlen]; exact hp) y (by omega)
    rw [hi]
    have hil : i < perm.length := (List.getElem?_eq_some_iff.1 hq).1
    have hyi : perm[i] = y := (List.getElem?_eq_some_iff.1 hq).2
    simp only [Option.bind_some, Predictive.cumsum, List.length_map, List.getElem?_map, List.getElem?_range hil, Option.map_some,
      Option.some.injEq]
    have hnd : perm.Nodup := hp.nodup_iff.2 List.nodup_range
    have htake : perm.take (i + 1) = perm.filter fun z => decide (z ∈ ahead p y) := by
      conv_rhs => rw [← List.take_append_drop (i + 1) perm]
      rw [List.filter_append]
      have h1 : (perm.take (i + 1)).filter (fun z => decide (z ∈ ahead p y)) = perm.take (i + 1) := by
        rw [List.filter_eq_self]
        intro z hz
        have hzr : z < p.length := List.mem_range.1 (hp.subset (List.mem_of_mem_take hz))
        obtain ⟨j, hj, rfl⟩ := List.getElem_of_mem hz
        rw [List.length_take] at hj
        rw [List.getElem_take] at hzr ⊢
        simp only [ahead, mem_filter, mem_range, decide_eq_true_eq]
        refine ⟨hzr, ?_⟩
        rcases Nat.lt_or_eq_of_le (show j ≤ i by omega) with hji | rfl
        · have := List.pairwise_iff_getElem.1 hord j i (by omega) hil hji
          rw [hyi] at this
          exact this.imp id fun h => ⟨h.1.symm, h.2.le⟩
        · exact Or.inr ⟨by rw [hyi], hyi.ge⟩
      have h2 : (perm.drop (i + 1)).filter (fun z => decide (z ∈ ahead p y)) = [] := by
        rw [List.filter_eq_nil_iff]
        intro z hz
        obtain ⟨j, hj, rfl⟩ := List.getElem_of_mem hz
        rw [List.length_drop] at hj
        rw [List.getElem_drop]
        have := List.pairwise_iff_getElem.1 hord i (i + 1 + j) hil (by omega) (by omega)
        rw [hyi] at this
        simp only [ahead, mem_filter, mem_range, decide_eq_true_eq, not_and, not_or]
        intro _
        rcases this with h | ⟨h1, h2⟩
        · exact ⟨h.not_gt, fun h' => absurd h' h.ne⟩
        · exact ⟨by rw [h1]; exact lt_irrefl _, fun _ => by omega⟩
      rw [h1, h2, List.append_nil]
    rw [← List.map_take, htake]
    have hfin : ahead p y = (perm.filter fun z => decide (z ∈ ahead p y)).toFinset := by
      ext z
      simp only [List.mem_toFinset, List.mem_filter, decide_eq_true_eq]
      refine ⟨fun h => ⟨hp.symm.subset (List.mem_range.2 ?_), h⟩, fun h => h.2⟩
      simp only [ahead, mem_filter, mem_range] at h
      exact h.1
    conv_rhs => rw [hfin]
    rw [List.sum_toFinset _ (hnd.filter _)]
  · rw [if_neg hy]
    have : (argsort perm)[y]? = none := by
      rw [List.getElem?_eq_none_iff]
      have := (argsort_perm perm).length_eq
      rw [List.length_range] at this
      omega
    rw [this]; rfl

-- ties are broken towards the larger index: label 3 comes first, then 1, 2, 0
example : adaptiveScore ([1 / 10, 3 / 10, 1 / 5, 2 / 5] : List ℚ) 1 = some (7 / 10) ∧
    adaptiveScore ([1 / 4, 1 / 2, 1 / 4] : List ℚ) 0 = some 1 ∧ adaptiveScore ([1 / 4, 1 / 2, 1 / 4] : List ℚ) 2 = some (3 / 4) := by
  decide +kernel

/-- **C104, order of the adaptive scores.** With probabilities that are not negative: less likely labels have larger scores; every
score is at least the probability of the label and at most the sum of all; the score of a least likely label (the first one of them) is
that sum, the score of a most likely label (the last one of them) its own probability. -/
theorem C104_score_order (p : List K) (h0 : ∀ x ∈ p, 0 ≤ x) (y : ℕ) (hy : y < p.length) :
    ∃ s, adaptiveScore p y = some s ∧ p.getD y 0 ≤ s ∧ s ≤ p.sum ∧
      (∀ z t, adaptiveScore p z = some t → p.getD z 0 < p.getD y 0 → s + p.getD z 0 ≤ t) ∧
      ((∀ z < p.length, p.getD y 0 < p.getD z 0 ∨ (p.getD z 0 = p.getD y 0 ∧ y ≤ z)) → s = p.sum) ∧
      ((∀ z < p.length, p.getD z 0 < p.getD y 0 ∨ (p.getD z 0 = p.getD y 0 ∧ z ≤ y)) → s = p.getD y 0) := by
  have hg : ∀ z, 0 ≤ p.getD z 0 := by
    intro z
    rw [List.getD_eq_getElem?_getD]
    rcases h : p[z]? with _ | x
    · simp
    · exact h0 x (List.mem_of_getElem? h)
  have hsum : p.sum = ∑ z ∈ range p.length, p.getD z 0 := by
    have hrange : (List.range p.length).map (p.getD · 0) = p := by
      apply List.ext_getElem
      · simp
      · intro i h1 h2; simp [List.getD_eq_getElem?_getD, h2]
    conv_lhs => rw [← hrange]
    rw [← List.sum_toFinset _ List.nodup_range]
    congr 1; ext z; simp
  refine ⟨_, by rw [C104_score, if_pos hy], ?_, ?_, ?_, ?_, ?_⟩
  · apply single_le_sum (f := fun z => p.getD z 0) (fun z _ => hg z)
    simp [ahead, hy]
  · rw [hsum]
    exact sum_le_sum_of_subset_of_nonneg (filter_subset _ _) fun z _ _ => hg z
  · intro z t ht hlt
    rw [C104_score] at ht
    by_cases hz : z < p.length
    · rw [if_pos hz, Option.some.injEq] at ht
      have hzy : z ∉ ahead p y := by
        simp only [ahead, mem_filter, mem_range, not_and, not_or]
        exact fun _ => ⟨hlt.not_gt, fun h => absurd h hlt.ne⟩
      rw [← ht, add_comm, ← sum_insert (f := fun z => p.getD z 0) hzy]
      apply sum_le_sum_of_subset_of_nonneg _ fun z _ _ => hg z
      intro w hw
      rw [mem_insert] at hw
      rcases hw with rfl | hw
      · simp [ahead, hz]
      · simp only [ahead, mem_filter, mem_range] at hw ⊢
        refine ⟨hw.1, Or.inl ?_⟩
        rcases hw.2 with h | h
        · exact hlt.trans h
        · rw [h.1]; exact hlt
    · rw [if_neg hz] at ht; cases ht
  · intro h
    rw [hsum]
    congr 1
    unfold ahead
    rw [filter_true_of_mem]
    intro z hz
    exact h z (mem_range.1 hz)
  · intro h
    have : ahead p y = {y} := by
      ext z
      simp only [ahead, mem_filter, mem_range, mem_singleton]
      constructor
      · rintro ⟨hz, h1⟩
        rcases h z hz with h2 | h2
        · rcases h1 with h1 | h1
          · exact absurd h1 h2.not_gt
          · exact absurd h1.1 h2.ne
        · rcases h1 with h1 | h1
          · rw [h2.1] at h1; exact absurd h1 (lt_irrefl _)
          · omega
      · rintro rfl
        exact ⟨hy, Or.inr ⟨rfl, le_rfl⟩⟩
    rw [this, sum_singleton]

/-! ### Sets -/

/-- On rows of `c` probabilities, `σ p y` is the score of label `y`. -/
def Scores (score : List K → ℕ → Option K) (c : ℕ) (σ : List K → ℕ → K) : Prop :=
  ∀ p, p.length = c → ∀ y < c, score p y = some (σ p y)

theorem mapM_map {α β : Type} {f : α → Except String β} {g : α → β} {l : List α} (h : ∀ a ∈ l, f a = .ok (g a)) :
    l.mapM f = .ok (l.map g) := by
  induction l with
  | nil => rfl
  | cons a l ih =>
    rw [List.mapM_cons, h a (by simp), ih fun b hb => h b (by simp [hb])]
    rfl

/-- The probabilities have `c` columns, the targets are labels. -/
structure Proper (c : ℕ) (probs : List (List K)) (targets : List ℕ) : Prop where
  rows : ∀ p ∈ probs, p.length = c
  labels : ∀ y ∈ targets, y < c
  length : probs.length = targets.length

theorem scoreFn_ok {score : List K → ℕ → Option K} {c : ℕ} {σ : List K → ℕ → K} (hσ : Scores score c σ)
    {probs : List (List K)} {targets : List ℕ} (h : Proper c probs targets) :
    scoreFn score probs targets = .ok ((probs.zip targets).map fun d => σ d.1 d.2) := by
  unfold scoreFn
  rw [if_neg (by simpa using h.length)]
  apply mapM_map
  intro d hd
  rw [hσ d.1 (h.rows _ (List.of_mem_zip hd).1) d.2 (h.labels _ (List.of_mem_zip hd).2)]
  rfl

theorem testScores_ok {score : List K → ℕ → Option K} {c : ℕ} {σ : List K → ℕ → K} (hσ : Scores score c σ)
    {test : List (List K)} (h : ∀ p ∈ test, p.length = c) :
    testScores score c test = .ok (test.map fun p => (List.range c).map (σ p)) := by
  unfold testScores
  apply mapM_map
  intro p hp
  apply mapM_map
  intro y hy
  rw [hσ p (h p hp) y (List.mem_range.1 hy)]
  rfl

/-- **C104, split conformal sets from probabilities.** One set for every test row; label `j` is in the set of row `p` exactly if it is a
label and fewer than `(1 - e) (n + 1)` validation points have a larger score than `j` has for `p`. Different numbers of rows and targets
are refused. -/
theorem C104_split {score : List K → ℕ → Option K} {c : ℕ} {σ : List K → ℕ → K} (hσ : Scores score c σ)
    (val : List (List K)) (targets : List ℕ) (test : List (List K)) (e : ℚ) :
    (val.length ≠ targets.length → splitSet score c val targets test e = .error "ValueError") ∧
    (Proper c val targets → (∀ p ∈ test, p.length = c) → ∃ sets : List (Option (List ℕ)), splitSet score c val targets test e = .ok sets ∧
      sets.length = test.length ∧ ∀ (i : ℕ) (p : List K), test[i]? = some p → ∃ S : List ℕ, sets[i]? = some (some S) ∧ S.Pairwise (· < ·) ∧
        ∀ j, j ∈ S ↔ j < c ∧
          (((val.zip targets).filter fun d => decide (σ p j < σ d.1 d.2)).length : ℚ) < (1 - e) * (val.length + 1)) := by
  constructor
  · intro h
    unfold splitSet scoreFn
    rw [if_pos h]
    rfl
  · intro hv ht
    unfold splitSet
    rw [scoreFn_ok hσ hv, testScores_ok hσ ht]
    obtain ⟨h1, h2⟩ := C01_conformal_sets_exact ((val.zip targets).map fun d => σ d.1 d.2)
      (test.map fun p => (List.range c).map (σ p)) e
    refine ⟨_, rfl, by simpa using h1, fun i p hp => ?_⟩
    obtain ⟨S, h3, h4, h5⟩ := h2 i ((List.range c).map (σ p)) (by simp [hp])
    refine ⟨S, h3, h4, fun j => ?_⟩
    rw [h5]
    have hlen : ((val.zip targets).length : ℚ) = val.length := by simp [hv.length]
    constructor
    · rintro ⟨t, hj, hlt⟩
      have hjc : j < c := by simpa using (List.getElem?_eq_some_iff.1 hj).1
      rw [List.getElem?_map, List.getElem?_range hjc, Option.map_some, Option.some.injEq] at hj
      subst hj
      refine ⟨hjc, ?_⟩
      rw [numAbove, List.filter_map, List.length_map, List.length_map, hlen] at hlt
      exact hlt
    · rintro ⟨hjc, hlt⟩
      refine ⟨σ p j, by simp [hjc], ?_⟩
      rw [numAbove, List.filter_map, List.length_map, List.length_map, hlen]
      exact hlt

/-- **C104, CV+ sets from probabilities.** The sets of fold `f` start at position `f * m`, `m` being the number of test rows; label `j`
is in the set of fold `f` and row `p` exactly if fewer than `(1 - e) (n + 1)` validation points of all folds have a larger score, each
in its fold, than `j` has for `p`. No fold is refused. -/
theorem C104_cv_plus {score : List K → ℕ → Option K} {c : ℕ} {σ : List K → ℕ → K} (hσ : Scores score c σ)
    (folds : List (Fold K)) (m : ℕ) (e : ℚ) :
    (folds = [] → cvPlusSet score c folds e = .error "ValueError") ∧
    (folds ≠ [] → (∀ f ∈ folds, Proper c f.valProbs f.valTargets ∧ (∀ p ∈ f.testProbs, p.length = c) ∧ f.testProbs.length = m) →
      ∃ sets : List (Option (List ℕ)), cvPlusSet score c folds e = .ok sets ∧ sets.length = folds.length * m ∧
        ∀ (f : ℕ) (fold : Fold K) (i : ℕ) (p : List K), folds[f]? = some fold → fold.testProbs[i]? = some p →
          ∃ S : List ℕ, sets[f * m + i]? = some (some S) ∧ S.Pairwise (· < ·) ∧ ∀ j, j ∈ S ↔ j < c ∧
            (((folds.flatMap fun g => g.valProbs.zip g.valTargets).filter fun d => decide (σ p j < σ d.1 d.2)).length : ℚ) <
              (1 - e) * ((folds.map fun g => g.valProbs.length).sum + 1)) := by
  constructor
  · rintro rfl; rfl
  · intro hne h
    set sc : Fold K → List K × List (List K) := fun f =>
      ((f.valProbs.zip f.valTargets).map fun d => σ d.1 d.2, f.testProbs.map fun p => (List.range c).map (σ p)) with hsc
    have hm : folds.mapM (fun f => do
        let val ← scoreFn score f.valProbs f.valTargets
        let test ← testScores score c f.testProbs
        pure (val, test)) = Except.ok (folds.map sc) := by
      apply mapM_map
      intro f hf
      rw [scoreFn_ok hσ (h f hf).1, testScores_ok hσ (h f hf).2.1]
      rfl
    have hemp : (folds.map sc).isEmpty = false := by simpa using hne
    refine ⟨cvPlusConformalSet (folds.map sc) e, ?_, ?_, ?_⟩
    · unfold cvPlusSet
      rw [hm]
      simp only [bind, Except.bind, hemp]
      rfl
    · rw [C05_cvplus_count _ m (by
        intro g hg
        obtain ⟨f, hf, rfl⟩ := List.mem_map.1 hg
        simpa [hsc] using (h f hf).2.2), List.length_map]
    · intro f fold i p hf hp
      obtain ⟨S, h3, h4, h5⟩ := (C05_sets (folds.map sc) m (by
        intro g hg
        obtain ⟨f, hf, rfl⟩ := List.mem_map.1 hg
        simpa [hsc] using (h f hf).2.2) e).1 f (sc fold) i ((List.range c).map (σ p)) (by simp [hf]) (by simp [hsc, hp])
      refine ⟨S, h3, h4, fun j => ?_⟩
      rw [h5]
      have hflat : (folds.map sc).flatMap (·.1) = (folds.flatMap fun g => g.valProbs.zip g.valTargets).map fun d => σ d.1 d.2 := by
        rw [List.flatMap_map, List.map_flatMap]
      have hlen : ((folds.flatMap fun g => g.valProbs.zip g.valTargets).length : ℚ) = (folds.map fun g => g.valProbs.length).sum := by
        rw [List.length_flatMap]
        congr 2
        apply List.map_congr_left
        intro g hg
        simp [(h g hg).1.length]
      rw [hflat, List.length_map, hlen]
      constructor
      · rintro ⟨t, hj, hlt⟩
        have hjc : j < c := by simpa using (List.getElem?_eq_some_iff.1 hj).1
        rw [List.getElem?_map, List.getElem?_range hjc, Option.map_some, Option.some.injEq] at hj
        subst hj
        refine ⟨hjc, ?_⟩
        rw [List.filter_map, List.length_map] at hlt
        exact hlt
      · rintro ⟨hjc, hlt⟩
        refine ⟨σ p j, by simp [hjc], ?_⟩
        rw [List.filter_map, List.length_map]
        exact hlt

/-- The adaptive score as a function. -/
def mass (p : List K) (y : ℕ) : K := ∑ z ∈ ahead p y, p.getD z 0

/-- Both score functions are scores on rows of any length. -/
theorem C104_scores (c : ℕ) :
    Scores (K := K) adaptiveScore c mass ∧ Scores (K := K) AdaptivePrediction.simpleScore c fun p y => 1 - p.getD y 0 := by
  constructor
  · intro p hp y hy
    rw [C104_score, if_pos (by omega)]; rfl
  · intro p hp y hy
    unfold AdaptivePrediction.simpleScore
    dsimp only
    rw [List.getD_eq_getElem?_getD, List.getElem?_eq_getElem (by omega)]
    rfl

/-- **C104, less likely labels first.** If a label is in a set, so are all labels which are less likely, for both score functions (for
the adaptive score with probabilities that are not negative). -/
theorem C104_less_likely_first (score : List K → ℕ → Option K) (hs : score = adaptiveScore ∨ score = AdaptivePrediction.simpleScore)
    (c : ℕ) (val : List (List K)) (targets : List ℕ) (test : List (List K)) (e : ℚ) (sets : List (Option (List ℕ)))
    (hv : Proper c val targets) (ht : ∀ p ∈ test, p.length = c) (h0 : ∀ p ∈ test, ∀ x ∈ p, 0 ≤ x)
    (h : splitSet score c val targets test e = .ok sets) (i : ℕ) (p : List K) (S : List ℕ) (hp : test[i]? = some p)
    (hS : sets[i]? = some (some S)) (j k : ℕ) (hj : j ∈ S) (hk : k < c) (hlt : p.getD k 0 < p.getD j 0) : k ∈ S := by
  have main : ∀ σ : List K → ℕ → K, Scores score c σ → (j < c → σ p j ≤ σ p k) → k ∈ S := by
    intro σ hσ hle
    obtain ⟨sets', h1, -, h2⟩ := (C104_split hσ val targets test e).2 hv ht
    rw [h, Except.ok.injEq] at h1
    subst h1
    obtain ⟨S', h3, -, h4⟩ := h2 i p hp
    rw [hS, Option.some.injEq, Option.some.injEq] at h3
    subst h3
    rw [h4] at hj ⊢
    refine ⟨hk, lt_of_le_of_lt ?_ hj.2⟩
    have hle := hle hj.1
    norm_cast
    rw [← List.countP_eq_length_filter, ← List.countP_eq_length_filter]
    apply List.countP_mono_left
    intro d _ hd
    simp only [decide_eq_true_eq] at hd ⊢
    exact lt_of_le_of_lt hle hd
  have hpm : p ∈ test := List.mem_of_getElem? hp
  have hpl := ht p hpm
  rcases hs with rfl | rfl
  · refine main mass (C104_scores c).1 fun hjc => ?_
    obtain ⟨s, hs, -, -, h1, -⟩ := C104_score_order p (h0 p hpm) j (by omega)
    have hsk := (C104_scores (K := K) c).1 p hpl k hk
    have := h1 k (mass p k) hsk hlt
    rw [(C104_scores (K := K) c).1 p hpl j hjc, Option.some.injEq] at hs
    rw [hs]
    have h3 : 0 ≤ p.getD k 0 := by
      rw [List.getD_eq_getElem?_getD, List.getElem?_eq_getElem (by omega)]
      exact h0 p hpm _ (List.getElem_mem _)
    linarith
  · exact main _ (C104_scores c).2 fun _ => by linarith

/-- **C104, the least likely label is always there.** With probabilities that are not negative and sum to one, and an error below one,
every set of the adaptive classifier contains the least likely label (the first of them); so no set is empty. -/
theorem C104_least_likely_always (c : ℕ) (val : List (List K)) (targets : List ℕ) (test : List (List K)) (e : ℚ) (he : e < 1)
    (sets : List (Option (List ℕ))) (hv : Proper c val targets) (ht : ∀ p ∈ test, p.length = c)
    (hvp : ∀ p ∈ val, (∀ x ∈ p, 0 ≤ x) ∧ p.sum = 1) (htp : ∀ p ∈ test, (∀ x ∈ p, 0 ≤ x) ∧ p.sum = 1)
    (h : splitSet adaptiveScore c val targets test e = .ok sets) (i : ℕ) (p : List K) (S : List ℕ) (hp : test[i]? = some p)
    (hS : sets[i]? = some (some S)) (k : ℕ) (hk : k < c)
    (hmin : ∀ z < c, p.getD k 0 < p.getD z 0 ∨ (p.getD z 0 = p.getD k 0 ∧ k ≤ z)) : k ∈ S := by
  obtain ⟨sets', h1, -, h2⟩ := (C104_split (C104_scores c).1 val targets test e).2 hv ht
  rw [h, Except.ok.injEq] at h1
  subst h1
  obtain ⟨S', h3, -, h4⟩ := h2 i p hp
  rw [hS, Option.some.injEq, Option.some.injEq] at h3
  subst h3
  rw [h4]
  refine ⟨hk, ?_⟩
  have hpm : p ∈ test := List.mem_of_getElem? hp
  have hpl := ht p hpm
  have hnil : ((val.zip targets).filter fun d => decide (mass p k < mass d.1 d.2)) = [] := by
    rw [List.filter_eq_nil_iff]
    intro d hd
    simp only [decide_eq_true_eq, not_lt]
    obtain ⟨s, hs, -, -, -, hall, -⟩ := C104_score_order p (htp p hpm).1 k (by omega)
    rw [(C104_scores (K := K) c).1 p hpl k hk, Option.some.injEq] at hs
    rw [hs, hall (by rw [hpl]; exact hmin), (htp p hpm).2, ← (hvp _ (List.of_mem_zip hd).1).2]
    have hdl := hv.rows _ (List.of_mem_zip hd).1
    have hdc := hv.labels _ (List.of_mem_zip hd).2
    obtain ⟨t, ht', -, hle, -⟩ := C104_score_order d.1 (hvp _ (List.of_mem_zip hd).1).1 d.2 (by omega)
    rw [(C104_scores (K := K) c).1 d.1 hdl d.2 hdc, Option.some.injEq] at ht'
    rw [ht']; exact hle
  rw [hnil]
  have : (0 : ℚ) < (val.length : ℚ) + 1 := by positivity
  simp only [List.length_nil, Nat.cast_zero]
  exact mul_pos (by linarith) this

/-- **C104, false of the code:** that the sets of the adaptive classifier consist of the most likely labels. Here the label of
probability 9/10 is left out and the one of probability 1/10 is in. -/
theorem C104_most_likely_false :
    splitSet (K := ℚ) adaptiveScore 2 [[1 / 2, 1 / 2]] [0] [[9 / 10, 1 / 10]] (1 / 2) = .ok [some [1]] ∧
    splitSet (K := ℚ) AdaptivePrediction.simpleScore 2 [[1 / 2, 1 / 2]] [0] [[9 / 10, 1 / 10]] (1 / 2) = .ok [some [1]] := by
  decide +kernel

example : Proper (K := ℚ) 3 [[1 / 2, 1 / 4, 1 / 4], [1 / 5, 3 / 5, 1 / 5]] [0, 1] ∧
    splitSet (K := ℚ) adaptiveScore 3 [[1 / 2, 1 / 4, 1 / 4], [1 / 5, 3 / 5, 1 / 5]] [0, 1]
      [[1 / 10, 1 / 5, 7 / 10], [2 / 5, 2 / 5, 1 / 5]] (2 / 3) = .ok [some [0, 1, 2], some [0, 2]] ∧
    cvPlusSet (K := ℚ) adaptiveScore 3 [⟨[[1 / 2, 1 / 4, 1 / 4]], [0], [[1 / 10, 1 / 5, 7 / 10]]⟩,
      ⟨[[1 / 5, 3 / 5, 1 / 5]], [1], [[2 / 5, 2 / 5, 1 / 5]]⟩] (2 / 3) = .ok [some [0, 1, 2], some [0, 2]] ∧
    splitSet (K := ℚ) adaptiveScore 3 [[1 / 2, 1 / 4, 1 / 4]] [0, 1] [] (1 / 3) = .error "ValueError" := by
  refine ⟨⟨by decide +kernel, by decide +kernel, rfl⟩, ?_, ?_, by decide +kernel⟩
  · unfold splitSet
    simp only [conformalSetsFromScores_eq]
    decide +kernel
  · unfold cvPlusSet cvPlusConformalSet
    simp only [conformalSetsFromScores_eq]
    decide +kernel

/-! ### Concrete cases that meet the hypotheses of the theorems above -/

example := C104_score_order (K := ℚ) [1 / 10, 3 / 10, 1 / 5, 2 / 5] (by decide +kernel) 1 (by decide)

theorem exProper : Proper (K := ℚ) 3 [[1 / 2, 1 / 4, 1 / 4], [1 / 5, 3 / 5, 1 / 5]] [0, 1] := ⟨by decide +kernel, by decide +kernel, rfl⟩

theorem exSplitSet : splitSet (K := ℚ) adaptiveScore 3 [[1 / 2, 1 / 4, 1 / 4], [1 / 5, 3 / 5, 1 / 5]] [0, 1]
    [[1 / 10, 1 / 5, 7 / 10], [2 / 5, 2 / 5, 1 / 5]] (2 / 3) = .ok [some [0, 1, 2], some [0, 2]] := by
  unfold splitSet
  simp only [conformalSetsFromScores_eq]
  decide +kernel

/-- The scores of the simple procedure are those of a function. -/
theorem exScores : Scores (K := ℚ) AdaptivePrediction.simpleScore 3 (fun p y => 1 - p.getD y 0) := by
  intro p hp y hy
  simp [AdaptivePrediction.simpleScore, hp, hy]

example := C104_split exScores [[1 / 2, 1 / 4, 1 / 4], [1 / 5, 3 / 5, 1 / 5]] [0, 1] [[1 / 10, 1 / 5, 7 / 10], [2 / 5, 2 / 5, 1 / 5]] (2 / 3)
example := C104_cv_plus exScores [⟨[[1 / 2, 1 / 4, 1 / 4]], [0], [[1 / 10, 1 / 5, 7 / 10]]⟩,
  ⟨[[1 / 5, 3 / 5, 1 / 5]], [1], [[2 / 5, 2 / 5, 1 / 5]]⟩] 1 (2 / 3)
example := C104_less_likely_first (K := ℚ) adaptiveScore (.inl rfl) 3 _ _ _ (2 / 3) _ exProper (by decide +kernel) (by decide +kernel)
  exSplitSet 1 [2 / 5, 2 / 5, 1 / 5] [0, 2] rfl rfl 0 2 (by decide) (by decide) (by decide +kernel)
example := C104_least_likely_always (K := ℚ) 3 _ _ _ (2 / 3) (by decide +kernel) _ exProper (by decide +kernel) (by decide +kernel)
  (by decide +kernel) exSplitSet 1 [2 / 5, 2 / 5, 1 / 5] [0, 2] rfl rfl 2 (by decide) (by decide +kernel)

end Verif.Props.AdaptivePrediction
