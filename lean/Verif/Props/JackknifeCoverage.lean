import Verif.Props.JackknifeMore
import Verif.Lemmas.Tournament
import Verif.Lemmas.Exchangeable
import Mathlib.MeasureTheory.Constructions.BorelSpace.Order
import Mathlib.MeasureTheory.Order.Group.Lattice
import Mathlib.Data.Fintype.Perm

/-!
Property C102: coverage of the intervals of jackknife+, jackknife-minmax and CV+ on exchangeable data, for any learning algorithm
which does not depend on the order of its training data.
-/
set_option linter.unusedSectionVars false

namespace Verif.Props.JackknifeCoverage

open Verif Verif.ConformalRegression Verif.Quantile Finset MeasureTheory

variable {X : Type*} {K : Type*} [Field K] [LinearOrder K] [IsStrictOrderedRing K] [FloorRing K]
variable {ι κ : Type*} [Fintype ι] [DecidableEq ι] [DecidableEq κ]

/-! ### The experiment -/

/-- A learning algorithm: from training data, in any order, a predictor. -/
abbrev Learner (X K : Type*) := Multiset (X × K) → X → K

/-- The data without the groups `g` and `h`. -/
def without (f : ι → κ) (D : ι → X × K) (g h : κ) : Multiset (X × K) :=
  (univ.filter fun l => f l ≠ g ∧ f l ≠ h).val.map D

/-- The indices different from `j`: the training set if `j` is the test point. -/
def others (n : ℕ) (j : Fin (n + 1)) : List (Fin (n + 1)) := (List.finRange (n + 1)).filter (· ≠ j)

/-- With `j` as test point, the model which leaves out training point `k`. -/
def loo {n : ℕ} (A : Learner X K) (D : Fin (n + 1) → X × K) (j k : Fin (n + 1)) : X → K := A (without id D j k)

/-- A method of leave-one-out intervals, called with: the left-out predictions, the targets, the predictions at the test inputs, the
error. -/
abbrev LooMethod (K : Type*) := List K → List K → List (List K) → K → Except String (List (K × K))

/-- With `j` as test point and the others as training data, the interval of the method contains the target of `j`. -/
def Covers {n : ℕ} (method : LooMethod K) (A : Learner X K) (D : Fin (n + 1) → X × K) (e : K) (j : Fin (n + 1)) : Prop :=
  ∃ iv, method ((others n j).map fun k => loo A D j k (D k).1) ((others n j).map fun k => (D k).2)
      ((others n j).map fun k => [loo A D j k (D j).1]) e = .ok [iv] ∧ isIn [(D j).2] [iv] = [true]

/-- With fold `g` set apart, the model which leaves out fold `k`. -/
def cvModel {F m : ℕ} (A : Learner X K) (D : Fin (F + 1) × Fin m → X × K) (g k : Fin (F + 1)) : X → K :=
  A (without Prod.fst D g k)

/-- With `j` as test point, the folds other than that of `j` as training data, the interval of CV+ contains the target of `j`. -/
def CvCovers {F m : ℕ} (A : Learner X K) (D : Fin (F + 1) × Fin m → X × K) (e : K) (j : Fin (F + 1) × Fin m) : Prop :=
  ∃ iv, cvPlus ((others F j.1).map fun k =>
      ⟨(List.finRange m).map fun b => cvModel A D j.1 k (D (k, b)).1, (List.finRange m).map fun b => (D (k, b)).2,
        [cvModel A D j.1 k (D j).1]⟩) e = .ok [iv] ∧ isIn [(D j).2] [iv] = [true]

/-! ### Misses -/

/-- Residual of `i` under the model without the groups of `i` and `k`. -/
def R (f : ι → κ) (A : Learner X K) (D : ι → X × K) (i k : ι) : K := |(D i).2 - A (without f D (f i) (f k)) (D i).1|

theorem without_comm (f : ι → κ) (D : ι → X × K) (g h : κ) : without f D g h = without f D h g := by
  unfold without; congr 2; ext l; simp [and_comm]

/-- `i` has a larger residual than all but `c` of the points of other groups. -/
def Strong (f : ι → κ) (A : Learner X K) (c : ℕ) (D : ι → X × K) (i : ι) : Prop :=
  (univ.filter fun j => f j ≠ f i).card ≤ (univ.filter fun j => f j ≠ f i ∧ R f A D j i < R f A D i j).card + c

/-- All residuals of `i` are larger than those, without `i`, of all but `c` of the other points. -/
def Dominant {n : ℕ} (A : Learner X K) (c : ℕ) (D : Fin (n + 1) → X × K) (i : Fin (n + 1)) : Prop :=
  n ≤ (univ.filter fun j => j ≠ i ∧ ∀ k, k ≠ i → R id A D j i < R id A D i k).card + c

theorem countP_nodup {l : List ι} (hl : l.Nodup) (p : ι → Bool) :
    l.countP p = (univ.filter fun k => k ∈ l ∧ p k = true).card := by
  rw [List.countP_eq_length_filter, ← List.toFinset_card_of_nodup (hl.filter _)]
  congr 1; ext k; simp

theorem nodup_others (n : ℕ) (j : Fin (n + 1)) : (others n j).Nodup := (List.nodup_finRange _).filter _

theorem mem_others {n : ℕ} {j k : Fin (n + 1)} : k ∈ others n j ↔ k ≠ j := by simp [others]

theorem countP_others {n : ℕ} (j : Fin (n + 1)) (p : Fin (n + 1) → Bool) :
    (others n j).countP p = (univ.filter fun k => k ≠ j ∧ p k = true).card := by
  rw [countP_nodup (nodup_others n j)]; simp only [mem_others]

theorem card_ne {n : ℕ} (j : Fin (n + 1)) : (univ.filter fun k : Fin (n + 1) => k ≠ j).card = n := by
  rw [filter_ne' univ j, card_erase_of_mem (mem_univ j), card_univ, Fintype.card_fin]; rfl

theorem length_others (n : ℕ) (j : Fin (n + 1)) : (others n j).length = n := by
  have := countP_others j (fun _ => true)
  simpa [card_ne] using this

theorem zipWith_same {α β γ δ : Type*} (g : α → β → γ) (u : δ → α) (v : δ → β) (l : List δ) :
    List.zipWith g (l.map u) (l.map v) = l.map fun x => g (u x) (v x) := by
  induction l with
  | nil => rfl
  | cons a l ih => simp [ih]

theorem isIn_one (y : K) (iv : K × K) : isIn [y] [iv] = [true] ↔ y ≤ iv.2 ∧ iv.1 ≤ y := by
  simp [isIn]

/-- A test point missed by jackknife+ has a larger residual than all but `⌈e (n - 1)⌉` training points. -/
theorem plus_miss {n : ℕ} (hn : 1 ≤ n) (A : Learner X K) (D : Fin (n + 1) → X × K) (e : K) (he0 : 0 ≤ e) (he1 : e ≤ 1)
    (j : Fin (n + 1)) (h : ¬ Covers jackknifePlus A D e j) : Strong id A ⌈e * ((n : K) - 1)⌉₊ D j := by
  have hl := length_others n j
  obtain ⟨ivs, hok, hlen, hiv⟩ := C12_jackknifeplus_accepts ((others n j).map fun k => loo A D j k (D k).1)
    ((others n j).map fun k => (D k).2) ((others n j).map fun k => [loo A D j k (D j).1]) e n 1 hn le_rfl
    (by simp [hl]) (by simp [hl]) ⟨by simp [hl], by simp⟩
  obtain ⟨iv, rfl⟩ := List.length_eq_one_iff.1 hlen
  have h0 := hiv 0 (by simp)
  simp only [List.map_map, zipWith_same, List.getElem_cons_zero] at h0
  have hni : ¬ ((D j).2 ≤ iv.2 ∧ iv.1 ≤ (D j).2) := fun hc => h ⟨iv, hok, (isIn_one _ _).2 hc⟩
  unfold Strong
  simp only [id, ne_eq]
  rw [card_ne j]
  by_cases hr : (D j).2 ≤ iv.2
  · have hlt : (D j).2 < iv.1 := not_le.1 fun hc => hni ⟨hr, hc⟩
    have := below_quantile he0 he1 h0.1 hlt
    rw [List.length_map, hl, List.countP_map, countP_others] at this
    refine this.trans (Nat.add_le_add_right (card_le_card fun k => ?_) _)
    simp only [mem_filter, mem_univ, true_and, Function.comp_apply, List.getD_cons_zero, decide_eq_true_eq]
    rintro ⟨hk, hlt⟩
    refine ⟨hk, ?_⟩
    unfold R
    rw [without_comm]
    simp only [id]
    have := neg_abs_le ((D j).2 - loo A D j k (D j).1)
    unfold loo at *
    linarith
  · have := above_quantile he0 he1 h0.2 (not_le.1 hr)
    rw [List.length_map, hl, List.countP_map, countP_others] at this
    refine this.trans (Nat.add_le_add_right (card_le_card fun k => ?_) _)
    simp only [mem_filter, mem_univ, true_and, Function.comp_apply, List.getD_cons_zero, decide_eq_true_eq]
    rintro ⟨hk, hlt⟩
    refine ⟨hk, ?_⟩
    unfold R
    rw [without_comm]
    simp only [id]
    have := le_abs_self ((D j).2 - loo A D j k (D j).1)
    unfold loo at *
    linarith

/-- A test point missed by jackknife-minmax has larger residuals than all but `⌈e (n - 1)⌉` training points. -/
theorem minmax_miss {n : ℕ} (hn : 1 ≤ n) (A : Learner X K) (D : Fin (n + 1) → X × K) (e : K) (he0 : 0 ≤ e) (he1 : e ≤ 1)
    (j : Fin (n + 1)) (h : ¬ Covers jackknifeMinmax A D e j) : Dominant A ⌈e * ((n : K) - 1)⌉₊ D j := by
  have hl := length_others n j
  obtain ⟨ivs, hok, hlen, hiv⟩ := C12_minmax_accepts ((others n j).map fun k => loo A D j k (D k).1)
    ((others n j).map fun k => (D k).2) ((others n j).map fun k => [loo A D j k (D j).1]) e n 1 hn le_rfl
    (by simp [hl]) (by simp [hl]) ⟨by simp [hl], by simp⟩
  obtain ⟨iv, rfl⟩ := List.length_eq_one_iff.1 hlen
  obtain ⟨q, lo, hi, hq, -, -, hrows, hend⟩ := hiv 0 (by simp)
  simp only [zipWith_same, List.getElem_cons_zero] at hq hend
  have hrow : ∀ k, k ≠ j → lo ≤ loo A D j k (D j).1 ∧ loo A D j k (D j).1 ≤ hi := by
    intro k hk
    simpa using hrows _ (List.mem_map.2 ⟨k, mem_others.2 hk, rfl⟩)
  have hni : ¬ ((D j).2 ≤ hi + q ∧ lo - q ≤ (D j).2) := fun hc => h ⟨iv, hok, (isIn_one _ _).2 (by rw [hend]; exact hc)⟩
  have hbound : ∃ y, q < y ∧ ∀ k, k ≠ j → y ≤ R id A D j k := by
    by_cases hr : (D j).2 ≤ hi + q
    · have hlt : (D j).2 < lo - q := not_le.1 fun hc => hni ⟨hr, hc⟩
      refine ⟨lo - (D j).2, by linarith, fun k hk => ?_⟩
      have h1 := (hrow k hk).1
      have h2 := neg_abs_le ((D j).2 - loo A D j k (D j).1)
      unfold R; unfold loo at *; simp only [id] at *; linarith
    · refine ⟨(D j).2 - hi, by linarith, fun k hk => ?_⟩
      have h1 := (hrow k hk).2
      have h2 := le_abs_self ((D j).2 - loo A D j k (D j).1)
      unfold R; unfold loo at *; simp only [id] at *; linarith
  obtain ⟨y, hqy, hy⟩ := hbound
  have := above_quantile he0 he1 hq hqy
  rw [List.length_map, hl, List.countP_map, countP_others] at this
  refine this.trans (Nat.add_le_add_right (card_le_card fun k => ?_) _)
  simp only [mem_filter, mem_univ, true_and, Function.comp_apply, decide_eq_true_eq]
  rintro ⟨hk, hlt⟩
  refine ⟨hk, fun k' hk' => lt_of_lt_of_le ?_ (hy k' hk')⟩
  unfold R
  rw [without_comm]
  exact hlt

theorem card_fold {F m : ℕ} (g : Fin (F + 1)) : (univ.filter fun k : Fin (F + 1) × Fin m => k.1 ≠ g).card = F * m := by
  have : (univ.filter fun k : Fin (F + 1) × Fin m => k.1 ≠ g) = (univ.filter fun k : Fin (F + 1) => k ≠ g) ×ˢ univ := by
    ext ⟨a, b⟩; simp
  rw [this, card_product, card_ne, card_univ, Fintype.card_fin]

/-- A test point missed by CV+ has a larger residual than all but `⌈e (n - 1)⌉` training points. -/
theorem cv_miss {F m : ℕ} (hF : 1 ≤ F) (A : Learner X K) (D : Fin (F + 1) × Fin m → X × K) (e : K)
    (he0 : 0 ≤ e) (he1 : e ≤ 1) (j : Fin (F + 1) × Fin m) (h : ¬ CvCovers A D e j) :
    Strong Prod.fst A ⌈e * (((F * m : ℕ) : K) - 1)⌉₊ D j := by
  have hm : 1 ≤ m := Nat.one_le_iff_ne_zero.2 fun h0 => by subst h0; exact j.2.elim0
  have hl := length_others F j.1
  obtain ⟨ivs, hok, hlen, hiv⟩ := C12_cvplus_accepts ((others F j.1).map fun k =>
      (⟨(List.finRange m).map fun b => cvModel A D j.1 k (D (k, b)).1, (List.finRange m).map fun b => (D (k, b)).2,
        [cvModel A D j.1 k (D j).1]⟩ : Fold K)) e 1 le_rfl (by
      have : others F j.1 ≠ [] := by rw [← List.length_pos_iff]; omega
      obtain ⟨k, hk⟩ := List.exists_mem_of_ne_nil _ this
      refine ⟨_, List.mem_map.2 ⟨k, hk, rfl⟩, ?_⟩
      rw [← List.length_pos_iff]; simp; omega)
    (by simp) (by simp)
  obtain ⟨iv, rfl⟩ := List.length_eq_one_iff.1 hlen
  have h0 := hiv 0 (by simp)
  simp only [List.flatMap_map, zipWith_same, List.map_map, List.getElem_cons_zero, List.getD_cons_zero] at h0
  have hpairs : ∀ u : Fin (F + 1) × Fin m → K, ((others F j.1).flatMap fun k => (List.finRange m).map fun b => u (k, b)) =
      ((others F j.1) ×ˢ (List.finRange m)).map u := by
    intro u
    simp only [SProd.sprod, List.product, List.map_flatMap, List.map_map]
    rfl
  have hnd : ((others F j.1) ×ˢ (List.finRange m)).Nodup := (nodup_others F j.1).product (List.nodup_finRange m)
  have hcnt : ∀ p : Fin (F + 1) × Fin m → Bool, ((others F j.1) ×ˢ (List.finRange m)).countP p =
      (univ.filter fun k : Fin (F + 1) × Fin m => k.1 ≠ j.1 ∧ p k = true).card := by
    intro p
    rw [countP_nodup hnd]
    congr 1; ext ⟨a, b⟩; simp [mem_others]
  have hlenp : ((others F j.1) ×ˢ (List.finRange m)).length = F * m := by
    rw [List.length_product, hl, List.length_finRange]
  have hni : ¬ ((D j).2 ≤ iv.2 ∧ iv.1 ≤ (D j).2) := fun hc => h ⟨iv, hok, (isIn_one _ _).2 hc⟩
  unfold Strong
  rw [card_fold]
  by_cases hr : (D j).2 ≤ iv.2
  · have hlt : (D j).2 < iv.1 := not_le.1 fun hc => hni ⟨hr, hc⟩
    have h1 := h0.1
    simp only [Function.comp_def] at h1
    rw [hpairs fun k => cvModel A D j.1 k.1 (D j).1 - |(D k).2 - cvModel A D j.1 k.1 (D k).1|] at h1
    have := below_quantile he0 he1 h1 hlt
    rw [List.length_map, hlenp, List.countP_map, hcnt] at this
    refine this.trans (Nat.add_le_add_right (card_le_card fun k => ?_) _)
    simp only [mem_filter, mem_univ, true_and, Function.comp_apply, decide_eq_true_eq]
    rintro ⟨hk, hlt⟩
    refine ⟨hk, ?_⟩
    unfold R
    rw [without_comm]
    have := neg_abs_le ((D j).2 - cvModel A D j.1 k.1 (D j).1)
    unfold cvModel at *
    linarith
  · have h1 := h0.2
    simp only [Function.comp_def] at h1
    rw [hpairs fun k => cvModel A D j.1 k.1 (D j).1 + |(D k).2 - cvModel A D j.1 k.1 (D k).1|] at h1
    have := above_quantile he0 he1 h1 (not_le.1 hr)
    rw [List.length_map, hlenp, List.countP_map, hcnt] at this
    refine this.trans (Nat.add_le_add_right (card_le_card fun k => ?_) _)
    simp only [mem_filter, mem_univ, true_and, Function.comp_apply, decide_eq_true_eq]
    rintro ⟨hk, hlt⟩
    refine ⟨hk, ?_⟩
    unfold R
    rw [without_comm]
    have := le_abs_self ((D j).2 - cvModel A D j.1 k.1 (D j).1)
    unfold cvModel at *
    linarith

/-! ### Counting -/

open Classical in
theorem few_strong (f : ι → κ) (A : Learner X K) (c m : ℕ) (hm : ∀ i, (univ.filter fun j => f j = f i).card ≤ m)
    (D : ι → X × K) : (univ.filter fun i => Strong f A c D i).card ≤ 2 * c + m :=
  Tournament.few_strong f m c hm (fun i j => R f A D j i < R f A D i j) (fun _ _ _ h => not_lt.2 h.le) _
    (fun i hi => (mem_filter.1 hi).2)

open Classical in
theorem few_dominant {n : ℕ} (hn : 1 ≤ n) (A : Learner X K) (c : ℕ) (D : Fin (n + 1) → X × K) :
    (univ.filter fun i => Dominant A c D i).card ≤ c + 1 := by
  refine Tournament.few_dominant (R id A D) n c (by simp) hn _ fun i hi => ?_
  have := (mem_filter.1 hi).2
  unfold Dominant at this
  convert this

open Classical in
/-- **C102.** Let each of `n + 1` points be the test point in turn, the others the training data of any learner which does not
depend on the order of the data. Jackknife+ misses at most `2 ⌈e (n - 1)⌉ + 1` of them. -/
theorem C102_jackknife_plus {n : ℕ} (hn : 1 ≤ n) (A : Learner X K) (D : Fin (n + 1) → X × K) (e : K) (he0 : 0 ≤ e)
    (he1 : e ≤ 1) : (univ.filter fun j => ¬ Covers jackknifePlus A D e j).card ≤ 2 * ⌈e * ((n : K) - 1)⌉₊ + 1 := by
  refine le_trans (card_le_card fun j => ?_) (few_strong id A ⌈e * ((n : K) - 1)⌉₊ 1 (fun i => ?_) D)
  · simp only [mem_filter, mem_univ, true_and]
    exact plus_miss hn A D e he0 he1 j
  · simp [filter_eq']

open Classical in
/-- **C102.** Jackknife-minmax misses at most `⌈e (n - 1)⌉ + 1` of the `n + 1` points. -/
theorem C102_minmax {n : ℕ} (hn : 1 ≤ n) (A : Learner X K) (D : Fin (n + 1) → X × K) (e : K) (he0 : 0 ≤ e)
    (he1 : e ≤ 1) : (univ.filter fun j => ¬ Covers jackknifeMinmax A D e j).card ≤ ⌈e * ((n : K) - 1)⌉₊ + 1 := by
  refine le_trans (card_le_card fun j => ?_) (few_dominant hn A ⌈e * ((n : K) - 1)⌉₊ D)
  simp only [mem_filter, mem_univ, true_and]
  exact minmax_miss hn A D e he0 he1 j

open Classical in
/-- **C102.** Let each point of `F + 1` folds of `m` points be the test point in turn, the other folds the training data: of the
`n + m` points, where `n = F m`, CV+ misses at most `2 ⌈e (n - 1)⌉ + m`. -/
theorem C102_cv_plus {F m : ℕ} (hF : 1 ≤ F) (A : Learner X K) (D : Fin (F + 1) × Fin m → X × K) (e : K) (he0 : 0 ≤ e)
    (he1 : e ≤ 1) : (univ.filter fun j => ¬ CvCovers A D e j).card ≤ 2 * ⌈e * (((F * m : ℕ) : K) - 1)⌉₊ + m := by
  refine le_trans (card_le_card fun j => ?_) (few_strong Prod.fst A ⌈e * (((F * m : ℕ) : K) - 1)⌉₊ m (fun i => ?_) D)
  · simp only [mem_filter, mem_univ, true_and]
    exact cv_miss hF A D e he0 he1 j
  · have : (univ.filter fun j : Fin (F + 1) × Fin m => j.1 = i.1) = {i.1} ×ˢ univ := by
      ext ⟨a, b⟩; simp [eq_comm]
    rw [this, card_product, card_univ, Fintype.card_fin]; simp

/-! ### Probability -/

/-- Renaming the points so that groups stay groups renames the strong points. -/
theorem strong_comp (f : ι → κ) (A : Learner X K) (c : ℕ) (D : ι → X × K) (σ : Equiv.Perm ι)
    (hσ : ∀ a b, f (σ a) = f (σ b) ↔ f a = f b) (i : ι) : Strong f A c (D ∘ σ) i ↔ Strong f A c D (σ i) := by
  have hR : ∀ a b, R f A (D ∘ σ) a b = R f A D (σ a) (σ b) := by
    intro a b
    have hw : without f (D ∘ σ) (f a) (f b) = without f D (f (σ a)) (f (σ b)) := by
      unfold without
      rw [← Multiset.map_map]
      congr 1
      have : (univ.filter fun l => f l ≠ f (σ a) ∧ f l ≠ f (σ b)) =
          (univ.filter fun l => f l ≠ f a ∧ f l ≠ f b).map σ.toEmbedding := by
        ext l
        simp only [mem_filter, mem_univ, true_and, mem_map, Equiv.coe_toEmbedding]
        constructor
        · intro h
          refine ⟨σ.symm l, ?_, by simp⟩
          rw [ne_eq, ne_eq, ← hσ (σ.symm l) a, ← hσ (σ.symm l) b]; simpa using h
        · rintro ⟨k, hk, rfl⟩
          rw [ne_eq, ne_eq, hσ, hσ]; exact hk
      rw [this, map_val]; rfl
    unfold R
    rw [hw]; rfl
  unfold Strong
  simp only [hR]
  have h1 : ∀ (P : ι → Prop) [DecidablePred P], (univ.filter fun k => P (σ k)).card = (univ.filter P).card := by
    intro P _
    refine card_bij (fun k _ => σ k) ?_ ?_ ?_
    · intro k hk; simpa using hk
    · intro a _ b _ hab; exact σ.injective hab
    · intro b hb; exact ⟨σ.symm b, by simpa using hb, by simp⟩
  have e1 := h1 fun k => f k ≠ f (σ i)
  have e2 := h1 fun k => f k ≠ f (σ i) ∧ R f A D k (σ i) < R f A D (σ i) k
  simp only [ne_eq, hσ] at e1 e2
  simp only [ne_eq]
  rw [e1, e2]

theorem dominant_comp {n : ℕ} (A : Learner X K) (c : ℕ) (D : Fin (n + 1) → X × K) (σ : Equiv.Perm (Fin (n + 1)))
    (i : Fin (n + 1)) : Dominant A c (D ∘ σ) i ↔ Dominant A c D (σ i) := by
  have hR : ∀ a b, R id A (D ∘ σ) a b = R id A D (σ a) (σ b) := by
    intro a b
    have hw : without id (D ∘ σ) a b = without id D (σ a) (σ b) := by
      unfold without
      rw [← Multiset.map_map]
      congr 1
      have : (univ.filter fun l => id l ≠ σ a ∧ id l ≠ σ b) =
          (univ.filter fun l => id l ≠ a ∧ id l ≠ b).map σ.toEmbedding := by
        ext l
        simp only [mem_filter, mem_univ, true_and, mem_map, Equiv.coe_toEmbedding, id]
        constructor
        · rintro ⟨h1, h2⟩
          refine ⟨σ.symm l, ⟨?_, ?_⟩, by simp⟩
          · rintro rfl; simp at h1
          · rintro rfl; simp at h2
        · rintro ⟨k, hk, rfl⟩
          simpa using hk
      rw [this, map_val]; rfl
    unfold R
    simp only [id, hw]; rfl
  unfold Dominant
  have hset : (univ.filter fun j => j ≠ σ i ∧ ∀ k, k ≠ σ i → R id A D j (σ i) < R id A D (σ i) k) =
      (univ.filter fun j => j ≠ i ∧ ∀ k, k ≠ i → R id A (D ∘ σ) j i < R id A (D ∘ σ) i k).map σ.toEmbedding := by
    ext l
    simp only [mem_filter, mem_univ, true_and, mem_map, Equiv.coe_toEmbedding, hR]
    constructor
    · rintro ⟨h1, h2⟩
      refine ⟨σ.symm l, ⟨?_, fun k hk => ?_⟩, by simp⟩
      · rintro rfl; simp at h1
      · have := h2 (σ k) (by simpa using hk)
        simpa using this
    · rintro ⟨k, ⟨h1, h2⟩, rfl⟩
      refine ⟨by simpa using h1, fun k' hk' => ?_⟩
      have := h2 (σ.symm k') (by rintro rfl; simp at hk')
      simpa using this
  rw [hset, card_map]

/-- The predictions of the learner are measurable in the data. -/
def MeasurableLearner [MeasurableSpace X] (ι : Type*) (A : Learner X ℝ) : Prop :=
  ∀ (s : Finset ι) (i : ι), Measurable fun z : ι → X × ℝ => A (s.val.map z) (z i).1

theorem measurable_R [MeasurableSpace X] (f : ι → κ) {A : Learner X ℝ} (hA : MeasurableLearner ι A) (i k : ι) :
    Measurable fun z : ι → X × ℝ => R f A z i k := by
  unfold R without
  exact (((measurable_snd.comp (measurable_pi_apply i))).sub (hA _ i)).abs

theorem measurable_card {Z : Type*} [MeasurableSpace Z] (P : ι → Z → Prop) (h : ∀ i, MeasurableSet {z | P i z})
    [∀ z, DecidablePred fun i => P i z] : Measurable fun z => (univ.filter fun i => P i z).card := by
  classical
  have : (fun z => (univ.filter fun i => P i z).card) = fun z => ∑ i, if P i z then 1 else 0 := by
    funext z; rw [card_filter]
  rw [this]
  exact Finset.measurable_sum _ fun i _ => Measurable.ite (h i) measurable_const measurable_const

theorem measurable_strong [MeasurableSpace X] (f : ι → κ) {A : Learner X ℝ} (hA : MeasurableLearner ι A) (c : ℕ) (i : ι) :
    MeasurableSet {z : ι → X × ℝ | Strong f A c z i} := by
  unfold Strong
  refine measurableSet_le measurable_const (Measurable.add_const (measurable_card _ fun j => ?_) _)
  by_cases hj : f j ≠ f i
  · simp only [hj, true_and, ne_eq, not_false_eq_true]
    exact measurableSet_lt (measurable_R f hA j i) (measurable_R f hA i j)
  · simp [hj]

theorem measurable_dominant [MeasurableSpace X] {n : ℕ} {A : Learner X ℝ} (hA : MeasurableLearner (Fin (n + 1)) A) (c : ℕ)
    (i : Fin (n + 1)) : MeasurableSet {z : Fin (n + 1) → X × ℝ | Dominant A c z i} := by
  unfold Dominant
  refine measurableSet_le measurable_const (Measurable.add_const (measurable_card _ fun j => ?_) _)
  by_cases hj : j ≠ i
  · simp only [hj, true_and, ne_eq, not_false_eq_true]
    rw [Set.ofPred_forall]
    refine MeasurableSet.iInter fun k => ?_
    by_cases hk : k = i
    · simp [hk]
    · simp only [hk, not_false_eq_true, forall_const]
      exact measurableSet_lt (measurable_R id hA j i) (measurable_R id hA i k)
  · simp [hj]

variable {Ω : Type*} [MeasurableSpace Ω] [MeasurableSpace X]

/-- **C102.** On exchangeable data the interval of jackknife+ contains the next target with probability at least
`1 - (2 ⌈e (n - 1)⌉ + 1) / (n + 1)`. -/
theorem C102_jackknife_plus_probability {n : ℕ} (hn : 1 ≤ n) (A : Learner X ℝ) (hA : MeasurableLearner (Fin (n + 1)) A)
    (μ : Measure Ω) [IsProbabilityMeasure μ] (D : Fin (n + 1) → Ω → X × ℝ) (hD : ∀ i, Measurable (D i))
    (hex : Exchangeable μ D) (e : ℝ) (he0 : 0 ≤ e) (he1 : e ≤ 1) :
    ENNReal.ofReal (1 - (2 * ⌈e * ((n : ℝ) - 1)⌉₊ + 1) / (n + 1)) ≤
      μ {ω | Covers jackknifePlus A (fun i => D i ω) e (Fin.last n)} := by
  classical
  set c := ⌈e * ((n : ℝ) - 1)⌉₊ with hc
  have h := Exchangeable.coverage μ D hD hex {z | Strong id A c z (Fin.last n)}ᶜ (measurable_strong id hA c _).compl
    (n + 1 - (2 * c + 1)) (fun z => by
      refine ⟨univ.filter fun i => ¬ Strong id A c z i, ?_, ?_⟩
      · have h1 := few_strong id A c 1 (fun i => by simp [filter_eq']) z
        have h2 := card_filter_add_card_filter_not (s := univ) (fun i => Strong id A c z i)
        rw [card_univ, Fintype.card_fin] at h2
        have h3 : ((univ.filter fun i => Strong id A c z i).card : ℝ) ≤ 2 * c + 1 := by exact_mod_cast h1
        have h4 : ((univ.filter fun i => Strong id A c z i).card : ℝ) + (univ.filter fun i => ¬ Strong id A c z i).card =
          n + 1 := by exact_mod_cast h2
        linarith
      · intro i hi
        rw [Set.mem_compl_iff, Set.mem_ofPred_eq, strong_comp id A c z _ (fun a b => by simp)]
        simpa using hi)
  refine le_trans (le_of_eq ?_) (le_trans h (measure_mono fun ω hω => ?_))
  · congr 1; field_simp
  · by_contra hcov
    exact hω (plus_miss hn A _ e he0 he1 _ hcov)

/-- **C102.** On exchangeable data the interval of jackknife-minmax contains the next target with probability at least
`1 - (⌈e (n - 1)⌉ + 1) / (n + 1)`. -/
theorem C102_minmax_probability {n : ℕ} (hn : 1 ≤ n) (A : Learner X ℝ) (hA : MeasurableLearner (Fin (n + 1)) A)
    (μ : Measure Ω) [IsProbabilityMeasure μ] (D : Fin (n + 1) → Ω → X × ℝ) (hD : ∀ i, Measurable (D i))
    (hex : Exchangeable μ D) (e : ℝ) (he0 : 0 ≤ e) (he1 : e ≤ 1) :
    ENNReal.ofReal (1 - (⌈e * ((n : ℝ) - 1)⌉₊ + 1) / (n + 1)) ≤
      μ {ω | Covers jackknifeMinmax A (fun i => D i ω) e (Fin.last n)} := by
  classical
  set c := ⌈e * ((n : ℝ) - 1)⌉₊ with hc
  have h := Exchangeable.coverage μ D hD hex {z | Dominant A c z (Fin.last n)}ᶜ (measurable_dominant hA c _).compl
    (n + 1 - (c + 1)) (fun z => by
      refine ⟨univ.filter fun i => ¬ Dominant A c z i, ?_, ?_⟩
      · have h1 := few_dominant hn A c z
        have h2 := card_filter_add_card_filter_not (s := univ) (fun i => Dominant A c z i)
        rw [card_univ, Fintype.card_fin] at h2
        have h3 : ((univ.filter fun i => Dominant A c z i).card : ℝ) ≤ c + 1 := by exact_mod_cast h1
        have h4 : ((univ.filter fun i => Dominant A c z i).card : ℝ) + (univ.filter fun i => ¬ Dominant A c z i).card =
          n + 1 := by exact_mod_cast h2
        linarith
      · intro i hi
        rw [Set.mem_compl_iff, Set.mem_ofPred_eq, dominant_comp A c z]
        simpa using hi)
  refine le_trans (le_of_eq ?_) (le_trans h (measure_mono fun ω hω => ?_))
  · congr 1; field_simp
  · by_contra hcov
    exact hω (minmax_miss hn A _ e he0 he1 _ hcov)

/-- **C102.** On `F` folds of `m` exchangeable points, `n = F m`, the interval of CV+ contains the target of a new point with
probability at least `1 - (2 ⌈e (n - 1)⌉ + m) / (n + m)`. The fold of the new point is its only member which the interval depends on. -/
theorem C102_cv_plus_probability {F m : ℕ} (hF : 1 ≤ F) (A : Learner X ℝ)
    (hA : MeasurableLearner (Fin (F + 1) × Fin (m + 1)) A) (μ : Measure Ω) [IsProbabilityMeasure μ]
    (D : Fin (F + 1) × Fin (m + 1) → Ω → X × ℝ) (hD : ∀ i, Measurable (D i)) (hex : Exchangeable μ D) (e : ℝ)
    (he0 : 0 ≤ e) (he1 : e ≤ 1) :
    ENNReal.ofReal (1 - (2 * ⌈e * (((F * (m + 1) : ℕ) : ℝ) - 1)⌉₊ + ((m + 1 : ℕ) : ℝ)) / ((F + 1) * ((m + 1 : ℕ) : ℝ))) ≤
      μ {ω | CvCovers A (fun i => D i ω) e (Fin.last F, 0)} := by
  classical
  set c := ⌈e * (((F * (m + 1) : ℕ) : ℝ) - 1)⌉₊ with hc
  have hfold : ∀ i : Fin (F + 1) × Fin (m + 1), (univ.filter fun j : Fin (F + 1) × Fin (m + 1) => j.1 = i.1).card ≤ m + 1 := by
    intro i
    have : (univ.filter fun j : Fin (F + 1) × Fin (m + 1) => j.1 = i.1) = {i.1} ×ˢ univ := by
      ext ⟨a, b⟩; simp [eq_comm]
    rw [this, card_product, card_univ, Fintype.card_fin]; simp
  have h := Exchangeable.coverage_perm μ D hD hex
    (fun i => (Equiv.swap i.1 (Fin.last F)).prodCongr (Equiv.swap i.2 0))
    {z | Strong Prod.fst A c z (Fin.last F, 0)}ᶜ (measurable_strong Prod.fst hA c _).compl
    ((F + 1) * ((m + 1 : ℕ) : ℝ) - (2 * c + ((m + 1 : ℕ) : ℝ))) (fun z => by
      refine ⟨univ.filter fun i => ¬ Strong Prod.fst A c z i, ?_, ?_⟩
      · have h1 := few_strong Prod.fst A c (m + 1) hfold z
        have h2 := card_filter_add_card_filter_not (s := univ) (fun i => Strong Prod.fst A c z i)
        rw [card_univ, Fintype.card_prod, Fintype.card_fin, Fintype.card_fin] at h2
        have h3 : ((univ.filter fun i => Strong Prod.fst A c z i).card : ℝ) ≤ 2 * c + ((m + 1 : ℕ) : ℝ) := by
          exact_mod_cast h1
        have h4 : ((univ.filter fun i => Strong Prod.fst A c z i).card : ℝ) +
          (univ.filter fun i => ¬ Strong Prod.fst A c z i).card = (F + 1) * ((m + 1 : ℕ) : ℝ) := by exact_mod_cast h2
        linarith
      · intro i hi
        rw [Set.mem_compl_iff, Set.mem_ofPred_eq, strong_comp Prod.fst A c z _ (fun a b => by simp)]
        simpa using hi)
  refine le_trans (le_of_eq ?_) (le_trans h (measure_mono fun ω hω => ?_))
  · congr 1
    rw [Fintype.card_prod, Fintype.card_fin, Fintype.card_fin]
    push_cast
    field_simp
  · by_contra hcov
    exact hω (cv_miss hF A _ e he0 he1 _ hcov)

/-! ### The documented guarantees fail -/

/-- If no value is above `y` and all but `⌈e (n - 1)⌉` are at most `z < y`, the `1 - e` quantile is below `y`. -/
theorem quantile_lt {l : List K} {e q y z : K} (he0 : 0 ≤ e) (he1 : e ≤ 1) (h : quantile l (1 - e) = some q)
    (hzy : z < y) (hle : ∀ x ∈ l, x ≤ y)
    (hfew : l.length ≤ l.countP (fun x => decide (x ≤ z)) + ⌈e * ((l.length : K) - 1)⌉₊) : q < y := by
  obtain ⟨hne, rfl⟩ := quantile_some h
  have hn := len_sub_one_nonneg hne
  set p := (1 - e) * ((l.length : K) - 1) with hp
  have hp0 : 0 ≤ p := mul_nonneg (by linarith) hn
  obtain ⟨k, hk, hkv, hke⟩ := atClamped_eq (sort l) (sort_ne_nil hne) ⌊p⌋
  obtain ⟨k', hk', -, hke'⟩ := atClamped_eq (sort l) (sort_ne_nil hne) (⌊p⌋ + 1)
  have hf0 : 0 ≤ ⌊p⌋ := Int.floor_nonneg.2 hp0
  have hlow : (sort l)[k] ≤ z := by
    rw [sorted_getElem_le_iff (sort_sorted l) k hk, (sort_perm l).countP_eq]
    have hc : (⌈e * ((l.length : K) - 1)⌉₊ : ℤ) ≤ (l.length : ℤ) - 1 - ⌊p⌋ := by
      rw [Int.natCast_ceil_eq_ceil (mul_nonneg he0 hn), Int.ceil_le]
      have := Int.floor_le p
      push_cast
      rw [hp] at this ⊢
      linarith
    rw [Quantile.length_sort] at hkv
    omega
  have hhigh : (sort l)[k'] ≤ y := hle _ ((sort_perm l).mem_iff.1 (List.getElem_mem hk'))
  rw [interp_eq, hke, hke']
  have h1 := Int.floor_le p
  have h2 := Int.lt_floor_add_one p
  nlinarith

/-- The algorithm which always predicts zero. -/
def zero : Learner Unit K := fun _ _ => 0

/-- `c + 1` targets equal to one, the others zero. -/
def ones (n c : ℕ) : Fin (n + 1) → Unit × K := fun i => ((), if i.val ≤ c then 1 else 0)

/-- Targets zero or one, at most `c + 1` of them one. -/
def FewOnes {n : ℕ} (c : ℕ) (D : Fin (n + 1) → Unit × K) : Prop :=
  (∀ i, (D i).2 = 0 ∨ (D i).2 = 1) ∧ (univ.filter fun i => (D i).2 = 1).card ≤ c + 1

theorem ones_quantile {n : ℕ} (e : K) (he0 : 0 ≤ e) (he1 : e ≤ 1) (D : Fin (n + 1) → Unit × K)
    (hD : FewOnes ⌈e * ((n : K) - 1)⌉₊ D) (j : Fin (n + 1)) (hj : (D j).2 = 1) (q : K)
    (h : quantile ((others n j).map fun k => |(D k).2 - 0|) (1 - e) = some q) : q < 1 := by
  refine quantile_lt he0 he1 h zero_lt_one ?_ ?_
  · intro x hx
    obtain ⟨k, -, rfl⟩ := List.mem_map.1 hx
    rcases hD.1 k with hk | hk <;> simp [hk]
  · rw [List.length_map, length_others, List.countP_map, countP_others]
    have h1 : (univ.filter fun k : Fin (n + 1) => k ≠ j ∧
        ((fun x => decide (x ≤ 0)) ∘ fun k => |(D k).2 - 0|) k = true) =
        univ.filter fun k : Fin (n + 1) => ¬ (D k).2 = 1 := by
      ext k
      simp only [mem_filter, mem_univ, true_and, Function.comp_apply, decide_eq_true_eq]
      rcases hD.1 k with hk | hk
      · have : k ≠ j := by rintro rfl; rw [hk] at hj; exact zero_ne_one hj
        simp [hk, this]
      · simp [hk]
    rw [h1]
    have h2 := card_filter_add_card_filter_not (s := univ) (fun k : Fin (n + 1) => (D k).2 = 1)
    rw [card_univ, Fintype.card_fin] at h2
    have h3 := hD.2
    omega

/-- Neither jackknife+ nor jackknife-minmax, around predictions of zero, covers the few points with target one. -/
theorem ones_missed {n : ℕ} (hn : 1 ≤ n) (e : K) (he0 : 0 ≤ e) (he1 : e ≤ 1) (D : Fin (n + 1) → Unit × K)
    (hD : FewOnes ⌈e * ((n : K) - 1)⌉₊ D) (j : Fin (n + 1)) (hj : (D j).2 = 1) :
    ¬ Covers jackknifePlus zero D e j ∧ ¬ Covers jackknifeMinmax zero D e j := by
  have hl := length_others n j
  constructor
  · rintro ⟨iv, hok, hin⟩
    obtain ⟨ivs, hok', -, hiv⟩ := C12_jackknifeplus_accepts ((others n j).map fun k => loo zero D j k (D k).1)
      ((others n j).map fun k => (D k).2) ((others n j).map fun k => [loo zero D j k (D j).1])
      e n 1 hn le_rfl (by simp [hl]) (by simp [hl]) ⟨by simp [hl], by simp⟩
    rw [hok] at hok'
    obtain rfl := Except.ok.inj hok'
    have h0 := (hiv 0 (by simp)).2
    simp only [List.map_map, zipWith_same, List.getElem_cons_zero] at h0
    have := ones_quantile e he0 he1 D hD j hj iv.2 (by
      rw [← h0]; congr 1; apply List.map_congr_left; intro k _; simp [loo, zero])
    have hc := ((isIn_one _ _).1 hin).1
    rw [hj] at hc
    linarith
  · rintro ⟨iv, hok, hin⟩
    obtain ⟨ivs, hok', -, hiv⟩ := C12_minmax_accepts ((others n j).map fun k => loo zero D j k (D k).1)
      ((others n j).map fun k => (D k).2) ((others n j).map fun k => [loo zero D j k (D j).1])
      e n 1 hn le_rfl (by simp [hl]) (by simp [hl]) ⟨by simp [hl], by simp⟩
    rw [hok] at hok'
    obtain rfl := Except.ok.inj hok'
    obtain ⟨q, lo, hi, hq, -, hhi, -, hend⟩ := hiv 0 (by simp)
    simp only [zipWith_same, List.getElem_cons_zero] at hq hend
    have := ones_quantile e he0 he1 D hD j hj q (by
      rw [← hq]; congr 1)
    have hz : hi = 0 := by
      obtain ⟨row, hrow, rfl⟩ := List.mem_map.1 hhi
      obtain ⟨k, -, rfl⟩ := List.mem_map.1 hrow
      rfl
    have hc := ((isIn_one _ _).1 hin).1
    rw [hj, hend, hz] at hc
    simp only at hc
    linarith

theorem ceil_le_pred {n : ℕ} (hn : 1 ≤ n) (e : K) (he1 : e ≤ 1) : ⌈e * ((n : K) - 1)⌉₊ ≤ n - 1 := by
  rw [Nat.ceil_le, Nat.cast_sub hn, Nat.cast_one]
  have : (1 : K) ≤ n := by exact_mod_cast hn
  nlinarith

theorem card_ones {n c : ℕ} (hc : c ≤ n) : (univ.filter fun k : Fin (n + 1) => (ones (K := K) n c k).2 = 1).card = c + 1 := by
  have : (univ.filter fun k : Fin (n + 1) => (ones (K := K) n c k).2 = 1) =
      univ.map (Fin.castLEEmb (by omega : c + 1 ≤ n + 1)) := by
    ext k
    simp only [mem_filter, mem_univ, true_and, mem_map]
    unfold ones
    constructor
    · intro h
      have : k.val ≤ c := by by_contra hk; simp [hk] at h
      exact ⟨⟨k.val, by omega⟩, rfl⟩
    · rintro ⟨b, rfl⟩
      have := b.isLt
      have h : ((Fin.castLEEmb (by omega : c + 1 ≤ n + 1)) b).val ≤ c := by simp; omega
      simp only [if_pos h]
  rw [this, card_map, card_univ, Fintype.card_fin]

/-- A rearrangement of `ones` still has `c + 1` ones. -/
theorem ones_perm {n c : ℕ} (hc : c ≤ n) (σ : Equiv.Perm (Fin (n + 1))) :
    FewOnes c (ones (K := K) n c ∘ σ) ∧ (univ.filter fun i => (ones (K := K) n c (σ i)).2 = 1).card = c + 1 := by
  have h : (univ.filter fun i => (ones (K := K) n c (σ i)).2 = 1).card = c + 1 := by
    rw [← card_ones (K := K) hc]
    refine card_bij (fun k _ => σ k) ?_ ?_ ?_
    · intro k hk; simpa using hk
    · intro a _ b _ hab; exact σ.injective hab
    · intro b hb; exact ⟨σ.symm b, by simpa using hb, by simp⟩
  refine ⟨⟨fun i => ?_, h.le⟩, h⟩
  simp only [Function.comp_apply, ones]
  split <;> simp

open Classical in
/-- **C102.** The bound of jackknife-minmax is attained for all `n` and `e`; jackknife+ can miss as many points. -/
theorem C102_minmax_tight {n : ℕ} (hn : 1 ≤ n) (e : K) (he0 : 0 ≤ e) (he1 : e ≤ 1) :
    ∃ (A : Learner Unit K) (D : Fin (n + 1) → Unit × K),
      (univ.filter fun j => ¬ Covers jackknifeMinmax A D e j).card = ⌈e * ((n : K) - 1)⌉₊ + 1 ∧
      ⌈e * ((n : K) - 1)⌉₊ + 1 ≤ (univ.filter fun j => ¬ Covers jackknifePlus A D e j).card := by
  have hc := le_trans (ceil_le_pred hn e he1) (Nat.sub_le n 1)
  have hfew := (ones_perm (K := K) hc 1).1
  have hone := (ones_perm (K := K) hc 1).2
  refine ⟨zero, ones n ⌈e * ((n : K) - 1)⌉₊, le_antisymm (C102_minmax hn _ _ e he0 he1) ?_, ?_⟩
  · rw [← hone]
    refine card_le_card fun j => ?_
    simp only [mem_filter, mem_univ, true_and]
    exact fun hj => (ones_missed hn e he0 he1 _ hfew j hj).2
  · rw [← hone]
    refine card_le_card fun j => ?_
    simp only [mem_filter, mem_univ, true_and]
    exact fun hj => (ones_missed hn e he0 he1 _ hfew j hj).1

/-- The uniform law on the orders of the points. -/
noncomputable def shuffle (n : ℕ) : @Measure (Equiv.Perm (Fin (n + 1))) ⊤ :=
  letI : MeasurableSpace (Equiv.Perm (Fin (n + 1))) := ⊤
  (Fintype.card (Equiv.Perm (Fin (n + 1))) : ENNReal)⁻¹ • Measure.count

theorem shuffle_probability (n : ℕ) : @IsProbabilityMeasure _ ⊤ (shuffle n) := by
  let _ : MeasurableSpace (Equiv.Perm (Fin (n + 1))) := ⊤
  constructor
  unfold shuffle
  rw [Measure.smul_apply, Measure.count_univ, smul_eq_mul]
  rw [ENat.card_eq_coe_fintype_card]
  exact ENNReal.inv_mul_cancel (by simp [Fintype.card_ne_zero]) (by simp)

/-- Any data in a random order is exchangeable. -/
theorem shuffle_exchangeable {Z : Type*} [MeasurableSpace Z] {n : ℕ} (d : Fin (n + 1) → Z) :
    @Exchangeable _ Z _ ⊤ _ (shuffle n) (fun i σ => d (σ i)) := by
  let _ : MeasurableSpace (Equiv.Perm (Fin (n + 1))) := ⊤
  intro τ
  have hm : ∀ g : Equiv.Perm (Fin (n + 1)) → Fin (n + 1) → Z, Measurable g := fun g => measurable_from_top
  refine Measure.ext fun s hs => ?_
  rw [Measure.map_apply (hm _) hs, Measure.map_apply (hm _) hs]
  unfold shuffle
  rw [Measure.smul_apply, Measure.smul_apply, Measure.count_apply MeasurableSpace.measurableSet_top,
    Measure.count_apply MeasurableSpace.measurableSet_top]
  have : (fun (σ : Equiv.Perm (Fin (n + 1))) i => d (σ (τ i))) ⁻¹' s =
      (fun σ => σ * τ) ⁻¹' ((fun (σ : Equiv.Perm (Fin (n + 1))) i => d (σ i)) ⁻¹' s) := rfl
  rw [this, Set.encard_preimage_of_bijective (Group.mulRight_bijective τ)]

/-- If in every order `T` of the points can be exchanged with the last one to get into `E`, then a random order is in `E` with
probability at least `T / (n + 1)`. -/
theorem shuffle_lower {Z : Type*} [MeasurableSpace Z] [MeasurableSingletonClass Z] {n : ℕ} (d : Fin (n + 1) → Z)
    (E : Set (Fin (n + 1) → Z)) (T : ℕ) (hT : T ≤ n + 1)
    (hcount : ∀ σ : Equiv.Perm (Fin (n + 1)), ∃ B : Finset (Fin (n + 1)), T ≤ B.card ∧
      ∀ i ∈ B, (d ∘ σ) ∘ Equiv.swap i (Fin.last n) ∈ E) :
    ENNReal.ofReal ((T : ℝ) / (n + 1)) ≤ shuffle n {σ | d ∘ σ ∈ E} := by
  let _ : MeasurableSpace (Equiv.Perm (Fin (n + 1))) := ⊤
  have := shuffle_probability n
  set C : Set (Fin (n + 1) → Z) := {z | (∃ σ : Equiv.Perm (Fin (n + 1)), z = d ∘ σ) → z ∈ E} with hC
  have hmeas : MeasurableSet C := by
    have : Cᶜ ⊆ Set.range fun σ : Equiv.Perm (Fin (n + 1)) => d ∘ σ := by
      intro z hz
      simp only [hC, Set.mem_compl_iff, Set.mem_ofPred_eq, Classical.not_imp] at hz
      obtain ⟨⟨σ, h⟩, -⟩ := hz
      exact ⟨σ, h.symm⟩
    exact ((Set.finite_range _).subset this).measurableSet.of_compl
  have h := Exchangeable.coverage (shuffle n) (fun i σ => d (σ i)) (fun _ => measurable_from_top) (shuffle_exchangeable d) C
    hmeas T (fun x => by
      by_cases hx : ∃ σ : Equiv.Perm (Fin (n + 1)), x = d ∘ σ
      · obtain ⟨σ, rfl⟩ := hx
        obtain ⟨B, hB, hE⟩ := hcount σ
        exact ⟨B, by exact_mod_cast hB, fun i hi _ => hE i hi⟩
      · refine ⟨univ, by rw [card_univ, Fintype.card_fin]; exact_mod_cast hT, fun i _ hp => ?_⟩
        obtain ⟨σ, hσ⟩ := hp
        refine absurd ⟨σ * Equiv.swap i (Fin.last n), ?_⟩ hx
        funext k
        have := congrFun hσ (Equiv.swap i (Fin.last n) k)
        simpa using this)
  refine h.trans (measure_mono fun σ hσ => ?_)
  exact hσ ⟨σ, rfl⟩

/-- For all `n` and `e` there are an algorithm and exchangeable data, of which both methods miss the last point with probability at
least `(⌈e (n - 1)⌉ + 1) / (n + 1)`. -/
theorem C102_missed_probability {n : ℕ} (hn : 1 ≤ n) (e : ℝ) (he0 : 0 ≤ e) (he1 : e ≤ 1) :
    ∃ (A : Learner Unit ℝ) (d : Fin (n + 1) → Unit × ℝ),
      ENNReal.ofReal (((⌈e * ((n : ℝ) - 1)⌉₊ + 1 : ℕ) : ℝ) / (n + 1)) ≤
        shuffle n {σ | ¬ Covers jackknifeMinmax A (d ∘ σ) e (Fin.last n)} ∧
      ENNReal.ofReal (((⌈e * ((n : ℝ) - 1)⌉₊ + 1 : ℕ) : ℝ) / (n + 1)) ≤
        shuffle n {σ | ¬ Covers jackknifePlus A (d ∘ σ) e (Fin.last n)} := by
  have hc := le_trans (ceil_le_pred hn e he1) (Nat.sub_le n 1)
  refine ⟨zero, ones n ⌈e * ((n : ℝ) - 1)⌉₊,
    shuffle_lower _ {z | ¬ Covers jackknifeMinmax zero z e (Fin.last n)} _ (by omega) fun σ => ?_,
    shuffle_lower _ {z | ¬ Covers jackknifePlus zero z e (Fin.last n)} _ (by omega) fun σ => ?_⟩
  all_goals
    refine ⟨univ.filter fun i => (ones (K := ℝ) n ⌈e * ((n : ℝ) - 1)⌉₊ (σ i)).2 = 1, (ones_perm hc σ).2.ge, fun i hi => ?_⟩
    have hfew := (ones_perm (K := ℝ) hc (σ * Equiv.swap i (Fin.last n))).1
    have := ones_missed hn e he0 he1 _ hfew (Fin.last n) (by simpa using hi)
  · exact this.2
  · exact this.1

/-- **C102.** The documented guarantee of jackknife-minmax is false for every number of data points and every error below one half:
there are exchangeable data whose last target is missed with probability larger than the error. -/
theorem C102_minmax_documented_false {n : ℕ} (hn : 1 ≤ n) (e : ℝ) (he0 : 0 ≤ e) (he1 : e < 1 / 2) :
    ∃ (A : Learner Unit ℝ) (d : Fin (n + 1) → Unit × ℝ),
      ENNReal.ofReal e < shuffle n {σ | ¬ Covers jackknifeMinmax A (d ∘ σ) e (Fin.last n)} := by
  obtain ⟨A, d, h, -⟩ := C102_missed_probability hn e he0 (by linarith)
  refine ⟨A, d, lt_of_lt_of_le ?_ h⟩
  have hpos : (0 : ℝ) < n + 1 := by positivity
  have hle := Nat.le_ceil (e * ((n : ℝ) - 1))
  rw [ENNReal.ofReal_lt_ofReal_iff (by positivity), lt_div_iff₀ hpos]
  push_cast
  nlinarith

/-- **C102.** The documented guarantee of jackknife+ is false whenever `e (n + 3) < 1`: there are exchangeable data whose last target
is missed with probability larger than twice the error. -/
theorem C102_jackknife_plus_documented_false {n : ℕ} (hn : 1 ≤ n) (e : ℝ) (he0 : 0 ≤ e) (he1 : e * (n + 3) < 1) :
    ∃ (A : Learner Unit ℝ) (d : Fin (n + 1) → Unit × ℝ),
      ENNReal.ofReal (2 * e) < shuffle n {σ | ¬ Covers jackknifePlus A (d ∘ σ) e (Fin.last n)} := by
  have hn0 : (0 : ℝ) ≤ n := by positivity
  obtain ⟨A, d, -, h⟩ := C102_missed_probability hn e he0 (by nlinarith)
  refine ⟨A, d, lt_of_lt_of_le ?_ h⟩
  have hpos : (0 : ℝ) < n + 1 := by positivity
  have hle := Nat.le_ceil (e * ((n : ℝ) - 1))
  rw [ENNReal.ofReal_lt_ofReal_iff (by positivity), lt_div_iff₀ hpos]
  push_cast
  nlinarith

/-- **C102.** With enough data the guarantees hold up to the rate: the missed fraction of jackknife+ is at most
`2 e + 3 / (n + 1)`, that of jackknife-minmax at most `e + 2 / (n + 1)`. -/
theorem C102_rate {n : ℕ} (hn : 1 ≤ n) (e : ℝ) (he0 : 0 ≤ e) :
    (2 * ⌈e * ((n : ℝ) - 1)⌉₊ + 1 : ℝ) / (n + 1) ≤ 2 * e + 3 / (n + 1) ∧
    (⌈e * ((n : ℝ) - 1)⌉₊ + 1 : ℝ) / (n + 1) ≤ e + 2 / (n + 1) := by
  have hpos : (0 : ℝ) < n + 1 := by positivity
  have h1 : (1 : ℝ) ≤ n := by exact_mod_cast hn
  have hlt := Nat.ceil_lt_add_one (mul_nonneg he0 (by linarith : (0 : ℝ) ≤ (n : ℝ) - 1))
  constructor
  · rw [div_le_iff₀ hpos, add_mul, div_mul_cancel₀ _ hpos.ne']; nlinarith
  · rw [div_le_iff₀ hpos, add_mul, div_mul_cancel₀ _ hpos.ne']; nlinarith

-- nine points on a line with noise, the learner predicts the mean target; error one quarter: at most 5 of 9 points are missed by
-- jackknife+ and at most 3 by jackknife-minmax
def meanLearner : Learner ℚ ℚ := fun s _ => (s.map Prod.snd).sum / s.card

def nine : Fin 9 → ℚ × ℚ := fun i => (i, ![0, 2, 1, 4, 3, 9, 5, 20, 6] i)

example : 2 * ⌈(1 / 4 : ℚ) * ((8 : ℕ) - 1)⌉₊ + 1 = 5 ∧ ⌈(1 / 4 : ℚ) * ((8 : ℕ) - 1)⌉₊ + 1 = 3 := by
  constructor <;> decide +kernel

-- the point with target 20 is missed, that with target 4 is covered
example : ¬ Covers jackknifePlus meanLearner nine (1 / 4) 7 ∧ Covers jackknifePlus meanLearner nine (1 / 4) 3 := by
  constructor
  · rintro ⟨iv, h, hin⟩
    have h1 : jackknifePlus ((others 8 7).map fun k => loo meanLearner nine 7 k (nine k).1) ((others 8 7).map fun k => (nine k).2)
      ((others 8 7).map fun k => [loo meanLearner nine 7 k (nine 7).1]) (1 / 4) = .ok [(9 / 14, 213 / 28)] := by decide +kernel
    rw [h1] at h
    simp only [Except.ok.injEq, List.cons.injEq, and_true] at h
    subst h
    exact absurd hin (by decide +kernel)
  · exact ⟨(3 / 4, 341 / 28), by decide +kernel, by decide +kernel⟩

-- three folds of two points
example : CvCovers (F := 2) (m := 2) meanLearner (fun j => (0, ![![0, 2], ![1, 4], ![3, 9]] j.1 j.2)) (1 / 4) (1, 0) := by
  exact ⟨(- 5 / 2, 21 / 2), by decide +kernel, by decide +kernel⟩

-- in a random order data are exchangeable, and the predictions of the zero learner are measurable
example (n : ℕ) : MeasurableLearner (Fin (n + 1)) (zero (K := ℝ)) := fun _ _ => measurable_const

/-! ### Concrete cases that meet the hypotheses of the theorems above -/

open Classical in
example := C102_jackknife_plus (n := 8) (by norm_num) meanLearner nine (1 / 4) (by norm_num) (by norm_num)
open Classical in
example := C102_minmax (n := 8) (by norm_num) meanLearner nine (1 / 4) (by norm_num) (by norm_num)
open Classical in
example := C102_cv_plus (F := 2) (m := 2) (by norm_num) meanLearner (fun j => (0, ![![0, 2], ![1, 4], ![3, 9]] j.1 j.2)) (1 / 4) (by norm_num)
  (by norm_num)

/-- The learner that predicts the mean target, over the reals. -/
noncomputable def meanR : Learner Unit ℝ := fun s _ => (s.map Prod.snd).sum / s.card

theorem meanR_measurable (ι : Type*) : MeasurableLearner ι meanR := fun s i => by
  have : (fun z : ι → Unit × ℝ => meanR (s.val.map z) (z i).1) = fun z => (∑ l ∈ s, (z l).2) / (s.card : ℝ) := by
    funext z
    simp only [meanR, Multiset.map_map, Multiset.card_map, Function.comp_def]
    rfl
  rw [this]
  refine Measurable.div_const (Finset.measurable_fun_sum s fun l _ => ?_) _
  exact measurable_snd.comp (measurable_pi_apply l)

/-- Nine points in a random order. -/
noncomputable def nineR : Fin 9 → Unit × ℝ := fun i => ((), ![0, 2, 1, 4, 3, 9, 5, 20, 6] i)

example : True := by
  let _ : MeasurableSpace (Equiv.Perm (Fin (8 + 1))) := ⊤
  have := shuffle_probability 8
  have _h1 := C102_jackknife_plus_probability (n := 8) (by norm_num) meanR (meanR_measurable _) (shuffle 8) (fun i σ => nineR (σ i))
    (fun _ => measurable_from_top) (shuffle_exchangeable nineR) (1 / 4) (by norm_num) (by norm_num)
  have _h2 := C102_minmax_probability (n := 8) (by norm_num) meanR (meanR_measurable _) (shuffle 8) (fun i σ => nineR (σ i))
    (fun _ => measurable_from_top) (shuffle_exchangeable nineR) (1 / 4) (by norm_num) (by norm_num)
  trivial
example := C102_minmax_tight (K := ℚ) (n := 8) (by norm_num) (1 / 4) (by norm_num) (by norm_num)
example := C102_missed_probability (n := 8) (by norm_num) (1 / 4) (by norm_num) (by norm_num)
example := C102_minmax_documented_false (n := 8) (by norm_num) (1 / 4) (by norm_num) (by norm_num)
example := C102_jackknife_plus_documented_false (n := 8) (by norm_num) (1 / 12) (by norm_num) (by norm_num)

example (ν : Measure (Unit × ℝ)) [IsProbabilityMeasure ν] := C102_cv_plus_probability (F := 4) (m := 1) (by norm_num) meanR (meanR_measurable _)
  (Measure.pi fun _ : Fin (4 + 1) × Fin (1 + 1) => ν) (fun i ω => ω i) (fun i => measurable_pi_apply i)

end Verif.Props.JackknifeCoverage
