import Mathlib.Tactic.Linarith
import Mathlib.Tactic.Positivity
import Mathlib.Tactic.FieldSimp
import Mathlib.Tactic.Ring
import Mathlib.Algebra.BigOperators.Ring.Finset
import Mathlib.Algebra.Order.BigOperators.Ring.Finset
import Mathlib.Algebra.Order.BigOperators.Group.List
import Mathlib.Algebra.BigOperators.Field
import Mathlib.Algebra.BigOperators.Fin
import Verif.Model.OOD
import Verif.Lemmas.ConformalRegression
import Mathlib.Tactic.NormNum
import Mathlib.Tactic.FinCases

/-!
# Out-of-distribution scores (C72, C73)
-/

set_option linter.unusedSectionVars false

namespace Verif.Props

open Verif.OOD

section mahalanobis
variable {K : Type} [Field K] [LinearOrder K] [IsStrictOrderedRing K] {n d : ℕ}

/-- The mean of the members of a class. -/
def memberMean (x : Fin n → Fin d → K) (y : Fin n → ℤ) (k : ℤ) (a : Fin d) : K :=
  (∑ i ∈ Finset.univ.filter (fun i => y i = k), x i a) / ((Finset.univ.filter fun i => y i = k).card : K)

theorem classCount_eq (y : Fin n → ℤ) (k : ℤ) :
    (classCount y k : K) = ((Finset.univ.filter fun i => y i = k).card : K) := by
  unfold classCount
  rw [Finset.sum_boole]

/-- **C72, means.** The mean of a class with members is the mean of its members. -/
theorem C72_mean (x : Fin n → Fin d → K) (y : Fin n → ℤ) (k : ℤ) (a : Fin d) (hk : ∃ i, y i = k) :
    classMean x y k a = some (memberMean x y k a) := by
  obtain ⟨i0, hi0⟩ := hk
  have hpos : 0 < (Finset.univ.filter fun i => y i = k).card :=
    Finset.card_pos.mpr ⟨i0, by simpa using hi0⟩
  unfold classMean memberMean
  rw [classCount_eq, if_neg (by exact_mod_cast hpos.ne')]
  congr 2
  rw [Finset.sum_filter]
  apply Finset.sum_congr rfl
  intro i _
  split_ifs <;> simp

theorem classMean_none (x : Fin n → Fin d → K) (y : Fin n → ℤ) (k : ℤ) (a : Fin d) (hk : ∀ i, y i ≠ k) :
    classMean x y k a = none := by
  unfold classMean
  rw [classCount_eq, if_pos]
  rw [Finset.filter_false_of_mem (fun i _ => hk i)]
  simp

theorem classScatter_eq (x : Fin n → Fin d → K) (y : Fin n → ℤ) (k : ℤ) (a b : Fin d) (hk : ∃ i, y i = k) :
    classScatter x y k a b = some (∑ i, if y i = k then
      (x i a - memberMean x y k a) * (x i b - memberMean x y k b) else 0) := by
  unfold classScatter
  rw [C72_mean x y k a hk, C72_mean x y k b hk]
  simp only [Option.some.injEq]
  apply Finset.sum_congr rfl
  intro i _
  split_ifs <;> simp

theorem fold_some (f : ℕ → Option K) (g : ℕ → K) (c : ℕ) (h : ∀ k < c, f k = some (g k)) :
    (List.range c).foldl (fun (acc : Option K) k => addNan acc (f k)) (some 0) = some (∑ k ∈ Finset.range c, g k) := by
  induction c with
  | zero => simp
  | succ c ih =>
    rw [List.range_succ, List.foldl_append, ih fun k hk => h k (by omega), Finset.sum_range_succ]
    simp only [List.foldl_cons, List.foldl_nil]
    rw [h c (by omega)]
    rfl

theorem fold_none (f : ℕ → Option K) (c : ℕ) (h : ∃ k < c, f k = none) :
    (List.range c).foldl (fun (acc : Option K) k => addNan acc (f k)) (some 0) = none := by
  induction c with
  | zero => obtain ⟨k, hk, -⟩ := h; omega
  | succ c ih =>
    rw [List.range_succ, List.foldl_append]
    simp only [List.foldl_cons, List.foldl_nil]
    obtain ⟨k, hk, hn⟩ := h
    by_cases hkc : k = c
    · subst hkc
      rw [hn]
      cases List.foldl _ (some (0 : K)) (List.range k) <;> rfl
    · rw [ih ⟨k, by omega, hn⟩]
      rfl

/-- **C72, covariance.** When every label is one of the classes and every class has a member, the shared
covariance is the mean over all training points of the products of their deviations from the mean of their
own class. -/
theorem C72_covariance (x : Fin n → Fin d → K) (y : Fin n → ℤ) (classes : ℕ)
    (hin : ∀ i, 0 ≤ y i ∧ y i < classes) (hall : ∀ k : ℕ, k < classes → ∃ i, y i = k) (a b : Fin d) :
    jointCov x y classes a b = some ((∑ i, (x i a - memberMean x y (y i) a) *
      (x i b - memberMean x y (y i) b)) / (n : K)) := by
  unfold jointCov
  rw [fold_some (fun k : ℕ => classScatter x y (k : ℤ) a b) (fun k : ℕ => ∑ i, if y i = (k : ℤ) then
      (x i a - memberMean x y k a) * (x i b - memberMean x y k b) else 0) classes
    fun k hk => classScatter_eq x y k a b (hall k hk)]
  rw [Option.map_some, Finset.sum_comm]
  congr 2
  apply Finset.sum_congr rfl
  intro i _
  obtain ⟨h0, h1⟩ := hin i
  rw [Finset.sum_eq_single (y i).toNat]
  · rw [Int.toNat_of_nonneg h0, if_pos rfl]
  · intro k _ hk
    rw [if_neg]
    intro h
    apply hk
    omega
  · intro h
    exact absurd (Finset.mem_range.mpr (by omega)) h

/-- **C72, the covariance is symmetric and positive semidefinite.** -/
theorem C72_psd (x : Fin n → Fin d → K) (y : Fin n → ℤ) (classes : ℕ)
    (hin : ∀ i, 0 ≤ y i ∧ y i < classes) (hall : ∀ k : ℕ, k < classes → ∃ i, y i = k) :
    ∃ S : Fin d → Fin d → K, (∀ a b, jointCov x y classes a b = some (S a b)) ∧ (∀ a b, S a b = S b a) ∧
      ∀ u : Fin d → K, 0 ≤ ∑ a, ∑ b, u a * S a b * u b := by
  refine ⟨_, fun a b => C72_covariance x y classes hin hall a b, ?_, ?_⟩
  · intro a b
    congr 1
    exact Finset.sum_congr rfl fun i _ => mul_comm _ _
  · intro u
    have h : ∑ a, ∑ b, u a * ((∑ i, (x i a - memberMean x y (y i) a) * (x i b - memberMean x y (y i) b)) / (n : K))
        * u b = (∑ i, (∑ a, u a * (x i a - memberMean x y (y i) a)) ^ 2) / (n : K) := by
      rw [Finset.sum_div]
      have h1 : ∀ i, (∑ a, u a * (x i a - memberMean x y (y i) a)) ^ 2 / (n : K) =
          ∑ a, ∑ b, (u a * (x i a - memberMean x y (y i) a)) * (u b * (x i b - memberMean x y (y i) b)) / (n : K) := by
        intro i
        rw [sq, Finset.sum_mul_sum, Finset.sum_div]
        apply Finset.sum_congr rfl
        intro a _
        rw [Finset.sum_div]
      rw [Finset.sum_congr rfl fun i _ => h1 i]
      symm
      rw [Finset.sum_comm]
      apply Finset.sum_congr rfl
      intro a _
      rw [Finset.sum_comm]
      apply Finset.sum_congr rfl
      intro b _
      rw [Finset.sum_div, Finset.mul_sum, Finset.sum_mul]
      apply Finset.sum_congr rfl
      intro i _
      ring
    rw [h]
    exact div_nonneg (Finset.sum_nonneg fun i _ => sq_nonneg _) (Nat.cast_nonneg _)

/-- **C72 is false with a class that has no training point**, for which `fit` only logs a warning: every
entry of the covariance is NaN, whatever the data, so every score is. -/
theorem C72_missing_class_false (x : Fin n → Fin d → K) (y : Fin n → ℤ) (classes k : ℕ) (hk : k < classes)
    (hno : ∀ i, y i ≠ k) (a b : Fin d) : jointCov x y classes a b = none := by
  unfold jointCov
  rw [fold_none (fun k : ℕ => classScatter x y (k : ℤ) a b) classes ⟨k, hk, ?_⟩]
  · rfl
  · unfold classScatter
    rw [classMean_none x y k a hno]

theorem foldl_min (t : List K) (a : K) :
    (t.foldl min a ∈ a :: t) ∧ ∀ z ∈ a :: t, t.foldl min a ≤ z := by
  induction t generalizing a with
  | nil => simp
  | cons b t ih =>
    rw [List.foldl_cons]
    obtain ⟨h1, h2⟩ := ih (min a b)
    constructor
    · rcases List.mem_cons.mp h1 with h | h
      · rw [h]
        rcases min_choice a b with h' | h' <;> rw [h'] <;> simp
      · exact List.mem_cons_of_mem _ (List.mem_cons_of_mem _ h)
    · intro z hz
      have hm := h2 (min a b) List.mem_cons_self
      rcases List.mem_cons.mp hz with rfl | hz
      · exact hm.trans (min_le_left _ _)
      · rcases List.mem_cons.mp hz with rfl | hz
        · exact hm.trans (min_le_right _ _)
        · exact h2 z (List.mem_cons_of_mem _ hz)

/-- **C72, score.** The score is the squared distance to the nearest class mean: it is reached at some
class, no class is closer, it is not negative for a positive semidefinite inverse covariance, it is 0 at
each class mean, and moving point and means together does not change it. -/
theorem C72_score (P : Fin d → Fin d → K) (hP : ∀ u : Fin d → K, 0 ≤ ∑ a, ∑ b, u a * P a b * u b)
    (means : List (Fin d → K)) (hne : means ≠ []) (x t : Fin d → K) :
    ∃ s, mahaScore P means x = some s ∧ (∃ m ∈ means, s = mahaDist P x m) ∧
      (∀ m ∈ means, s ≤ mahaDist P x m) ∧ 0 ≤ s ∧ (x ∈ means → s = 0) ∧
      mahaScore P (means.map fun m i => m i + t i) (fun i => x i + t i) = some s := by
  obtain ⟨m0, rest, rfl⟩ := List.exists_cons_of_ne_nil hne
  obtain ⟨h1, h2⟩ := foldl_min (rest.map (mahaDist P x)) (mahaDist P x m0)
  rw [← List.map_cons (f := mahaDist P x)] at h1 h2
  obtain ⟨m, hm, hms⟩ := List.mem_map.mp h1
  have hle : ∀ m' ∈ m0 :: rest, (rest.map (mahaDist P x)).foldl min (mahaDist P x m0) ≤ mahaDist P x m' :=
    fun m' hm' => h2 _ (List.mem_map_of_mem hm')
  have hnn : 0 ≤ (rest.map (mahaDist P x)).foldl min (mahaDist P x m0) := by
    rw [← hms]
    exact hP fun i => x i - m i
  refine ⟨_, rfl, ⟨m, hm, hms.symm⟩, hle, hnn, ?_, ?_⟩
  · intro hx
    apply le_antisymm _ hnn
    refine (hle x hx).trans (le_of_eq ?_)
    unfold mahaDist
    simp
  · unfold mahaScore
    have hd : ∀ m : Fin d → K, mahaDist P (fun i => x i + t i) (fun i => m i + t i) = mahaDist P x m := by
      intro m
      unfold mahaDist
      simp only [add_sub_add_right_eq_sub]
    have : ((m0 :: rest).map fun m i => m i + t i).map (mahaDist P fun i => x i + t i) =
        (m0 :: rest).map (mahaDist P x) := by
      rw [List.map_map]
      exact List.map_congr_left fun m _ => hd m
    rw [this]
    rfl

/-- **The documented maximum is not what is returned**: between two class means at 0 and 10 the point 1 has
score 1; the largest squared distance is 81. -/
theorem C72_max_false : mahaScore (fun _ _ => 1) [fun _ => 0, fun _ => 10] (fun _ : Fin 1 => (1 : ℚ)) = some 1 ∧
    mahaDist (fun _ _ => 1) (fun _ : Fin 1 => (1 : ℚ)) (fun _ => 10) = 81 := by
  constructor
  · unfold mahaScore mahaDist
    simp
    norm_num
  · unfold mahaDist
    simp
    norm_num

/-- Two classes on the line, {0, 2} and {10}: covariance 2/3. -/
example : jointCov (n := 3) (d := 1) (K := ℚ) ![fun _ => 0, fun _ => 2, fun _ => 10] ![0, 0, 1] 2 0 0 =
    some (2 / 3) := by decide +kernel

end mahalanobis

section ddu
variable {K : Type} [Field K] [LinearOrder K] [IsStrictOrderedRing K] {n d : ℕ}

/-- The coordinate-wise mean of some rows. -/
def rowMean (rows : List (Fin d → K)) (a : Fin d) : K := (rows.map fun r => r a).sum / (rows.length : K)

/-- The unbiased covariance of some rows. -/
def rowCov (rows : List (Fin d → K)) (a b : Fin d) : K :=
  (rows.map fun r => (r a - rowMean rows a) * (r b - rowMean rows b)).sum / ((rows.length : K) - 1)

theorem dduCov_ok (rows : List (Fin d → K)) (h : rows.length ≠ 1) :
    dduCov rows = .ok (if rows.length = 0 then fun _ _ => 0 else rowCov rows) := by
  unfold dduCov
  rw [if_neg h]
  congr 1
  by_cases h0 : rows.length = 0
  · rw [if_pos h0]
    obtain rfl := List.eq_nil_of_length_eq_zero h0
    rfl
  · rw [if_neg h0]
    funext a b
    unfold dduMean rowCov
    rw [if_neg h0, Option.getD_some]
    dsimp only
    symm
    rw [div_eq_mul_inv _ ((rows.length : K) - 1), ← List.sum_map_mul_right]
    congr 1
    apply List.map_congr_left
    intro r _
    rw [one_div]
    simp only [rowMean]
    ring

/-- **C73, fit.** When no class has exactly one training point, `fit` succeeds; a class with at least two members gets their mean and
their unbiased covariance, a class without members the mean NaN and a covariance of zeros. -/
theorem C73_fit (x : Fin n → Fin d → K) (y : Fin n → ℤ) (classes : ℕ)
    (h : ∀ k : ℕ, k < classes → (members x y k).length ≠ 1) :
    ∃ cs, dduFit x y classes = .ok cs ∧ cs.length = classes ∧
      ∀ k : ℕ, k < classes →
        (2 ≤ (members x y k).length → cs[k]? = some (some (rowMean (members x y k)), rowCov (members x y k))) ∧
        ((∀ i, y i ≠ k) → cs[k]? = some (none, fun _ _ => 0)) := by
  have hrow : ∀ k : ℕ, k < classes → (do
      let c ← dduCov (members x y k)
      .ok (dduMean (members x y k), c) : Except String _) = .ok (dduMean (members x y k),
        if (members x y k).length = 0 then fun _ _ => 0 else rowCov (members x y k)) := by
    intro k hk
    rw [dduCov_ok _ (h k hk)]
    rfl
  refine ⟨(List.range classes).map fun k : ℕ => (dduMean (members x y k),
    if (members x y k).length = 0 then fun _ _ => 0 else rowCov (members x y k)), ?_, by simp, ?_⟩
  · unfold dduFit
    rw [mapM_ok]
    rw [List.forall₂_map_right_iff, List.forall₂_same]
    intro k hk
    exact hrow k (List.mem_range.mp hk)
  · intro k hk
    constructor
    · intro h2
      rw [List.getElem?_map, List.getElem?_range hk, Option.map_some]
      unfold dduMean
      rw [if_neg (by omega), if_neg (by omega)]
      rfl
    · intro h0
      have hm : members x y k = [] := by
        unfold members
        rw [List.map_eq_nil_iff, List.filter_eq_nil_iff]
        intro i _
        simpa using h0 i
      rw [List.getElem?_map, List.getElem?_range hk, Option.map_some, hm]
      rfl

/-- The members of a class are the training points with its label. -/
theorem C73_members (x : Fin n → Fin d → K) (y : Fin n → ℤ) (k : ℤ) (r : Fin d → K) :
    r ∈ members x y k ↔ ∃ i, y i = k ∧ x i = r := by
  unfold members
  simp

/-- **C73, score.** Minus the logarithm of the sum of the class densities; a point at which every class
density is at least as large does not get a larger score. -/
theorem C73_score (l l' : List ℝ) (hne : l ≠ []) (hle : List.Forall₂ (· ≤ ·) l l') :
    Real.exp (-(dduScore (l.map some))) = (l.map Real.exp).sum ∧
    dduScore (l'.map some) ≤ dduScore (l.map some) := by
  have hs : ∀ l : List ℝ, dduScore (l.map some) = -Real.log ((l.map Real.exp).sum) := by
    intro l
    unfold dduScore
    rw [List.map_map]
    rfl
  have hpos : ∀ l : List ℝ, l ≠ [] → 0 < (l.map Real.exp).sum := by
    intro l hl
    obtain ⟨a, t, rfl⟩ := List.exists_cons_of_ne_nil hl
    rw [List.map_cons, List.sum_cons]
    have : 0 ≤ (t.map Real.exp).sum := List.sum_nonneg (by
      intro z hz
      obtain ⟨w, -, rfl⟩ := List.mem_map.mp hz
      exact (Real.exp_pos _).le)
    linarith [Real.exp_pos a]
  refine ⟨by rw [hs, neg_neg, Real.exp_log (hpos l hne)], ?_⟩
  rw [hs, hs, neg_le_neg_iff]
  apply Real.log_le_log (hpos l hne)
  clear hne
  induction hle with
  | nil => exact le_rfl
  | cons h _ ih =>
    simp only [List.map_cons, List.sum_cons]
    exact add_le_add (Real.exp_le_exp.mpr h) ih

/-- **C73, jitter.** The jitter used is the first that leaves no NaN at the class means; if all leave one
the last is used, without an error. -/
theorem C73_jitter {J : Type} (hasNan : J → Bool) (js : List J) (hne : js ≠ []) :
    (∀ pre j post, js = pre ++ j :: post → (∀ i ∈ pre, hasNan i = true) → hasNan j = false →
      chosenJitter hasNan js = some j) ∧
    ((∀ j ∈ js, hasNan j = true) → chosenJitter hasNan js = js.getLast?) := by
  constructor
  · intro pre
    clear hne
    induction pre generalizing js with
    | nil =>
      rintro j post rfl - hj
      cases post with
      | nil => rfl
      | cons p q => simp [chosenJitter, hj]
    | cons i pre ih =>
      rintro j post rfl hpre hj
      have := ih (pre ++ j :: post) j post rfl (fun k hk => hpre k (List.mem_cons_of_mem _ hk)) hj
      rw [List.cons_append]
      obtain ⟨c, t, hct⟩ : ∃ c t, pre ++ j :: post = c :: t := by
        cases pre with
        | nil => exact ⟨j, post, rfl⟩
        | cons a b => exact ⟨a, b ++ j :: post, rfl⟩
      rw [hct] at this ⊢
      simp only [chosenJitter, hpre i List.mem_cons_self, if_true]
      exact this
  · intro h
    induction js with
    | nil => exact absurd rfl hne
    | cons j t ih =>
      cases t with
      | nil => rfl
      | cons k t =>
        rw [List.getLast?_cons_cons]
        simp only [chosenJitter, h j List.mem_cons_self, if_true]
        exact ih (by simp) fun i hi => h i (List.mem_cons_of_mem _ hi)

/-- **C73, a class with one training point** makes `fit` raise: its covariance is divided by zero. -/
theorem C73_singleton (x : Fin n → Fin d → K) (y : Fin n → ℤ) (classes k : ℕ) (hk : k < classes)
    (h : (members x y k).length = 1) : dduFit x y classes = .error "ZeroDivisionError" := by
  unfold dduFit
  have hmem : k ∈ List.range classes := List.mem_range.mpr hk
  generalize List.range classes = ks at hmem
  induction ks with
  | nil => cases hmem
  | cons j ks ih =>
    rw [List.mapM_cons]
    by_cases hj : (members x y j).length = 1
    · have : dduCov (members x y j) = .error "ZeroDivisionError" := by
        unfold dduCov
        rw [if_pos hj]
      rw [this]
      rfl
    · rw [dduCov_ok _ hj]
      have hks : k ∈ ks := by
        rcases List.mem_cons.mp hmem with rfl | h'
        · exact absurd h hj
        · exact h'
      simp only [bind, Except.bind]
      have := ih hks
      simp only [bind, Except.bind] at this
      rw [this]

theorem dduScore_nonpos (l : List (Option ℝ)) (h : none ∈ l) : dduScore l ≤ 0 := by
  unfold dduScore
  rw [neg_nonpos]
  apply Real.log_nonneg
  have h1 : Real.exp ((none : Option ℝ).getD 0) ≤ (l.map fun l => Real.exp (l.getD 0)).sum := by
    apply List.single_le_sum
    · intro z hz
      obtain ⟨w, -, rfl⟩ := List.mem_map.mp hz
      exact (Real.exp_pos _).le
    · exact List.mem_map.mpr ⟨none, h, rfl⟩
  simpa using h1

/-- **C73 is false with a class without training points** (and none with exactly one): `fit` accepts it and adds the largest jitter,
1/10, to the covariances of all classes; the log-density of the class is NaN everywhere and replaced by 0, so that every score is at
most 0, however far the point is from the training data. -/
theorem C73_missing_class_false {n d : ℕ} (pdf : (Fin d → ℝ) → (Fin d → Fin d → ℝ) → (Fin d → ℝ) → Option ℝ) (tiny : ℝ)
    (x : Fin n → Fin d → ℝ) (y : Fin n → ℤ) (classes k : ℕ) (hk : k < classes) (hno : ∀ i, y i ≠ k)
    (h1 : ∀ k : ℕ, k < classes → (members x y k).length ≠ 1) :
    (∃ cs, dduFit x y classes = .ok cs ∧ fitJitter pdf cs tiny = 1 / 10) ∧
    ∀ q, ∃ s, dduFitScore pdf tiny x y classes q = .ok s ∧ s ≤ 0 := by
  obtain ⟨cs, hfit, -, hcs⟩ := C73_fit x y classes h1
  have hmem : ((none : Option (Fin d → ℝ)), fun _ _ => (0 : ℝ)) ∈ cs := List.mem_of_getElem? ((hcs k hk).2 hno)
  have hnone : ∀ j q, none ∈ logliks pdf cs j q := by
    intro j q
    unfold logliks
    refine List.mem_map.mpr ⟨_, hmem, ?_⟩
    cases q <;> rfl
  have hjit : fitJitter pdf cs tiny = 1 / 10 := by
    unfold fitJitter
    rw [(C73_jitter _ (jitters tiny) (by simp [jitters])).2]
    · have : (jitters tiny).getLast? = some (1 / 10) := by
        unfold jitters
        rw [List.getLast?_append]
        simp [List.range_succ]
      rw [this]
      rfl
    · intro j _
      rw [List.any_eq_true]
      exact ⟨_, hmem, List.any_eq_true.mpr ⟨none, hnone _ _, rfl⟩⟩
  refine ⟨⟨cs, hfit, hjit⟩, fun q => ⟨dduScore (logliks pdf cs (fitJitter pdf cs tiny) (some q)), ?_, dduScore_nonpos _ (hnone _ _)⟩⟩
  unfold dduFitScore
  rw [hfit]
  rfl

/-- **C73, fit and score.** When every class has at least two members and the densities have no NaN without jitter, the score is minus
the logarithm of the sum over the classes of the densities with their means and covariances. -/
theorem C73_fit_score {n d : ℕ} (pdf : (Fin d → ℝ) → (Fin d → Fin d → ℝ) → (Fin d → ℝ) → Option ℝ) (tiny : ℝ)
    (x : Fin n → Fin d → ℝ) (y : Fin n → ℤ) (classes : ℕ) (h2 : ∀ k : ℕ, k < classes → 2 ≤ (members x y k).length)
    (hnn : ∀ k : ℕ, k < classes → ∀ z, (pdf (rowMean (members x y k)) (rowCov (members x y k)) z).isSome = true) (q : Fin d → ℝ) :
    dduFitScore pdf tiny x y classes q = .ok (-Real.log (((List.range classes).map fun k : ℕ =>
      Real.exp ((pdf (rowMean (members x y k)) (rowCov (members x y k)) q).getD 0)).sum)) := by
  obtain ⟨cs, hfit, hlen, hcs⟩ := C73_fit x y classes fun k hk => by have := h2 k hk; omega
  have hcs' : cs = (List.range classes).map fun k : ℕ => (some (rowMean (members x y k)), rowCov (members x y k)) := by
    apply List.ext_getElem?
    intro k
    by_cases hk : k < classes
    · rw [(hcs k hk).1 (h2 k hk), List.getElem?_map, List.getElem?_range hk]
      rfl
    · rw [List.getElem?_eq_none (by omega), List.getElem?_eq_none (by simp; omega)]
  have hl : ∀ q, logliks pdf cs 0 (some q) = (List.range classes).map fun k : ℕ =>
      pdf (rowMean (members x y k)) (rowCov (members x y k)) q := by
    intro q
    unfold logliks
    rw [hcs', List.map_map]
    apply List.map_congr_left
    intro k _
    simp only [Function.comp, zero_mul, add_zero]
  have hj : fitJitter pdf cs tiny = 0 := by
    unfold fitJitter
    rw [(C73_jitter _ (jitters tiny) (by simp [jitters])).1 [] 0 (tiny :: (List.range 10).map fun e : ℕ => (10 : ℝ) ^ ((e : ℤ) - 10))
      rfl (by simp)]
    · rfl
    · rw [Bool.eq_false_iff]
      intro hc
      obtain ⟨c, hcm, hc'⟩ := List.any_eq_true.mp hc
      have hcm' := hcm
      rw [hcs'] at hcm'
      obtain ⟨k, hk, rfl⟩ := List.mem_map.mp hcm'
      rw [hl] at hc'
      obtain ⟨o, ho, hon⟩ := List.any_eq_true.mp hc'
      obtain ⟨k', hk', rfl⟩ := List.mem_map.mp ho
      have := hnn k' (List.mem_range.mp hk') (rowMean (members x y k))
      rw [Option.isNone_iff_eq_none] at hon
      rw [hon] at this
      cases this
  unfold dduFitScore
  rw [hfit]
  simp only [bind, Except.bind]
  rw [hj, hl]
  unfold dduScore
  rw [List.map_map]
  rfl

/-- **C73, fit and score with a jitter.** When every class has at least two members, the jitter is the first of the list
`0, tiny, 1e-10, …, 1e-1` for which no class density is NaN at a class mean; it is added to the diagonal of the covariance of every
class, and the score is minus the logarithm of the sum of the densities (a density that is NaN at the point counts as one). -/
theorem C73_fit_score_jitter {n d : ℕ} (pdf : (Fin d → ℝ) → (Fin d → Fin d → ℝ) → (Fin d → ℝ) → Option ℝ) (tiny : ℝ)
    (x : Fin n → Fin d → ℝ) (y : Fin n → ℤ) (classes : ℕ) (h2 : ∀ k : ℕ, k < classes → 2 ≤ (members x y k).length)
    (pre post : List ℝ) (j : ℝ) (hjit : jitters tiny = pre ++ j :: post)
    (hpre : ∀ i ∈ pre, ∃ k k' : ℕ, k < classes ∧ k' < classes ∧ pdf (rowMean (members x y k'))
      (fun a b => if a = b then rowCov (members x y k') a a + i else rowCov (members x y k') a b) (rowMean (members x y k)) = none)
    (hnn : ∀ k k' : ℕ, k < classes → k' < classes → (pdf (rowMean (members x y k'))
      (fun a b => if a = b then rowCov (members x y k') a a + j else rowCov (members x y k') a b)
      (rowMean (members x y k))).isSome = true) (q : Fin d → ℝ) :
    dduFitScore pdf tiny x y classes q = .ok (-Real.log (((List.range classes).map fun k : ℕ =>
      Real.exp ((pdf (rowMean (members x y k))
        (fun a b => if a = b then rowCov (members x y k) a a + j else rowCov (members x y k) a b) q).getD 0)).sum)) := by
  obtain ⟨cs, hfit, hlen, hcs⟩ := C73_fit x y classes fun k hk => by have := h2 k hk; omega
  have hcs' : cs = (List.range classes).map fun k : ℕ => (some (rowMean (members x y k)), rowCov (members x y k)) := by
    apply List.ext_getElem?
    intro k
    by_cases hk : k < classes
    · rw [(hcs k hk).1 (h2 k hk), List.getElem?_map, List.getElem?_range hk]
      rfl
    · rw [List.getElem?_eq_none (by omega), List.getElem?_eq_none (by simp; omega)]
  have hl : ∀ i q, logliks pdf cs i (some q) = (List.range classes).map fun k : ℕ => pdf (rowMean (members x y k))
      (fun a b => if a = b then rowCov (members x y k) a a + i else rowCov (members x y k) a b) q := by
    intro i q
    unfold logliks
    rw [hcs', List.map_map]
    apply List.map_congr_left
    intro k _
    simp only [Function.comp]
    congr 1
    funext a b
    by_cases hab : a = b
    · subst hab; simp
    · simp [hab]
  have hj : fitJitter pdf cs tiny = j := by
    unfold fitJitter
    rw [(C73_jitter _ (jitters tiny) (by simp [jitters])).1 pre j post hjit]
    · rfl
    · intro i hi
      obtain ⟨k, k', hk, hk', hn⟩ := hpre i hi
      refine List.any_eq_true.mpr ⟨(some (rowMean (members x y k)), rowCov (members x y k)), ?_, ?_⟩
      · rw [hcs']
        exact List.mem_map.mpr ⟨k, List.mem_range.mpr hk, rfl⟩
      · rw [hl]
        exact List.any_eq_true.mpr ⟨none, List.mem_map.mpr ⟨k', List.mem_range.mpr hk', hn⟩, rfl⟩
    · rw [Bool.eq_false_iff]
      intro hc
      obtain ⟨c, hcm, hc'⟩ := List.any_eq_true.mp hc
      have hcm' := hcm
      rw [hcs'] at hcm'
      obtain ⟨k, hk, rfl⟩ := List.mem_map.mp hcm'
      rw [hl] at hc'
      obtain ⟨o, ho, hon⟩ := List.any_eq_true.mp hc'
      obtain ⟨k', hk', rfl⟩ := List.mem_map.mp ho
      have := hnn k k' (List.mem_range.mp hk) (List.mem_range.mp hk')
      rw [Option.isNone_iff_eq_none] at hon
      rw [hon] at this
      cases this
  unfold dduFitScore
  rw [hfit]
  simp only [bind, Except.bind]
  rw [hj, hl]
  unfold dduScore
  rw [List.map_map]
  rfl

/-- Two equal points of one class: their variance is zero, so that the density (here refused for a variance of zero) needs the second
jitter. -/
example (q : Fin 1 → ℝ) : dduFitScore (n := 2) (d := 1) (fun m c z => if c 0 0 = 0 then none else some (-(z 0 - m 0) ^ 2 / c 0 0)) (1 / 1000)
    ![fun _ => 5, fun _ => 5] ![0, 0] 1 q = .ok (-Real.log (Real.exp (-(q 0 - 5) ^ 2 / (1 / 1000)) + 0)) := by
  have hm : members (n := 2) (d := 1) (K := ℝ) ![fun _ => 5, fun _ => 5] ![0, 0] ((0 : ℕ) : ℤ) = [fun _ => 5, fun _ => 5] := by
    simp [members, List.finRange_succ]
  have hmean : ∀ a, rowMean (d := 1) (K := ℝ) [fun _ => 5, fun _ => 5] a = 5 := by
    intro a; simp [rowMean]
  have hcov : ∀ a b, rowCov (d := 1) (K := ℝ) [fun _ => 5, fun _ => 5] a b = 0 := by
    intro a b; simp [rowCov, hmean]
  rw [C73_fit_score_jitter _ _ _ _ 1 ?_ [0] ((List.range 10).map fun e : ℕ => (10 : ℝ) ^ ((e : ℤ) - 10)) (1 / 1000) rfl ?_ ?_]
  · simp only [List.range_one, List.map_cons, List.map_nil, List.sum_cons, List.sum_nil, hm, hmean, hcov]
    simp
  · intro k hk
    obtain rfl : k = 0 := by omega
    rw [hm]; simp
  · intro i hi
    obtain rfl : i = 0 := by simpa using hi
    exact ⟨0, 0, by omega, by omega, by rw [hm]; simp [hcov]⟩
  · intro k k' hk hk'
    obtain rfl : k = 0 := by omega
    obtain rfl : k' = 0 := by omega
    rw [hm]; simp [hcov]

/-- **The classes are not weighted by their frequency**, unlike the documented density: with class frequencies
1/10 and 9/10 the first of two points has the lower documented density (6/5 against 19/10), and still the
lower score. -/
theorem C73_weights_false : ∃ p q : List ℝ,
    (List.zipWith (fun w l => w * Real.exp l) [1 / 10, 9 / 10] p).sum <
      (List.zipWith (fun w l => w * Real.exp l) [1 / 10, 9 / 10] q).sum ∧
    dduScore (p.map some) < dduScore (q.map some) := by
  refine ⟨[Real.log 3, Real.log 1], [Real.log 1, Real.log 2], ?_, ?_⟩
  · simp [Real.exp_log]
    norm_num
  · unfold dduScore
    simp [Real.exp_log]
    exact Real.log_lt_log (by norm_num) (by norm_num)

example : (dduCov (K := ℚ) (d := 1) [fun _ => 1, fun _ => 2, fun _ => 6]).toOption.map (fun c => c 0 0) = some 7 := by decide +kernel

/-- Three points of class 0 and none of class 1; three points of which one is alone in its class. -/
example : (dduFit (n := 3) (d := 1) (K := ℚ) ![fun _ => 1, fun _ => 2, fun _ => 6] ![0, 0, 0] 2).toOption.map (fun cs =>
      cs.map fun c => (c.1.map fun m => m 0, c.2 0 0)) = some [(some 3, 7), (none, 0)] ∧
    (dduFit (n := 3) (d := 1) (K := ℚ) ![fun _ => 1, fun _ => 2, fun _ => 6] ![0, 0, 1] 2).toOption.isNone = true := by
  decide +kernel

example : chosenJitter (fun j : ℕ => decide (j < 3)) [0, 2, 5, 7] = some 5 := by decide +kernel

end ddu

/-! ### Concrete cases that meet the hypotheses of the theorems above -/

/-- Four rows of two features, two of each class. -/
def exRows : Fin 4 → Fin 2 → ℚ := ![![0, 1], ![2, 1], ![5, 0], ![7, 4]]

/-- Their classes. -/
def exClasses : Fin 4 → ℤ := ![0, 0, 1, 1]

example := C72_mean exRows exClasses 1 0 ⟨2, rfl⟩
example := C72_covariance exRows exClasses 2 (by decide) (by decide) 0 1
example := C72_psd exRows exClasses 2 (by decide) (by decide)
example := C72_missing_class_false exRows exClasses 3 2 (by norm_num) (by decide) 0 1
example := C72_score (fun a b : Fin 2 => if a = b then (2 : ℚ) else 0)
  (fun u => by simp only [Fin.sum_univ_two]; norm_num; nlinarith [sq_nonneg (u 0), sq_nonneg (u 1)]) [![1, 1], ![6, 2]] (by simp) ![1, 1] ![3, 4]
example := C73_fit exRows exClasses 3 (by decide +kernel)
example := C73_score [0, 1] [1, 1] (by simp) (by simp)
example := (C73_jitter (fun j : ℕ => j < 2) [0, 1, 2, 3] (by simp)).1 [0, 1] 2 [3] rfl (by simp) (by simp)
example := C73_singleton exRows (![0, 0, 1, 0]) 2 1 (by norm_num) (by decide +kernel)

theorem exMembers (k : ℕ) (hk : k < 2) : (members (fun i a => (exRows i a : ℝ)) exClasses k).length = 2 := by
  simp only [members, List.length_map]
  revert k
  decide +kernel

example := C73_missing_class_false (fun _ _ _ => some 0) 1 (fun i a => (exRows i a : ℝ)) exClasses 3 2 (by norm_num) (by decide)
  (fun k _ => by simp only [members, List.length_map]; revert k; decide +kernel)
example := C73_fit_score (fun m _ z => some (m 0 - z 0)) 1 (fun i a => (exRows i a : ℝ)) exClasses 2 (fun k hk => (exMembers k hk).ge)
  (fun _ _ _ => rfl)

end Verif.Props
