import Mathlib.Tactic.Linarith
import Mathlib.Tactic.Ring
import Mathlib.Tactic.FieldSimp
import Mathlib.Tactic.Positivity
import Mathlib.Tactic.NormNum
import Mathlib.Data.List.Perm.Subperm
import Verif.Model.Predictive
import Verif.Lemmas.ListAux
import Verif.Lemmas.ConformalRegression
import Verif.Props.Loader

/-!
# C47, C50, C64, C65: credible sets, batching, conformal sets, sampling
-/

set_option linter.unusedSectionVars false

namespace Verif.Props
open Verif.Predictive

section sets
variable {K : Type} [Field K] [LinearOrder K] [IsStrictOrderedRing K]

/-! ## C47 credible sets -/

/-- The labels ordered by decreasing probability, and what the code knows about them. -/
theorem labels_spec (p : List K) :
    let labels := (argsort p).reverse
    labels.Perm (List.range p.length) ∧
    labels.map (p.getD · 0) = (p.insertionSort (· ≤ ·)).reverse ∧
    (labels.map (p.getD · 0)).Pairwise (· ≥ ·) := by
  intro labels
  have hperm : (argsort p).Perm (List.range p.length) := List.perm_insertionSort _ _
  have hsorted : ((argsort p).map (p.getD · 0)).Pairwise (· ≤ ·) := by
    rw [List.pairwise_map]
    have : Std.Total (fun a b : ℕ => p.getD a 0 ≤ p.getD b 0) := ⟨fun a b => le_total _ _⟩
    have : IsTrans ℕ (fun a b : ℕ => p.getD a 0 ≤ p.getD b 0) := ⟨fun a b c => le_trans⟩
    exact List.pairwise_insertionSort _ _
  have hrange : (List.range p.length).map (p.getD · 0) = p := by
    apply List.ext_getElem
    · simp
    · intro i h1 h2
      simp [List.getD_eq_getElem?_getD, h2]
  have heq : (argsort p).map (p.getD · 0) = p.insertionSort (· ≤ ·) := by
    apply List.Perm.eq_of_pairwise (le := (· ≤ ·)) (fun a b _ _ h1 h2 => le_antisymm h1 h2) hsorted
      (List.pairwise_insertionSort _ _)
    refine (hperm.map _).trans ?_
    rw [hrange]
    exact (List.perm_insertionSort _ _).symm
  refine ⟨(List.reverse_perm _).trans hperm, ?_, ?_⟩
  · rw [List.map_reverse, heq]
  · rw [List.map_reverse, List.pairwise_reverse]
    exact hsorted

theorem take_sum_cons_ge (x : K) (xs : List K) (hs : (x :: xs).Pairwise (· ≥ ·)) (h0 : ∀ y ∈ x :: xs, 0 ≤ y)
    (k : ℕ) : (xs.take k).sum ≤ ((x :: xs).take k).sum := by
  induction k generalizing x xs with
  | zero => simp
  | succ k ih =>
    cases xs with
    | nil => simpa using h0 x (by simp)
    | cons y ys =>
      have h1 := ih y ys (List.pairwise_cons.mp hs).2 fun z hz => h0 z (List.mem_cons_of_mem _ hz)
      have h2 : y ≤ x := (List.pairwise_cons.mp hs).1 y (by simp)
      simp only [List.take_succ_cons, List.sum_cons] at h1 ⊢
      linarith

/-- The `k` largest entries have the largest sum among all selections of `k` entries. -/
theorem sublist_sum_le (t v : List K) (hs : v.Pairwise (· ≥ ·)) (h0 : ∀ y ∈ v, 0 ≤ y) (h : t.Sublist v) :
    t.sum ≤ (v.take t.length).sum := by
  induction h with
  | slnil => simp
  | @cons t v x h ih =>
    refine le_trans (ih (List.pairwise_cons.mp hs).2 fun y hy => h0 y (by simp [hy])) ?_
    exact take_sum_cons_ge x v hs h0 _
  | @cons_cons t v x h ih =>
    rw [List.pairwise_cons] at hs
    have := ih hs.2 fun y hy => h0 y (by simp [hy])
    simp only [List.length_cons, List.take_succ_cons, List.sum_cons]
    linarith

/-- The probability of a set of labels. -/
def mass (p : List K) (s : List ℕ) : K := (s.map (p.getD · 0)).sum

/-- **C47.** For a row of probabilities and `0 < error ≤ 1` the credible set consists of distinct labels, its
mass exceeds `1 - error`, no set of labels with fewer elements reaches that mass, members are at least as
probable as non-members, and it is listed by decreasing probability. -/
theorem C47_minimal (p : List K) (hp : ∀ x ∈ p, 0 ≤ x) (hsum : p.sum = 1) (error : K) (h0 : 0 < error)
    (h1 : error ≤ 1) :
    let s := credibleSet p error
    s.Nodup ∧ (∀ a ∈ s, a < p.length) ∧ s ≠ [] ∧ mass p s > 1 - error ∧
    (∀ t : List ℕ, t.Nodup → (∀ a ∈ t, a < p.length) → mass p t > 1 - error → s.length ≤ t.length) ∧
    (∀ a ∈ s, ∀ b < p.length, b ∉ s → p.getD b 0 ≤ p.getD a 0) ∧
    (s.map (p.getD · 0)).Pairwise (· ≥ ·) := by
  obtain ⟨hperm, hval, hsort⟩ := labels_spec p
  intro s
  set labels := (argsort p).reverse with hlabels
  set v := labels.map (p.getD · 0) with hv
  have hlen : labels.length = p.length := by rw [hperm.length_eq]; simp
  have hvlen : v.length = p.length := by rw [hv, List.length_map, hlen]
  have hvsum : v.sum = 1 := by
    rw [hval, List.sum_reverse, (List.perm_insertionSort _ _).sum_eq, hsum]
  have hv0 : ∀ y ∈ v, 0 ≤ y := by
    intro y hy
    rw [hval, List.mem_reverse, List.mem_insertionSort] at hy
    exact hp y hy
  have hpne : p ≠ [] := by rintro rfl; simp at hsum
  have hppos : 0 < p.length := List.length_pos_iff.mpr hpne
  -- the index
  set region := (cumsum v).map fun c => decide (c > 1 - error) with hregion
  have hrlen : region.length = p.length := by simp [hregion, cumsum, hvlen]
  have hrget : ∀ i (hi : i < region.length), region[i] = decide ((v.take (i + 1)).sum > 1 - error) := by
    intro i hi
    simp [hregion, cumsum]
  have hlast : ∃ x ∈ region, decide (x = true) = true := by
    refine ⟨region[p.length - 1]'(by rw [hrlen]; omega), List.getElem_mem _, ?_⟩
    rw [hrget, List.take_of_length_le (by omega), hvsum]
    simp; linarith
  have hidx : region.findIdx (fun x => decide (x = true)) < region.length := List.findIdx_lt_length.mpr hlast
  set k := region.findIdx (fun x => decide (x = true)) with hk
  have hs : s = labels.take (k + 1) := by
    show credibleSet p error = _
    unfold credibleSet
    simp only
    rw [← hval, ← hlabels, ← hregion, if_pos hidx]
  have hktrue : (v.take (k + 1)).sum > 1 - error := by
    have := List.findIdx_getElem (w := hidx)
    rw [hrget, ← hk] at this
    simpa using this
  have hkfalse : ∀ j < k, (v.take (j + 1)).sum ≤ 1 - error := by
    intro j hj
    have := List.not_of_lt_findIdx (p := fun x => decide (x = true)) (xs := region) (i := j) hj
    rw [hrget] at this
    simpa using this
  have hmass : mass p s = (v.take (k + 1)).sum := by
    unfold mass
    rw [hs, List.map_take]
  have hslen : s.length = k + 1 := by
    rw [hs, List.length_take, hlen]; omega
  have hnodup : labels.Nodup := hperm.nodup_iff.mpr List.nodup_range
  refine ⟨by rw [hs]; exact hnodup.sublist (List.take_sublist _ _), ?_, ?_, by rw [hmass]; exact hktrue, ?_,
    ?_, ?_⟩
  · intro a ha
    rw [hs] at ha
    have := hperm.mem_iff.mp (List.mem_of_mem_take ha)
    simpa using this
  · intro he; rw [he] at hslen; simp at hslen
  · intro t ht hta htm
    by_contra hlt
    push Not at hlt
    rw [hslen] at hlt
    have hsub : t.Subperm labels := by
      apply List.subperm_of_subset ht
      intro a ha
      rw [hperm.mem_iff]; simpa using hta a ha
    obtain ⟨l, hl, hsl⟩ := hsub
    have hpt : (l.map (p.getD · 0)).Perm (t.map (p.getD · 0)) := hl.map _
    have hst : (l.map (p.getD · 0)).Sublist v := hsl.map _
    set t' := l.map (p.getD · 0)
    have h2 := sublist_sum_le t' v hsort hv0 hst
    have h3 : t'.sum = mass p t := hpt.sum_eq
    have h4 : t'.length = t.length := by rw [hpt.length_eq, List.length_map]
    rw [h3, h4] at h2
    rcases Nat.eq_zero_or_pos t.length with hz | hz
    · rw [hz] at h2; simp at h2; linarith
    · have := hkfalse (t.length - 1) (by omega)
      rw [show t.length - 1 + 1 = t.length by omega] at this
      linarith
  · intro a ha b hb hbs
    rw [hs] at ha hbs
    have hb' : b ∈ labels.drop (k + 1) := by
      have : b ∈ labels := hperm.mem_iff.mpr (by simpa using hb)
      rw [← List.take_append_drop (k + 1) labels, List.mem_append] at this
      exact this.resolve_left hbs
    rw [hv, ← List.take_append_drop (k + 1) labels, List.map_append, List.pairwise_append] at hsort
    exact hsort.2.2 _ (List.mem_map_of_mem ha) _ (List.mem_map_of_mem hb')
  · rw [hs, List.map_take]
    exact hsort.sublist (List.take_sublist _ _)

/-- **C47 is false at `error = 0`**, although 100% credible sets are allowed: nothing exceeds 1, so the
search falls back to the single most likely label. -/
theorem C47_zero_false : credibleSet [(1 : ℚ) / 4, 1 / 2, 1 / 4] 0 = [1] ∧
    mass [(1 : ℚ) / 4, 1 / 2, 1 / 4] [1] = 1 / 2 := by
  decide +kernel

example : credibleSet [(1 : ℚ) / 10, 6 / 10, 3 / 10] (2 / 10) = [1, 2] := by decide +kernel

/-! ## C64 conformal sets -/

/-- At most `T` entries have at most `T` entries at or below them. -/
theorem few_low_ranks (l : List K) (T : K) (hT : 0 ≤ T) :
    ((l.countP fun x => decide (((l.countP fun y => decide (y ≤ x) : ℕ) : K) ≤ T) : ℕ) : K) ≤ T := by
  set bad := l.filter fun x => decide (((l.countP fun y => decide (y ≤ x) : ℕ) : K) ≤ T) with hbad
  rw [List.countP_eq_length_filter, ← hbad]
  by_cases hne : bad = []
  · rw [hne]; simpa using hT
  · obtain ⟨m, hm, hmax⟩ := ListAux.exists_max bad hne
    have hm2 : ((l.countP fun y => decide (y ≤ m) : ℕ) : K) ≤ T := by
      rw [hbad, List.mem_filter] at hm
      simpa using hm.2
    refine le_trans ?_ hm2
    rw [hbad, ← List.countP_eq_length_filter]
    have : l.countP (fun x => decide (((l.countP fun y => decide (y ≤ x) : ℕ) : K) ≤ T)) ≤
        l.countP (fun y => decide (y ≤ m)) := by
      apply List.countP_mono_left
      intro x hx hb
      simp only [decide_eq_true_eq]
      apply hmax
      rw [hbad, List.mem_filter]
      exact ⟨hx, hb⟩
    exact_mod_cast this

variable {Θ Z : Type}

/-- Spec: the posterior predictive probability of `z` given all of `data`, for a prior `π` on a finite
parameter space. -/
def fullPred (space : List Θ) (π : Θ → K) (lik : Θ → Z → K) (data : List Z) (z : Z) : K :=
  (space.map fun θ => π θ * (data.map (lik θ)).prod * lik θ z).sum /
    (space.map fun θ => π θ * (data.map (lik θ)).prod).sum

/-- Spec: the samples `ths` represent the posterior given `data` exactly. -/
def ExactPosterior (space : List Θ) (π : Θ → K) (lik : Θ → Z → K) (data : List Z) (ths : List Θ) : Prop :=
  ∃ C : K, C ≠ 0 ∧ ∀ f : Θ → K,
    (ths.map f).sum = C * (space.map fun θ => π θ * (data.map (lik θ)).prod * f θ).sum

theorem probTrain_eq (ths : List Θ) (a b : Θ → K) :
    probTrain (ths.map a) (ths.map b) = (ths.map fun θ => a θ * b θ).sum / (ths.map a).sum := by
  unfold probTrain
  generalize (ths.map a).sum = W
  induction ths with
  | nil => simp
  | cons t ths ih =>
    simp only [List.map_cons, List.zipWith_cons_cons, List.sum_cons] at ih ⊢
    rw [ih]; ring

/-- **C64, add-one-in importance sampling.** If the posterior samples represent the posterior given the
training data exactly, the importance-weighted scores are the posterior predictive probabilities given the
training data *and* the candidate. -/
theorem C64_importance (space : List Θ) (π : Θ → K) (lik : Θ → Z → K) (train : List Z) (z : Z)
    (ths : List Θ) (hex : ExactPosterior space π lik train ths) :
    (∀ y, probTrain (ths.map (lik · z)) (ths.map (lik · y)) = fullPred space π lik (z :: train) y) ∧
    probTest (ths.map (lik · z)) = fullPred space π lik (z :: train) z := by
  obtain ⟨C, hC, hf⟩ := hex
  have key : ∀ y, (ths.map fun θ => lik θ z * lik θ y).sum / (ths.map (lik · z)).sum =
      fullPred space π lik (z :: train) y := by
    intro y
    rw [hf, hf, mul_div_mul_left _ _ hC]
    unfold fullPred
    congr 1
    · congr 1; apply List.map_congr_left; intro θ _
      simp only [List.map_cons, List.prod_cons]; ring
    · congr 1; apply List.map_congr_left; intro θ _
      simp only [List.map_cons, List.prod_cons]; ring
  refine ⟨fun y => by rw [probTrain_eq, key], ?_⟩
  rw [← key z]
  unfold probTest
  rw [List.map_map]
  congr 2
  apply List.map_congr_left
  intro θ _
  simp [pow_two]

theorem fullPred_perm (space : List Θ) (π : Θ → K) (lik : Θ → Z → K) {d d' : List Z} (h : d.Perm d') (z : Z) :
    fullPred space π lik d z = fullPred space π lik d' z := by
  unfold fullPred
  have : ∀ θ, (d.map (lik θ)).prod = (d'.map (lik θ)).prod := fun θ => (h.map _).prod_eq
  simp only [this]

/-- The candidate of a data set's own point is in the region iff more than `error·(n+1)` points have a
predictive probability no larger than its own. -/
theorem inRegion_iff (space : List Θ) (π : Θ → K) (lik : Θ → Z → K) (train : List Z) (z : Z) (ths : List Θ)
    (hex : ExactPosterior space π lik train ths) (error : K) :
    inRegion (train.map fun y => ths.map (lik · y)) (ths.map (lik · z)) error = true ↔
      error * (((z :: train).length : ℕ) : K) <
        (((z :: train).countP fun y => decide (fullPred space π lik (z :: train) y ≤
          fullPred space π lik (z :: train) z) : ℕ) : K) := by
  obtain ⟨h1, h2⟩ := C64_importance space π lik train z ths hex
  unfold inRegion
  simp only [List.map_map, h2]
  rw [show (train.map (probTrain (ths.map (lik · z)) ∘ fun y => ths.map (lik · y))) =
    train.map (fullPred space π lik (z :: train)) from List.map_congr_left fun y _ => h1 y]
  simp only [List.getLastD_concat, List.filter_append, List.length_append, List.filter_map, List.length_map,
    decide_eq_true_eq, gt_iff_lt, List.length_cons, Nat.cast_add, Nat.cast_one, List.countP_cons,
    List.countP_eq_length_filter, Function.comp_def, List.filter_cons, List.filter_nil, le_refl,
    decide_true, if_true, List.length_nil, zero_add]

/-- **C64, validity.** For every data set of `n+1` points, if each point in turn is taken as the test point
and the others as training data (with exact posterior samples), its true label is missing from the
conformal set at most `error·(n+1)` times: exchangeable data are covered with frequency at least
`1 - error`. -/
theorem C64_validity (space : List Θ) (π : Θ → K) (lik : Θ → Z → K) (data : List Z)
    (samples : ℕ → List Θ) (error : K) (h0 : 0 ≤ error)
    (hex : ∀ j < data.length, ExactPosterior space π lik (data.eraseIdx j) (samples j)) :
    ((((List.finRange data.length).countP fun j : Fin data.length =>
      !inRegion ((data.eraseIdx j).map fun y => (samples j).map (lik · y))
        ((samples j).map fun θ => lik θ data[j]) error : ℕ)) : K) ≤ error * (data.length : K) := by
  have hP := few_low_ranks (data.map (fullPred space π lik data)) (error * (data.length : K)) (by positivity)
  refine le_trans (le_of_eq ?_) hP
  rw [List.countP_map]
  have hfin : ∀ q : Z → Bool, data.countP q = (List.finRange data.length).countP fun j => q data[j] := by
    intro q
    have : data = (List.finRange data.length).map fun j => data[j] := by
      apply List.ext_getElem <;> simp
    conv_lhs => rw [this]
    rw [List.countP_map]; rfl
  rw [hfin]
  congr 1
  apply List.countP_congr
  intro j _
  have hj := j.2
  have hperm : (data[j] :: data.eraseIdx j).Perm data := List.getElem_cons_eraseIdx_perm hj
  have hiff := inRegion_iff space π lik (data.eraseIdx j) data[j] (samples j) (hex j hj) error
  simp only [fullPred_perm space π lik hperm, hperm.length_eq, hperm.countP_eq] at hiff
  simp only [Bool.not_eq_true', Function.comp_apply, decide_eq_true_eq, List.countP_map]
  rw [Bool.eq_false_iff, ne_eq, hiff, not_lt]
  rfl

/-- The hypotheses are met: a two-point parameter space with likelihoods 1/4, 3/4 and as many copies of
each parameter as its posterior weight. -/
example : ExactPosterior [(1 : ℚ) / 4, 3 / 4] (fun _ => 1) (fun θ (z : Bool) => if z then θ else 1 - θ)
    [true] [1 / 4, 3 / 4, 3 / 4, 3 / 4] := by
  refine ⟨4, by norm_num, fun f => ?_⟩
  simp
  ring

example : inRegion [[(1 : ℚ) / 4, 3 / 4, 3 / 4, 3 / 4]] [1 / 4, 3 / 4, 3 / 4, 3 / 4] (1 / 4) = true ∧
    inRegion [[(1 : ℚ) / 2, 3 / 4]] [1 / 4, 1 / 8] (1 / 2) = false := by
  decide +kernel

/-- **C64, monotone.** A larger error never enlarges the region; error 0 includes every label and error 1
none. -/
theorem C64_monotone (train : List (Liks K)) (w : Liks K) (e e' : K) (h : e ≤ e')
    (hin : inRegion train w e' = true) : inRegion train w e = true := by
  unfold inRegion at *
  simp only [decide_eq_true_eq, gt_iff_lt] at *
  refine lt_of_le_of_lt ?_ hin
  apply mul_le_mul_of_nonneg_right h
  positivity

theorem C64_extremes (train : List (Liks K)) (w : Liks K) :
    inRegion train w 0 = true ∧ inRegion train w 1 = false := by
  unfold inRegion
  constructor
  · simp only [zero_mul, decide_eq_true_eq, gt_iff_lt, Nat.cast_pos]
    rw [List.length_pos_iff]
    apply List.ne_nil_of_mem (a := probTest w)
    simp [List.mem_filter]
  · simp only [one_mul, decide_eq_false_iff_not, gt_iff_lt, not_lt]
    have := List.length_filter_le (fun s => decide (s ≤ (train.map (probTrain w) ++ [probTest w]).getLastD 0))
      (train.map (probTrain w) ++ [probTest w])
    rw [List.length_append, List.length_map] at this
    have h2 := (Nat.cast_le (α := K)).mpr this
    push_cast at h2
    simpa using h2

theorem sorted_bool (v : List Bool) (h : v.Pairwise (· ≤ ·)) :
    (∀ x ∈ v.drop (v.length - v.countP id), x = true) ∧
    (∀ x ∈ v.take (v.length - v.countP id), x = false) := by
  induction v with
  | nil => simp
  | cons b v ih =>
    rw [List.pairwise_cons] at h
    have hle := List.countP_le_length (p := id) (l := v)
    cases b with
    | false =>
      have : (false :: v).length - (false :: v).countP id = (v.length - v.countP id) + 1 := by
        simp [List.countP_cons]; omega
      rw [this]
      simp only [List.drop_succ_cons, List.take_succ_cons, List.mem_cons]
      refine ⟨(ih h.2).1, ?_⟩
      rintro x (rfl | hx)
      · rfl
      · exact (ih h.2).2 x hx
    | true =>
      have hall : ∀ x ∈ v, x = true := by
        intro x hx
        have := h.1 x hx
        revert this; cases x <;> decide
      have hc : v.countP id = v.length := by
        rw [List.countP_eq_length]; intro x hx; simpa using hall x hx
      have : (true :: v).length - (true :: v).countP id = 0 := by
        simp [List.countP_cons, hc]
      rw [this]
      refine ⟨?_, by simp⟩
      intro x hx
      simp only [List.drop_zero, List.mem_cons] at hx
      rcases hx with rfl | hx
      · rfl
      · exact hall x hx

/-- **C64, from region to set.** Whatever order the sort uses within ties, the returned set holds exactly
the labels in the region, each once. -/
theorem C64_set (region : List Bool) (order : List ℕ) (hperm : order.Perm (List.range region.length))
    (hsort : (order.map (region.getD · false)).Pairwise (· ≤ ·)) :
    (regionToSet region order).Nodup ∧
    ∀ i, i ∈ regionToSet region order ↔ region[i]? = some true := by
  have hlen : order.length = region.length := by rw [hperm.length_eq]; simp
  have hrange : (List.range region.length).map (region.getD · false) = region := by
    apply List.ext_getElem
    · simp
    · intro i h1 h2
      simp [List.getD_eq_getElem?_getD, h2]
  have hcount : (order.map (region.getD · false)).countP id = region.countP id := by
    rw [(hperm.map _).countP_eq, hrange]
  have heq : regionToSet region order = order.drop (order.length - region.countP id) := by
    unfold regionToSet
    simp only
    rw [List.reverse_take, List.reverse_reverse, List.length_reverse]
  have hnd : order.Nodup := hperm.nodup_iff.mpr List.nodup_range
  obtain ⟨ht, hf⟩ := sorted_bool _ hsort
  rw [hcount, List.length_map, ← List.map_drop] at ht
  rw [hcount, List.length_map, ← List.map_take] at hf
  rw [heq]
  refine ⟨hnd.sublist (List.drop_sublist _ _), fun i => ⟨fun hi => ?_, fun hi => ?_⟩⟩
  · have h1 := ht _ (List.mem_map_of_mem hi)
    have h2 : i < region.length := by
      have := hperm.mem_iff.mp (List.mem_of_mem_drop hi); simpa using this
    simpa [List.getD_eq_getElem?_getD, h2] using h1
  · have h2 : i < region.length := by
      by_contra hc
      rw [List.getElem?_eq_none (by omega)] at hi
      cases hi
    have h3 : i ∈ order := hperm.mem_iff.mpr (by simpa using h2)
    rw [← List.take_append_drop (order.length - region.countP id) order, List.mem_append] at h3
    rcases h3 with h3 | h3
    · have := hf _ (List.mem_map_of_mem h3)
      rw [List.getD_eq_getElem?_getD, hi] at this
      cases this
    · exact h3

example : regionToSet [true, false, true, false] [3, 1, 2, 0] = [2, 0] := by decide

/-- **C64, the grid.** The log-likelihood looked up for test input `t` and candidate label `c` is the one of
the data point `(t, c)`. -/
theorem C64_grid {X A : Type} (train : List (X × ℕ)) (test : List X) (n : ℕ) (g : X × ℕ → A) (t c : ℕ)
    (ht : t < test.length) (hc : c < n) :
    gridEntry train.length test.length ((gridData train test n).map g) t c = some (g (test[t], c)) := by
  have key : ∀ (L : List (List A)) (m c t : ℕ), (∀ l ∈ L, l.length = m) → t < m →
      L.flatten[c * m + t]? = (L[c]?).bind (·[t]?) := by
    intro L m c t hL htm
    induction L generalizing c with
    | nil => simp
    | cons l L ih =>
      have hl := hL l (by simp)
      cases c with
      | zero => simp [List.getElem?_append_left (show t < l.length by omega)]
      | succ c =>
        rw [List.flatten_cons, List.getElem?_append_right (by rw [hl, Nat.succ_mul]; omega), hl,
          show (c + 1) * m + t - m = c * m + t by rw [Nat.succ_mul]; omega,
          ih c fun l hl => hL l (by simp [hl])]
        simp
  unfold gridEntry gridData
  rw [List.map_append, List.drop_left' (by simp), List.map_flatMap, List.flatMap_def,
    key _ test.length c t (by simp) ht]
  simp [hc, ht]

/-- **C64, effective sample size.** Between 1 and the number of posterior samples. -/
theorem C64_ess (w : Liks K) (h0 : ∀ a ∈ w, 0 ≤ a) (hs : 0 < w.sum) :
    1 ≤ ess w ∧ ess w ≤ (w.length : K) := by
  set S := w.sum with hS
  have hsq : (w.map fun a => (a / S) ^ 2).sum = (w.map fun a => a ^ 2).sum / S ^ 2 := by
    rw [div_eq_mul_inv, ← List.sum_map_mul_right]
    congr 1
    apply List.map_congr_left
    intro a _
    rw [div_pow, div_eq_mul_inv]
  have hle : ∀ l : List K, (∀ a ∈ l, 0 ≤ a) → (l.map fun a => a ^ 2).sum ≤ l.sum ^ 2 ∧ 0 ≤ l.sum := by
    intro l hl
    induction l with
    | nil => simp
    | cons a l ih =>
      obtain ⟨i1, i2⟩ := ih fun x hx => hl x (by simp [hx])
      have ha := hl a (by simp)
      simp only [List.map_cons, List.sum_cons]
      constructor
      · nlinarith [mul_nonneg ha i2]
      · linarith
  have hexp : ∀ (l : List K) (c : K), (l.map fun a => (a - c) ^ 2).sum =
      (l.map fun a => a ^ 2).sum - 2 * c * l.sum + l.length * c ^ 2 := by
    intro l c
    induction l with
    | nil => simp
    | cons a l ih => simp only [List.map_cons, List.sum_cons, List.length_cons, ih]; push_cast; ring
  have hne : w ≠ [] := by rintro rfl; simp [hS] at hs
  have hn : (0 : K) < w.length := by exact_mod_cast List.length_pos_iff.mpr hne
  have hcs : S ^ 2 ≤ w.length * (w.map fun a => a ^ 2).sum := by
    have h1 : 0 ≤ (w.map fun a => (a - S / w.length) ^ 2).sum := by
      apply List.sum_nonneg
      intro x hx
      simp only [List.mem_map] at hx
      obtain ⟨a, -, rfl⟩ := hx
      positivity
    rw [hexp, ← hS] at h1
    have h2 := mul_le_mul_of_nonneg_left h1 hn.le
    have h3 : (w.length : K) * ((w.map fun a => a ^ 2).sum - 2 * (S / w.length) * S +
        w.length * (S / w.length) ^ 2) = w.length * (w.map fun a => a ^ 2).sum - S ^ 2 := by
      field_simp
      ring
    rw [h3] at h2
    linarith
  have hq : 0 < (w.map fun a => a ^ 2).sum := by
    have : 0 < (w.length : K) * (w.map fun a => a ^ 2).sum := lt_of_lt_of_le (by positivity) hcs
    exact (mul_pos_iff_of_pos_left hn).mp this
  unfold ess
  rw [← hS, hsq, one_div, inv_div]
  constructor
  · rw [le_div_iff₀ hq, one_mul]; exact (hle w h0).1
  · rw [div_le_iff₀ hq]; exact hcs

example : ess [(1 : ℚ), 1, 1, 1] = 4 ∧ ess [(1 : ℚ), 0, 0, 0] = 1 := by decide +kernel

end sets

/-! ## C50 batching and devices -/

section loops
open Verif.Loader
variable {X R : Type}

/-- **C50.** A row-wise statistic does not depend on the batching; distributed over `d` devices it gives the
same result, provided that every batch size is a multiple of `d`, and otherwise it raises. -/
theorem C50_rows (f : X → R) (loader : List (List X)) (hne : loader ≠ []) :
    loopFun f none loader = .ok (loader.flatten.map f) ∧
    ∀ d, 0 < d → (((∀ b ∈ loader, d ∣ b.length) →
        loopFun f (some d) loader = .ok (loader.flatten.map f)) ∧
      ((∃ b ∈ loader, ¬ d ∣ b.length) → ∃ e, loopFun f (some d) loader = .error e)) := by
  have hflat : loader.flatMap (fun b => b.map f) = loader.flatten.map f := by
    rw [List.map_flatten, List.flatMap_def]
  have hemp : ¬ loader.isEmpty = true := by simpa using hne
  refine ⟨by unfold loopFun; rw [if_neg hemp, hflat], fun d hd => ⟨fun h => ?_, ?_⟩⟩
  · have key : ∃ s, shardLoader d loader = .ok s ∧
        s.flatMap (fun b => unshard (b.map fun rows => rows.map f)) = loader.flatten.map f := by
      unfold shardLoader
      clear hflat hne hemp
      induction loader with
      | nil => exact ⟨[], rfl, rfl⟩
      | cons b l ih =>
        obtain ⟨s, hs, hf⟩ := ih fun b hb => h b (by simp [hb])
        obtain ⟨sb, hsb⟩ := (C26_shard d hd b).1.mpr (h b (by simp))
        refine ⟨sb :: s, ?_, ?_⟩
        · rw [List.mapM_cons, hsb, hs]; rfl
        · rw [List.flatMap_cons, hf, (C26_map d hd b f sb hsb).1]; simp
    obtain ⟨s, hs, hf⟩ := key
    unfold loopFun
    rw [if_neg hemp]
    simp only [hs]
    show Except.ok _ = _
    rw [hf]
  · rintro ⟨b, hb, hnd⟩
    unfold loopFun
    rw [if_neg hemp]
    cases hs : shardLoader d loader with
    | error e => exact ⟨e, by simp only [hs]; rfl⟩
    | ok s =>
      exfalso
      have := mapM_ok.mp hs
      obtain ⟨i, hi, hbi⟩ := List.getElem_of_mem hb
      have hlen := this.length_eq
      have h2 := List.forall₂_iff_get.mp this
      have h3 := h2.2 i (by omega) (by omega)
      apply hnd
      apply (C26_shard d hd b).1.mp
      rw [← hbi]
      exact ⟨_, h3⟩

/-- **C50, no data.** Without any batch every statistic and every sampling raises. -/
theorem C50_empty (f : X → R) (n : ℕ) (g : ℕ → X → R) (g' : ℕ → ℕ → X → R) (devices : Option ℕ) :
    loopFun f devices [] = .error "ValueError" ∧ loopEnsemble n g devices [] = .error "ValueError" ∧
    sampleTargets n g' devices [] = .error "ValueError" := ⟨rfl, rfl, rfl⟩

theorem transpose_map (n : ℕ) (l : List X) (h : X → ℕ → R) :
    transpose n (l.map fun x => (List.range n).map (h x)) = (List.range n).map fun j => l.map fun x => h x j := by
  unfold transpose
  apply List.map_congr_left
  intro j hj
  have hj' : j < n := by simpa using hj
  rw [List.filterMap_map]
  rw [show l.map (fun x => h x j) = l.filterMap (fun x => some (h x j)) from by simp]
  apply List.filterMap_congr
  intro x _
  simp [hj']

theorem transpose_ensemble (n : ℕ) (b : List X) (g : ℕ → X → R) :
    transpose b.length ((List.range n).map fun s => b.map (g s)) = b.map fun x => (List.range n).map (g · x) := by
  apply List.ext_getElem
  · simp [transpose]
  · intro i h1 h2
    have hi : i < b.length := by simpa using h2
    simp only [transpose, List.getElem_map, List.getElem_range, List.filterMap_map]
    rw [show (List.range n).map (fun s => g s b[i]) = (List.range n).filterMap (fun s => some (g s b[i])) from
      by simp]
    apply List.filterMap_congr
    intro s _
    simp [hi]

theorem unshardEnsemble_map (n : ℕ) (hn : 0 < n) (g : ℕ → X → R) (sh : List (List X)) :
    unshardEnsemble n (sh.map fun b => (List.range n).map fun s => b.map (g s)) =
      (List.range n).map fun s => sh.flatten.map (g s) := by
  unfold unshardEnsemble
  simp only [List.map_map]
  have : (fun dev => transpose (dev.headD []).length dev) ∘
      (fun b => (List.range n).map fun s => b.map (g s)) =
      fun b : List X => b.map fun x => (List.range n).map (g · x) := by
    funext b
    simp only [Function.comp]
    have hhead : (((List.range n).map fun s => b.map (g s)).headD []).length = b.length := by
      obtain ⟨k, rfl⟩ : ∃ k, n = k + 1 := ⟨n - 1, by omega⟩
      simp [List.range_succ_eq_map]
    rw [hhead, transpose_ensemble]
  rw [this, ← List.map_flatten, transpose_map]

theorem concatAxis1_map {n : ℕ} (h : ℕ → List X → List R) (loader : List (List X)) (hne : loader ≠ []) :
    concatAxis1 (loader.map fun b => (List.range n).map fun s => h s b) =
      (List.range n).map fun s => loader.flatMap (h s) := by
  cases loader with
  | nil => exact absurd rfl hne
  | cons b l =>
    clear hne
    simp only [List.map_cons, concatAxis1]
    have key : ∀ (l : List (List X)) (acc : ℕ → List R),
        (l.map fun b => (List.range n).map fun s => h s b).foldl (fun acc b => List.zipWith (· ++ ·) acc b)
          ((List.range n).map acc) = (List.range n).map fun s => acc s ++ l.flatMap (h s) := by
      intro l
      induction l with
      | nil => intro acc; simp
      | cons b l ih =>
        intro acc
        simp only [List.map_cons, List.foldl_cons]
        rw [List.zipWith_map, List.zipWith_self, ih fun s => acc s ++ h s b]
        simp
    rw [key l fun s => h s b]
    simp

/-- **C50, ensembles.** The outputs of every posterior sample are those of the whole data set in order,
whatever the (non-empty) batching; distributing over devices changes nothing. -/
theorem C50_ensemble (n : ℕ) (hn : 0 < n) (g : ℕ → X → R) (loader : List (List X)) (hne : loader ≠ []) :
    loopEnsemble n g none loader = .ok ((List.range n).map fun s => loader.flatten.map (g s)) ∧
    ∀ d, 0 < d → (∀ b ∈ loader, d ∣ b.length) →
      loopEnsemble n g (some d) loader = .ok ((List.range n).map fun s => loader.flatten.map (g s)) := by
  have hflat : ∀ s, loader.flatMap (fun b => b.map (g s)) = loader.flatten.map (g s) := by
    intro s; rw [List.map_flatten, List.flatMap_def]
  have hemp : ¬ loader.isEmpty = true := by simpa using hne
  constructor
  · unfold loopEnsemble
    simp only [if_neg hemp]
    rw [concatAxis1_map (fun s b => b.map (g s)) loader hne]
    simp only [hflat]
  · intro d hd h
    obtain ⟨s, hs, hu⟩ : ∃ s, shardLoader d loader = .ok s ∧ s.map List.flatten = loader := by
      unfold shardLoader
      clear hflat hne hemp
      induction loader with
      | nil => exact ⟨[], rfl, rfl⟩
      | cons b l ih =>
        obtain ⟨s, hs, hf⟩ := ih fun b hb => h b (by simp [hb])
        obtain ⟨sb, hsb⟩ := (C26_shard d hd b).1.mpr (h b (by simp))
        refine ⟨sb :: s, ?_, ?_⟩
        · rw [List.mapM_cons, hsb, hs]; rfl
        · have := ((C26_shard d hd b).2 sb hsb).2.2
          unfold unshard at this
          rw [List.map_cons, hf, this]
    unfold loopEnsemble
    simp only [if_neg hemp, hs]
    show Except.ok _ = _
    congr 1
    simp only [unshardEnsemble_map n hn]
    rw [show (s.map fun b => (List.range n).map fun i => b.flatten.map (g i)) =
      (s.map List.flatten).map fun b => (List.range n).map fun i => b.map (g i) by simp, hu]
    rw [concatAxis1_map (fun s b => b.map (g s)) loader hne]
    simp only [hflat]

example : (loopEnsemble 2 (fun s x => s * 10 + x) (some 2) [[1, 2], [3, 4]]).toOption =
    some [[1, 2, 3, 4], [11, 12, 13, 14]] := by decide

/-! ## C65 sampling targets -/

/-- **C65.** Without distribution, sample `s` holds one value for every input in order; the random number
behind it depends only on `s` and on the position of the row within its batch. -/
theorem C65_samples (n : ℕ) (g : ℕ → ℕ → X → R) (loader : List (List X)) (hne : loader ≠ []) :
    sampleTargets n g none loader =
      .ok ((List.range n).map fun s => loader.flatMap fun b => b.mapIdx fun j x => g s j x) := by
  have hemp : ¬ loader.isEmpty = true := by simpa using hne
  unfold sampleTargets
  simp only [if_neg hemp]
  rw [concatAxis1_map (fun s b => b.mapIdx fun j x => g s j x) loader hne]

/-- **C65 is false: samples for different batches are not independent.** The same key is used for every
batch, so two equal batches receive identical samples, whatever the random numbers are. -/
theorem C65_same_noise_false (n : ℕ) (g : ℕ → ℕ → X → R) (b : List X) :
    sampleTargets n g none [b, b] =
      .ok ((List.range n).map fun s => (b.mapIdx fun j x => g s j x) ++ (b.mapIdx fun j x => g s j x)) := by
  rw [C65_samples n g [b, b] (by simp)]
  simp

/-- **C65 is false when distributed.** With `d` devices the first axis of the result has length `d·n` instead
of the number `n` of samples asked for. -/
theorem C65_distributed_false (n d : ℕ) (hd : 0 < d) (g : ℕ → ℕ → X → R) (loader : List (List X))
    (hne : loader ≠ []) (r : List (List R)) (h : sampleTargets n g (some d) loader = .ok r) :
    r.length = d * n := by
  have hemp : ¬ loader.isEmpty = true := by simpa using hne
  unfold sampleTargets at h
  simp only [if_neg hemp] at h
  obtain ⟨s, hs, hr⟩ := bind_ok.mp h
  cases hr
  have hall := mapM_ok.mp hs
  have hlen : ∀ b ∈ s, b.length = d := by
    intro b hb
    obtain ⟨i, hi, rfl⟩ := List.getElem_of_mem hb
    have h2 := List.forall₂_iff_get.mp hall
    have h3 := h2.2 i (by rw [hall.length_eq]; exact hi) hi
    exact ((C26_shard d hd _).2 _ h3).1
  have hsne : s ≠ [] := by
    rintro rfl
    have := hall.length_eq
    apply hne
    simpa using this
  have key : ∀ b ∈ s, (unshard (b.map fun b => (List.range n).map fun i => b.mapIdx fun j x => g i j x)).length =
      d * n := by
    intro b hb
    unfold unshard
    rw [List.length_flatten, List.map_map]
    simp [Function.comp_def, hlen b hb]
  cases s with
  | nil => exact absurd rfl hsne
  | cons b s =>
    simp only [List.map_cons, concatAxis1]
    have h0 := key b (by simp)
    have hrest : ∀ b ∈ s, (unshard (b.map fun b => (List.range n).map fun i =>
        b.mapIdx fun j x => g i j x)).length = d * n := fun b hb => key b (by simp [hb])
    generalize (unshard (b.map fun b => (List.range n).map fun i => b.mapIdx fun j x => g i j x)) = acc at h0
    clear key hs hall hlen hsne h
    induction s generalizing acc with
    | nil => simpa using h0
    | cons b s ih =>
      simp only [List.map_cons, List.foldl_cons]
      apply ih
      · intro b hb; exact hrest b (by simp [hb])
      · rw [List.length_zipWith, h0, hrest b (by simp), min_self]

example : (sampleTargets 1 (fun s j x => s * 100 + j * 10 + x) (some 2) [[1, 2]]).toOption =
    some [[1], [2]] := by decide

/-- **C65 is false for a caller who passes a key.** The check `if not rng` needs the truth value of an array
of two numbers, which raises; only `rng=None` works. -/
theorem C65_rng_false : sampleRngCheck none = .ok true ∧
    (∀ a b, sampleRngCheck (some [a, b]) = .error "ValueError") ∧ ∀ a, sampleRngCheck (some [a]) = .ok (a == 0) := by
  refine ⟨rfl, fun a b => rfl, fun a => ?_⟩
  cases a <;> rfl

end loops

/-! ### Concrete cases that meet the hypotheses of the theorems above -/

example := C47_minimal [(1 : ℚ) / 10, 6 / 10, 3 / 10] (by decide +kernel) (by decide +kernel) (2 / 10) (by decide +kernel) (by decide +kernel)
example := C64_importance [(1 : ℚ) / 4, 3 / 4] (fun _ => 1) (fun θ (z : Bool) => if z then θ else 1 - θ) [true] false
  [1 / 4, 3 / 4, 3 / 4, 3 / 4] ⟨4, by norm_num, fun f => by simp; ring⟩
example := C64_monotone [[(1 : ℚ) / 4, 3 / 4, 3 / 4, 3 / 4]] [1 / 4, 3 / 4, 3 / 4, 3 / 4] (1 / 8) (1 / 4) (by decide +kernel) (by decide +kernel)
example := C64_grid [((5 : ℚ), 0), (6, 2)] [7, 8] 3 (fun z => z.1 + z.2) 1 2 (by decide) (by decide)
example := C50_rows (fun x : ℚ => x + 1) [[1, 2], [3, 4]] (by simp)
example := C65_samples 3 (fun s j (x : ℚ) => s + j + x) [[1, 2], [3, 4]] (by simp)

end Verif.Props
