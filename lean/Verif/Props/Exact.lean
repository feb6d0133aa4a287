import Verif.Props.Frozen
import Verif.Props.SGMCMC
import Verif.Props.Metrics
import Verif.Props.ConformalClassification
import Verif.Props.PredictiveSets
import Mathlib.Data.List.Sort
import Mathlib.Data.List.TakeWhile

/-!
Exact versions of claims that hold only in part (C05, C30, C36, C43, C65): when they hold, and what the code does otherwise.
-/
set_option linter.unusedSectionVars false
set_option linter.unusedVariables false

/-! ## C30 -/

namespace Verif.Props.Exact
open Verif.Nested Verif.Props

/-- What flax and jax make of a list on its way through a state dictionary. -/
def passed {γ : Type} (l : List γ) : List γ := (sortItems (toStateDict l)).map Prod.snd

theorem sortItems_cons {γ : Type} (a : List ℕ × γ) (l : List (List ℕ × γ)) :
    sortItems (a :: l) = (sortItems l).takeWhile (fun y => !lexLe a.1 y.1) ++
        a :: (sortItems l).dropWhile (fun y => !lexLe a.1 y.1) := rfl

theorem sortItems_map {γ δ : Type} (f : γ → δ) (l : List (List ℕ × γ)) :
    sortItems (l.map fun kv => (kv.1, f kv.2)) = (sortItems l).map fun kv => (kv.1, f kv.2) := by
  induction l with
  | nil => rfl
  | cons a l ih =>
    rw [List.map_cons, sortItems_cons, ih, sortItems_cons, List.map_append, List.map_cons, List.takeWhile_map,
      List.dropWhile_map]
    rfl

theorem sortItems_perm {γ : Type} (l : List (List ℕ × γ)) : (sortItems l).Perm l := by
  induction l with
  | nil => exact List.Perm.refl _
  | cons a l ih =>
    rw [sortItems_cons]
    refine List.perm_middle.trans ?_
    rw [List.takeWhile_append_dropWhile]
    exact ih.cons a

theorem lexLe_total (a b : List ℕ) : lexLe a b = true ∨ lexLe b a = true := by
  induction a generalizing b with
  | nil => left; rfl
  | cons x a ih =>
    cases b with
    | nil => right; rfl
    | cons y b =>
      simp only [lexLe]
      rcases lt_trichotomy x y with h | h | h
      · left; simp [h]
      · subst h; simpa using ih b
      · right; simp [h]

theorem lexLe_trans (a b c : List ℕ) (h1 : lexLe a b = true) (h2 : lexLe b c = true) : lexLe a c = true := by
  induction a generalizing b c with
  | nil => rfl
  | cons x a ih =>
    cases b with
    | nil => simp [lexLe] at h1
    | cons y b =>
      cases c with
      | nil => simp [lexLe] at h2
      | cons z c =>
        simp only [lexLe] at h1 h2 ⊢
        by_cases hxy : x < y
        · by_cases hyz : y < z
          · rw [if_pos (by omega)]
          · rw [if_neg hyz] at h2
            by_cases hzy : z < y
            · simp [hzy] at h2
            · rw [if_pos (by omega)]
        · rw [if_neg hxy] at h1
          by_cases hyx : y < x
          · simp [hyx] at h1
          · rw [if_neg hyx] at h1
            have : x = y := by omega
            subst this
            by_cases hyz : x < z
            · rw [if_pos hyz]
            · rw [if_neg hyz] at h2 ⊢
              by_cases hzy : z < x
              · simp [hzy] at h2
              · rw [if_neg hzy] at h2 ⊢
                exact ih b c h1 h2

theorem takeWhile_of_sorted {γ : Type} (a : List ℕ × γ) (l : List (List ℕ × γ)) (x : List ℕ × γ)
    (h : x ∈ l.takeWhile fun y => !lexLe a.1 y.1) : lexLe x.1 a.1 = true := by
  have := List.mem_takeWhile_imp h
  rcases lexLe_total x.1 a.1 with h' | h'
  · exact h'
  · rw [h'] at this; simp at this

theorem sortItems_pairwise {γ : Type} (l : List (List ℕ × γ)) :
    (sortItems l).Pairwise fun a b => lexLe a.1 b.1 = true := by
  induction l with
  | nil => exact List.Pairwise.nil
  | cons a l ih =>
    rw [sortItems_cons, List.pairwise_append, List.pairwise_cons]
    have hd : ∀ b ∈ (sortItems l).dropWhile (fun y => !lexLe a.1 y.1), lexLe a.1 b.1 = true := by
      intro b hb
      cases hdw : (sortItems l).dropWhile (fun y => !lexLe a.1 y.1) with
      | nil => rw [hdw] at hb; simp at hb
      | cons c m =>
        have hc : lexLe a.1 c.1 = true := by
          have := List.head_dropWhile_not (p := fun y : List ℕ × γ => !lexLe a.1 y.1) (l := sortItems l) (by rw [hdw]; simp)
          simp only [hdw, List.head_cons] at this
          simpa using this
        rw [hdw] at hb
        rcases List.mem_cons.1 hb with rfl | hb'
        · exact hc
        · have hp : (c :: m).Pairwise fun a b => lexLe a.1 b.1 = true := by
            rw [← hdw]; exact ih.sublist (List.dropWhile_sublist _)
          exact lexLe_trans _ _ _ hc ((List.pairwise_cons.1 hp).1 b hb')
    refine ⟨ih.sublist (List.takeWhile_sublist _), ⟨hd, ih.sublist (List.dropWhile_sublist _)⟩, ?_⟩
    intro x hx y hy
    have hxa := takeWhile_of_sorted a _ x hx
    rcases List.mem_cons.1 hy with rfl | hy
    · exact hxa
    · exact lexLe_trans _ _ _ hxa (hd y hy)

theorem toStateDict_map {γ δ : Type} (f : γ → δ) (l : List γ) :
    toStateDict (l.map f) = (toStateDict l).map fun kv => (kv.1, f kv.2) := by
  unfold toStateDict
  rw [List.zipIdx_map, List.map_map, List.map_map]
  rfl

theorem passed_map {γ δ : Type} (f : γ → δ) (l : List γ) : passed (l.map f) = (passed l).map f := by
  unfold passed
  rw [toStateDict_map, sortItems_map, List.map_map, List.map_map]
  rfl

/-- **C30, exactly.** Decoding an encoded selection gives the paths, and the components of each path, in the order in which
the decimal strings of their numbers are sorted. -/
theorem decode_encode (a : List (List (List Char))) : decode (encode a) = (passed a).map passed := by
  have h1 : ∀ l : List (List ℕ × List (List ℕ × List ℕ)), (sortItems l).map (fun kv => (sortItems kv.2).map fun s => s.2.map Char.ofNat) =
      ((sortItems l).map Prod.snd).map fun v => (sortItems v).map fun s => s.2.map Char.ofNat := by
    intro l; rw [List.map_map]; rfl
  unfold decode encode
  rw [h1]
  have h2 : (sortItems (toStateDict (a.map fun path => toStateDict (path.map fun s => s.map Char.toNat)))).map Prod.snd =
      (passed a).map fun path => toStateDict (path.map fun s => s.map Char.toNat) := passed_map _ a
  rw [h2, List.map_map]
  apply List.map_congr_left
  intro p _
  have h3 : (sortItems (toStateDict (p.map fun s => s.map Char.toNat))).map (fun s => s.2.map Char.ofNat) =
      (passed (p.map fun s => s.map Char.toNat)).map fun v => v.map Char.ofNat := by
    unfold passed; rw [List.map_map]; rfl
  simp only [Function.comp]
  rw [h3, passed_map, List.map_map]
  conv_rhs => rw [← List.map_id (passed p)]
  apply List.map_congr_left
  intro s _
  simp only [Function.comp, id, List.map_map]
  conv_rhs => rw [← List.map_id s]
  apply List.map_congr_left
  intro c _
  exact Char.ofNat_toNat c

theorem passed_perm {γ : Type} (l : List γ) : (passed l).Perm l := by
  have := (sortItems_perm (toStateDict l)).map Prod.snd
  rwa [toStateDict_values] at this

theorem passed_short {γ : Type} (l : List γ) (h : l.length ≤ 10) : passed l = l := by
  unfold passed
  rw [toStateDict_sorted l h, toStateDict_values]

theorem toStateDict_getElem {γ : Type} (l : List γ) (i : ℕ) : (toStateDict l)[i]? = (l[i]?).map fun x => (strKey i, x) := by
  unfold toStateDict
  rw [List.getElem?_map, List.getElem?_zipIdx]
  cases l[i]? <;> simp

theorem passed_long {γ : Type} (l : List γ) (hn : l.Nodup) (h : passed l = l) : l.length ≤ 10 := by
  by_contra hlen
  push Not at hlen
  have hs := sortItems_pairwise (toStateDict l)
  have hlenS : (sortItems (toStateDict l)).length = l.length := by
    rw [(sortItems_perm _).length_eq]; simp [toStateDict]
  have key : ∀ i x, l[i]? = some x → (sortItems (toStateDict l))[i]? = some (strKey i, x) := by
    intro i x hx
    have hi : i < l.length := (List.getElem?_eq_some_iff.1 hx).1
    have hget : (sortItems (toStateDict l))[i]? = some ((sortItems (toStateDict l))[i]'(by omega)) :=
      List.getElem?_eq_getElem _
    set kv := (sortItems (toStateDict l))[i]'(by omega) with hkv
    have hsnd : l[i]? = some kv.2 := by
      have h' : (passed l)[i]? = some kv.2 := by unfold passed; rw [List.getElem?_map, hget]; rfl
      rwa [h] at h'
    have hmem : kv ∈ toStateDict l := (sortItems_perm _).subset (List.mem_of_getElem? hget)
    obtain ⟨j, hj⟩ := List.mem_iff_getElem?.1 hmem
    rw [toStateDict_getElem] at hj
    obtain ⟨y, hy, hy'⟩ := Option.map_eq_some_iff.1 hj
    have : y = kv.2 := by rw [← hy']
    rw [this, ← hsnd] at hy
    have hji : j = i := (List.getElem?_inj (List.getElem?_eq_some_iff.1 (hy.trans hsnd)).1 hn).1 hy
    rw [hget, ← hy', hji, this, ← Option.some.inj (hx.symm.trans hsnd)]
  obtain ⟨x, hx⟩ : ∃ x, l[2]? = some x := ⟨l[2]'(by omega), List.getElem?_eq_getElem _⟩
  obtain ⟨y, hy⟩ : ∃ y, l[10]? = some y := ⟨l[10]'(by omega), List.getElem?_eq_getElem _⟩
  have h2 := key 2 x hx
  have h10 := key 10 y hy
  obtain ⟨l2, e2⟩ := List.getElem?_eq_some_iff.1 h2
  obtain ⟨l10, e10⟩ := List.getElem?_eq_some_iff.1 h10
  have := List.pairwise_iff_getElem.1 hs 2 10 l2 l10 (by omega)
  rw [e2, e10] at this
  have h0 : lexLe (strKey 2) (strKey 10) = false := by decide +kernel
  exact absurd (h0.symm.trans this) (by simp)

end Verif.Props.Exact

namespace Verif.Props
open Verif.Nested Verif.Props.Exact

/-- **C30.** Whatever the sizes, nothing is lost or invented: up to the order of the paths and of the components within each path,
decoding gives the selection back. -/
theorem C30_nothing_lost (a : List (List (List Char))) :
    ∃ a', a'.Perm a ∧ List.Forall₂ (fun q p => List.Perm q p) (decode (encode a)) a' := by
  refine ⟨passed a, passed_perm a, ?_⟩
  rw [decode_encode, List.forall₂_map_left_iff]
  exact List.forall₂_same.2 fun p _ => passed_perm p

/-- **C30, when it holds.** For pairwise different paths of at most ten components the round trip holds exactly if there are at
most ten paths; for at most ten paths with pairwise different components it holds exactly if every path has at most ten. -/
theorem C30_round_trip_iff (a : List (List (List Char))) :
    (a.Nodup → (∀ p ∈ a, p.length ≤ 10) → (decode (encode a) = a ↔ a.length ≤ 10)) ∧
    (a.length ≤ 10 → (∀ p ∈ a, p.Nodup) → (decode (encode a) = a ↔ ∀ p ∈ a, p.length ≤ 10)) := by
  constructor
  · intro hn hp
    have : (passed a).map passed = passed a := by
      conv_rhs => rw [← List.map_id (passed a)]
      apply List.map_congr_left
      intro p hmem
      exact passed_short p (hp p ((passed_perm a).subset hmem))
    rw [decode_encode, this]
    exact ⟨passed_long a hn, passed_short a⟩
  · intro ha hn
    rw [decode_encode, passed_short a ha]
    constructor
    · intro h p hp
      have : ∀ l : List (List (List Char)), l.map passed = l → ∀ p ∈ l, passed p = p := by
        intro l hl
        induction l with
        | nil => simp
        | cons q l ih =>
          rw [List.map_cons, List.cons.injEq] at hl
          intro p hp
          rcases List.mem_cons.1 hp with rfl | hp
          · exact hl.1
          · exact ih hl.2 p hp
      exact passed_long p (hn p hp) (this a h p hp)
    · intro h
      conv_rhs => rw [← List.map_id a]
      exact List.map_congr_left fun p hp => passed_short p (h p hp)

example : decode (encode [["params".toList, "dense".toList], ["params".toList, "out".toList]]) =
    [["params".toList, "dense".toList], ["params".toList, "out".toList]] := by decide +kernel


/-! ## C36 -/

section
open Verif.SGMCMC

/-- **C36.** Of the states collected, those and only those are produced by an exploration update whose step is the first in the
sampling part of its cycle. In particular all of them are samples if thinning skips the first position of the sampling part. -/
theorem C36_phase {S : Type} (n L k N : ℕ) (hL : 0 < L) (ratio : ℚ) (hr : 0 < ratio)
    (h : accepts (cyclicalDoSample n L k ratio) n N = true) (s : ℕ → S) :
    ∃ ts : List ℕ, ts.length = n ∧ (collect (cyclicalDoSample n L k ratio) s N).puts = ts.zipIdx.map (fun ti => (ti.2, s ti.1)) ∧
      (∀ t ∈ ts, isSgld L ratio (t - 1) = true ↔ ratio ≤ (((t % L - 1 : ℕ)) : ℚ) / L) ∧
      ((∀ p, 0 < p → p < L → ratio ≤ (p : ℚ) / L → p % k = 0 → ratio ≤ ((p - 1 : ℕ) : ℚ) / L) →
        ∀ t ∈ ts, isSgld L ratio (t - 1) = true) := by
  obtain ⟨ts, h1, h2, h3, h4⟩ := C36_samples n L k N ratio h s
  have hpos : ∀ t ∈ ts, 0 < t % L := by
    intro t ht
    have hge := (h4 t ht).2.2.1
    by_contra h0
    have h0' : t % L = 0 := by omega
    rw [h0'] at hge
    simp at hge
    linarith
  refine ⟨ts, h1, h3, fun t ht => C36_phase_step L hL ratio t (hpos t ht), fun hall t ht => ?_⟩
  rw [C36_phase_step L hL ratio t (hpos t ht)]
  exact hall _ (hpos t ht) (Nat.mod_lt _ hL) (h4 t ht).2.2.1 (h4 t ht).2.2.2

/-- Cycles of 10 steps, ratio 1/2, thinning 2: the sampling part begins at position 5, which thinning skips. -/
example : accepts (cyclicalDoSample 4 10 2 (1 / 2)) 4 20 = true ∧
    (collect (cyclicalDoSample 4 10 2 (1 / 2)) id 20).puts = [(0, 6), (1, 8), (2, 16), (3, 18)] ∧
    ([6, 8, 16, 18].all fun t => isSgld 10 (1 / 2) (t - 1)) = true := by decide +kernel

end

/-! ## C43 -/

section
open Verif.Metrics
variable {K : Type} [Field K] [LinearOrder K] [IsStrictOrderedRing K]

/-- **C43, meaning.** The value is the largest, over the ten bins, of `|Σ_{rows in bin} (correct − prob)|`; hence it is at least the
gap between accuracy and confidence in every bin that has rows, that is at least the maximum calibration error as defined. -/
theorem C43_meaning (rows : List (Point K)) :
    (∃ i < 10, mce rows = |((bin (thresholds rows.length) i rows).map fun r =>
        (if r.pred = r.target then 1 else 0) - r.prob).sum|) ∧
    ∀ i < 10, |((bin (thresholds rows.length) i rows).map fun r => (if r.pred = r.target then 1 else 0) - r.prob).sum| ≤ mce rows ∧
      (bin (thresholds rows.length) i rows ≠ [] →
        |((bin (thresholds rows.length) i rows).map fun r => (if r.pred = r.target then (1 : K) else 0)).sum /
            ((bin (thresholds rows.length) i rows).length : K) -
          ((bin (thresholds rows.length) i rows).map fun r => r.prob).sum / ((bin (thresholds rows.length) i rows).length : K)| ≤ mce rows) := by
  set G : ℕ → K := fun i => |((bin (thresholds rows.length) i rows).map fun r : Point K =>
        (if r.pred = r.target then (1 : K) else 0) - r.prob).sum| with hG
  have hm : mce rows = ((List.range 10).map G).foldl max 0 := by
    unfold mce countsConfsAccs
    simp only [thresholds_length, List.map_map]
    congr 1
    apply List.map_congr_left
    intro i _
    exact count_mul_gap _
  obtain ⟨-, hmax⟩ := foldl_max_ge ((List.range 10).map G) 0
  rw [← hm] at hmax
  have hle : ∀ i < 10, G i ≤ mce rows := fun i hi =>
    hmax _ (List.mem_map.2 ⟨i, List.mem_range.2 hi, rfl⟩)
  refine ⟨?_, fun i hi => ⟨hle i hi, fun hne => ?_⟩⟩
  · rcases foldl_max_mem ((List.range 10).map G) 0 with h | h
    · rw [← hm] at h
      refine ⟨0, by omega, le_antisymm ?_ (hle 0 (by omega))⟩
      rw [h]; exact abs_nonneg _
    · rw [← hm] at h
      obtain ⟨i, hi, he⟩ := List.mem_map.1 h
      exact ⟨i, List.mem_range.1 hi, he.symm⟩
  · refine le_trans ?_ (hle i hi)
    have h1 : (1 : K) ≤ ((bin (thresholds rows.length) i rows).length : K) := by
      have := List.length_pos_iff.2 hne
      exact_mod_cast this
    have hs := sum_map_sub' (bin (thresholds rows.length) i rows) (fun r : Point K => if r.pred = r.target then (1 : K) else 0)
      (fun r => r.prob)
    rw [hG]
    dsimp only
    rw [hs, ← sub_div, abs_div, abs_of_pos (lt_of_lt_of_le zero_lt_one h1 : (0 : K) < ((bin (thresholds rows.length) i rows).length : K))]
    exact div_le_self (abs_nonneg _) h1

end

/-! ## C05 -/

section
open Verif.ConformalClassification
variable {α : Type*} [LinearOrder α]

/-- **C05.** The set at position `f * m + i` is the conformal set of fold `f` for test input `i`, computed with the validation
scores of all folds; the number of sets is the number of test inputs exactly if there is one fold or no input. -/
theorem C05_sets (folds : List (List α × List (List α))) (m : ℕ) (h : ∀ f ∈ folds, f.2.length = m) (e : ℚ) :
    (∀ f fold i row, folds[f]? = some fold → fold.2[i]? = some row →
      ∃ S : List ℕ, (cvPlusConformalSet folds e)[f * m + i]? = some (some S) ∧ S.Pairwise (· < ·) ∧
        ∀ j, j ∈ S ↔ ∃ t, row[j]? = some t ∧
          (((folds.flatMap (·.1)).filter fun v => decide (t < v)).length : ℚ) < (1 - e) * ((folds.flatMap (·.1)).length + 1)) ∧
    ((cvPlusConformalSet folds e).length = m ↔ folds.length = 1 ∨ m = 0) := by
  constructor
  · intro f fold i row hf hi
    have hget : (folds.flatMap (·.2))[f * m + i]? = some row := by
      clear e
      induction folds generalizing f with
      | nil => simp at hf
      | cons a folds ih =>
        have ha := h a (by simp)
        cases f with
        | zero =>
          simp only [List.getElem?_cons_zero, Option.some.injEq] at hf
          subst hf
          have hil : i < a.2.length := (List.getElem?_eq_some_iff.1 hi).1
          rw [List.flatMap_cons, Nat.zero_mul, Nat.zero_add, List.getElem?_append_left hil]
          exact hi
        | succ f =>
          rw [List.flatMap_cons, List.getElem?_append_right (by rw [ha, Nat.succ_mul]; omega), ha]
          have : (f + 1) * m + i - m = f * m + i := by rw [Nat.succ_mul]; omega
          rw [this]
          exact ih (fun x hx => h x (by simp [hx])) f hf
    obtain ⟨S, h1, h2, h3⟩ := (C01_conformal_sets_exact (folds.flatMap (·.1)) (folds.flatMap (·.2)) e).2 _ row hget
    refine ⟨S, h1, h2, fun j => ?_⟩
    rw [h3]
    simp only [numAbove]
  · rw [C05_cvplus_count folds m h]
    constructor
    · intro hm
      rcases Nat.eq_zero_or_pos m with h0 | h0
      · exact Or.inr h0
      · exact Or.inl (Nat.eq_of_mul_eq_mul_right h0 (by omega))
    · rintro (h1 | rfl) <;> simp [*]

end

/-! ## C65 -/

section
open Verif.Predictive Verif.Loader
variable {X R : Type}

theorem concatAxis1_idx {ι Y : Type} (idx : List ι) (h : ι → Y → List R) (l : List Y) (hne : l ≠ []) :
    concatAxis1 (l.map fun b => idx.map fun s => h s b) = idx.map fun s => l.flatMap (h s) := by
  cases l with
  | nil => exact absurd rfl hne
  | cons b l =>
    clear hne
    simp only [List.map_cons, concatAxis1]
    have key : ∀ (l : List Y) (acc : ι → List R),
        (l.map fun b => idx.map fun s => h s b).foldl (fun acc b => List.zipWith (· ++ ·) acc b)
          (idx.map acc) = idx.map fun s => acc s ++ l.flatMap (h s) := by
      intro l
      induction l with
      | nil => intro acc; simp
      | cons b l ih =>
        intro acc
        simp only [List.map_cons, List.foldl_cons]
        rw [List.zipWith_map, List.zipWith_self, ih fun s => acc s ++ h s b]
        simp
    rw [key l fun s => h s b]
    simp

/-- The rows of a batch that device `k` of `d` computes. -/
def share (d k : ℕ) (b : List X) : List X := (b.drop (k * (b.length / d))).take (b.length / d)

theorem shardLoader_ok (d : ℕ) (loader : List (List X)) (h : ∀ b ∈ loader, d ∣ b.length) :
    shardLoader d loader = .ok (loader.map fun b => (List.range d).map fun k => share d k b) := by
  unfold shardLoader
  induction loader with
  | nil => rfl
  | cons b l ih =>
    have hb : shard d b = .ok ((List.range d).map fun k => share d k b) := by
      unfold shard
      rw [if_neg (by simpa using Nat.mod_eq_zero_of_dvd (h b (by simp)))]
      rfl
    rw [List.mapM_cons, hb, ih fun x hx => h x (by simp [hx])]
    rfl

theorem unshard_shares (n d : ℕ) (g : ℕ → ℕ → X → R) (b : List X) :
    unshard (((List.range d).map fun k => share d k b).map fun b => (List.range n).map fun s => b.mapIdx fun j x => g s j x) =
      ((List.range d).flatMap fun k => (List.range n).map fun s => (k, s)).map fun ks =>
        (share d ks.1 b).mapIdx fun j x => g ks.2 j x := by
  unfold unshard
  rw [List.map_map, List.map_flatMap, List.flatMap_def]
  congr 1
  apply List.map_congr_left
  intro k _
  simp [Function.comp_def]

/-- **C65, devices.** On `d` devices, entry `k * n + s` of the result holds what device `k` drew for its sample `s`, for its
share of every batch; all devices use the same random numbers. -/
theorem C65_devices (n d : ℕ) (g : ℕ → ℕ → X → R) (loader : List (List X)) (hne : loader ≠ [])
    (h : ∀ b ∈ loader, d ∣ b.length) :
    sampleTargets n g (some d) loader = .ok ((List.range d).flatMap fun k => (List.range n).map fun s =>
      loader.flatMap fun b => (share d k b).mapIdx fun j x => g s j x) := by
  have hemp : ¬ loader.isEmpty = true := by simpa using hne
  unfold sampleTargets
  simp only [if_neg hemp, shardLoader_ok d loader h, bind, Except.bind, List.map_map, Function.comp_def]
  have := fun b => unshard_shares n d g b
  simp only [List.map_map, Function.comp_def] at this
  simp only [this]
  rw [concatAxis1_idx _ (fun (ks : ℕ × ℕ) b => (share d ks.1 b).mapIdx fun j x => g ks.2 j x) loader hne, List.map_flatMap]
  simp [Function.comp_def]

/-- **C65, auxiliary outputs: failure.** When outputs are asked for, none are returned; batches of different sizes are refused,
and the samples of equal batches are stacked as if they were further samples of the first batch's inputs. With a single
batch the samples are right. -/
theorem C65_aux_false (n : ℕ) (g : ℕ → ℕ → X → R) (b : List X) (l : List (List X)) :
    sampleTargetsAux n g none (b :: l) =
      (if ∀ c ∈ l, c.length = b.length then
        .ok ((b :: l).flatMap (fun c => (List.range n).map fun s => c.mapIdx fun j x => g s j x), [])
      else .error "TypeError") ∧
    sampleTargetsAux n g none [b] = .ok ((List.range n).map fun s => b.mapIdx fun j x => g s j x, []) ∧
    sampleTargetsAux n g none ([] : List (List X)) = .error "ValueError" := by
  refine ⟨?_, ?_, rfl⟩
  · unfold sampleTargetsAux
    dsimp only
    by_cases h : ∀ c ∈ l, c.length = b.length
    · rw [if_pos h, if_neg, List.flatMap_def]
      · rfl
      · simpa using h
    · rw [if_neg h, if_pos]
      push Not at h
      obtain ⟨c, hc, hl⟩ := h
      rw [List.any_eq_true]
      exact ⟨c, by simp [hc], by simpa using hl⟩
  · unfold sampleTargetsAux
    simp

/-- **C65, auxiliary outputs on several devices: failure.** The same holds there, of the samples of the shares of the devices:
batches of different sizes are refused, the samples of equal batches are stacked device after device and batch after batch, and no
outputs are returned. -/
theorem C65_aux_devices_false (n d : ℕ) (g : ℕ → ℕ → X → R) (b : List X) (l : List (List X)) (hd : ∀ c ∈ b :: l, d ∣ c.length) :
    sampleTargetsAux n g (some d) (b :: l) =
      (if ∀ c ∈ l, c.length = b.length then
        .ok ((b :: l).flatMap (fun c => (List.range d).flatMap fun k => (List.range n).map fun s =>
          (share d k c).mapIdx fun j x => g s j x), [])
      else .error "TypeError") := by
  unfold sampleTargetsAux
  dsimp only
  simp only [shardLoader_ok d (b :: l) hd, bind, Except.bind]
  by_cases h : ∀ c ∈ l, c.length = b.length
  · rw [if_pos h, if_neg]
    · simp only [List.map_map, Function.comp_def, List.flatMap_def, unshard]
      rfl
    · simpa using h
  · rw [if_neg h, if_pos]
    push Not at h
    obtain ⟨c, hc, hl⟩ := h
    rw [List.any_eq_true]
    exact ⟨c, by simp [hc], by simpa using hl⟩

example : (sampleTargetsAux 1 (fun s j x => s * 100 + j * 10 + x) (some 2) [[1, 2], [3, 4]]).toOption =
    some ([[1], [2], [3], [4]], []) ∧
    (sampleTargetsAux 1 (fun s j x => s * 100 + j * 10 + x) (some 2) [[1, 2], [3, 4, 5, 6]]).toOption = none := by decide

example : (sampleTargetsAux 1 (fun s j x => s * 100 + j * 10 + x) none [[1, 2], [3, 4]]).toOption =
    some ([[1, 12], [3, 14]], []) := by decide

end

/-! ### Concrete cases that meet the hypotheses of the theorems above -/

example := C05_sets ([([1, 2], [[0, 3]]), ([4, 5], [[1, 2]])] : List (List ℚ × List (List ℚ))) 1 (by simp) (1 / 10)
example := C65_devices 1 2 (fun s j x => s * 100 + j * 10 + x) [[1, 2], [3, 4]] (by simp) (by simp)

end Verif.Props
