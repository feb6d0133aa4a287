import Verif.Props.MultivalidMore

/-! Property C100: which predictions the buckets of the iterative multivalid methods contain. -/
set_option linter.unusedSectionVars false

namespace Verif.Props

open Verif.Multivalid Verif.ArrayOps

variable {K : Type*} [Field K] [LinearOrder K] [IsStrictOrderedRing K]

/-! ### Specification -/

/-- What the documentation says about a type of bucket: `{f(x) = v}`, `{f(x) ≥ v}`, `{f(x) ≤ v}`. -/
def Means (type : String) (x v : K) : Prop :=
  (type = "=" ∧ x = v) ∨ (type = ">=" ∧ v ≤ x) ∨ (type = "<=" ∧ x ≤ v)

/-- Half the width of a bucket. -/
def halfWidth (n : ℕ) : K := 1 / (2 * (n : K))

/-! ### Lemmas -/

theorem half_div (n : ℕ) : (1 : K) / 2 / (n : K) = halfWidth n := by
  unfold halfWidth; rw [div_div]

theorem halfWidth_pos {n : ℕ} (hn : 0 < n) : (0 : K) < halfWidth n := by
  have : (0 : K) < (n : K) := by exact_mod_cast hn
  unfold halfWidth; positivity

theorem linspace_apart (n : ℕ) {x v : K} (hx : x ∈ linspace (0 : K) 1 n) (hv : v ∈ linspace (0 : K) 1 n) :
    x = v ∨ x + 1 / (n : K) ≤ v ∨ v + 1 / (n : K) ≤ x := by
  obtain ⟨i, hi, rfl⟩ := List.mem_iff_getElem.1 hx
  obtain ⟨j, hj, rfl⟩ := List.mem_iff_getElem.1 hv
  have h := List.pairwise_iff_getElem.1 (linspace_unit_gap (K := K) n)
  rcases lt_trichotomy i j with hij | rfl | hij
  · exact Or.inr (Or.inl (h i j hi hj hij))
  · exact Or.inl rfl
  · exact Or.inr (Or.inr (h j i hj hi hij))

theorem mem_linspace_iff (n : ℕ) (v : K) :
    v ∈ linspace (0 : K) 1 n ↔ ∃ i < n, v = (i : K) / ((n - 1 : ℕ) : K) := by
  unfold linspace
  simp only [List.mem_map, List.mem_range, zero_add, sub_zero]
  constructor
  · rintro ⟨i, hi, rfl⟩; exact ⟨i, hi, by ring⟩
  · rintro ⟨i, hi, rfl⟩; exact ⟨i, hi, by ring⟩

/-! ### Theorems -/

/-- **C100.** Off the grid a bucket is widened by half its width: a prediction is in a `>=` or `<=` bucket exactly if a number at
most half a width away satisfies the relation, and in a `=` bucket exactly if the number it names is less than half a width
away. -/
theorem C100_widened (n : ℕ) (hn : 0 < n) (type : String) (tau : ℕ) (ht : tau ∈ bucketTypeIndices [type]) (v x : K) :
    inBucket n tau v x = true ↔
      ∃ y, Means type y v ∧ (if type = "=" then |x - y| < halfWidth n else |x - y| ≤ halfWidth n) := by
  have hp : (0 : K) < halfWidth n := halfWidth_pos hn
  by_cases h0 : type = "="
  · subst h0
    have : tau = 0 := by simpa [bucketTypeIndices] using ht
    subst this
    simp only [inBucket, if_true, decide_eq_true_eq, half_div, Means, true_and]
    constructor
    · intro h; exact ⟨v, Or.inl rfl, h⟩
    · rintro ⟨y, (rfl | ⟨h, _⟩ | ⟨h, _⟩), hy⟩
      · exact hy
      · simp at h
      · simp at h
  by_cases h1 : type = ">="
  · subst h1
    have : tau = 1 := by simpa [bucketTypeIndices] using ht
    subst this
    simp only [inBucket, one_ne_zero, if_false, if_true, decide_eq_true_eq, half_div, Means, h0]
    constructor
    · intro h
      rcases le_total v x with hx | hx
      · exact ⟨x, Or.inr (Or.inl ⟨trivial, hx⟩), by simpa using hp.le⟩
      · refine ⟨v, Or.inr (Or.inl ⟨trivial, le_rfl⟩), ?_⟩
        rw [abs_le]; constructor <;> linarith
    · rintro ⟨y, (⟨h, _⟩ | ⟨_, h⟩ | ⟨h, _⟩), hy⟩
      · simp at h
      · rw [abs_le] at hy; linarith [hy.1]
      · simp at h
  by_cases h2 : type = "<="
  · subst h2
    have : tau = 2 := by simpa [bucketTypeIndices] using ht
    subst this
    simp only [inBucket, OfNat.ofNat_ne_zero, OfNat.ofNat_ne_one, if_false, decide_eq_true_eq, half_div, Means, h0]
    constructor
    · intro h
      rcases le_total x v with hx | hx
      · exact ⟨x, Or.inr (Or.inr ⟨trivial, hx⟩), by simpa using hp.le⟩
      · refine ⟨v, Or.inr (Or.inr ⟨trivial, le_rfl⟩), ?_⟩
        rw [abs_le]; constructor <;> linarith
    · rintro ⟨y, (⟨h, _⟩ | ⟨h, _⟩ | ⟨_, h⟩), hy⟩
      · simp at h
      · simp at h
      · rw [abs_le] at hy; linarith [hy.2]
  · exfalso
    have e : ∀ s : String, ¬ type = s → ¬ s = type := fun s h h' => h h'.symm
    simp [bucketTypeIndices, e _ h0, e _ h1, e _ h2] at ht

/-- **C100.** For predictions on the grid of bucket values the buckets are exactly the documented sets. -/
theorem C100_on_grid (n : ℕ) (type : String) (tau : ℕ) (ht : tau ∈ bucketTypeIndices [type]) (x v : K)
    (hx : x ∈ linspace (0 : K) 1 n) (hv : v ∈ linspace (0 : K) 1 n) : inBucket n tau v x = true ↔ Means type x v := by
  have hn : 0 < n := by
    rcases Nat.eq_zero_or_pos n with rfl | h
    · simp [linspace] at hx
    · exact h
  have hp : (0 : K) < halfWidth n := halfWidth_pos hn
  have hw : (1 : K) / (n : K) = halfWidth n + halfWidth n := by rw [← half_div]; ring
  rw [C100_widened n hn type tau ht]
  have hap := linspace_apart n hx hv
  rw [hw] at hap
  constructor
  · rintro ⟨y, hy, hd⟩
    rcases hy with ⟨rfl, rfl⟩ | ⟨rfl, hy⟩ | ⟨rfl, hy⟩
    · rw [if_pos rfl, abs_lt] at hd
      rcases hap with h | h | h
      · exact Or.inl ⟨rfl, h⟩
      · linarith [hd.1]
      · linarith [hd.2]
    · rw [if_neg (by decide), abs_le] at hd
      rcases hap with h | h | h
      · exact Or.inr (Or.inl ⟨rfl, h.symm.le⟩)
      · linarith [hd.1]
      · exact Or.inr (Or.inl ⟨rfl, by linarith⟩)
    · rw [if_neg (by decide), abs_le] at hd
      rcases hap with h | h | h
      · exact Or.inr (Or.inr ⟨rfl, h.le⟩)
      · exact Or.inr (Or.inr ⟨rfl, by linarith⟩)
      · linarith [hd.2]
  · intro h
    refine ⟨x, h, ?_⟩
    split
    · simpa using hp
    · simpa using hp.le

example : inBucket (K := ℚ) 3 1 (1 / 2) (1 / 2) = true ∧ inBucket (K := ℚ) 3 1 (1 / 2) 0 = false ∧
    inBucket (K := ℚ) 3 1 (1 / 2) (1 / 3) = true := by decide +kernel

/-- **C100.** With the default types of buckets every probability is in a bucket: for each group of a row there is a cell of the
search which contains the row. -/
theorem C100_default_reaches (n : ℕ) (hn : 0 < n) (nGroups : ℕ) (g : ℕ) (hg : g < nGroups) (group : List Bool)
    (hgr : group.getD g false = true) (x : K) (hx : 0 ≤ x) :
    ∃ cell ∈ grid (bucketTypeIndices ["<=", ">="]) nGroups (linspace (0 : K) 1 n) 1,
      getB n cell.tau cell.g cell.v cell.c group [x] = true := by
  refine ⟨⟨1, g, 0, 0⟩, ?_, ?_⟩
  · simp only [grid, List.mem_flatMap, List.mem_map, List.mem_range]
    refine ⟨1, by simp [bucketTypeIndices], g, hg, 0, ?_, 0, Nat.one_pos, rfl⟩
    rw [mem_linspace_iff]
    exact ⟨0, hn, by simp⟩
  · have hp : (0 : K) < halfWidth n := halfWidth_pos hn
    have h1 : inBucket n 1 (0 : K) x = true := by
      simp only [inBucket, one_ne_zero, if_false, if_true, decide_eq_true_eq, half_div]
      linarith
    unfold getB
    rw [List.getD_cons_zero, h1, hgr]
    rfl

/-- **C100.** A prediction is in at most one `=` bucket. -/
theorem C100_equal_unique (n : ℕ) (x u v : K) (hu : u ∈ linspace (0 : K) 1 n) (hv : v ∈ linspace (0 : K) 1 n)
    (h1 : inBucket n 0 u x = true) (h2 : inBucket n 0 v x = true) : u = v := by
  simp only [inBucket, if_true, decide_eq_true_eq, half_div, abs_lt] at h1 h2
  have hw : (1 : K) / (n : K) = halfWidth n + halfWidth n := by rw [← half_div]; ring
  rcases linspace_apart n hu hv with h | h | h
  · exact h
  · rw [hw] at h; linarith [h1.2, h2.1]
  · rw [hw] at h; linarith [h1.1, h2.2]

/-- **C100, that the `=` buckets cover all probabilities, is false for every number of buckets above one**: the middle between
two neighbouring bucket values is in none of them, because the values are `1/(n-1)` apart but the buckets `1/n` wide. -/
theorem C100_gap_false (n : ℕ) (hn : 2 ≤ n) (i : ℕ) (hi : i + 1 < n) :
    ∃ x : K, (i : K) / ((n - 1 : ℕ) : K) < x ∧ x < ((i + 1 : ℕ) : K) / ((n - 1 : ℕ) : K) ∧ 0 ≤ x ∧ x ≤ 1 ∧
      ∀ v ∈ linspace (0 : K) 1 n, inBucket n 0 v x = false := by
  have hm : (0 : K) < ((n - 1 : ℕ) : K) := by
    have : 0 < n - 1 := by omega
    exact_mod_cast this
  have hn0 : (0 : K) < (n : K) := by exact_mod_cast (by omega : 0 < n)
  have hlt : ((n - 1 : ℕ) : K) < (n : K) := by exact_mod_cast (by omega : n - 1 < n)
  refine ⟨((2 * i + 1 : ℕ) : K) / (2 * ((n - 1 : ℕ) : K)), ?_, ?_, by positivity, ?_, ?_⟩
  · rw [div_lt_div_iff₀ hm (by positivity)]; push_cast; nlinarith
  · rw [div_lt_div_iff₀ (by positivity) hm]; push_cast; nlinarith
  · rw [div_le_one (by positivity)]
    have : ((i + 1 : ℕ) : K) ≤ ((n - 1 : ℕ) : K) := by exact_mod_cast (by omega : i + 1 ≤ n - 1)
    push_cast at this ⊢; linarith
  · intro v hv
    obtain ⟨j, _, rfl⟩ := (mem_linspace_iff n v).1 hv
    have hd : (1 : K) / 2 / (n : K) ≤ 1 / (2 * ((n - 1 : ℕ) : K)) := by
      rw [div_div]
      apply one_div_le_one_div_of_le (by positivity)
      linarith
    have key : (1 : K) / (2 * ((n - 1 : ℕ) : K)) ≤
        |((2 * i + 1 : ℕ) : K) / (2 * ((n - 1 : ℕ) : K)) - (j : K) / ((n - 1 : ℕ) : K)| := by
      have e : ((2 * i + 1 : ℕ) : K) / (2 * ((n - 1 : ℕ) : K)) - (j : K) / ((n - 1 : ℕ) : K) =
          (((2 * i + 1 : ℕ) : K) - 2 * (j : K)) / (2 * ((n - 1 : ℕ) : K)) := by
        field_simp
      rw [e, abs_div, abs_of_pos (by positivity : (0 : K) < 2 * ((n - 1 : ℕ) : K))]
      apply div_le_div_of_nonneg_right _ (by positivity)
      rw [le_abs]
      rcases Nat.lt_or_ge i j with h | h
      · right
        have : ((i + 1 : ℕ) : K) ≤ (j : K) := by exact_mod_cast h
        push_cast at this ⊢; linarith
      · left
        have : (j : K) ≤ (i : K) := by exact_mod_cast h
        push_cast; linarith
    simp only [inBucket, if_true, decide_eq_false_iff_not, not_lt]
    exact hd.trans key

/-- **C100.** A prediction in such a gap is left as it is by every sequence of patches of `=` buckets, whatever its groups. -/
theorem C100_gap_untouched (cfg : Config K) (x : K) (ps : List (Patch K))
    (hgap : ∀ v ∈ linspace (0 : K) 1 cfg.nBuckets, inBucket cfg.nBuckets 0 v x = false)
    (hps : ∀ p ∈ ps, p.tau = 0 ∧ p.v ∈ linspace (0 : K) 1 cfg.nBuckets) (groups : List (List Bool)) (values : List (List K))
    (hl : groups.length = values.length) (i : ℕ) (hi : values[i]? = some [x]) :
    (replay cfg groups values ps)[i]? = some [x] := by
  induction ps generalizing values with
  | nil => exact hi
  | cons p ps ih =>
    have hlen : (applyPatch cfg groups values p).length = values.length := by
      simp [applyPatch, patchValues, getBs, hl]
    refine ih (fun q hq => hps q (List.mem_cons_of_mem _ hq)) (applyPatch cfg groups values p) (by rw [hlen, hl]) ?_
    obtain ⟨ht, hv⟩ := hps p List.mem_cons_self
    have hi' : i < values.length := (List.getElem?_eq_some_iff.1 hi).1
    have hgi : groups[i]? = some (groups[i]'(by omega)) := List.getElem?_eq_getElem (by omega)
    have hr := hi
    unfold applyPatch patchValues getBs
    rw [List.getElem?_zipWith, List.getElem?_zipWith, hgi, hi]
    dsimp only [Option.map]
    have hb : getB cfg.nBuckets p.tau p.g p.v p.c (groups[i]'(by omega)) [x] = false := by
      unfold getB
      by_cases hc : argmax [x] = p.c
      · have hc0 : p.c = 0 := by rw [← hc]; rfl
        rw [ht, hc0]
        simp only [List.getD_cons_zero, hgap p.v hv, Bool.false_and]
      · simp [hc]
    rw [hb]; rfl

example : (∀ v ∈ linspace (0 : ℚ) 1 3, inBucket 3 0 v (1 / 4) = false) ∧
    replay ⟨3, 1, .additive⟩ [[true], [true]] [[1 / 4], [0]] [⟨0, 0, 0, 0, (1 / 2 : ℚ)⟩, ⟨0, 0, 1 / 2, 0, (1 / 2 : ℚ)⟩] =
      [[1 / 4], [1]] := by decide +kernel

/-! ### Concrete cases that meet the hypotheses of the theorems above -/

example := C100_widened (K := ℚ) 3 (by norm_num) "<=" 2 (by decide +kernel) (1 / 2) (1 / 3)
example := C100_default_reaches (K := ℚ) 3 (by norm_num) 2 1 (by norm_num) [false, true] rfl (1 / 4) (by norm_num)
example := C100_equal_unique (K := ℚ) 3 (2 / 5) (1 / 2) (1 / 2) (by decide +kernel) (by decide +kernel) (by decide +kernel) (by decide +kernel)
example := C100_gap_false (K := ℚ) 3 (by norm_num) 1 (by norm_num)

end Verif.Props
