import Verif.Props.AdaptivePrediction

/-!
Property C105: coverage of conformal classification, from exchangeable data and a model to label sets; split and CV+.
-/
set_option linter.unusedSectionVars false

namespace Verif.Props.ClassCoverage

open Verif Verif.AdaptivePrediction Verif.ConformalClassification Verif.Props.AdaptivePrediction Finset MeasureTheory

/-! ### The experiment -/

/-- Probabilities of a model for an input, as a row. -/
def row {X : Type*} {c : ℕ} (f : X → Fin c → ℝ) (x : X) : List ℝ := List.ofFn (f x)

/-- A classifier calibrated on the first `n` of the points covers the label of the last one: the call succeeds and returns one set,
and `is_in` says that the label is in it. -/
def SplitCovers {X : Type*} {n c : ℕ} (score : List ℝ → ℕ → Option ℝ) (f : X → Fin c → ℝ) (e : ℚ) (z : Fin (n + 1) → X × Fin c) :
    Prop :=
  ∃ S, splitSet score c (List.ofFn fun i : Fin n => row f (z i.castSucc).1) (List.ofFn fun i : Fin n => ((z i.castSucc).2 : ℕ))
      [row f (z (Fin.last n)).1] e = .ok [some S] ∧ isIn [((z (Fin.last n)).2 : ℕ)] [S] = [true]

variable {X : Type*} [MeasurableSpace X] {n c : ℕ}

theorem exchangeable_comp {Ω Z Y ι : Type*} [MeasurableSpace Ω] [MeasurableSpace Z] [MeasurableSpace Y] {μ : Measure Ω}
    {D : ι → Ω → Z} (hD : ∀ i, Measurable (D i)) (hex : Exchangeable μ D) {g : Z → Y} (hg : Measurable g) :
    Exchangeable μ fun i ω => g (D i ω) := by
  intro σ
  have hG : Measurable fun (z : ι → Z) i => g (z i) := measurable_pi_lambda _ fun i => hg.comp (measurable_pi_apply i)
  have h1 := Measure.map_map (μ := μ) hG (measurable_pi_lambda (fun ω i => D (σ i) ω) fun i => hD (σ i))
  have h2 := Measure.map_map (μ := μ) hG (measurable_pi_lambda (fun ω i => D i ω) fun i => hD i)
  rw [hex σ] at h1
  exact h1.symm.trans h2

/-- The score of a labelled point under the model. -/
def pointScore (σ : List ℝ → ℕ → ℝ) (f : X → Fin c → ℝ) (z : X × Fin c) : ℝ := σ (row f z.1) z.2

theorem count_last (S : Fin (n + 1) → ℝ) :
    (List.ofFn fun i : Fin n => S i.castSucc).countP (fun v => decide (S (Fin.last n) < v)) =
      (univ.filter fun j => S (Fin.last n) < S j).card := by
  rw [Finset.card_filter, Fin.sum_univ_castSucc]
  simp only [lt_self_iff_false, if_false, add_zero]
  rw [← Finset.card_filter, Verif.ListAux.countP_ofFn]
  simp

theorem splitCovers_iff {score : List ℝ → ℕ → Option ℝ} {σ : List ℝ → ℕ → ℝ} (hσ : Scores score c σ) (f : X → Fin c → ℝ) (e : ℚ)
    (z : Fin (n + 1) → X × Fin c) :
    SplitCovers score f e z ↔
      (((univ.filter fun i : Fin (n + 1) => pointScore σ f (z (Fin.last n)) < pointScore σ f (z i)).card : ℕ) : ℚ) <
        (1 - e) * (n + 1) := by
  have hv : Proper c (List.ofFn fun i : Fin n => row f (z i.castSucc).1) (List.ofFn fun i : Fin n => ((z i.castSucc).2 : ℕ)) := by
    refine ⟨?_, ?_, by simp⟩
    · intro p hp
      obtain ⟨i, rfl⟩ := (List.mem_ofFn' _ _).1 hp
      simp [row]
    · intro y hy
      obtain ⟨i, rfl⟩ := (List.mem_ofFn' _ _).1 hy
      exact Fin.isLt _
  obtain ⟨sets, h1, h2, h3⟩ := (C104_split hσ _ _ [row f (z (Fin.last n)).1] e).2 hv (by simp [row])
  obtain ⟨S, h4, -, h5⟩ := h3 0 _ rfl
  have hsets : sets = [some S] := by
    obtain ⟨s, rfl⟩ := List.length_eq_one_iff.1 h2
    simpa using h4
  subst hsets
  have hcov : SplitCovers score f e z ↔ ((z (Fin.last n)).2 : ℕ) ∈ S := by
    unfold SplitCovers
    rw [h1]
    simp [isIn]
  rw [hcov, h5]
  have hzip : (List.ofFn fun i : Fin n => row f (z i.castSucc).1).zip (List.ofFn fun i : Fin n => ((z i.castSucc).2 : ℕ)) =
      List.ofFn fun i : Fin n => (row f (z i.castSucc).1, ((z i.castSucc).2 : ℕ)) := by
    apply List.ext_getElem
    · simp
    · intro i h1 h2; simp
  have hcard : ((List.ofFn fun i : Fin n => (row f (z i.castSucc).1, ((z i.castSucc).2 : ℕ))).filter fun d =>
      decide (σ (row f (z (Fin.last n)).1) ((z (Fin.last n)).2 : ℕ) < σ d.1 d.2)).length =
      (univ.filter fun i : Fin (n + 1) => pointScore σ f (z (Fin.last n)) < pointScore σ f (z i)).card := by
    rw [← count_last fun i => pointScore σ f (z i), ← List.countP_eq_length_filter]
    have : (List.ofFn fun i : Fin n => pointScore σ f (z i.castSucc)) =
        (List.ofFn fun i : Fin n => (row f (z i.castSucc).1, ((z i.castSucc).2 : ℕ))).map fun d => σ d.1 d.2 := by
      rw [List.map_ofFn]; rfl
    rw [this, List.countP_map]
    rfl
  rw [hzip, hcard, List.length_ofFn]
  exact ⟨fun h => h.2, fun h => ⟨Fin.isLt _, h⟩⟩

theorem measurable_pointScore {score : List ℝ → ℕ → Option ℝ} (hs : score = adaptiveScore ∨ score = AdaptivePrediction.simpleScore)
    {f : X → Fin c → ℝ} (hf : Measurable f) :
    ∃ σ : List ℝ → ℕ → ℝ, Scores score c σ ∧ Measurable (pointScore σ f) := by
  have hrow : ∀ (x : X) (y : Fin c), (row f x).getD y 0 = f x y := by
    intro x y
    simp [row, List.getD_eq_getElem?_getD]
  have hfy : ∀ y : Fin c, Measurable fun x => f x y := fun y => (measurable_pi_apply y).comp hf
  rcases hs with rfl | rfl
  · refine ⟨AdaptivePrediction.mass, (C104_scores c).1, measurable_from_prod_countable_left fun y => ?_⟩
    have : (fun x => pointScore AdaptivePrediction.mass f (x, y)) = fun x => ∑ z : Fin c, if f x y < f x z ∨ (f x z = f x y ∧ y ≤ z) then f x z else 0 := by
      funext x
      unfold pointScore AdaptivePrediction.mass ahead
      have hl : (row f x).length = c := by simp [row]
      simp only [hl]
      rw [sum_filter, Finset.sum_range]
      apply sum_congr rfl
      intro z _
      simp only [hrow, Fin.val_fin_le]
    rw [this]
    refine Finset.measurable_sum _ fun z _ => Measurable.ite ?_ (hfy z) measurable_const
    refine (measurableSet_lt (hfy y) (hfy z)).union (MeasurableSet.inter (measurableSet_eq_fun (hfy z) (hfy y)) ?_)
    exact MeasurableSet.const _
  · refine ⟨_, (C104_scores c).2, measurable_from_prod_countable_left fun y => ?_⟩
    simp only [pointScore, hrow]
    exact measurable_const.sub (hfy y)

theorem measurable_above (S : Fin (n + 1) → X → ℝ) (hS : ∀ i, Measurable (S i)) :
    Measurable fun x => (((univ.filter fun j => S (Fin.last n) x < S j x).card : ℕ) : ℚ) := by
  simp only [Finset.card_filter, Nat.cast_sum, Nat.cast_ite, Nat.cast_one, Nat.cast_zero]
  apply Finset.measurable_sum
  intro j _
  exact Measurable.ite (measurableSet_lt (hS _) (hS _)) measurable_const measurable_const

/-- **C105, split conformal classification covers.** For any model and any exchangeable data of `n` calibration points and a test point,
the set of the test input contains its label with probability at least `1 - e`; for both score functions. -/
theorem C105_split_covers {Ω : Type*} [MeasurableSpace Ω] (μ : Measure Ω) [IsProbabilityMeasure μ]
    (score : List ℝ → ℕ → Option ℝ) (hs : score = adaptiveScore ∨ score = AdaptivePrediction.simpleScore)
    (f : X → Fin c → ℝ) (hf : Measurable f) (D : Fin (n + 1) → Ω → X × Fin c) (hD : ∀ i, Measurable (D i))
    (hex : Exchangeable μ D) (e : ℚ) (he0 : 0 ≤ e) :
    ENNReal.ofReal (1 - e) ≤ μ {ω | SplitCovers score f e fun i => D i ω} := by
  obtain ⟨σ, hσ, hm⟩ := measurable_pointScore (c := c) hs hf
  have := C03_exchangeable_coverage μ (fun i ω => pointScore σ f (D i ω)) (fun i => hm.comp (hD i))
    (exchangeable_comp hD hex hm) e he0 (fun ω => [pointScore σ f (D (Fin.last n) ω)]) (fun _ => 0) (fun _ => rfl)
  refine this.trans (le_of_eq ?_)
  congr 1
  ext ω
  simp only [Set.mem_ofPred_eq]
  rw [splitCovers_iff hσ, covered_iff _ _ _ _ _ rfl, numAbove_eq, List.length_ofFn]
  simp only [gt_iff_lt]
  rw [count_last fun i => pointScore σ f (D i ω)]

theorem few_above_distinct {m : ℕ} (x : Fin m → ℝ) (hx : Function.Injective x) (T : ℚ) :
    m ≤ (univ.filter fun i => T ≤ (((univ.filter fun j => x i < x j).card : ℕ) : ℚ)).card + ⌈T⌉₊ := by
  set above : Fin m → ℕ := fun i => (univ.filter fun j => x i < x j).card with habove
  have h1 : (univ.filter fun i => ((above i : ℕ) : ℚ) < T).card ≤ ⌈T⌉₊ := by
    rw [← card_range ⌈T⌉₊]
    apply card_le_card_of_injOn above
    · intro i hi
      simp only [coe_filter, mem_univ, true_and, Set.mem_ofPred_eq] at hi
      simpa using Nat.lt_ceil.2 hi
    · intro i _ j _ hij
      by_contra hne
      have key : ∀ i j, x i < x j → above j < above i := by
        intro i j hlt
        apply card_lt_card
        rw [ssubset_iff_of_subset]
        · exact ⟨j, by simpa using hlt, by simp⟩
        · intro k hk
          simp only [mem_filter, mem_univ, true_and] at hk ⊢
          exact hlt.trans hk
      rcases lt_or_gt_of_ne (hx.ne hne) with h | h
      · exact absurd hij (key i j h).ne'
      · exact absurd hij (key j i h).ne
  have h2 := card_filter_add_card_filter_not (s := (univ : Finset (Fin m))) (p := fun i => ((above i : ℕ) : ℚ) < T)
  simp only [not_lt, card_univ, Fintype.card_fin] at h2
  have h3 : m ≤ (univ.filter fun i => T ≤ ((above i : ℕ) : ℚ)).card + ⌈T⌉₊ := by omega
  exact h3

theorem above_swap (x : Fin (n + 1) → ℝ) (i : Fin (n + 1)) :
    (univ.filter fun j => (x ∘ Equiv.swap i (Fin.last n)) (Fin.last n) < (x ∘ Equiv.swap i (Fin.last n)) j).card =
      (univ.filter fun j => x i < x j).card := by
  simp only [Function.comp_apply, Equiv.swap_apply_right]
  apply card_bij (fun k _ => Equiv.swap i (Fin.last n) k)
  · intro k hk; simpa using hk
  · intro a _ b _ h; exact (Equiv.injective _) h
  · intro b hb
    exact ⟨Equiv.swap i (Fin.last n) b, by simpa using hb, by simp⟩

/-- The last of exchangeable scores, almost surely different, is among the `T` largest with probability at most `⌈T⌉ / (n + 1)`. -/
theorem exchangeable_at_most {Ω : Type*} [MeasurableSpace Ω] (μ : Measure Ω) [IsProbabilityMeasure μ] (S : Fin (n + 1) → Ω → ℝ)
    (hS : ∀ i, Measurable (S i)) (hex : Exchangeable μ S) (hties : ∀ i j, i ≠ j → μ {ω | S i ω = S j ω} = 0) (T : ℚ) :
    μ {ω | (((univ.filter fun j => S (Fin.last n) ω < S j ω).card : ℕ) : ℚ) < T} ≤ ENNReal.ofReal (⌈T⌉₊ / (n + 1)) := by
  classical
  let inj : Set (Fin (n + 1) → ℝ) := {x | Function.Injective x}
  have hinj : MeasurableSet inj := by
    have : inj = ⋂ i, ⋂ j, ⋂ _ : i ≠ j, {x : Fin (n + 1) → ℝ | x i = x j}ᶜ := by
      ext x
      simp only [inj, Set.mem_iInter, Set.mem_compl_iff, Set.mem_ofPred_eq]
      exact ⟨fun h i j hne => h.ne hne, fun h i j hij => by_contra fun hne => h i j hne hij⟩
    rw [this]
    exact MeasurableSet.iInter fun i => MeasurableSet.iInter fun j => MeasurableSet.iInter fun _ =>
      (measurableSet_eq_fun (measurable_pi_apply i) (measurable_pi_apply j)).compl
  let low : Set (Fin (n + 1) → ℝ) := {x | (((univ.filter fun j => x (Fin.last n) < x j).card : ℕ) : ℚ) < T}
  have hlow : MeasurableSet low :=
    measurable_above (fun i (x : Fin (n + 1) → ℝ) => x i) (fun i => measurable_pi_apply i) measurableSet_Iio
  have hmain := Exchangeable.coverage μ S hS hex (lowᶜ ∪ injᶜ) (hlow.compl.union hinj.compl) ((n + 1 : ℝ) - ⌈T⌉₊) (by
    intro x
    by_cases hx : x ∈ inj
    · refine ⟨univ.filter fun i => T ≤ (((univ.filter fun j => x i < x j).card : ℕ) : ℚ), ?_, ?_⟩
      · have h4 : ((n + 1 : ℕ) : ℝ) ≤ ((univ.filter fun i => T ≤ (((univ.filter fun j => x i < x j).card : ℕ) : ℚ)).card : ℝ) +
            ⌈T⌉₊ := by exact_mod_cast few_above_distinct x hx T
        push_cast at h4
        linarith
      · intro i hi
        simp only [mem_filter, mem_univ, true_and] at hi
        refine Or.inl ?_
        simp only [low, Set.mem_compl_iff, Set.mem_ofPred_eq, not_lt]
        rw [above_swap]
        exact hi
    · refine ⟨univ, ?_, fun i _ => Or.inr fun hc => hx ?_⟩
      · rw [card_univ, Fintype.card_fin]; push_cast; linarith [Nat.cast_nonneg (α := ℝ) ⌈T⌉₊]
      · have hc : Function.Injective (x ∘ Equiv.swap i (Fin.last n)) := hc
        exact ((Equiv.swap i (Fin.last n)).injective_comp x).1 hc)
  have hjoint : Measurable fun ω i => S i ω := measurable_pi_lambda _ hS
  have hnull : μ {ω | (fun i => S i ω) ∈ injᶜ} = 0 := by
    have : {ω | (fun i => S i ω) ∈ injᶜ} ⊆ ⋃ i, ⋃ j, ⋃ _ : i ≠ j, {ω | S i ω = S j ω} := by
      intro ω hω
      simp only [inj, Set.mem_ofPred_eq, Set.mem_compl_iff, Function.Injective, not_forall] at hω
      obtain ⟨i, j, h, hne⟩ := hω
      simp only [Set.mem_iUnion]
      exact ⟨i, j, hne, h⟩
    refine measure_mono_null this ?_
    simp only [measure_iUnion_null_iff]
    exact hties
  have hle : μ {ω | (fun i => S i ω) ∈ lowᶜ ∪ injᶜ} ≤ μ ((fun ω i => S i ω) ⁻¹' low)ᶜ := by
    have : {ω | (fun i => S i ω) ∈ lowᶜ ∪ injᶜ} ⊆ ((fun ω i => S i ω) ⁻¹' low)ᶜ ∪ {ω | (fun i => S i ω) ∈ injᶜ} := by
      intro ω hω; exact hω
    refine (measure_mono this).trans ((measure_union_le _ _).trans ?_)
    rw [hnull, add_zero]
  rw [measure_compl (hjoint hlow) (measure_ne_top _ _), measure_univ] at hle
  have h5 := hmain.trans hle
  change μ ((fun ω i => S i ω) ⁻¹' low) ≤ _
  set P := μ ((fun ω i => S i ω) ⁻¹' low) with hP
  have hP1 : P ≤ 1 := prob_le_one
  have hPr : P = ENNReal.ofReal P.toReal := (ENNReal.ofReal_toReal (measure_ne_top _ _)).symm
  rw [hPr, ← ENNReal.ofReal_one, ← ENNReal.ofReal_sub _ ENNReal.toReal_nonneg] at h5
  rw [hPr]
  apply ENNReal.ofReal_le_ofReal
  have hP1' : P.toReal ≤ 1 := by
    have := ENNReal.toReal_mono (by simp) hP1
    simpa using this
  have h6 := (ENNReal.ofReal_le_ofReal_iff (by linarith)).1 h5
  have hn : (0 : ℝ) < (n : ℝ) + 1 := by positivity
  have h7 : ((n : ℝ) + 1 - ⌈T⌉₊) / (n + 1) = 1 - ⌈T⌉₊ / (n + 1) := by field_simp
  rw [h7] at h6
  linarith

/-- **C105, split conformal classification does not cover much more.** If no two scores are equal (almost surely), the probability is at
most `⌈(1 - e) (n + 1)⌉ / (n + 1)`. -/
theorem C105_split_covers_at_most {Ω : Type*} [MeasurableSpace Ω] (μ : Measure Ω) [IsProbabilityMeasure μ]
    (score : List ℝ → ℕ → Option ℝ) (hs : score = adaptiveScore ∨ score = AdaptivePrediction.simpleScore)
    (f : X → Fin c → ℝ) (hf : Measurable f) (D : Fin (n + 1) → Ω → X × Fin c) (hD : ∀ i, Measurable (D i))
    (hex : Exchangeable μ D) (e : ℚ)
    (hties : ∀ i j, i ≠ j → μ {ω | score (row f (D i ω).1) (D i ω).2 = score (row f (D j ω).1) (D j ω).2} = 0) :
    μ {ω | SplitCovers score f e fun i => D i ω} ≤ ENNReal.ofReal (⌈(1 - e) * (n + 1)⌉₊ / (n + 1)) := by
  obtain ⟨σ, hσ, hm⟩ := measurable_pointScore (c := c) hs hf
  have hscore : ∀ z : X × Fin c, score (row f z.1) z.2 = some (pointScore σ f z) := fun z =>
    hσ (row f z.1) (by simp [row]) z.2 z.2.isLt
  have := exchangeable_at_most μ (fun i ω => pointScore σ f (D i ω)) (fun i => hm.comp (hD i)) (exchangeable_comp hD hex hm)
    (by simpa only [hscore, Option.some.injEq] using hties) ((1 - e) * (n + 1))
  refine le_trans (le_of_eq ?_) this
  congr 1
  ext ω
  simp only [Set.mem_ofPred_eq]
  rw [splitCovers_iff hσ]

/-- A model with two kinds of inputs. -/
noncomputable def twoKinds : Bool → Fin 2 → ℝ := fun b => if b then ![1 / 3, 2 / 3] else ![3 / 4, 1 / 4]

-- the hypotheses hold for independent data of any law
example (ν : Measure (Bool × Fin 2)) [IsProbabilityMeasure ν] (n : ℕ) :
    ENNReal.ofReal (1 - ((1 / 10 : ℚ) : ℝ)) ≤ (Measure.pi fun _ : Fin (n + 1) => ν)
      {ω | SplitCovers adaptiveScore twoKinds (1 / 10) fun i => ω i} :=
  C105_split_covers (n := n) (X := Bool) (c := 2) (Measure.pi fun _ : Fin (n + 1) => ν) adaptiveScore (Or.inl rfl) twoKinds
    (measurable_of_countable _) (fun i ω => ω i) (fun i => measurable_pi_apply i) (exchangeable_iid ν (n + 1)) (1 / 10)
    (by norm_num)

/-- A model which gives label 0 a different probability for every input. -/
noncomputable def distinct : ℕ → Fin 2 → ℝ := fun x => ![1 / (x + 1), 1 - 1 / (x + 1)]

-- distinct points in a random order have distinct scores
example (n : ℕ) : JackknifeCoverage.shuffle n
      {σ | SplitCovers AdaptivePrediction.simpleScore distinct (1 / 10) fun i : Fin (n + 1) => (((σ i : Fin (n + 1)) : ℕ), (0 : Fin 2))} ≤
    ENNReal.ofReal (⌈(1 - 1 / 10 : ℚ) * (n + 1)⌉₊ / (n + 1)) := by
  let _ : MeasurableSpace (Equiv.Perm (Fin (n + 1))) := ⊤
  have := JackknifeCoverage.shuffle_probability n
  refine C105_split_covers_at_most (n := n) (X := ℕ) (c := 2) (JackknifeCoverage.shuffle n) _ (Or.inr rfl) distinct
    (measurable_of_countable _) (fun i σ => (((σ i : Fin (n + 1)) : ℕ), (0 : Fin 2))) (fun _ => measurable_from_top)
    (JackknifeCoverage.shuffle_exchangeable (Z := ℕ × Fin 2) fun i : Fin (n + 1) => ((i : ℕ), 0)) (1 / 10) (fun i j hij => ?_)
  rw [show {σ : Equiv.Perm (Fin (n + 1)) | _} = ∅ from ?_, measure_empty]
  rw [Set.eq_empty_iff_forall_notMem]
  intro σ hσ
  simp only [AdaptivePrediction.simpleScore, row, distinct, Set.mem_ofPred_eq] at hσ
  simp at hσ
  exact hij (by first | exact hσ | exact σ.injective (Fin.ext hσ) | exact σ.injective hσ)

/-! ### CV+ -/

/-- A learning algorithm: from labelled training data, in any order, and an input, a row of probabilities. -/
abbrev Learner := Multiset (ℕ × ℕ) → ℕ → List ℝ

/-- The training data without point `k`; the last point is the test point. -/
def train (D : Fin (n + 1) → ℕ × ℕ) (k : Fin n) : Multiset (ℕ × ℕ) := (univ.filter fun l => l ≠ k).val.map fun l => D l.castSucc

/-- The sets of CV+ with `n` folds of one point, for the last point as test point. -/
noncomputable def looSets (score : List ℝ → ℕ → Option ℝ) (A : Learner) (D : Fin (n + 1) → ℕ × ℕ) (e : ℚ) :
    Except String (List (Option (List ℕ))) :=
  cvPlusSet score 2 ((List.finRange n).map fun k =>
    ⟨[A (train D k) (D k.castSucc).1], [(D k.castSucc).2], [A (train D k) (D (Fin.last n)).1]⟩) e

/-- The set of fold `k` contains the label of the test point. -/
def FoldCovers (score : List ℝ → ℕ → Option ℝ) (A : Learner) (D : Fin (n + 1) → ℕ × ℕ) (e : ℚ) (k : Fin n) : Prop :=
  ∃ sets S, looSets score A D e = .ok sets ∧ sets[(k : ℕ)]? = some (some S) ∧ isIn [(D (Fin.last n)).2] [S] = [true]

theorem foldCovers_iff {score : List ℝ → ℕ → Option ℝ} {σ : List ℝ → ℕ → ℝ} (hσ : Scores score 2 σ) (A : Learner)
    (hA : ∀ M x, (A M x).length = 2) (D : Fin (n + 1) → ℕ × ℕ) (hD : ∀ i, (D i).2 < 2) (e : ℚ) (k : Fin n) :
    FoldCovers score A D e k ↔ (((univ.filter fun l : Fin n => σ (A (train D k) (D (Fin.last n)).1) (D (Fin.last n)).2 <
        σ (A (train D l) (D l.castSucc).1) (D l.castSucc).2).card : ℕ) : ℚ) < (1 - e) * (n + 1) := by
  set F : Fin n → Fold ℝ := fun k =>
    ⟨[A (train D k) (D k.castSucc).1], [(D k.castSucc).2], [A (train D k) (D (Fin.last n)).1]⟩ with hF
  have hne : (List.finRange n).map F ≠ [] := by
    rw [ne_eq, List.map_eq_nil_iff, List.finRange_eq_nil_iff]
    exact fun h => absurd k.isLt (by omega)
  obtain ⟨sets, h1, h2, h3⟩ := (C104_cv_plus hσ ((List.finRange n).map F) 1 e).2 hne (by
    intro f hf
    obtain ⟨l, -, rfl⟩ := List.mem_map.1 hf
    refine ⟨⟨?_, ?_, rfl⟩, ?_, rfl⟩
    · simpa [hF] using hA _ _
    · simpa [hF] using hD _
    · simpa [hF] using hA _ _)
  obtain ⟨S, h4, -, h5⟩ := h3 k (F k) 0 _ (by simp) rfl
  rw [Nat.mul_one, Nat.add_zero] at h4
  have hcov : FoldCovers score A D e k ↔ (D (Fin.last n)).2 ∈ S := by
    unfold FoldCovers looSets
    rw [h1]
    constructor
    · rintro ⟨sets', S', h, h', h''⟩
      rw [Except.ok.injEq] at h
      subst h
      rw [h4, Option.some.injEq, Option.some.injEq] at h'
      subst h'
      simpa [isIn] using h''
    · intro h
      exact ⟨sets, S, rfl, h4, by simpa [isIn] using h⟩
  rw [hcov, h5]
  have hsum : ((List.finRange n).map F).map (fun g => g.valProbs.length) = List.replicate n 1 := by
    rw [List.map_map, List.eq_replicate_iff]
    simp [hF]
  have hflat : (((List.finRange n).map F).flatMap fun g => g.valProbs.zip g.valTargets) =
      (List.finRange n).map fun l => (A (train D l) (D l.castSucc).1, (D l.castSucc).2) := by
    rw [List.flatMap_map, List.map_eq_flatMap]
    rfl
  have hcard : ∀ v : ℝ, (((List.finRange n).map fun l => (A (train D l) (D l.castSucc).1, (D l.castSucc).2)).filter fun d =>
      decide (v < σ d.1 d.2)).length =
      (univ.filter fun l : Fin n => v < σ (A (train D l) (D l.castSucc).1) (D l.castSucc).2).card := by
    intro v
    rw [← List.countP_eq_length_filter, List.countP_map, JackknifeCoverage.countP_nodup (List.nodup_finRange n)]
    simp
  rw [hsum, hflat, hcard]
  simp only [List.sum_replicate, smul_eq_mul, mul_one]
  exact ⟨fun h => h.2, fun h => ⟨hD _, h⟩⟩

/-- With an error below `1 / (n + 1)` the sets contain all labels. -/
theorem C105_cv_plus_trivial {score : List ℝ → ℕ → Option ℝ} (hs : score = adaptiveScore ∨ score = AdaptivePrediction.simpleScore)
    (A : Learner) (hA : ∀ M x, (A M x).length = 2) (D : Fin (n + 1) → ℕ × ℕ) (hD : ∀ i, (D i).2 < 2) (e : ℚ)
    (he : e * (n + 1) < 1) (k : Fin n) : FoldCovers score A D e k := by
  have main : ∀ σ, Scores score 2 σ → FoldCovers score A D e k := by
    intro σ hσ
    rw [foldCovers_iff hσ A hA D hD]
    have h1 : (univ.filter fun l : Fin n => σ (A (train D k) (D (Fin.last n)).1) (D (Fin.last n)).2 <
        σ (A (train D l) (D l.castSucc).1) (D l.castSucc).2).card ≤ n := by
      refine (card_le_univ _).trans ?_
      rw [Fintype.card_fin]
    have h2 : (((univ.filter fun l : Fin n => σ (A (train D k) (D (Fin.last n)).1) (D (Fin.last n)).2 <
        σ (A (train D l) (D l.castSucc).1) (D l.castSucc).2).card : ℕ) : ℚ) ≤ n := by exact_mod_cast h1
    linarith
  rcases hs with rfl | rfl
  · exact main _ (C104_scores 2).1
  · exact main _ (C104_scores 2).2

example : (1 / 10 : ℚ) * ((4 : ℕ) + 1) < 1 ∧ ∀ i, (![(1, 0), (2, 1), (3, 0), (4, 1), (5, 1)] i : ℕ × ℕ).2 < 2 := by
  constructor
  · norm_num
  · decide

/-- An algorithm whose prediction for an input depends on which of the inputs `0 … n` is neither that input nor in the training data. -/
def gap (G : ℕ → List ℝ) (n : ℕ) : Learner := fun M x => G ((∑ i ∈ range (n + 1), i) - ((M.map Prod.fst).sum + x))

/-- Points with inputs `0 … n`, all with label 0. -/
def inputs (n : ℕ) : Fin (n + 1) → ℕ × ℕ := fun i => (i, 0)

theorem gap_eq (G : ℕ → List ℝ) (τ : Equiv.Perm (Fin (n + 1))) (k : Fin n) (j i : Fin (n + 1))
    (h : (j = k.castSucc ∧ i = Fin.last n) ∨ (j = Fin.last n ∧ i = k.castSucc)) :
    gap G n (train (inputs n ∘ τ) k) ((inputs n ∘ τ) j).1 = G (τ i) := by
  have htot : ∑ i ∈ range (n + 1), i = ∑ l : Fin (n + 1), (τ l : ℕ) := by
    rw [Finset.sum_range, ← Equiv.sum_comp τ]
  have htrain : ((train (inputs n ∘ τ) k).map Prod.fst).sum = ∑ l ∈ univ.filter (fun l : Fin n => l ≠ k), (τ l.castSucc : ℕ) := by
    unfold train
    rw [Multiset.map_map]
    rfl
  have hsplit : ∑ l : Fin (n + 1), (τ l : ℕ) =
      ∑ l ∈ univ.filter (fun l : Fin n => l ≠ k), (τ l.castSucc : ℕ) + (τ k.castSucc : ℕ) + (τ (Fin.last n) : ℕ) := by
    rw [Fin.sum_univ_castSucc]
    congr 1
    rw [filter_ne', ← Finset.sum_erase_add univ _ (mem_univ k)]
  unfold gap
  rw [htot, htrain, hsplit]
  congr 1
  have hj : ((inputs n ∘ τ) j).1 = (τ j : ℕ) := rfl
  rw [hj]
  rcases h with ⟨rfl, rfl⟩ | ⟨rfl, rfl⟩ <;> omega

theorem gap_covers {score : List ℝ → ℕ → Option ℝ} {σ : List ℝ → ℕ → ℝ} (hσ : Scores score 2 σ) (G : ℕ → List ℝ)
    (hG : ∀ m, (G m).length = 2) (hmono : ∀ a b, a ≤ n → b ≤ n → a < b → σ (G a) 0 < σ (G b) 0) (e : ℚ) (he : 1 ≤ e * (n + 1)) (k : Fin n)
    (τ : Equiv.Perm (Fin (n + 1))) (h : FoldCovers score (gap G n) (inputs n ∘ τ) e k) : τ (Fin.last n) < τ k.castSucc := by
  rw [foldCovers_iff hσ (gap G n) (fun _ _ => hG _) _ (fun i => by simp [inputs])] at h
  by_contra hlt
  have hne : τ k.castSucc ≠ τ (Fin.last n) := fun hc => (Fin.castSucc_lt_last k).ne (τ.injective hc)
  have hlt' : (τ k.castSucc : ℕ) < (τ (Fin.last n) : ℕ) := by
    have := lt_of_le_of_ne (not_lt.1 hlt) hne
    exact this
  have hall : (univ.filter fun l : Fin n =>
      σ (gap G n (train (inputs n ∘ τ) k) ((inputs n ∘ τ) (Fin.last n)).1) ((inputs n ∘ τ) (Fin.last n)).2 <
        σ (gap G n (train (inputs n ∘ τ) l) ((inputs n ∘ τ) l.castSucc).1) ((inputs n ∘ τ) l.castSucc).2) = univ := by
    rw [filter_eq_self]
    intro l _
    rw [gap_eq G τ k (Fin.last n) k.castSucc (Or.inr ⟨rfl, rfl⟩), gap_eq G τ l l.castSucc (Fin.last n) (Or.inl ⟨rfl, rfl⟩)]
    exact hmono _ _ (by have := (τ k.castSucc).isLt; omega) (by have := (τ (Fin.last n)).isLt; omega) hlt'
  rw [hall, card_univ, Fintype.card_fin] at h
  linarith

theorem half_of_swap (k : Fin n) : JackknifeCoverage.shuffle n {τ | τ (Fin.last n) < τ k.castSucc} ≤ 1 / 2 := by
  let _ : MeasurableSpace (Equiv.Perm (Fin (n + 1))) := ⊤
  have := JackknifeCoverage.shuffle_probability n
  set μ := JackknifeCoverage.shuffle n with hμ
  set E : Set (Equiv.Perm (Fin (n + 1))) := {τ | τ (Fin.last n) < τ k.castSucc} with hE
  have hswap : μ ((fun τ => τ * Equiv.swap k.castSucc (Fin.last n)) ⁻¹' E) = μ E := by
    rw [hμ]
    unfold JackknifeCoverage.shuffle
    rw [Measure.smul_apply, Measure.smul_apply, Measure.count_apply MeasurableSpace.measurableSet_top,
      Measure.count_apply MeasurableSpace.measurableSet_top, Set.encard_preimage_of_bijective (Group.mulRight_bijective _)]
  have hdisj : Disjoint E ((fun τ => τ * Equiv.swap k.castSucc (Fin.last n)) ⁻¹' E) := by
    rw [Set.disjoint_left]
    intro τ h1 h2
    simp only [hE, Set.mem_preimage, Set.mem_ofPred_eq, Equiv.Perm.coe_mul, Function.comp_apply, Equiv.swap_apply_left,
      Equiv.swap_apply_right] at h1 h2
    exact absurd h1 h2.not_gt
  have hsum := measure_union (μ := μ) hdisj MeasurableSpace.measurableSet_top
  rw [hswap] at hsum
  have h1 : μ E + μ E ≤ 1 := by rw [← hsum]; exact prob_le_one
  rw [ENNReal.le_div_iff_mul_le (by simp) (by simp), mul_two]
  exact h1

/-- **C105, false of the code:** that the sets of CV+ cover with a probability close to `1 - e` or `1 - 2 e`. For every `n` and every
error of at least `1 / (n + 1)`, for both score functions, there are an algorithm that does not depend on the order of its data and
returns probabilities, and exchangeable data of `n` folds of one point and a test point, such that each of the returned sets contains
the label of the test point with probability at most `1 / 2`. -/
theorem C105_cv_plus_false (score : List ℝ → ℕ → Option ℝ) (hs : score = adaptiveScore ∨ score = AdaptivePrediction.simpleScore)
    (n : ℕ) (e : ℚ) (he : 1 ≤ e * (n + 1)) :
    ∃ (A : Learner) (d : Fin (n + 1) → ℕ × ℕ), (∀ M x, ∃ q : ℝ, 0 ≤ q ∧ q ≤ 1 ∧ A M x = [q, 1 - q]) ∧
      @Exchangeable _ _ _ ⊤ _ (JackknifeCoverage.shuffle n) (fun i σ => d (σ i)) ∧
      ∀ k, JackknifeCoverage.shuffle n {σ | FoldCovers score A (d ∘ σ) e k} ≤ 1 / 2 := by
  have main : ∀ (σ : List ℝ → ℕ → ℝ), Scores score 2 σ → ∀ g : ℕ → ℝ, (∀ m, 0 ≤ g m ∧ g m ≤ 1) →
      (∀ a b, a ≤ n → b ≤ n → a < b → σ [g a, 1 - g a] 0 < σ [g b, 1 - g b] 0) →
      ∃ (A : Learner) (d : Fin (n + 1) → ℕ × ℕ), (∀ M x, ∃ q : ℝ, 0 ≤ q ∧ q ≤ 1 ∧ A M x = [q, 1 - q]) ∧
      @Exchangeable _ _ _ ⊤ _ (JackknifeCoverage.shuffle n) (fun i σ => d (σ i)) ∧
      ∀ k, JackknifeCoverage.shuffle n {σ | FoldCovers score A (d ∘ σ) e k} ≤ 1 / 2 := by
    intro σ hσ g hg hmono
    refine ⟨gap (fun m => [g m, 1 - g m]) n, inputs n, fun M x => ⟨_, (hg _).1, (hg _).2, rfl⟩,
      JackknifeCoverage.shuffle_exchangeable _, fun k => ?_⟩
    exact (measure_mono fun τ hτ => gap_covers hσ (fun m => [g m, 1 - g m]) (fun _ => rfl) hmono e he k τ hτ).trans (half_of_swap k)
  have hn : (0 : ℝ) < (n : ℝ) + 1 := by positivity
  rcases hs with rfl | rfl
  · refine main _ (C104_scores 2).1 (fun m => min 1 (1 / 2 + (m + 1) / (2 * (n + 1)))) (fun m => ⟨?_, min_le_left _ _⟩) ?_
    · positivity
    · have hval : ∀ m, m ≤ n → AdaptivePrediction.mass [min 1 (1 / 2 + ((m : ℝ) + 1) / (2 * (n + 1))),
          1 - min 1 (1 / 2 + ((m : ℝ) + 1) / (2 * (n + 1)))] 0 = 1 / 2 + ((m : ℝ) + 1) / (2 * (n + 1)) := by
        intro m hm
        have hm' : (m : ℝ) ≤ n := by exact_mod_cast hm
        have h1 : ((m : ℝ) + 1) / (2 * (n + 1)) ≤ 1 / 2 := by
          rw [div_le_div_iff₀ (by positivity) (by norm_num)]; linarith
        have h2 : 0 < ((m : ℝ) + 1) / (2 * (n + 1)) := by positivity
        rw [min_eq_right (by linarith)]
        set q := ((m : ℝ) + 1) / (2 * (n + 1)) with hq
        have : ahead [1 / 2 + q, 1 - (1 / 2 + q)] 0 = {0} := by
          ext z
          simp only [ahead, mem_filter, mem_range, mem_singleton, List.length_cons, List.length_nil]
          constructor
          · rintro ⟨hz, h⟩
            by_contra hz0
            obtain rfl : z = 1 := by omega
            simp only [List.getD_cons_zero, List.getD_cons_succ] at h
            rcases h with h | ⟨h, -⟩ <;> linarith
          · rintro rfl
            exact ⟨by omega, Or.inr ⟨rfl, le_rfl⟩⟩
        unfold AdaptivePrediction.mass
        rw [this, sum_singleton]
        rfl
      intro a b ha hb hab
      have hab' : (a : ℝ) < b := by exact_mod_cast hab
      rw [hval a ha, hval b hb]
      gcongr
  · refine main _ (C104_scores 2).2 (fun m => 1 - min 1 ((m : ℝ) / (n + 1))) (fun m => ⟨?_, ?_⟩) ?_
    · linarith [min_le_left 1 ((m : ℝ) / (n + 1))]
    · have : 0 ≤ min 1 ((m : ℝ) / (n + 1)) := by positivity
      linarith
    · intro a b ha hb hab
      have hab' : (a : ℝ) < b := by exact_mod_cast hab
      have hle : ∀ m : ℕ, m ≤ n → (m : ℝ) / (n + 1) ≤ 1 := by
        intro m hm
        have hm' : (m : ℝ) ≤ n := by exact_mod_cast hm
        rw [div_le_one hn]; linarith
      simp only [List.getD_cons_zero]
      rw [min_eq_right (hle a ha), min_eq_right (hle b hb)]
      have : (a : ℝ) / (n + 1) < b / (n + 1) := by gcongr
      linarith

/-! ### Concrete cases that meet the hypotheses of the theorems above -/

example := C105_cv_plus_false adaptiveScore (Or.inl rfl) 9 (1 / 10) (by norm_num)

end Verif.Props.ClassCoverage
