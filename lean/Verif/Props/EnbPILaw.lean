import Verif.Props.EnbPI
import Verif.Props.RegressionCoverage
import Mathlib.MeasureTheory.Integral.Lebesgue.Add

/-!
Property C137: coverage of the online intervals of EnbPI on exchangeable observations.
-/
set_option linter.unusedSectionVars false

namespace Verif.Props.EnbPILaw

open Verif Verif.Quantile Verif.ConformalRegression Verif.Props Finset MeasureTheory

/-! ### The plain quantile -/

section Counting

variable {K : Type*} [Field K] [LinearOrder K] [IsStrictOrderedRing K] [FloorRing K]

/-- A number with at most `⌊(1 - e) (n - 1)⌋` smaller values is at most the `1 - e` quantile. -/
theorem le_quantile (s : List K) (x e q : K) (he0 : 0 ≤ e) (he1 : e ≤ 1) (hq : quantile s (1 - e) = some q)
    (h : s.countP (fun y => decide (y < x)) ≤ ⌊(1 - e) * ((s.length : K) - 1)⌋₊) : x ≤ q := by
  obtain ⟨hs, rfl⟩ := quantile_some hq
  have hn := len_sub_one_nonneg hs
  have hpos : 1 ≤ s.length := List.length_pos_iff.2 hs
  set p := (1 - e) * ((s.length : K) - 1) with hp
  have hp0 : 0 ≤ p := mul_nonneg (by linarith) hn
  have hle : p ≤ (s.length : K) - 1 := by rw [hp]; nlinarith
  have hf : (⌊p⌋₊ : ℤ) = ⌊p⌋ := Int.natCast_floor_eq_floor hp0
  have hlt : ⌊p⌋₊ < s.length := by
    have : (⌊p⌋₊ : K) ≤ ((s.length - 1 : ℕ) : K) := by
      rw [Nat.cast_sub hpos]
      exact (Nat.floor_le hp0).trans (by simpa using hle)
    have : ⌊p⌋₊ ≤ s.length - 1 := by exact_mod_cast this
    omega
  refine le_trans ?_ (atClamped_le_interp (sort_sorted s) (sort_ne_nil hs) p)
  obtain ⟨k, hk, hkv, hke⟩ := atClamped_eq (sort s) (sort_ne_nil hs) ⌊p⌋
  rw [hke]
  rw [Quantile.length_sort] at hkv
  have hkk : k = ⌊p⌋₊ := by omega
  subst hkk
  exact le_kth_of_few_below s (⌊p⌋₊ + 1) (by omega) (by simpa using hlt) x (by omega)

/-- A number which is at most the `1 - e` quantile has at most `⌈(1 - e) (n - 1)⌉` smaller values. -/
theorem quantile_le (s : List K) (x e q : K) (he0 : 0 ≤ e) (he1 : e ≤ 1) (hq : quantile s (1 - e) = some q) (hx : x ≤ q) :
    s.countP (fun y => decide (y < x)) ≤ ⌈(1 - e) * ((s.length : K) - 1)⌉₊ := by
  obtain ⟨hs, rfl⟩ := quantile_some hq
  have hn := len_sub_one_nonneg hs
  have hpos : 1 ≤ s.length := List.length_pos_iff.2 hs
  set p := (1 - e) * ((s.length : K) - 1) with hp
  have hp0 : 0 ≤ p := mul_nonneg (by linarith) hn
  have hle : p ≤ (s.length : K) - 1 := by rw [hp]; nlinarith
  have hcI : (⌈p⌉₊ : ℤ) = ⌈p⌉ := Int.natCast_ceil_eq_ceil hp0
  have hlt : ⌈p⌉₊ < s.length := by
    have : ⌈p⌉₊ ≤ s.length - 1 := by
      rw [Nat.ceil_le, Nat.cast_sub hpos]
      simpa using hle
    omega
  have hup : interp (sort s) p ≤ atClamped (sort s) ⌈p⌉ := by
    have := interp_mono (sort_sorted s) (sort_ne_nil hs) (Int.le_ceil p)
    refine this.trans (le_of_eq ?_)
    rw [interp_eq]
    simp
  obtain ⟨b, hb, hbv, hbe⟩ := atClamped_eq (sort s) (sort_ne_nil hs) ⌈p⌉
  rw [hbe] at hup
  rw [Quantile.length_sort] at hbv
  have hbk : b = ⌈p⌉₊ := by omega
  have hxk := hx.trans hup
  rw [← (sort_perm s).countP_eq, ← List.take_append_drop b (sort s), List.countP_append]
  have h2 : (List.drop b (sort s)).countP (fun y => decide (y < x)) = 0 := by
    rw [List.countP_eq_zero]
    intro y hy
    rw [List.mem_drop_iff_getElem] at hy
    obtain ⟨i, hi, rfl⟩ := hy
    have := sorted_getElem_le (sort_sorted s) hb (show b + i < _ by omega) (by omega)
    simpa using hxk.trans this
  have h3 : (List.take b (sort s)).countP (fun y => decide (y < x)) ≤ b := List.countP_le_length.trans (by simp)
  omega

end Counting

variable {Ω : Type*} [MeasurableSpace Ω]

/-- How many of the scores are below the last one. -/
noncomputable def below {n : ℕ} (x : Fin (n + 1) → ℝ) : ℕ := (univ.filter fun j => x j < x (Fin.last n)).card

theorem below_eq {n : ℕ} (x : Fin (n + 1) → ℝ) :
    (List.ofFn fun i : Fin n => x i.castSucc).countP (fun v => decide (v < x (Fin.last n))) = below x := by
  unfold below
  rw [Finset.card_filter, Fin.sum_univ_castSucc]
  simp only [lt_self_iff_false, if_false, add_zero]
  rw [← Finset.card_filter, Verif.ListAux.countP_ofFn]
  simp

theorem measurable_below {n : ℕ} : Measurable fun x : Fin (n + 1) → ℝ => (below x : ℝ) := by
  unfold below
  simp only [Finset.card_filter, Nat.cast_sum, Nat.cast_ite, Nat.cast_one, Nat.cast_zero]
  apply Finset.measurable_sum
  intro j _
  exact Measurable.ite (measurableSet_lt (measurable_pi_apply _) (measurable_pi_apply _)) measurable_const measurable_const

/-- The last of exchangeable scores has fewer than `k ≤ n + 1` smaller ones with probability at least `k / (n + 1)`. -/
theorem few_below (μ : Measure Ω) [IsProbabilityMeasure μ] {n : ℕ} (S : Fin (n + 1) → Ω → ℝ) (hS : ∀ i, Measurable (S i))
    (hex : Exchangeable μ S) (k : ℕ) (hk : k ≤ n + 1) :
    ENNReal.ofReal (k / (n + 1)) ≤ μ {ω | below (fun i => S i ω) < k} := by
  classical
  have hC : MeasurableSet {x : Fin (n + 1) → ℝ | (below x : ℝ) < (k : ℝ)} := measurable_below measurableSet_Iio
  have hmain := Exchangeable.coverage μ S hS hex _ hC k (by
    intro x
    obtain ⟨A, hA, hAc⟩ := Verif.ListAux.exists_few_below x (k : ℝ) (by
      rw [Fintype.card_fin]
      exact_mod_cast hk)
    refine ⟨A, hA, fun i hi => ?_⟩
    have := hAc i hi
    simp only [below, Set.mem_ofPred_eq, Function.comp, Equiv.swap_apply_right]
    refine lt_of_le_of_lt ?_ this
    norm_cast
    apply Finset.card_le_card_of_injOn (Equiv.swap i (Fin.last n))
    · intro j hj; simpa using hj
    · exact (Equiv.injective _).injOn)
  simpa using hmain

/-- Without ties it has at most `k` smaller ones with probability at most `(k + 1) / (n + 1)`. -/
theorem below_at_most (μ : Measure Ω) [IsProbabilityMeasure μ] {n : ℕ} (S : Fin (n + 1) → Ω → ℝ) (hS : ∀ i, Measurable (S i))
    (hex : Exchangeable μ S) (hties : ∀ i j, i ≠ j → μ {ω | S i ω = S j ω} = 0) (k : ℕ) :
    μ {ω | below (fun i => S i ω) ≤ k} ≤ ENNReal.ofReal ((k + 1) / (n + 1)) := by
  have hneg : Exchangeable μ fun i ω => -S i ω :=
    ClassCoverage.exchangeable_comp hS hex (g := fun x => -x) measurable_neg
  have h := ClassCoverage.exchangeable_at_most μ (fun i ω => -S i ω) (fun i => (hS i).neg) hneg
    (fun i j hne => by simpa only [neg_inj] using hties i j hne) ((k + 1 : ℕ) : ℚ)
  rw [Nat.ceil_natCast] at h
  push_cast at h
  refine (measure_mono ?_).trans h
  intro ω hω
  simp only [Set.mem_ofPred_eq, neg_lt_neg_iff, below] at hω ⊢
  exact_mod_cast Nat.lt_succ_of_le hω

/-! ### The online run -/

variable {X : Type*} [MeasurableSpace X]

/-- The update at round `t` of a user who feeds observation `t` and asks for an interval at the input of observation `t + 1`; `f` are the
fitted bootstrap models. -/
def stepOf (f : List (X → ℝ)) (e : ℝ) (z : ℕ → X × ℝ) (t : ℕ) : EnbpiStep ℝ where
  newPreds := f.map fun g => [g (z t).1]
  testPreds := f.map fun g => [g (z (t + 1)).1]
  newY := [(z t).2]
  error := e

/-- The interval returned at round `t`, after all rounds before it, contains the target of observation `t + 1`. -/
def OnlineCovers (agg : List ℝ → ℝ) (f : List (X → ℝ)) (e : ℝ) (res : List ℝ) (z : ℕ → X × ℝ) (t : ℕ) : Prop :=
  ∃ r iv r', enbpiRun agg res ((List.range t).map (stepOf f e z)) = .ok r ∧
    enbpiFromResiduals agg r (stepOf f e z t).newPreds (stepOf f e z t).testPreds (stepOf f e z t).newY e = .ok ([iv], r') ∧
    isIn [(z (t + 1)).2] [iv] = [true]

/-- The distance of a target from the aggregated predictions. -/
def resid (agg : List ℝ → ℝ) (f : List (X → ℝ)) (p : X × ℝ) : ℝ := |p.2 - agg (f.map fun g => g p.1)|

theorem newResidual_stepOf (agg : List ℝ → ℝ) (f : List (X → ℝ)) (e : ℝ) (z : ℕ → X × ℝ) (t : ℕ) :
    newResidual agg (stepOf f e z t) = resid agg f (z t) := by
  simp [newResidual, stepOf, resid, Function.comp_def]

theorem good_stepOf (f : List (X → ℝ)) (hf : f ≠ []) (e : ℝ) (z : ℕ → X × ℝ) (t : ℕ) : GoodStep (stepOf f e z t) := by
  obtain ⟨g, f', rfl⟩ := List.exists_cons_of_ne_nil hf
  simp [GoodStep, stepOf, ncols]

/-- The last `n` residuals before round `t + 1`. -/
def recent (agg : List ℝ → ℝ) (f : List (X → ℝ)) (n : ℕ) (z : ℕ → X × ℝ) (t : ℕ) : List ℝ :=
  List.ofFn fun i : Fin n => resid agg f (z (t + 1 - n + i))

theorem window (agg : List ℝ → ℝ) (f : List (X → ℝ)) (e : ℝ) (res : List ℝ) (hne : res ≠ [])
    (z : ℕ → X × ℝ) (t : ℕ) (ht : res.length ≤ t + 1) (r : List ℝ)
    (hr : enbpiRun agg res ((List.range t).map (stepOf f e z)) = .ok r) :
    r.tail ++ [resid agg f (z t)] = recent agg f res.length z t := by
  obtain ⟨hl, heq⟩ := C14_sliding_window agg res _ r hr
  have hpos : 1 ≤ res.length := List.length_pos_iff.2 hne
  apply List.ext_getElem
  · simp [recent]
    omega
  · intro i h1 h2
    simp only [List.length_append, List.length_tail, List.length_cons, List.length_nil, hl] at h1
    simp only [recent, List.getElem_ofFn]
    rcases Nat.lt_or_ge i (res.length - 1) with hi | hi
    · rw [List.getElem_append_left (by rw [List.length_tail, hl]; exact hi), List.getElem_tail]
      simp only [heq]
      rw [List.getElem_drop, List.getElem_append_right (by simp; omega)]
      simp only [List.getElem_map, List.getElem_range, newResidual_stepOf, List.length_append, List.length_map, List.length_range]
      congr 2
      omega
    · rw [List.getElem_append_right (by rw [List.length_tail, hl]; exact hi)]
      simp only [List.getElem_singleton]
      congr 2
      omega

/-- Once the window holds only fresh residuals, the next target is covered when its residual is at most the quantile of the last `n`. -/
theorem onlineCovers_iff (agg : List ℝ → ℝ) (f : List (X → ℝ)) (hf : f ≠ []) (e : ℝ) (res : List ℝ) (hne : res ≠ [])
    (z : ℕ → X × ℝ) (t : ℕ) (ht : res.length ≤ t + 1) :
    OnlineCovers agg f e res z t ↔ ∃ q, quantile (recent agg f res.length z t) (1 - e) = some q ∧ resid agg f (z (t + 1)) ≤ q := by
  obtain ⟨r, hr⟩ := C14_total agg res hne ((List.range t).map (stepOf f e z)) (by
    intro s hs
    obtain ⟨k, -, rfl⟩ := List.mem_map.1 hs
    exact good_stepOf f hf e z k)
  have hw := window agg f e res hne z t ht r hr
  have hrl := (C14_sliding_window agg res _ r hr).1
  have hrne : r ≠ [] := by
    intro h0
    rw [h0] at hrl
    exact hne (List.length_eq_zero_iff.1 hrl.symm)
  have hcols : ncols (f.map fun g => [g (z (t + 1)).1]) = 1 := by
    obtain ⟨g, f', rfl⟩ := List.exists_cons_of_ne_nil hf
    simp [ncols]
  have hcol : column (f.map fun g => [g (z (t + 1)).1]) 0 = f.map fun g => g (z (t + 1)).1 := by
    simp [column]
  have hin : ∀ q : ℝ, isIn [(z (t + 1)).2] [(agg (f.map fun g => g (z (t + 1)).1) - q, agg (f.map fun g => g (z (t + 1)).1) + q)] = [true] ↔
      resid agg f (z (t + 1)) ≤ q := by
    intro q
    rw [JackknifeCoverage.isIn_one, resid, abs_le]
    constructor <;> rintro ⟨h1, h2⟩ <;> constructor <;> dsimp only at * <;> linarith
  constructor
  · rintro ⟨r1, iv, r', h1, h2, h3⟩
    rw [hr] at h1
    cases h1
    obtain ⟨-, -, ho, rq, hq, hiv⟩ := enbpiFromResiduals_ok (s := stepOf f e z t) h2
    rw [newResidual_stepOf, hw] at ho
    dsimp only at ho hq hiv
    subst ho
    refine ⟨rq, hq, ?_⟩
    have hiv' : [iv] = [(agg (f.map fun g => g (z (t + 1)).1) - rq, agg (f.map fun g => g (z (t + 1)).1) + rq)] := by
      rw [hiv]
      simp only [stepOf, hcols, List.range_one, List.map_cons, List.map_nil, hcol]
    rw [← hin rq, ← hiv']
    exact h3
  · rintro ⟨q, hq, hle⟩
    obtain ⟨out, hout⟩ := C14_total agg r hrne [stepOf f e z t] (by
      intro s hs
      rw [List.mem_singleton.1 hs]
      exact good_stepOf f hf e z t)
    unfold enbpiRun at hout
    rw [bind_ok] at hout
    obtain ⟨o, ho, -⟩ := hout
    obtain ⟨-, -, h2, rq, hq', hiv⟩ := enbpiFromResiduals_ok ho
    rw [newResidual_stepOf, hw] at h2
    rw [h2, show (stepOf f e z t).error = e from rfl, hq] at hq'
    cases hq'
    refine ⟨r, _, o.2, hr, ?_, (hin q).2 hle⟩
    refine ho.trans ?_
    congr 1
    refine Prod.ext ?_ rfl
    rw [hiv]
    simp only [stepOf, hcols, List.range_one, List.map_cons, List.map_nil, hcol]

/-! ### C137 -/

/-- The observations from the beginning of the window at round `t` to the one that is predicted. -/
def block (n : ℕ) (Z : ℕ → Ω → X × ℝ) (t : ℕ) : Fin (n + 1) → Ω → X × ℝ := fun i => Z (t + 1 - n + i)

variable {agg : List ℝ → ℝ} {f : List (X → ℝ)} {Z : ℕ → Ω → X × ℝ} {res : List ℝ} {e : ℝ} {t : ℕ}

theorem measurable_resid (hm : Measurable fun x => agg (f.map fun g => g x)) : Measurable (resid agg f) :=
  continuous_abs.measurable.comp (measurable_snd.sub (hm.comp measurable_fst))

theorem recent_block (agg : List ℝ → ℝ) (f : List (X → ℝ)) (n : ℕ) (Z : ℕ → Ω → X × ℝ) (t : ℕ) (ω : Ω) :
    recent agg f n (fun k => Z k ω) t = List.ofFn fun i : Fin n => resid agg f (block n Z t i.castSucc ω) := rfl

theorem last_block {n : ℕ} (hn : n ≤ t + 1) (ω : Ω) : block n Z t (Fin.last n) ω = Z (t + 1) ω := by
  simp only [block, Fin.val_last]
  congr 1
  omega

/-- The next residual has few smaller ones in the window: the event of which the coverage bound is the probability. -/
theorem covers_of_few (hf : f ≠ []) (hne : res ≠ []) (he0 : 0 ≤ e) (he1 : e ≤ 1) (ht : res.length ≤ t + 1) (ω : Ω)
    (h : below (fun i => resid agg f (block res.length Z t i ω)) < ⌊(1 - e) * ((res.length : ℝ) - 1)⌋₊ + 1) :
    OnlineCovers agg f e res (fun k => Z k ω) t := by
  rw [onlineCovers_iff agg f hf e res hne _ t ht, recent_block]
  have hnil : (List.ofFn fun i : Fin res.length => resid agg f (block res.length Z t i.castSucc ω)) ≠ [] := by
    intro h0
    have := congrArg List.length h0
    simp only [List.length_ofFn, List.length_nil] at this
    exact hne (List.length_eq_zero_iff.1 this)
  refine ⟨_, quantile_of_ne hnil _, ?_⟩
  refine le_quantile _ _ e _ he0 he1 (quantile_of_ne hnil _) ?_
  have hb := below_eq (fun i => resid agg f (block res.length Z t i ω))
  simp only [last_block ht] at hb
  rw [hb, List.length_ofFn]
  omega

theorem floor_le_card (hne : res ≠ []) (he0 : 0 ≤ e) : ⌊(1 - e) * ((res.length : ℝ) - 1)⌋₊ + 1 ≤ res.length + 1 := by
  have hn := len_sub_one_nonneg (K := ℝ) hne
  have : ⌊(1 - e) * ((res.length : ℝ) - 1)⌋₊ ≤ res.length := by
    refine (Nat.floor_le_floor (show _ ≤ (res.length : ℝ) from ?_)).trans (by simp)
    nlinarith
  omega

/-- **C137.** If the observations in the window and the next one are exchangeable, the next interval covers with probability at least
`(⌊(1 - error) (n - 1)⌋ + 1) / (n + 1)`, `n` being the length of the window. -/
theorem C137_online_covers (μ : Measure Ω) [IsProbabilityMeasure μ] (hf : f ≠ []) (hm : Measurable fun x => agg (f.map fun g => g x))
    (hZ : ∀ k, Measurable (Z k)) (hne : res ≠ []) (he0 : 0 ≤ e) (he1 : e ≤ 1) (ht : res.length ≤ t + 1)
    (hex : Exchangeable μ (block res.length Z t)) :
    ENNReal.ofReal ((⌊(1 - e) * ((res.length : ℝ) - 1)⌋₊ + 1) / (res.length + 1)) ≤
      μ {ω | OnlineCovers agg f e res (fun k => Z k ω) t} := by
  have h := few_below μ (fun i ω => resid agg f (block res.length Z t i ω)) (fun i => (measurable_resid hm).comp (hZ _))
    (ClassCoverage.exchangeable_comp (fun i => hZ _) hex (measurable_resid hm)) _ (floor_le_card hne he0)
  push_cast at h
  exact h.trans (measure_mono fun ω hω => covers_of_few hf hne he0 he1 ht ω hω)

/-- **C137.** Without ties among the residuals, it covers with probability at most `(⌈(1 - error) (n - 1)⌉ + 1) / (n + 1)`. -/
theorem C137_online_at_most (μ : Measure Ω) [IsProbabilityMeasure μ] (hf : f ≠ []) (hm : Measurable fun x => agg (f.map fun g => g x))
    (hZ : ∀ k, Measurable (Z k)) (hne : res ≠ []) (he0 : 0 ≤ e) (he1 : e ≤ 1) (ht : res.length ≤ t + 1)
    (hex : Exchangeable μ (block res.length Z t))
    (hties : ∀ i j, i ≠ j → μ {ω | resid agg f (block res.length Z t i ω) = resid agg f (block res.length Z t j ω)} = 0) :
    μ {ω | OnlineCovers agg f e res (fun k => Z k ω) t} ≤
      ENNReal.ofReal ((⌈(1 - e) * ((res.length : ℝ) - 1)⌉₊ + 1) / (res.length + 1)) := by
  refine (measure_mono ?_).trans (below_at_most μ (fun i ω => resid agg f (block res.length Z t i ω))
    (fun i => (measurable_resid hm).comp (hZ _)) (ClassCoverage.exchangeable_comp (fun i => hZ _) hex (measurable_resid hm)) hties
    ⌈(1 - e) * ((res.length : ℝ) - 1)⌉₊)
  intro ω hω
  obtain ⟨q, hq, hle⟩ := (onlineCovers_iff agg f hf e res hne _ t ht).1 hω
  rw [recent_block] at hq
  have hb := below_eq (fun i => resid agg f (block res.length Z t i ω))
  have h := quantile_le _ _ e q he0 he1 hq hle
  simp only [last_block ht] at hb
  rw [hb, List.length_ofFn] at h
  exact h

/-- **C137.** In the long run: over any number of rounds, all with full windows, the expected number of covered targets is at least that
share of the rounds. -/
theorem C137_long_run (μ : Measure Ω) [IsProbabilityMeasure μ] (hf : f ≠ []) (hm : Measurable fun x => agg (f.map fun g => g x))
    (hZ : ∀ k, Measurable (Z k)) (hne : res ≠ []) (he0 : 0 ≤ e) (he1 : e ≤ 1)
    (rounds : Finset ℕ) (ht : ∀ t ∈ rounds, res.length ≤ t + 1) (hex : ∀ t ∈ rounds, Exchangeable μ (block res.length Z t)) :
    rounds.card * ENNReal.ofReal ((⌊(1 - e) * ((res.length : ℝ) - 1)⌋₊ + 1) / (res.length + 1)) ≤
      ∫⁻ ω, ((by classical exact (rounds.filter fun t => OnlineCovers agg f e res (fun k => Z k ω) t).card : ℕ) : ENNReal) ∂μ := by
  classical
  set k := ⌊(1 - e) * ((res.length : ℝ) - 1)⌋₊ + 1 with hk
  let E : ℕ → Set Ω := fun t => {ω | below (fun i => resid agg f (block res.length Z t i ω)) < k}
  have hE : ∀ t, MeasurableSet (E t) := by
    intro t
    have hmeas : Measurable fun ω => (below (fun i => resid agg f (block res.length Z t i ω)) : ℝ) :=
      measurable_below.comp (measurable_pi_lambda _ fun i => (measurable_resid hm).comp (hZ _))
    have := hmeas (measurableSet_Iio (a := (k : ℝ)))
    simpa [E, Set.preimage] using this
  calc (rounds.card : ENNReal) * ENNReal.ofReal ((⌊(1 - e) * ((res.length : ℝ) - 1)⌋₊ + 1) / (res.length + 1))
      = ∑ t ∈ rounds, ENNReal.ofReal ((⌊(1 - e) * ((res.length : ℝ) - 1)⌋₊ + 1) / (res.length + 1)) := by
        rw [Finset.sum_const, nsmul_eq_mul]
    _ ≤ ∑ t ∈ rounds, μ (E t) := by
        refine Finset.sum_le_sum fun t h => ?_
        have h := few_below μ (fun i ω => resid agg f (block res.length Z t i ω)) (fun i => (measurable_resid hm).comp (hZ _))
          (ClassCoverage.exchangeable_comp (fun i => hZ _) (hex t h) (measurable_resid hm)) k (floor_le_card hne he0)
        rw [hk] at h
        push_cast at h
        exact h
    _ = ∑ t ∈ rounds, ∫⁻ ω, (E t).indicator 1 ω ∂μ := by
        refine Finset.sum_congr rfl fun t _ => ?_
        rw [lintegral_indicator_one (hE t)]
    _ = ∫⁻ ω, ∑ t ∈ rounds, (E t).indicator 1 ω ∂μ :=
        (lintegral_finsetSum _ fun t _ => measurable_one.indicator (hE t)).symm
    _ ≤ _ := by
        refine lintegral_mono fun ω => ?_
        rw [Finset.card_filter]
        push_cast
        refine Finset.sum_le_sum fun t h => ?_
        by_cases hω : ω ∈ E t
        · rw [Set.indicator_of_mem hω, if_pos (covers_of_few hf hne he0 he1 (ht t h) ω hω)]
          simp
        · rw [Set.indicator_of_notMem hω]
          exact zero_le

/-- **C137.** False of the code: that the intervals cover with probability `1 - error`. With less than one half of error and a window of
length `n` for which `(1 - error) (n - 1)` is an integer, the probability is smaller, for every law without ties. -/
theorem C137_nominal_false (μ : Measure Ω) [IsProbabilityMeasure μ] (hf : f ≠ []) (hm : Measurable fun x => agg (f.map fun g => g x))
    (hZ : ∀ k, Measurable (Z k)) (hne : res ≠ []) (he0 : 0 ≤ e) (he1 : e < 1 / 2) (ht : res.length ≤ t + 1)
    (hex : Exchangeable μ (block res.length Z t))
    (hties : ∀ i j, i ≠ j → μ {ω | resid agg f (block res.length Z t i ω) = resid agg f (block res.length Z t j ω)} = 0)
    (m : ℕ) (hint : (1 - e) * ((res.length : ℝ) - 1) = m) :
    μ {ω | OnlineCovers agg f e res (fun k => Z k ω) t} < ENNReal.ofReal (1 - e) := by
  refine (C137_online_at_most μ hf hm hZ hne he0 (by linarith) ht hex hties).trans_lt ?_
  rw [ENNReal.ofReal_lt_ofReal_iff (by linarith), hint, Nat.ceil_natCast, div_lt_iff₀ (by positivity)]
  nlinarith

/-- **C137.** The shortfall is at most `2 / (n + 1)`. -/
theorem C137_shortfall (n : ℕ) (he0 : 0 ≤ e) :
    1 - e - 2 / ((n : ℝ) + 1) ≤ (⌊(1 - e) * ((n : ℝ) - 1)⌋₊ + 1) / (n + 1) := by
  rw [le_div_iff₀ (by positivity), sub_mul, div_mul_cancel₀ _ (by positivity)]
  have := Nat.lt_floor_add_one ((1 - e) * ((n : ℝ) - 1))
  nlinarith

/-- Eleven stored residuals, two constant models, error 0.1, and the targets `0, …, 11` in a random order: the next one is covered with
probability `10 / 12`, less than 0.9. -/
example : JackknifeCoverage.shuffle 11 {σ | OnlineCovers List.sum [fun _ : Unit => 0, fun _ => 0] (1 / 10) (List.replicate 11 7)
      (fun k => ((), ((σ (Fin.ofNat 12 k)).val : ℝ))) 10} = ENNReal.ofReal (10 / 12) := by
  let _ : MeasurableSpace (Equiv.Perm (Fin (11 + 1))) := ⊤
  have := JackknifeCoverage.shuffle_probability 11
  let Z : ℕ → Equiv.Perm (Fin (11 + 1)) → Unit × ℝ := fun k σ => ((), ((σ (Fin.ofNat 12 k)).val : ℝ))
  have hblock : block (List.replicate 11 (7 : ℝ)).length Z 10 = fun i σ => ((), ((σ i).val : ℝ)) := by
    funext i σ
    simp only [block, Z]
    congr 4
    ext
    have := i.2
    simp only [List.length_replicate] at this
    simp [Fin.ofNat, List.length_replicate, Nat.mod_eq_of_lt this]
  have hex : Exchangeable (JackknifeCoverage.shuffle 11) (block (List.replicate 11 (7 : ℝ)).length Z 10) := by
    rw [hblock]
    exact JackknifeCoverage.shuffle_exchangeable fun i => ((), (i.val : ℝ))
  have hm : Measurable fun x : Unit => List.sum ([fun _ : Unit => (0 : ℝ), fun _ => 0].map fun g => g x) := measurable_from_top
  have h9 : (1 - 1 / 10) * (((List.replicate 11 (7 : ℝ)).length : ℝ) - 1) = ((9 : ℕ) : ℝ) := by
    rw [List.length_replicate]
    norm_num
  refine le_antisymm ?_ ?_
  · refine (C137_online_at_most (Z := Z) _ (by simp) hm (fun _ => measurable_from_top) (by simp) (by norm_num) (by norm_num) (by simp) hex
      ?_).trans (le_of_eq ?_)
    · intro i j hij
      rw [hblock]
      convert measure_empty (μ := JackknifeCoverage.shuffle 11)
      rw [Set.eq_empty_iff_forall_notMem]
      intro σ hσ
      simp only [resid, Set.mem_ofPred_eq, List.map_cons, List.map_nil, List.sum_cons, List.sum_nil, add_zero, sub_zero, Nat.abs_cast,
        Nat.cast_inj] at hσ
      exact hij (σ.injective (Fin.ext hσ))
    · rw [h9, Nat.ceil_natCast, List.length_replicate]
      norm_num
  · refine (le_of_eq ?_).trans (C137_online_covers (Z := Z) _ (by simp) hm (fun _ => measurable_from_top) (by simp) (by norm_num)
      (by norm_num) (by simp) hex)
    rw [h9, Nat.floor_natCast, List.length_replicate]
    norm_num

/-! ### Concrete cases that meet the hypotheses of the theorems above -/

/-- A shuffled sequence of twelve different targets. -/
def exZ (k : ℕ) (σ : Equiv.Perm (Fin (11 + 1))) : Unit × ℝ := ((), ((σ (Fin.ofNat 12 k)).val : ℝ))

theorem exZ_block : block (List.replicate 11 (7 : ℝ)).length exZ 10 = fun i σ => ((), ((σ i).val : ℝ)) := by
  funext i σ
  simp only [block, exZ]
  congr 4
  ext
  have := i.2
  simp only [List.length_replicate] at this
  simp [Fin.ofNat, Nat.mod_eq_of_lt this]

theorem exZ_exchangeable : @Exchangeable _ _ _ ⊤ _ (JackknifeCoverage.shuffle 11) (block (List.replicate 11 (7 : ℝ)).length exZ 10) := by
  rw [exZ_block]
  exact JackknifeCoverage.shuffle_exchangeable fun i => ((), (i.val : ℝ))

example : True := by
  let _ : MeasurableSpace (Equiv.Perm (Fin (11 + 1))) := ⊤
  have := JackknifeCoverage.shuffle_probability 11
  have hm : Measurable fun x : Unit => List.sum ([fun _ : Unit => (0 : ℝ), fun _ => 0].map fun g => g x) := measurable_from_top
  have _h1 := C137_long_run (Z := exZ) (e := 1 / 10) (JackknifeCoverage.shuffle 11) (by simp) hm (fun _ => measurable_from_top) (by simp : List.replicate 11 (7 : ℝ) ≠ [])
    (by norm_num) (by norm_num) {10} (by simp) (by intro t ht; rw [Finset.mem_singleton.1 ht]; exact exZ_exchangeable)
  have _h2 := C137_nominal_false (Z := exZ) (e := 1 / 10) (t := 10) (JackknifeCoverage.shuffle 11) (by simp) hm (fun _ => measurable_from_top)
    (by simp : List.replicate 11 (7 : ℝ) ≠ []) (by norm_num) (by norm_num) (by simp) exZ_exchangeable (by
      intro i j hij
      rw [exZ_block]
      convert measure_empty (μ := JackknifeCoverage.shuffle 11)
      rw [Set.eq_empty_iff_forall_notMem]
      intro σ hσ
      simp only [resid, Set.mem_ofPred_eq, List.map_cons, List.map_nil, List.sum_cons, List.sum_nil, add_zero, sub_zero, Nat.abs_cast,
        Nat.cast_inj] at hσ
      exact hij (σ.injective (Fin.ext hσ))) 9 (by rw [List.length_replicate]; norm_num)
  trivial

end Verif.Props.EnbPILaw
