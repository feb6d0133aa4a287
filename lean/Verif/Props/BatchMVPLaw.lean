import Mathlib.Analysis.SpecialFunctions.Pow.Real
import Verif.Props.OneShotLaw
import Verif.Props.MultivalidError
import Verif.Props.Extras

/-!
Property C129: what the coverage of the cells on the calibration data says about new rows after a BatchMVP calibration.
-/
set_option linter.unusedSectionVars false

namespace Verif.Props.BatchMVPLaw

open Verif.Props.MonteCarlo Verif.Props.MetricLaw Verif.ArrayOps MeasureTheory ProbabilityTheory
open Verif.Multivalid

variable {Ω 𝒳 : Type} [MeasurableSpace Ω] [MeasurableSpace 𝒳] {n : ℕ}

/-! ## Specification -/

/-- Does threshold `t` belong to the bucket of type `tau` around `v`? -/
def Near (B tau : ℕ) (v t : ℝ) : Prop :=
  if tau = 0 then |t - v| < 1 / (2 * (B : ℝ)) else if tau = 1 then v ≤ t + 1 / (2 * (B : ℝ)) else t - 1 / (2 * (B : ℝ)) ≤ v

open Classical in
/-- The threshold of a row with groups `g` after one patch. -/
noncomputable def moved (B : ℕ) (eta : ℝ) (g : List Bool) (t : ℝ) (p : Patch ℝ) : ℝ :=
  if Near B p.tau p.v t ∧ g.getD p.g false = true then min (max (t + eta * p.delta) 0) 1 else t

/-- The threshold of a row after a list of patches. -/
noncomputable def after (B : ℕ) (eta : ℝ) (grp : 𝒳 → List Bool) (thr : 𝒳 → ℝ) (ps : List (Patch ℝ)) (x : 𝒳) : ℝ :=
  ps.foldl (moved B eta (grp x)) (thr x)

/-- The rows in a cell after a list of patches. -/
def cellSet (B : ℕ) (eta : ℝ) (grp : 𝒳 → List Bool) (thr : 𝒳 → ℝ) (ps : List (Patch ℝ)) (cell : Cell ℝ) : Set 𝒳 :=
  {x | Near B cell.tau cell.v (after B eta grp thr ps x) ∧ (grp x).getD cell.g false = true}

/-- The rows with a score not above their threshold: those whose target is in the conformal set. -/
def covered (B : ℕ) (eta : ℝ) (grp : 𝒳 → List Bool) (thr sc : 𝒳 → ℝ) (ps : List (Patch ℝ)) : Set 𝒳 :=
  {x | sc x ≤ after B eta grp thr ps x}

/-- Missing coverage among the rows of a set, weighted by their share: (target coverage - coverage within the set) times the probability
of the set. -/
noncomputable def missing (Q : Measure 𝒳) (q : ℝ) (S C : Set 𝒳) : ℝ := q * Q.real S - Q.real (S ∩ C)

/-- The same on the calibration rows, as the code computes it from the thresholds patched so far. -/
noncomputable def missingIn (B : ℕ) (q : ℝ) (cell : Cell ℝ) (groups : List (List Bool)) (values scores : List (List ℝ)) : ℝ :=
  probB (cellB B cell groups values) * (q - mvpProb (cellB B cell groups values) (col values 0) (col scores 0) 0)

/-! ## Rows -/

theorem near_iff (B tau : ℕ) (v t : ℝ) : inBucket B tau v t = true ↔ Near B tau v t := by
  have e : (1 / 2 : ℝ) / (B : ℝ) = 1 / (2 * (B : ℝ)) := by rw [div_div]
  unfold inBucket Near
  by_cases h0 : tau = 0
  · simp only [h0, if_true, e, decide_eq_true_eq]
  · by_cases h1 : tau = 1
    · simp only [h1, if_true, one_ne_zero, if_false, e, decide_eq_true_eq, ge_iff_le]
    · simp only [h0, h1, if_false, e, decide_eq_true_eq]

theorem getB_iff (B : ℕ) (tau g : ℕ) (v : ℝ) (grp : List Bool) (t : ℝ) :
    getB B tau g v 0 grp [t] = true ↔ Near B tau v t ∧ grp.getD g false = true := by
  unfold getB
  simp only [Bool.and_eq_true, List.getD_cons_zero, near_iff, decide_eq_true_eq]
  constructor
  · exact fun h => h.1
  · exact fun h => ⟨h, rfl⟩

theorem replay_map (cfg : Config ℝ) (had : cfg.ptype = .additive) (grp : 𝒳 → List Bool) (ps : List (Patch ℝ)) (hc : ∀ p ∈ ps, p.c = 0)
    (f : 𝒳 → ℝ) (l : List 𝒳) :
    replay cfg (l.map grp) (l.map fun x => [f x]) ps = l.map fun x => [ps.foldl (moved cfg.nBuckets cfg.eta (grp x)) (f x)] := by
  classical
  induction ps generalizing f with
  | nil => rfl
  | cons p ps ih =>
    have hp : p.c = 0 := hc p (by simp)
    have h1 : applyPatch cfg (l.map grp) (l.map fun x => [f x]) p = l.map fun x => [moved cfg.nBuckets cfg.eta (grp x) (f x) p] := by
      unfold applyPatch patchValues getBs
      have : ∀ l : List 𝒳, List.zipWith (patchRow cfg.ptype cfg.eta p.delta p.c)
          (List.zipWith (getB cfg.nBuckets p.tau p.g p.v p.c) (l.map grp) (l.map fun x => [f x])) (l.map fun x => [f x]) =
          l.map fun x => [moved cfg.nBuckets cfg.eta (grp x) (f x) p] := by
        intro l
        induction l with
        | nil => rfl
        | cons a l ihl =>
          rw [List.map_cons, List.map_cons, List.zipWith_cons_cons, List.zipWith_cons_cons, ihl, List.map_cons]
          refine congrArg₂ List.cons ?_ rfl
          unfold patchRow moved
          rw [hp, had]
          by_cases h : Near cfg.nBuckets p.tau p.v (f a) ∧ (grp a).getD p.g false = true
          · rw [if_pos h, if_pos ((getB_iff _ _ _ _ _ _).2 h)]
            rfl
          · rw [if_neg h, if_neg fun hh => h ((getB_iff _ _ _ _ _ _).1 hh)]
      exact this l
    have hstep : replay cfg (l.map grp) (l.map fun x => [f x]) (p :: ps) =
        replay cfg (l.map grp) (applyPatch cfg (l.map grp) (l.map fun x => [f x]) p) ps := rfl
    rw [hstep, h1, ih (fun q hq => hc q (by simp [hq]))]
    rfl

theorem replay_rows (X : Fin n → Ω → 𝒳) (cfg : Config ℝ) (had : cfg.ptype = .additive) (grp : 𝒳 → List Bool) (thr : 𝒳 → ℝ)
    (ps : List (Patch ℝ)) (hc : ∀ p ∈ ps, p.c = 0) (ω : Ω) :
    replay cfg (MetricLaw.rowsOf X grp ω) (MetricLaw.rowsOf X (fun x => [thr x]) ω) ps =
      MetricLaw.rowsOf X (fun x => [after cfg.nBuckets cfg.eta grp thr ps x]) ω := by
  have := replay_map cfg had grp ps hc thr (List.ofFn fun i => X i ω)
  simp only [List.map_ofFn] at this
  exact this

/-- What the code computes in terms of averages over the calibration rows. -/
theorem missingIn_avg (X : Fin n → Ω → 𝒳) (B : ℕ) (q : ℝ) (cell : Cell ℝ) (hc : cell.c = 0) (grp : 𝒳 → List Bool)
    (f sc : 𝒳 → ℝ) (ω : Ω) :
    missingIn B q cell (MetricLaw.rowsOf X grp ω) (MetricLaw.rowsOf X (fun x => [f x]) ω) (MetricLaw.rowsOf X (fun x => [sc x]) ω) =
      avg X (fun x => q * {x | Near B cell.tau cell.v (f x) ∧ (grp x).getD cell.g false = true}.indicator 1 x -
        ({x | Near B cell.tau cell.v (f x) ∧ (grp x).getD cell.g false = true} ∩ {x | sc x ≤ f x}).indicator 1 x) id ω := by
  classical
  set S : Set 𝒳 := {x | Near B cell.tau cell.v (f x) ∧ (grp x).getD cell.g false = true} with hS
  set C : Set 𝒳 := {x | sc x ≤ f x} with hC
  have hcell : cellB B cell (MetricLaw.rowsOf X grp ω) (MetricLaw.rowsOf X (fun x => [f x]) ω) =
      MetricLaw.rowsOf X (fun x => getB B cell.tau cell.g cell.v 0 (grp x) [f x]) ω := by
    unfold cellB getBs MetricLaw.rowsOf
    rw [hc]
    apply List.ext_getElem
    · simp
    · intro i h1 h2; simp
  have hb : ∀ x, getB B cell.tau cell.g cell.v 0 (grp x) [f x] = true ↔ x ∈ S := fun x => getB_iff _ _ _ _ _ _
  have hcol : ∀ h : 𝒳 → ℝ, col (MetricLaw.rowsOf X (fun x => [h x]) ω) 0 = MetricLaw.rowsOf X h ω := by
    intro h; unfold col MetricLaw.rowsOf; rw [List.map_ofFn]; rfl
  have hzip : List.zipWith (fun s v => if s ≤ v + 0 then (1 : ℝ) else 0) (MetricLaw.rowsOf X sc ω) (MetricLaw.rowsOf X f ω) =
      MetricLaw.rowsOf X (C.indicator 1) ω := by
    unfold MetricLaw.rowsOf
    apply List.ext_getElem
    · simp
    · intro i h1 h2
      simp [hC, Set.indicator_apply]
  have hind : S.indicator (C.indicator (1 : 𝒳 → ℝ)) = (S ∩ C).indicator 1 := by
    rw [Set.indicator_indicator]
  unfold missingIn mvpProb
  rw [hcell, hcol, hcol, hzip, PrecisionLaw.probB_rows X _ S hb, OneShotLaw.maskedMean_scores X _ S hb, hind]
  set a := avg X (S.indicator 1) id ω with ha
  set b := avg X ((S ∩ C).indicator 1) id ω with hbb
  have hab : avg X (fun x => q * S.indicator 1 x - (S ∩ C).indicator 1 x) id ω = q * a - b := by
    rw [ha, hbb]
    simp only [avg, Finset.sum_sub_distrib, ← Finset.mul_sum, id]
    ring
  rw [hab]
  have hb0 : 0 ≤ b := by
    rw [hbb]; unfold avg
    exact div_nonneg (Finset.sum_nonneg fun i _ => Set.indicator_nonneg (fun _ _ => zero_le_one) _) (Nat.cast_nonneg _)
  have hba : b ≤ a := by
    rw [hbb, ha]; unfold avg
    refine div_le_div_of_nonneg_right (Finset.sum_le_sum fun i _ => ?_) (Nat.cast_nonneg _)
    exact Set.indicator_le_indicator_of_subset Set.inter_subset_left (fun _ => zero_le_one) _
  by_cases h : a > 0
  · rw [if_pos h]; field_simp
  · rw [if_neg h]
    have : a = 0 := by linarith
    have hb' : b = 0 := by linarith
    rw [this, hb']; ring

/-! ## Finitely many thresholds can be reached -/

/-- The patches the code can make. -/
def moves (cells : List (Cell ℝ)) (shifts : List ℝ) : List (Patch ℝ) :=
  cells.flatMap fun c => shifts.map fun d => ⟨c.tau, c.g, c.v, c.c, d⟩

/-- The lists of `k` patches. -/
def seqs {α : Type} (l : List α) : ℕ → List (List α)
  | 0 => [[]]
  | k + 1 => l.flatMap fun a => (seqs l k).map (a :: ·)

theorem seqs_length {α : Type} (l : List α) (k : ℕ) : (seqs l k).length = l.length ^ k := by
  induction k with
  | zero => rfl
  | succ k ih => simp [seqs, List.length_flatMap, ih, pow_succ, mul_comm]

theorem mem_seqs {α : Type} (l : List α) (ps : List α) (h : ∀ p ∈ ps, p ∈ l) : ps ∈ seqs l ps.length := by
  induction ps with
  | nil => simp [seqs]
  | cons p ps ih =>
    simp only [List.length_cons, seqs, List.mem_flatMap, List.mem_map]
    exact ⟨p, h p (by simp), ps, ih fun q hq => h q (by simp [hq]), rfl⟩

theorem moves_length (cells : List (Cell ℝ)) (shifts : List ℝ) : (moves cells shifts).length = cells.length * shifts.length := by
  simp [moves, List.length_flatMap]

/-- Union bound over a list. -/
theorem union_list {α : Type} (μ : Measure Ω) [IsProbabilityMeasure μ] (l : List α) (E : α → Set Ω) (r : ℝ) (h : ∀ a ∈ l, μ.real (E a) ≤ r) :
    μ.real {ω | ∃ a ∈ l, ω ∈ E a} ≤ l.length * r := by
  induction l with
  | nil => simp
  | cons a l ih =>
    have e : {ω | ∃ b ∈ a :: l, ω ∈ E b} = E a ∪ {ω | ∃ b ∈ l, ω ∈ E b} := by ext ω; simp
    rw [e]
    have h1 := h a (by simp)
    have h2 := ih fun b hb => h b (by simp [hb])
    have h3 := measureReal_union_le (μ := μ) (E a) {ω | ∃ b ∈ l, ω ∈ E b}
    push_cast [List.length_cons]
    linarith

theorem measurable_near (B tau : ℕ) (v : ℝ) (f : 𝒳 → ℝ) (hf : Measurable f) : MeasurableSet {x | Near B tau v (f x)} := by
  unfold Near
  by_cases h0 : tau = 0
  · simp only [h0, if_true]
    exact measurableSet_lt (hf.sub_const _).abs measurable_const
  · by_cases h1 : tau = 1
    · simp only [h1, if_true, one_ne_zero, if_false]
      exact measurableSet_le measurable_const (hf.add_const _)
    · simp only [h0, h1, if_false]
      exact measurableSet_le (hf.sub_const _) measurable_const

theorem measurable_after (B : ℕ) (eta : ℝ) (grp : 𝒳 → List Bool) (hgrp : ∀ g, MeasurableSet {x | (grp x).getD g false = true})
    (ps : List (Patch ℝ)) (f : 𝒳 → ℝ) (hf : Measurable f) : Measurable fun x => ps.foldl (moved B eta (grp x)) (f x) := by
  induction ps generalizing f with
  | nil => exact hf
  | cons p ps ih =>
    refine ih (fun x => moved B eta (grp x) (f x) p) ?_
    unfold moved
    refine Measurable.ite ?_ ?_ hf
    · exact (measurable_near B p.tau p.v f hf).inter (hgrp p.g)
    · exact ((hf.add_const _).max measurable_const).min measurable_const

/-- The deviation allowed after `k` patches: `√((k log(2 M) + log(4 C / δ)) / (2 n))` for `C` cells and `M` possible patches. -/
noncomputable def radius (n C M k : ℕ) (δ : ℝ) : ℝ :=
  Real.sqrt ((k * Real.log (2 * M) + Real.log (4 * C / δ)) / (2 * n))

theorem radius_exp (hn : 0 < n) (C M k : ℕ) (hC : 0 < C) (hM : 0 < M) (δ : ℝ) (hδ : 0 < δ) (hδ1 : δ ≤ 1) :
    (M : ℝ) ^ k * (C * (2 * Real.exp (-2 * n * radius n C M k δ ^ 2))) = δ / 2 * (1 / 2) ^ k := by
  have hC' : (1 : ℝ) ≤ C := by exact_mod_cast hC
  have hM' : (1 : ℝ) ≤ M := by exact_mod_cast hM
  have hn' : (0 : ℝ) < n := by exact_mod_cast hn
  have l1 : 0 ≤ Real.log (2 * M) := Real.log_nonneg (by linarith)
  have l2 : 0 ≤ Real.log (4 * C / δ) := by
    apply Real.log_nonneg
    rw [le_div_iff₀ hδ]; linarith
  have e : -2 * (n : ℝ) * radius n C M k δ ^ 2 = -(k * Real.log (2 * M) + Real.log (4 * C / δ)) := by
    unfold radius
    rw [Real.sq_sqrt (by positivity)]
    field_simp
  have h1 : Real.exp (k * Real.log (2 * M)) = (2 * M) ^ k := by
    rw [Real.exp_nat_mul, Real.exp_log (by linarith)]
  rw [e, Real.exp_neg, Real.exp_add, h1, Real.exp_log (by positivity)]
  have : (M : ℝ) ^ k ≠ 0 := by positivity
  rw [mul_pow, one_div, inv_pow]
  field_simp
  norm_num

theorem half_sum (T : ℕ) : ∑ k ∈ Finset.range T, (1 / 2 : ℝ) ^ k ≤ 2 := by
  have := geom_sum_eq (x := (1 / 2 : ℝ)) (by norm_num) T
  rw [this]
  have h : (0 : ℝ) ≤ (1 / 2) ^ T := by positivity
  rw [div_le_iff_of_neg (by norm_num)]
  linarith

theorem after_nonneg (B : ℕ) (eta : ℝ) (grp : 𝒳 → List Bool) (thr : 𝒳 → ℝ) (ps : List (Patch ℝ)) (x : 𝒳) (h : 0 ≤ thr x) :
    0 ≤ after B eta grp thr ps x := by
  classical
  unfold after
  generalize thr x = t at h
  induction ps generalizing t with
  | nil => exact h
  | cons p ps ih =>
    refine ih _ ?_
    unfold moved
    split_ifs
    · exact le_min (le_max_right _ _) zero_le_one
    · exact h

/-- Every stored patch is one of the possible ones. -/
theorem stored_moves (p : Params ℝ) (q : ℝ) (T : ℕ) (d val : Data ℝ) :
    ∀ r ∈ (calibrateSplit (batchMVP q p.cfg.nBuckets) p T d val).2,
      r ∈ moves (grid p.taus p.nGroups (linspace 0 1 p.cfg.nBuckets) p.nDims) (mvpShifts p.cfg.nBuckets) := by
  set m := batchMVP q p.cfg.nBuckets with hm
  set L := moves (grid p.taus p.nGroups (linspace 0 1 p.cfg.nBuckets) p.nDims) (mvpShifts p.cfg.nBuckets) with hL
  have hround : ∀ s : State ℝ, (∀ r ∈ s.patches, r ∈ L) → ∀ r ∈ (Multivalid.round m p s).1.patches, r ∈ L := by
    intro s hs
    unfold Multivalid.round
    dsimp only
    split
    · exact hs
    split
    · exact hs
    next cell hcell =>
    split
    · exact hs
    next delta hdelta =>
    have hd : delta ∈ mvpShifts p.cfg.nBuckets := (C58_patch_minimises q p.cfg.nBuckets _ cell.c _ _ delta hdelta).1
    split
    · exact hs
    split
    · exact hs
    split
    · exact hs
    split
    · exact hs
    · intro r hr
      rcases List.mem_append.1 hr with h | h
      · exact hs r h
      · rw [List.mem_singleton] at h
        subst h
        rw [hL]
        unfold moves
        rw [List.mem_flatMap]
        exact ⟨cell, bestCell_mem hcell, List.mem_map.2 ⟨delta, hd, rfl⟩⟩
  have hloop : ∀ (n : ℕ) (s : State ℝ), (∀ r ∈ s.patches, r ∈ L) → ∀ r ∈ (loop m p n s).1.patches, r ∈ L := by
    intro n
    induction n with
    | zero => exact fun s hs => hs
    | succ n ih =>
      intro s hs
      have hr := hround s hs
      unfold loop
      split
      · next s' stop heq => rw [heq] at hr; exact hr
      · next s' heq => rw [heq] at hr; exact ih s' hr
  exact hloop T _ (by simp [initState])

section law
variable {X : Fin n → Ω → 𝒳} {Q : Measure 𝒳} {μ : Measure Ω} [IsProbabilityMeasure μ] (D : Draws X Q μ)
include D

/-- One list of patches and one cell. -/
theorem one_list (hn : 0 < n) (cfg : Config ℝ) (had : cfg.ptype = .additive) (q : ℝ) (h0 : 0 ≤ q) (h1 : q ≤ 1) (grp : 𝒳 → List Bool)
    (hgrp : ∀ g, MeasurableSet {x | (grp x).getD g false = true}) (thr sc : 𝒳 → ℝ) (hthr : Measurable thr) (hsc : Measurable sc)
    (ps : List (Patch ℝ)) (hps : ∀ p ∈ ps, p.c = 0) (cell : Cell ℝ) (hc : cell.c = 0) (ε : ℝ) (hε : 0 ≤ ε) :
    μ.real {ω | ε ≤ |missingIn cfg.nBuckets q cell (MetricLaw.rowsOf X grp ω)
        (replay cfg (MetricLaw.rowsOf X grp ω) (MetricLaw.rowsOf X (fun x => [thr x]) ω) ps) (MetricLaw.rowsOf X (fun x => [sc x]) ω) -
      missing Q q (cellSet cfg.nBuckets cfg.eta grp thr ps cell) (covered cfg.nBuckets cfg.eta grp thr sc ps)|} ≤
      2 * Real.exp (-2 * n * ε ^ 2) := by
  have : Nonempty (Fin n) := ⟨⟨0, hn⟩⟩
  have hQ : IsProbabilityMeasure Q := prob_law D
  have hf : Measurable (after cfg.nBuckets cfg.eta grp thr ps) := measurable_after _ _ grp hgrp ps thr hthr
  set S := cellSet cfg.nBuckets cfg.eta grp thr ps cell with hS
  set C := covered cfg.nBuckets cfg.eta grp thr sc ps with hC
  have hSm : MeasurableSet S := (measurable_near _ _ _ _ hf).inter (hgrp _)
  have hCm : MeasurableSet C := measurableSet_le hsc hf
  set g : 𝒳 → ℝ := fun x => q * S.indicator 1 x - (S ∩ C).indicator 1 x with hg
  have i1 : Integrable (S.indicator (1 : 𝒳 → ℝ)) Q := (integrable_const (1 : ℝ)).indicator hSm
  have i2 : Integrable ((S ∩ C).indicator (1 : 𝒳 → ℝ)) Q := (integrable_const (1 : ℝ)).indicator (hSm.inter hCm)
  have hint : ∫ x, g x ∂Q = missing Q q S C := by
    simp only [hg]
    rw [integral_sub (i1.const_mul q) i2, integral_const_mul, integral_indicator_one hSm, integral_indicator_one (hSm.inter hCm)]
    rfl
  have hgm : Measurable g := ((measurable_one.indicator hSm).const_mul q).sub (measurable_one.indicator (hSm.inter hCm))
  have hgb : ∀ x, g x ∈ Set.Icc (q - 1) q := by
    intro x
    simp only [hg]
    by_cases hx : x ∈ S
    · by_cases hx' : x ∈ C
      · simp [hx, hx']
      · simp [hx, hx']
    · simp [hx]; exact ⟨by linarith, h0⟩
  have hh := hoeffding D hn g hgm (q - 1) q (by linarith) hgb ε hε
  rw [show q - (q - 1) = 1 by ring, one_pow, div_one, hint] at hh
  refine le_trans (measureReal_mono (fun ω hω => ?_) (measure_ne_top _ _)) hh
  simp only [Set.mem_ofPred_eq] at hω ⊢
  rw [replay_rows X cfg had grp thr ps hps, missingIn_avg X _ _ _ hc] at hω
  exact hω

/-- All lists of patches, all cells. -/
theorem C129_uniform (hn : 0 < n) (cfg : Config ℝ) (had : cfg.ptype = .additive) (q : ℝ) (h0 : 0 ≤ q) (h1 : q ≤ 1)
    (grp : 𝒳 → List Bool) (hgrp : ∀ g, MeasurableSet {x | (grp x).getD g false = true}) (thr sc : 𝒳 → ℝ) (hthr : Measurable thr)
    (hsc : Measurable sc) (cells : List (Cell ℝ)) (hcells : ∀ c ∈ cells, c.c = 0) (shifts : List ℝ) (hcl : cells ≠ []) (hsl : shifts ≠ [])
    (T : ℕ) (δ : ℝ) (hδ : 0 < δ) (hδ1 : δ ≤ 1) :
    μ.real {ω | ∃ ps : List (Patch ℝ), ps.length ≤ T ∧ (∀ p ∈ ps, p ∈ moves cells shifts) ∧ ∃ cell ∈ cells,
      radius n cells.length (cells.length * shifts.length) ps.length δ ≤
        |missingIn cfg.nBuckets q cell (MetricLaw.rowsOf X grp ω)
          (replay cfg (MetricLaw.rowsOf X grp ω) (MetricLaw.rowsOf X (fun x => [thr x]) ω) ps)
          (MetricLaw.rowsOf X (fun x => [sc x]) ω) -
        missing Q q (cellSet cfg.nBuckets cfg.eta grp thr ps cell) (covered cfg.nBuckets cfg.eta grp thr sc ps)|} ≤ δ := by
  set M := cells.length * shifts.length with hM
  set r : ℕ → ℝ := fun k => radius n cells.length M k δ with hr
  set E : List (Patch ℝ) → Cell ℝ → Set Ω := fun ps cell => {ω | r ps.length ≤ |missingIn cfg.nBuckets q cell (MetricLaw.rowsOf X grp ω)
          (replay cfg (MetricLaw.rowsOf X grp ω) (MetricLaw.rowsOf X (fun x => [thr x]) ω) ps)
          (MetricLaw.rowsOf X (fun x => [sc x]) ω) -
        missing Q q (cellSet cfg.nBuckets cfg.eta grp thr ps cell) (covered cfg.nBuckets cfg.eta grp thr sc ps)|} with hE
  have hmc : ∀ p ∈ moves cells shifts, p.c = 0 := by
    intro p hp
    simp only [moves, List.mem_flatMap, List.mem_map] at hp
    obtain ⟨c, hc, d, -, rfl⟩ := hp
    exact hcells c hc
  have hseq : ∀ (k : ℕ) (ps : List (Patch ℝ)), ps ∈ seqs (moves cells shifts) k → ps.length = k ∧ ∀ p ∈ ps, p.c = 0 := by
    intro k
    induction k with
    | zero => intro ps h; simp [seqs] at h; subst h; simp
    | succ k ih =>
      intro ps h
      simp only [seqs, List.mem_flatMap, List.mem_map] at h
      obtain ⟨a, ha, t, ht, rfl⟩ := h
      obtain ⟨i1, i2⟩ := ih t ht
      refine ⟨by simp [i1], fun p hp => ?_⟩
      rcases List.mem_cons.1 hp with rfl | hp
      · exact hmc _ ha
      · exact i2 p hp
  have hone : ∀ k, μ.real {ω | ∃ ps ∈ seqs (moves cells shifts) k, ω ∈ {ω | ∃ cell ∈ cells, ω ∈ E ps cell}} ≤ δ / 2 * (1 / 2) ^ k := by
    intro k
    have := union_list μ (seqs (moves cells shifts) k) (fun ps => {ω | ∃ cell ∈ cells, ω ∈ E ps cell})
      (cells.length * (2 * Real.exp (-2 * n * r k ^ 2))) fun ps hps => by
        refine union_list μ cells (E ps) _ fun cell hc => ?_
        have h3 := one_list D hn cfg had q h0 h1 grp hgrp thr sc hthr hsc ps (hseq k ps hps).2 cell (hcells cell hc)
          (r k) (Real.sqrt_nonneg _)
        simp only [hE, (hseq k ps hps).1]
        exact h3
    refine this.trans (le_of_eq ?_)
    rw [seqs_length, moves_length]
    have h4 := radius_exp hn cells.length M k (List.length_pos_iff.2 hcl)
      (Nat.mul_pos (List.length_pos_iff.2 hcl) (List.length_pos_iff.2 hsl)) δ hδ hδ1
    rw [← h4, Nat.cast_pow]
  calc _ ≤ μ.real (⋃ k ∈ Finset.range (T + 1), {ω | ∃ ps ∈ seqs (moves cells shifts) k, ω ∈ {ω | ∃ cell ∈ cells, ω ∈ E ps cell}}) := by
        refine measureReal_mono (fun ω hω => ?_) (measure_ne_top _ _)
        obtain ⟨ps, hl, hps, cell, hc, hge⟩ := hω
        refine Set.mem_iUnion₂.2 ⟨ps.length, by simp; omega, ps, mem_seqs _ ps hps, cell, hc, hge⟩
    _ ≤ _ := measureReal_biUnion_finset_le _ _
    _ ≤ ∑ k ∈ Finset.range (T + 1), δ / 2 * (1 / 2) ^ k := Finset.sum_le_sum fun k _ => hone k
    _ ≤ δ := by
      rw [← Finset.mul_sum]
      have := half_sum (T + 1)
      nlinarith

/-- The event of `C129_calibrated`. -/
theorem calibrated_event (hn : 0 < n) (p : Params ℝ) (had : p.cfg.ptype = .additive) (hB : 0 < p.cfg.nBuckets) (htau : p.taus ≠ [])
    (hG : 0 < p.nGroups) (hD : p.nDims = 1) (q : ℝ) (h0 : 0 ≤ q) (h1 : q ≤ 1) (grp : 𝒳 → List Bool)
    (hgrp : ∀ g, MeasurableSet {x | (grp x).getD g false = true}) (thr sc : 𝒳 → ℝ) (hthr : Measurable thr) (hsc : Measurable sc)
    (T : ℕ) (val : Ω → Data ℝ) (δ : ℝ) (hδ : 0 < δ) (hδ1 : δ ≤ 1) (ps : Ω → List (Patch ℝ))
    (hps : ∀ ω, ps ω = (calibrateSplit (batchMVP q p.cfg.nBuckets) p T
      ⟨MetricLaw.rowsOf X grp ω, MetricLaw.rowsOf X (fun x => [thr x]) ω, MetricLaw.rowsOf X (fun x => [sc x]) ω⟩ (val ω)).2) :
    μ.real {ω | ∃ cell ∈ grid p.taus p.nGroups (linspace 0 1 p.cfg.nBuckets) 1,
      radius n (p.taus.length * p.nGroups * p.cfg.nBuckets)
        (p.taus.length * p.nGroups * p.cfg.nBuckets * (2 * p.cfg.nBuckets - 1)) (ps ω).length δ ≤
        |missingIn p.cfg.nBuckets q cell (MetricLaw.rowsOf X grp ω)
          (replay p.cfg (MetricLaw.rowsOf X grp ω) (MetricLaw.rowsOf X (fun x => [thr x]) ω) (ps ω))
          (MetricLaw.rowsOf X (fun x => [sc x]) ω) -
        missing Q q (cellSet p.cfg.nBuckets p.cfg.eta grp thr (ps ω) cell) (covered p.cfg.nBuckets p.cfg.eta grp thr sc (ps ω))|} ≤ δ := by
  set cells := grid p.taus p.nGroups (linspace (0 : ℝ) 1 p.cfg.nBuckets) 1 with hcells
  have hlen : cells.length = p.taus.length * p.nGroups * p.cfg.nBuckets := by
    have hl : (linspace (0 : ℝ) 1 p.cfg.nBuckets).length = p.cfg.nBuckets := by unfold linspace; simp
    rw [hcells]; unfold grid
    simp [List.length_flatMap, hl]
    ring
  have hsl : (mvpShifts (K := ℝ) p.cfg.nBuckets).length = 2 * p.cfg.nBuckets - 1 := by
    unfold mvpShifts linspace
    simp
    omega
  have hpos : 0 < cells.length := by
    rw [hlen]
    exact Nat.mul_pos (Nat.mul_pos (List.length_pos_iff.2 htau) hG) hB
  have h := C129_uniform D hn p.cfg had q h0 h1 grp hgrp thr sc hthr hsc cells
    (fun c hc => by have := (mem_grid.1 hc).2.2.2; omega) (mvpShifts p.cfg.nBuckets) (List.length_pos_iff.1 hpos)
    (List.length_pos_iff.1 (by rw [hsl]; omega)) T δ hδ hδ1
  refine le_trans (measureReal_mono (fun ω hω => ?_) (measure_ne_top _ _)) h
  obtain ⟨cell, hc, hge⟩ := hω
  have hm := stored_moves p q T ⟨MetricLaw.rowsOf X grp ω, MetricLaw.rowsOf X (fun x => [thr x]) ω, MetricLaw.rowsOf X (fun x => [sc x]) ω⟩ (val ω)
  rw [← hps ω, hD] at hm
  refine ⟨ps ω, ?_, hm, cell, hc, ?_⟩
  · rw [hps ω]
    exact (C17_round_count _ p T _ _ _ _ rfl).2.1
  · rw [hlen, hsl]; exact hge

/-- **C129.** Run BatchMVP with additive patches on `n` independent rows (whatever the validation data, early stopping included). Except
with probability `δ`, in each of the `C` cells of the search grid the missing coverage of the returned thresholds on the calibration rows
is within `√((k log(2 M) + log(4 C / δ)) / (2 n))` of the missing coverage of a new row, where `k` is the number of stored patches and `M`
the number of cells times the number of shifts. -/
theorem C129_calibrated (hn : 0 < n) (p : Params ℝ) (had : p.cfg.ptype = .additive) (hB : 0 < p.cfg.nBuckets) (htau : p.taus ≠ [])
    (hG : 0 < p.nGroups) (hD : p.nDims = 1) (q : ℝ) (h0 : 0 ≤ q) (h1 : q ≤ 1) (grp : 𝒳 → List Bool)
    (hgrp : ∀ g, MeasurableSet {x | (grp x).getD g false = true}) (thr sc : 𝒳 → ℝ) (hthr : Measurable thr) (hsc : Measurable sc)
    (T : ℕ) (val : Ω → Data ℝ) (δ : ℝ) (hδ : 0 < δ) (hδ1 : δ ≤ 1) :
    ∃ bad : Set Ω, μ.real bad ≤ δ ∧ ∀ ω ∉ bad, ∀ (st : Status ℝ) (ps : List (Patch ℝ)),
      calibrateSplit (batchMVP q p.cfg.nBuckets) p T
        ⟨MetricLaw.rowsOf X grp ω, MetricLaw.rowsOf X (fun x => [thr x]) ω, MetricLaw.rowsOf X (fun x => [sc x]) ω⟩ (val ω) = (st, ps) →
      ∀ cell ∈ grid p.taus p.nGroups (linspace 0 1 p.cfg.nBuckets) 1,
        |missingIn p.cfg.nBuckets q cell (MetricLaw.rowsOf X grp ω)
            (replay p.cfg (MetricLaw.rowsOf X grp ω) (MetricLaw.rowsOf X (fun x => [thr x]) ω) ps)
            (MetricLaw.rowsOf X (fun x => [sc x]) ω) -
          missing Q q (cellSet p.cfg.nBuckets p.cfg.eta grp thr ps cell) (covered p.cfg.nBuckets p.cfg.eta grp thr sc ps)| <
        radius n (p.taus.length * p.nGroups * p.cfg.nBuckets)
          (p.taus.length * p.nGroups * p.cfg.nBuckets * (2 * p.cfg.nBuckets - 1)) st.nRounds δ := by
  refine ⟨_, calibrated_event D hn p had hB htau hG hD q h0 h1 grp hgrp thr sc hthr hsc T val δ hδ hδ1 _ fun _ => rfl, ?_⟩
  intro ω hω st ps h cell hc
  by_contra hcon
  apply hω
  refine ⟨cell, hc, ?_⟩
  have hst : st.nRounds = ps.length := (C17_round_count _ p T _ _ st ps h).1
  rw [h, ← hst]
  exact not_lt.1 hcon

/-- **C129, groups.** If buckets of type `>=` are searched (by default they are), the same holds of every group as a whole: the share of
calibration rows of the group whose score is above the returned threshold tells, up to the same deviation, how often the target of a new row
of the group is missed. -/
theorem C129_groups (hn : 0 < n) (p : Params ℝ) (had : p.cfg.ptype = .additive) (hB : 0 < p.cfg.nBuckets) (htau : 1 ∈ p.taus)
    (hG : 0 < p.nGroups) (hD : p.nDims = 1) (q : ℝ) (h0 : 0 ≤ q) (h1 : q ≤ 1) (grp : 𝒳 → List Bool)
    (hgrp : ∀ g, MeasurableSet {x | (grp x).getD g false = true}) (thr sc : 𝒳 → ℝ) (hthr : Measurable thr) (hsc : Measurable sc)
    (ht0 : ∀ x, 0 ≤ thr x) (T : ℕ) (val : Ω → Data ℝ) (δ : ℝ) (hδ : 0 < δ) (hδ1 : δ ≤ 1) :
    ∃ bad : Set Ω, μ.real bad ≤ δ ∧ ∀ ω ∉ bad, ∀ (st : Status ℝ) (ps : List (Patch ℝ)),
      calibrateSplit (batchMVP q p.cfg.nBuckets) p T
        ⟨MetricLaw.rowsOf X grp ω, MetricLaw.rowsOf X (fun x => [thr x]) ω, MetricLaw.rowsOf X (fun x => [sc x]) ω⟩ (val ω) = (st, ps) →
      ∀ g < p.nGroups, ∀ G C : Set 𝒳, G = {x | (grp x).getD g false = true} →
        C = {x | sc x ≤ after p.cfg.nBuckets p.cfg.eta grp thr ps x} →
        |(q * avg X (G.indicator 1) id ω - avg X ((G ∩ C).indicator 1) id ω) - (q * Q.real G - Q.real (G ∩ C))| <
        radius n (p.taus.length * p.nGroups * p.cfg.nBuckets)
          (p.taus.length * p.nGroups * p.cfg.nBuckets * (2 * p.cfg.nBuckets - 1)) st.nRounds δ := by
  obtain ⟨bad, hb, hh⟩ := C129_calibrated D hn p had hB (List.ne_nil_of_mem htau) hG hD q h0 h1 grp hgrp thr sc hthr hsc T val δ hδ hδ1
  refine ⟨bad, hb, fun ω hω st ps h g hg G C hGe hCe => ?_⟩
  have hv : (0 : ℝ) ∈ linspace (0 : ℝ) 1 p.cfg.nBuckets := by
    unfold linspace
    exact List.mem_map.2 ⟨0, List.mem_range.2 hB, by simp⟩
  have hk := hh ω hω st ps h ⟨1, g, 0, 0⟩ (mem_grid.2 ⟨htau, hg, hv, one_pos⟩)
  have hm := stored_moves p q T ⟨MetricLaw.rowsOf X grp ω, MetricLaw.rowsOf X (fun x => [thr x]) ω, MetricLaw.rowsOf X (fun x => [sc x]) ω⟩ (val ω)
  rw [h, hD] at hm
  have hps : ∀ p ∈ ps, p.c = 0 := by
    intro r hr
    have := hm r hr
    simp only [moves, List.mem_flatMap, List.mem_map] at this
    obtain ⟨c, hc, d, -, rfl⟩ := this
    have := (mem_grid.1 hc).2.2.2
    change c.c = 0
    omega
  have hset : {x | Near p.cfg.nBuckets 1 0 (after p.cfg.nBuckets p.cfg.eta grp thr ps x) ∧ (grp x).getD g false = true} = G := by
    rw [hGe]
    ext x
    constructor
    · exact fun h => h.2
    · intro hx
      refine ⟨?_, hx⟩
      have := after_nonneg p.cfg.nBuckets p.cfg.eta grp thr ps x (ht0 x)
      unfold Near
      simp only [one_ne_zero, if_false, if_true]
      positivity
  rw [replay_rows X p.cfg had grp thr ps hps, missingIn_avg X _ _ _ rfl] at hk
  unfold cellSet covered missing at hk
  dsimp only at hk
  rw [hset, ← hCe] at hk
  have e : avg X (fun x => q * G.indicator 1 x - (G ∩ C).indicator 1 x) id ω =
      q * avg X (G.indicator 1) id ω - avg X ((G ∩ C).indicator 1) id ω := by
    simp only [avg, Finset.sum_sub_distrib, ← Finset.mul_sum, id]
    ring
  rw [e] at hk
  exact hk

end law

/-- **C129.** `apply_patches` gives a new row on its own the threshold that the statements above speak of. -/
theorem C129_new_row (cfg : Config ℝ) (had : cfg.ptype = .additive) (grp : 𝒳 → List Bool) (thr : 𝒳 → ℝ) (ps : List (Patch ℝ))
    (hps : ∀ p ∈ ps, p.c = 0) (x : 𝒳) (h0 : 0 ≤ thr x) (h1 : thr x ≤ 1) :
    applyPatches cfg ps [grp x] [[thr x]] = .ok [[after cfg.nBuckets cfg.eta grp thr ps x]] := by
  unfold applyPatches
  by_cases h : ps = []
  · subst h; rfl
  · rw [if_neg h, if_neg (by simp [valuesOk, h0, h1]), if_neg (by simp)]
    congr 1
    exact replay_map cfg had grp ps hps thr [x]

/-! ## Coverage of a patched cell -/

section patched
variable {K : Type*} [Field K] [LinearOrder K] [IsStrictOrderedRing K]

/-- The rows (threshold, score) of a cell. -/
def cellRows (b : List Bool) (values scores : List K) : List (K × K) := ((b.zip (values.zip scores)).filter fun t => t.1).map (·.2)

/-- The fraction of rows with score at most the threshold plus `d`. -/
def coverAt (rows : List (K × K)) (d : K) : K := (rows.countP fun r => decide (r.2 ≤ r.1 + d) : ℕ) / (rows.length : K)

theorem coverAt_step (rows : List (K × K)) (d e : K) (h : d ≤ e) :
    coverAt rows e - coverAt rows d = (rows.countP fun r => decide (d < r.2 - r.1 ∧ r.2 - r.1 ≤ e) : ℕ) / (rows.length : K) := by
  unfold coverAt
  rw [← sub_div]
  congr 1
  rw [sub_eq_iff_eq_add, ← Nat.cast_add]
  congr 1
  induction rows with
  | nil => rfl
  | cons r rows ih =>
    simp only [List.countP_cons, decide_eq_true_eq, ih]
    by_cases h1 : r.2 ≤ r.1 + d
    · have h2 : r.2 ≤ r.1 + e := by linarith
      have h3 : ¬ (d < r.2 - r.1 ∧ r.2 - r.1 ≤ e) := fun hh => by linarith [hh.1]
      simp only [h1, h2, h3, if_true, if_false]; omega
    · by_cases h2 : r.2 ≤ r.1 + e
      · have h3 : d < r.2 - r.1 ∧ r.2 - r.1 ≤ e := ⟨by push Not at h1; linarith, by linarith⟩
        simp only [h1, h2, h3, if_true, if_false, and_self]; omega
      · have h3 : ¬ (d < r.2 - r.1 ∧ r.2 - r.1 ≤ e) := fun hh => h2 (by linarith [hh.2])
        simp only [h1, h2, h3, if_false]; omega

theorem crossing (F : ℕ → K) (q : K) (N : ℕ) (h0 : F 0 ≤ q) (h1 : q ≤ F N) (hN : 0 < N) : ∃ k < N, F k ≤ q ∧ q ≤ F (k + 1) := by
  by_contra hcon
  push Not at hcon
  have : ∀ k ≤ N, F k ≤ q := by
    intro k
    induction k with
    | zero => exact fun _ => h0
    | succ k ih => exact fun hk => (hcon k (by omega) (ih (by omega))).le
  have h2 := hcon (N - 1) (by omega) (this _ (by omega))
  rw [Nat.sub_add_cancel hN] at h2
  exact absurd h1 (not_le.2 h2)

theorem shift_mem (B : ℕ) (hB : 2 ≤ B) (k : ℕ) (hk : k ≤ 2 * (B - 1)) : -1 + (k : K) / ((B - 1 : ℕ) : K) ∈ mvpShifts (K := K) B := by
  have hpos : (0 : K) < ((B - 1 : ℕ) : K) := by exact_mod_cast (by omega : 0 < B - 1)
  unfold mvpShifts
  dsimp only
  rw [List.mem_append]
  rcases Nat.lt_or_ge k (B - 1) with h | h
  · left
    rw [List.mem_map]
    refine ⟨(((B - 1 - k : ℕ) : K)) / ((B - 1 : ℕ) : K), ?_, ?_⟩
    · rw [List.dropLast_reverse, List.mem_reverse]
      rw [List.mem_iff_getElem]
      refine ⟨B - 1 - k - 1, by unfold linspace; simp; omega, ?_⟩
      rw [List.getElem_tail]
      unfold linspace
      simp only [List.getElem_map, List.getElem_range]
      have e : B - 1 - k - 1 + 1 = B - 1 - k := by omega
      rw [e]; ring
    · rw [Nat.cast_sub h.le]
      field_simp
      ring
  · right
    unfold linspace
    rw [List.mem_map]
    refine ⟨k - (B - 1), List.mem_range.2 (by omega), ?_⟩
    rw [Nat.cast_sub h]
    field_simp
    ring

theorem mvpProb_cover (b : List Bool) (values scores : List K) (hv : values.length = b.length) (hs : scores.length = b.length)
    (d : K) : mvpProb b values scores d = coverAt (cellRows b values scores) d := by
  have e : mvpProb b values scores d = mvpProb b (values.map (· + d)) scores 0 := by
    unfold mvpProb
    congr 3
    rw [List.zipWith_map_right]
    simp
  rw [e, mvpProb_zero _ _ _ (by simp [hv]) hs]
  unfold cellCoverage coverAt cellRows
  rw [List.countP_map, List.length_map]
  have key : ∀ (b : List Bool) (values scores : List K), values.length = b.length → scores.length = b.length →
      ((b.zip ((values.map (· + d)).zip scores)).filter fun t => t.1).countP (fun t => decide (t.2.2 ≤ t.2.1)) =
        ((b.zip (values.zip scores)).filter fun t => t.1).countP ((fun r => decide (r.2 ≤ r.1 + d)) ∘ fun x => x.2) ∧
      b.count true = ((b.zip (values.zip scores)).filter fun t => t.1).length := by
    intro b
    induction b with
    | nil => intro values scores _ _; simp
    | cons t b ih =>
      intro values scores hv hs
      match values, scores, hv, hs with
      | v :: values, s :: scores, hv, hs =>
        obtain ⟨i1, i2⟩ := ih values scores (by simpa using hv) (by simpa using hs)
        cases t
        · simpa using ⟨i1, i2⟩
        · simp only [List.map_cons, List.zip_cons_cons, List.filter_cons, if_true, List.countP_cons, i1, List.count_cons_self, i2,
            List.length_cons, Function.comp]
          exact ⟨trivial, trivial⟩
  obtain ⟨k1, k2⟩ := key b values scores hv hs
  rw [k1, k2]

theorem patched_cover (b : List Bool) (values scores : List K) (hv : values.length = b.length) (hs : scores.length = b.length)
    (hs0 : ∀ s ∈ scores, 0 < s ∧ s ≤ 1) (d : K) :
    coverAt (cellRows b (List.zipWith (fun t v => if t then clip (v + d) 0 1 else v) b values) scores) 0 =
      coverAt (cellRows b values scores) d := by
  have key : ∀ (b : List Bool) (values scores : List K), values.length = b.length → scores.length = b.length →
      (∀ s ∈ scores, 0 < s ∧ s ≤ 1) →
      (cellRows b (List.zipWith (fun t v => if t then clip (v + d) 0 1 else v) b values) scores).countP (fun r => decide (r.2 ≤ r.1 + 0)) =
        (cellRows b values scores).countP (fun r => decide (r.2 ≤ r.1 + d)) ∧
      (cellRows b (List.zipWith (fun t v => if t then clip (v + d) 0 1 else v) b values) scores).length = (cellRows b values scores).length := by
    intro b
    induction b with
    | nil => intro values scores _ _ _; simp [cellRows]
    | cons t b ih =>
      intro values scores hv hs hs0
      match values, scores, hv, hs with
      | v :: values, s :: scores, hv, hs =>
        obtain ⟨i1, i2⟩ := ih values scores (by simpa using hv) (by simpa using hs) fun s hs => hs0 s (by simp [hs])
        cases t
        · unfold cellRows at i1 i2 ⊢
          simp only [List.zipWith_cons_cons, List.zip_cons_cons, List.filter_cons, Bool.false_eq_true, if_false]
          exact ⟨i1, i2⟩
        · unfold cellRows at i1 i2 ⊢
          simp only [List.zipWith_cons_cons, List.zip_cons_cons, List.filter_cons, if_true, List.map_cons, List.countP_cons, i1,
            List.length_cons, i2, and_true, Nat.add_left_cancel_iff]
          obtain ⟨p0, p1⟩ := hs0 s (by simp)
          have : (s ≤ clip (v + d) 0 1 + 0) ↔ s ≤ v + d := by
            unfold clip
            rw [add_zero, le_min_iff, le_max_iff]
            constructor
            · rintro ⟨h | h, -⟩
              · exact h
              · exact absurd h (not_le.2 p0)
            · exact fun h => ⟨Or.inl h, p1⟩
          simp only [this]
  obtain ⟨k1, k2⟩ := key b values scores hv hs hs0
  unfold coverAt
  rw [k1, k2]

/-- **C129, a patched cell.** Patch a non-empty cell with the whole step (`eta = 1`), scores in (0,1], thresholds in [0,1], and at least two
buckets `B`. If no interval `(a, a + 1/(B-1)]` holds more than a fraction `ρ` of the differences score minus threshold of the cell, then after
the patch the coverage of its rows is within `ρ/2` of the target. -/
theorem C129_patched (q : K) (h0 : 0 ≤ q) (h1 : q ≤ 1) (B : ℕ) (hB : 2 ≤ B) (b : List Bool) (thr sc : List K)
    (ht : thr.length = b.length) (hs : sc.length = b.length) (hb : 0 < b.count true) (ht0 : ∀ t ∈ thr, 0 ≤ t ∧ t ≤ 1)
    (hs0 : ∀ s ∈ sc, 0 < s ∧ s ≤ 1) (ρ : K)
    (hρ : ∀ a : K, (((cellRows b thr sc).countP fun r => decide (a < r.2 - r.1 ∧ r.2 - r.1 ≤ a + 1 / ((B - 1 : ℕ) : K)) : ℕ) : K) ≤
      ρ * (cellRows b thr sc).length) (delta : K)
    (hp : mvpPatch q B b 0 (thr.map fun t => [t]) (sc.map fun s => [s]) = some delta) :
    ∃ thr' : List K, patchValues .additive 1 delta 0 b (thr.map fun t => [t]) = thr'.map (fun t => [t]) ∧
      |q - coverAt (cellRows b thr' sc) 0| ≤ ρ / 2 := by
  have hcol : ∀ l : List K, col (l.map fun t => [t]) 0 = l := by
    intro l; unfold col; rw [List.map_map]; conv_rhs => rw [← List.map_id l]
    rfl
  refine ⟨List.zipWith (fun t v => if t then clip (v + delta) 0 1 else v) b thr, ?_, ?_⟩
  · unfold patchValues
    rw [List.zipWith_map_right, List.map_zipWith]
    congr 1
    funext t v
    unfold patchRow patchEntry
    cases t <;> simp
  · rw [patched_cover b thr sc ht hs hs0]
    have hmin := (C58_patch_minimises q B b 0 _ _ delta hp).2.1
    rw [hcol, hcol] at hmin
    simp only [mvpProb_cover b thr sc ht hs] at hmin
    set R := cellRows b thr sc with hR
    have hRmem : ∀ r ∈ R, (0 ≤ r.1 ∧ r.1 ≤ 1) ∧ 0 < r.2 ∧ r.2 ≤ 1 := by
      intro r hr
      rw [hR] at hr
      unfold cellRows at hr
      obtain ⟨t, ht', rfl⟩ := List.mem_map.1 hr
      have := (List.mem_filter.1 ht').1
      have h2 : t.2 ∈ thr.zip sc := (List.of_mem_zip (a := t.1) (b := t.2) this).2
      have h3 := List.of_mem_zip (a := t.2.1) (b := t.2.2) h2
      exact ⟨ht0 _ h3.1, hs0 _ h3.2⟩
    have hlen : 0 < R.length := by
      rw [hR]; unfold cellRows
      rw [List.length_map]
      have : ∀ (b : List Bool) (values scores : List K), values.length = b.length → scores.length = b.length →
          b.count true = ((b.zip (values.zip scores)).filter fun t => t.1).length := by
        intro b
        induction b with
        | nil => intro values scores _ _; simp
        | cons t b ih =>
          intro values scores hv hs
          match values, scores, hv, hs with
          | v :: values, s :: scores, hv, hs =>
            have i2 := ih values scores (by simpa using hv) (by simpa using hs)
            cases t
            · simpa using i2
            · simp only [List.zip_cons_cons, List.filter_cons, if_true, List.count_cons_self, i2, List.length_cons]
      rw [← this b thr sc ht hs]; exact hb
    have hlen' : (0 : K) < R.length := by exact_mod_cast hlen
    have hpos : (0 : K) < ((B - 1 : ℕ) : K) := by exact_mod_cast (by omega : 0 < B - 1)
    set F : ℕ → K := fun k => coverAt R (-1 + (k : K) / ((B - 1 : ℕ) : K)) with hF
    have hF0 : F 0 = 0 := by
      simp only [hF]
      unfold coverAt
      have : R.countP (fun r => decide (r.2 ≤ r.1 + (-1 + ((0 : ℕ) : K) / ((B - 1 : ℕ) : K)))) = 0 := by
        rw [List.countP_eq_zero]
        intro r hr
        obtain ⟨⟨a1, a2⟩, a3, a4⟩ := hRmem r hr
        simp only [Nat.cast_zero, zero_div, add_zero, decide_eq_true_eq, not_le]
        linarith
      rw [this]; simp
    have hFN : F (2 * (B - 1)) = 1 := by
      simp only [hF]
      unfold coverAt
      have : R.countP (fun r => decide (r.2 ≤ r.1 + (-1 + ((2 * (B - 1) : ℕ) : K) / ((B - 1 : ℕ) : K)))) = R.length := by
        rw [List.countP_eq_length]
        intro r hr
        obtain ⟨⟨a1, a2⟩, a3, a4⟩ := hRmem r hr
        rw [Nat.cast_mul, mul_div_assoc, div_self hpos.ne', decide_eq_true_eq]
        push_cast
        linarith
      rw [this, div_self hlen'.ne']
    obtain ⟨k, hk, k1, k2⟩ := crossing F q (2 * (B - 1)) (by rw [hF0]; exact h0) (by rw [hFN]; exact h1) (by omega)
    have hstep : F (k + 1) - F k ≤ ρ := by
      simp only [hF]
      have e : -1 + ((k + 1 : ℕ) : K) / ((B - 1 : ℕ) : K) = (-1 + (k : K) / ((B - 1 : ℕ) : K)) + 1 / ((B - 1 : ℕ) : K) := by
        push_cast; ring
      rw [e, coverAt_step R _ _ (by linarith [one_div_pos.2 hpos]), div_le_iff₀ hlen']
      exact hρ _
    have m1 := hmin _ (shift_mem B hB k (by omega))
    have m2 := hmin _ (shift_mem B hB (k + 1) (by omega))
    change _ ≤ |q - F k| at m1
    change _ ≤ |q - F (k + 1)| at m2
    rw [abs_of_nonneg (a := q - F k) (by linarith)] at m1
    rw [abs_of_nonpos (a := q - F (k + 1)) (by linarith)] at m2
    linarith

/-- Three rows of the cell with differences 1/4, 1/2, 3/4, five buckets: no interval of length 1/4 holds more than one of them, and after
the patch two of the three rows are covered. -/
example : mvpPatch (K := ℚ) (3 / 5) 5 [true, true, false, true] 0 [[0], [0], [0], [0]] [[1 / 4], [1 / 2], [1 / 8], [3 / 4]] = some (1 / 2) ∧
    coverAt (K := ℚ) (cellRows [true, true, false, true] [1 / 2, 1 / 2, 0, 1 / 2] [1 / 4, 1 / 2, 1 / 8, 3 / 4]) 0 = 2 / 3 := by
  constructor <;> decide +kernel

end patched

/-- **C129 (false).** The deviation is about the calibration rows, whose coverage need not be near the target although the run reports that it
has converged: a validation row outside the only group is never patched and its loss is already zero, so that the first patch is discarded, no
patch is stored, `converged` is true and no calibration row is covered. -/
theorem C129_converged_false :
    ∃ (p : Params ℚ) (d val : Data ℚ), p.atol = 1 / 10000 ∧ p.rtol = 1 / 1000000 ∧ p.taus = [1, 2] ∧ p.cfg = ⟨100, 1 / 10, .additive⟩ ∧
      d = ⟨[[true], [true]], [[0], [0]], [[1 / 2], [1 / 4]]⟩ ∧ val = ⟨[[false]], [[1 / 2]], [[1 / 2]]⟩ ∧
      (calibrateSplit (batchMVP (19 / 20) 100) p 1000 d val).1.converged = true ∧ (calibrateSplit (batchMVP (19 / 20) 100) p 1000 d val).2 = [] ∧
      mvpProb [true, true] [0, 0] [1 / 2, 1 / 4] (0 : ℚ) = 0 :=
  ⟨⟨⟨100, 1 / 10, .additive⟩, [1, 2], 1, 1, 1 / 100, 1 / 10000, 1 / 1000000⟩, _, _, rfl, rfl, rfl, rfl, rfl, rfl, by decide +kernel,
    by decide +kernel, by decide +kernel⟩

/-! ## Examples -/

/-- Ten stored patches, one group, both default bucket types, 100 buckets, `δ = 1/20`: with 10 million rows the deviation is below 1/250. -/
example : radius 10000000 (2 * 1 * 100) (2 * 1 * 100 * (2 * 100 - 1)) 10 (1 / 20) < 1 / 250 := by
  unfold radius
  rw [Real.sqrt_lt' (by norm_num), div_lt_iff₀ (by norm_num)]
  have h1 : Real.log (2 * ((2 * 1 * 100 * (2 * 100 - 1) : ℕ) : ℝ)) ≤ 17 * Real.log 2 := by
    rw [← Real.log_rpow (by norm_num)]
    refine Real.log_le_log (by norm_num) ?_
    norm_num
  have h2 : Real.log (4 * ((2 * 1 * 100 : ℕ) : ℝ) / (1 / 20)) ≤ 14 * Real.log 2 := by
    rw [← Real.log_rpow (by norm_num)]
    refine Real.log_le_log (by norm_num) ?_
    norm_num
  have h3 := Real.log_two_lt_d9
  push_cast at h1 h2 ⊢
  generalize Real.log (4 * 200 / (1 / 20)) = b at h2 ⊢
  generalize Real.log (2 * 39800) = a at h1 ⊢
  norm_num at h3 ⊢
  linarith

/-- The setting of the theorems is not empty: rows drawn uniformly, one group of all rows, thresholds 0, two buckets. -/
example : (⟨⟨2, 1 / 10, .additive⟩, [1, 2], 1, 1, 1 / 2, 0, 0⟩ : Params ℝ).cfg.ptype = .additive ∧ 1 ∈ [1, 2] ∧
    (∀ g, MeasurableSet {_x : ℝ | ([true] : List Bool).getD g false = true}) ∧ Measurable (fun _ : ℝ => (0 : ℝ)) :=
  ⟨rfl, by simp, fun g => MeasurableSet.const _, measurable_const⟩

/-! ### Concrete cases that meet the hypotheses of the theorems above -/

theorem exDraws (n : ℕ) : Draws (fun (i : Fin n) (ω : Fin n → ℝ) => ω i) (gaussianReal 0 1) (Measure.pi fun _ => gaussianReal 0 1) where
  meas i := measurable_pi_apply i
  indep := iIndepFun_pi (X := fun _ x => x) fun _ => aemeasurable_id
  law i := (measurePreserving_eval (fun _ => gaussianReal 0 1) i).map_eq

example := C129_uniform (exDraws 1000) (by norm_num) ⟨2, 1 / 10, .additive⟩ rfl (9 / 10) (by norm_num) (by norm_num) (fun _ => [true])
  (fun _ => MeasurableSet.const _) (fun _ => 1 / 2) (fun x => x) measurable_const measurable_id (grid [1, 2] 1 (linspace 0 1 2) 1)
  (by intro c hc; simp [grid] at hc; aesop) [0, 1] (by simp [grid, linspace]; exact ⟨0, zero_le_one⟩) (by simp) 10 (1 / 20) (by norm_num) (by norm_num)
example := C129_calibrated (exDraws 1000) (by norm_num) ⟨⟨2, 1 / 10, .additive⟩, [1, 2], 1, 1, 1 / 2, 0, 0⟩ rfl (by norm_num) (by simp) (by norm_num) rfl
  (9 / 10) (by norm_num) (by norm_num) (fun _ => [true]) (fun _ => MeasurableSet.const _) (fun _ => 1 / 2) (fun x => x) measurable_const measurable_id
  10 (fun _ => ⟨[[true]], [[0]], [[1 / 2]]⟩) (1 / 20) (by norm_num) (by norm_num)
example := C129_groups (exDraws 1000) (by norm_num) ⟨⟨2, 1 / 10, .additive⟩, [1, 2], 1, 1, 1 / 2, 0, 0⟩ rfl (by norm_num) (by simp) (by norm_num) rfl
  (9 / 10) (by norm_num) (by norm_num) (fun _ => [true]) (fun _ => MeasurableSet.const _) (fun _ => 1 / 2) (fun x => x) measurable_const measurable_id
  (fun _ => by norm_num) 10 (fun _ => ⟨[[true]], [[0]], [[1 / 2]]⟩) (1 / 20) (by norm_num) (by norm_num)
example := C129_new_row (𝒳 := ℝ) ⟨2, 1 / 10, .additive⟩ rfl (fun _ => [true]) (fun _ => 1 / 2) [⟨1, 0, 1, 0, 1 / 4⟩] (by simp) 7 (by norm_num) (by norm_num)

end Verif.Props.BatchMVPLaw
