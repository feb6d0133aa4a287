import Verif.Model.MaxCoverage
import Verif.Lemmas.ArrayOps
import Verif.Props.MultivalidError

/-! Property C08: the max-coverage fixed-precision calibrator. -/
set_option linter.unusedSectionVars false

namespace Verif.Props

open Verif.MaxCoverage Verif.ArrayOps
open Verif.Multivalid (probB maskedMean)

variable {K : Type*} [Field K] [LinearOrder K] [IsStrictOrderedRing K]

/-- Specification: the targets of the covered rows. -/
def coveredTargets (cov : K → Bool) (probs targets : List K) : List K :=
  ((probs.zip targets).filter fun t => cov t.1).map fun t => t.2

/-- Specification: a transformation of the probabilities qualifies if it covers something and the mean target of what it
covers reaches the level. -/
def Qualifies (cov : K → Bool) (level : K) (probs targets : List K) : Prop :=
  0 < probs.countP cov ∧ level ≤ mean (coveredTargets cov probs targets)

/-- Scaling only the probabilities above one half. -/
def scalePos (tau : K) (probs : List K) : List K := probs.map fun p => if 1 / 2 < p then min (tau * p) 1 else p

/-- Scaling only the probabilities below one half. -/
def scaleNeg (tau : K) (probs : List K) : List K := probs.map fun p => if p < 1 / 2 then tau * p else p

theorem selected_eq_covered (cov : K → Bool) (probs targets : List K) :
    selected (probs.map cov) targets = coveredTargets cov probs targets := by
  unfold selected coveredTargets
  induction probs generalizing targets with
  | nil => simp
  | cons p probs ih =>
    cases targets with
    | nil => simp
    | cons y targets =>
      simp only [List.map_cons, List.zip_cons_cons, List.filter_cons]
      cases cov p <;> simp [ih]

theorem count_map_cov (cov : K → Bool) (probs : List K) : (probs.map cov).count true = probs.countP cov := by
  induction probs with
  | nil => rfl
  | cons p probs ih => rw [List.map_cons, List.count_cons, List.countP_cons, ih]; simp

theorem objective_pos_iff (cov : K → Bool) (probs targets : List K) (level : K) (hl : targets.length = probs.length) :
    (0 < objective (probs.map cov) targets level ↔ Qualifies cov level probs targets) := by
  unfold objective Qualifies
  dsimp only
  rw [← count_map_cov, ← probB_pos_iff (K := K), ← selected_eq_covered]
  by_cases hc : 0 < (probs.map cov).count true
  · have hp := (probB_pos_iff (K := K) _).2 hc
    rw [maskedMean_div_probB _ _ (by simpa using hl) hc]
    constructor
    · intro h
      split at h
      · next hh => exact ⟨hp, hh.2⟩
      · exact absurd h (lt_irrefl _)
    · intro h
      rw [if_pos ⟨hp.ne', h.2⟩]; exact hp
  · have h0 : probB (K := K) (probs.map cov) = 0 := by
      unfold probB
      have : (probs.map cov).count true = 0 := by omega
      rw [this]; simp
    rw [h0]; simp

theorem objective_of_qualifies (cov : K → Bool) (probs targets : List K) (level : K)
    (hl : targets.length = probs.length) (h : Qualifies cov level probs targets) :
    objective (probs.map cov) targets level = ((probs.countP cov : ℕ) : K) / (probs.length : K) := by
  have hpos := (objective_pos_iff cov probs targets level hl).2 h
  unfold objective at hpos ⊢
  dsimp only at hpos ⊢
  split at hpos
  · next hh => rw [if_pos hh]; unfold probB; rw [count_map_cov, List.length_map]
  · exact absurd hpos (lt_irrefl _)

theorem objective_nonneg (b : List Bool) (targets : List K) (level : K) : 0 ≤ objective b targets level := by
  unfold objective
  dsimp only
  split
  · unfold probB; positivity
  · exact le_rfl

/-- The first maximiser of the objective over a grid: either it qualifies and covers at least as much as every
qualifying grid point, or nothing qualifies and it is the first grid point. -/
theorem argmax_objective (grid : List K) (hne : grid ≠ []) (B : K → List Bool) (targets : List K) (level : K)
    (f : K → List K) (cov : K → Bool) (hB : ∀ tau, B tau = (f tau).map cov)
    (hl : ∀ tau, targets.length = (f tau).length) (best : K)
    (hbest : best = grid.getD (argmax (grid.map fun tau => objective (B tau) targets level)) 0) :
    best ∈ grid ∧
    ((Qualifies cov level (f best) targets ∧
        ∀ tau ∈ grid, Qualifies cov level (f tau) targets → (f tau).countP cov ≤ (f best).countP cov) ∨
      ((∀ tau ∈ grid, ¬ Qualifies cov level (f tau) targets) ∧ grid.head? = some best)) := by
  set vals := grid.map fun tau => objective (B tau) targets level with hvals
  have hne' : vals ≠ [] := by rw [hvals]; simpa using hne
  obtain ⟨M, hM, hmax, hfirst⟩ := argmax_spec vals hne'
  have hlt := argmax_lt vals hne'
  have hlt' : argmax vals < grid.length := by simpa [hvals] using hlt
  have hb : grid[argmax vals]? = some best := by
    rw [hbest, List.getD_eq_getElem?_getD, List.getElem?_eq_getElem hlt']; rfl
  have hmem : best ∈ grid := List.mem_of_getElem? hb
  have hMb : objective (B best) targets level = M := by
    rw [hvals, List.getElem?_map, hb] at hM; simpa using hM
  refine ⟨hmem, ?_⟩
  have hlen : ∀ tau, (f tau).length = (f best).length := fun tau => by rw [← hl tau, hl best]
  by_cases hq : Qualifies cov level (f best) targets
  · left
    refine ⟨hq, ?_⟩
    intro tau ht hqt
    have h1 := hmax _ (List.mem_map_of_mem (f := fun tau => objective (B tau) targets level) ht)
    rw [← hMb] at h1
    rw [hB, hB, objective_of_qualifies cov _ _ _ (hl _) hqt, objective_of_qualifies cov _ _ _ (hl _) hq, hlen tau] at h1
    have hp : (0 : K) < ((f best).length : ℕ) := by
      have := lt_of_lt_of_le hq.1 (List.countP_le_length (p := cov))
      exact_mod_cast this
    rw [div_le_div_iff_of_pos_right hp] at h1
    exact_mod_cast h1
  · right
    have hM0 : M = 0 := by
      rw [← hMb, hB]
      apply le_antisymm _ (objective_nonneg _ _ _)
      by_contra hc
      exact hq ((objective_pos_iff cov _ _ _ (hl _)).1 (not_le.1 hc))
    refine ⟨?_, ?_⟩
    · intro tau ht hqt
      have h1 := hmax _ (List.mem_map_of_mem (f := fun tau => objective (B tau) targets level) ht)
      have h2 := (objective_pos_iff cov (f tau) targets level (hl _)).2 hqt
      rw [hB] at h1
      rw [hM0] at h1
      exact absurd h2 (not_lt.2 h1)
    · have h0 : argmax vals = 0 := by
        by_contra hc
        have hv0 : vals[0]? = some (vals[0]'(by omega)) := List.getElem?_eq_getElem _
        have h1 := hfirst 0 _ (by omega) hv0
        have h2 : (0 : K) ≤ vals[0]'(by omega) := by
          simp only [hvals, List.getElem_map]; exact objective_nonneg _ _ _
        rw [hM0] at h1
        exact absurd h1 (not_lt.2 h2)
      rw [h0] at hb
      rw [List.head?_eq_getElem?]; exact hb

theorem posB_eq (tp : K) (h2 : 1 / 2 < tp) (tau : K) (probs : List K) (hp : ∀ p ∈ probs, 0 ≤ p ∧ p ≤ 1) :
    posB tp tau probs = (scalePos tau probs).map fun p => decide (tp ≤ p) := by
  unfold posB scalePos
  rw [List.map_map]
  apply List.map_congr_left
  intro p hpm
  by_cases h : 1 / 2 < p
  · simp only [Function.comp, if_pos h]; ring_nf
  · simp only [Function.comp, if_neg h]
    have := (hp p hpm).2
    rw [mul_zero, add_zero, one_mul, min_eq_left this]

theorem negB_eq (tn : K) (tau : K) (probs : List K) :
    negB tn tau probs = (scaleNeg tau probs).map fun p => decide (p ≤ 1 - tn) := by
  unfold negB scaleNeg
  rw [List.map_map]
  apply List.map_congr_left
  intro p hpm
  by_cases h : p < 1 / 2
  · simp only [Function.comp, if_pos h]; ring_nf
  · simp only [Function.comp, if_neg h]; ring_nf

theorem tausPos_mem {tp : K} {n : ℕ} (h : 1 / 2 < tp) {t : K} (ht : t ∈ tausPos tp n) : 1 ≤ t ∧ t ≤ 2 * tp :=
  mem_linspace (by linarith) ht

theorem tausNeg_mem {tn : K} {n : ℕ} (h : 1 / 2 < tn) {t : K} (ht : t ∈ tausNeg tn n) : 2 * (1 - tn) ≤ t ∧ t ≤ 1 :=
  mem_linspace (by linarith) (List.mem_reverse.1 ht)

theorem tausPos_head (tp : K) (n : ℕ) (hn : n ≠ 0) : (tausPos tp n).head? = some 1 := by
  rw [List.head?_eq_getElem?]; exact linspace_head _ _ _ (by omega)

theorem tausNeg_head (tn : K) (n : ℕ) (hn : 2 ≤ n) : (tausNeg tn n).head? = some 1 := by
  unfold tausNeg linspace
  rw [List.head?_reverse, List.getLast?_map, List.getLast?_range]
  rw [if_neg (by omega)]
  have : ((n - 1 : ℕ) : K) ≠ 0 := by
    have : n - 1 ≠ 0 := by omega
    exact_mod_cast this
  simp only [Option.map_some, Option.some.injEq]
  field_simp
  ring

/-- The result of both patches, row by row. -/
theorem applyPatches_row (t : Patches K) (p : K) :
    applyPatches (some t) [p] = [if (if 1 / 2 < p then min (t.tauPos * p) 1 else p) < 1 / 2 then
      t.tauNeg * (if 1 / 2 < p then min (t.tauPos * p) 1 else p) else (if 1 / 2 < p then min (t.tauPos * p) 1 else p)] := rfl

theorem apply_pos_covered (tp : K) (htp : 1 / 2 < tp) (t : Patches K) (h1 : 1 ≤ t.tauPos) (h3 : t.tauNeg ≤ 1)
    (probs : List K) (hp : ∀ p ∈ probs, 0 ≤ p ∧ p ≤ 1) :
    (applyPatches (some t) probs).map (fun p => decide (tp ≤ p)) =
      (scalePos t.tauPos probs).map fun p => decide (tp ≤ p) := by
  unfold applyPatches scalePos
  simp only [List.map_map]
  apply List.map_congr_left
  intro p hpm
  have := hp p hpm
  simp only [Function.comp]
  by_cases h : 1 / 2 < p
  · simp only [if_pos h]
    have hge : 1 / 2 < min (t.tauPos * p) 1 := lt_min (by nlinarith) (by norm_num)
    rw [if_neg (not_lt.2 hge.le)]
  · simp only [if_neg h]
    split
    · next h' =>
      have e1 : ¬ tp ≤ p := by intro hc; linarith
      have e2 : ¬ tp ≤ t.tauNeg * p := by intro hc; nlinarith
      simp [e1, e2]
    · rfl

theorem apply_neg_covered (tn : K) (htn : 1 / 2 < tn) (t : Patches K) (h1 : 1 ≤ t.tauPos)
    (probs : List K) (hp : ∀ p ∈ probs, 0 ≤ p ∧ p ≤ 1) :
    (applyPatches (some t) probs).map (fun p => decide (p ≤ 1 - tn)) =
      (scaleNeg t.tauNeg probs).map fun p => decide (p ≤ 1 - tn) := by
  unfold applyPatches scaleNeg
  simp only [List.map_map]
  apply List.map_congr_left
  intro p hpm
  have := hp p hpm
  simp only [Function.comp]
  by_cases h : 1 / 2 < p
  · have hge : 1 / 2 < min (t.tauPos * p) 1 := lt_min (by nlinarith) (by norm_num)
    simp only [if_pos h]
    simp only [if_neg (not_lt.2 hge.le), if_neg (not_lt.2 h.le)]
    have e1 : ¬ min (t.tauPos * p) 1 ≤ 1 - tn := by intro hc; linarith
    have e2 : ¬ p ≤ 1 - tn := by intro hc; linarith
    simp [e1, e2]
  · simp only [if_neg h]

theorem qualifies_congr (cov : K → Bool) (level : K) (a b targets : List K) (h : a.map cov = b.map cov) :
    (Qualifies cov level a targets ↔ Qualifies cov level b targets) ∧ a.countP cov = b.countP cov := by
  have hc : a.countP cov = b.countP cov := by rw [← count_map_cov, ← count_map_cov, h]
  refine ⟨?_, hc⟩
  unfold Qualifies
  rw [hc, ← selected_eq_covered, ← selected_eq_covered, h]

/-- **C08, positives.** After `apply_patches` on the calibration probabilities with the fitted patches: either the rows
with probability at least the threshold are non-empty, have precision at least threshold + margin, and are at least as
many as under any qualifying scale of the grid; or no scale of the grid qualifies and the fitted scale is 1. -/
theorem C08_positive (targets probs : List K) (tp tn : K) (nTaus : ℕ) (margin : K) (t : Patches K)
    (hl : targets.length = probs.length) (hp : ∀ p ∈ probs, 0 ≤ p ∧ p ≤ 1)
    (h : calibrate targets probs tp tn nTaus margin = .ok t) :
    (Qualifies (fun p => decide (tp ≤ p)) (tp + margin) (applyPatches (some t) probs) targets ∧
      ∀ tau ∈ tausPos tp nTaus, Qualifies (fun p => decide (tp ≤ p)) (tp + margin) (scalePos tau probs) targets →
        (scalePos tau probs).countP (fun p => decide (tp ≤ p)) ≤
          (applyPatches (some t) probs).countP (fun p => decide (tp ≤ p))) ∨
    ((∀ tau ∈ tausPos tp nTaus, ¬ Qualifies (fun p => decide (tp ≤ p)) (tp + margin) (scalePos tau probs) targets) ∧
      t.tauPos = 1) := by
  unfold calibrate at h
  split at h
  · cases h
  next hthr =>
  split at h
  · cases h
  next hn =>
  push Not at hthr
  injection h with h
  have htpos : t.tauPos = _ := (congrArg Patches.tauPos h).symm
  have htneg : t.tauNeg = _ := (congrArg Patches.tauNeg h).symm
  have hne : tausPos tp nTaus ≠ [] := by
    intro he; have := tausPos_head tp nTaus hn; rw [he] at this; cases this
  have hne2 : tausNeg tn nTaus ≠ [] := by
    intro he
    have : (tausNeg tn nTaus).length = nTaus := by simp [tausNeg, linspace]
    rw [he] at this; exact hn this.symm
  obtain ⟨hm, hcase⟩ := argmax_objective (tausPos tp nTaus) hne (fun tau => posB tp tau probs) targets (tp + margin)
    (fun tau => scalePos tau probs) (fun p => decide (tp ≤ p)) (fun tau => posB_eq tp hthr.2 tau probs hp)
    (fun tau => by simpa [scalePos] using hl) t.tauPos htpos
  have hlt2 : argmax ((tausNeg tn nTaus).map fun tau =>
      objective (negB tn tau probs) (targets.map fun y => 1 - y) (tn + margin)) < (tausNeg tn nTaus).length := by
    have := argmax_lt ((tausNeg tn nTaus).map fun tau =>
      objective (negB tn tau probs) (targets.map fun y => 1 - y) (tn + margin)) (by simpa using hne2)
    simpa using this
  have hm2 : t.tauNeg ∈ tausNeg tn nTaus := by
    rw [htneg]
    dsimp only
    rw [List.getD_eq_getElem?_getD, List.getElem?_eq_getElem hlt2]
    exact List.getElem_mem hlt2
  obtain ⟨hq, hcnt⟩ := qualifies_congr (fun p => decide (tp ≤ p)) (tp + margin) (applyPatches (some t) probs)
    (scalePos t.tauPos probs) targets
    (apply_pos_covered tp hthr.2 t (tausPos_mem hthr.2 hm).1 (tausNeg_mem hthr.1 hm2).2 probs hp)
  rw [hq, hcnt]
  rcases hcase with hc | ⟨h1, h2⟩
  · exact Or.inl hc
  · right
    refine ⟨h1, ?_⟩
    rw [tausPos_head tp nTaus hn] at h2
    exact (Option.some.inj h2).symm

/-- **C08, negatives.** The same for the rows with probability at most `1 - threshold`, whose precision is the mean of
`1 - target`; here the fallback scale is 1 provided the grid has at least two points. -/
theorem C08_negative (targets probs : List K) (tp tn : K) (nTaus : ℕ) (hn2 : 2 ≤ nTaus) (margin : K) (t : Patches K)
    (hl : targets.length = probs.length) (hp : ∀ p ∈ probs, 0 ≤ p ∧ p ≤ 1)
    (h : calibrate targets probs tp tn nTaus margin = .ok t) :
    (Qualifies (fun p => decide (p ≤ 1 - tn)) (tn + margin) (applyPatches (some t) probs) (targets.map fun y => 1 - y) ∧
      ∀ tau ∈ tausNeg tn nTaus,
        Qualifies (fun p => decide (p ≤ 1 - tn)) (tn + margin) (scaleNeg tau probs) (targets.map fun y => 1 - y) →
        (scaleNeg tau probs).countP (fun p => decide (p ≤ 1 - tn)) ≤
          (applyPatches (some t) probs).countP (fun p => decide (p ≤ 1 - tn))) ∨
    ((∀ tau ∈ tausNeg tn nTaus,
        ¬ Qualifies (fun p => decide (p ≤ 1 - tn)) (tn + margin) (scaleNeg tau probs) (targets.map fun y => 1 - y)) ∧
      t.tauNeg = 1) := by
  unfold calibrate at h
  split at h
  · cases h
  next hthr =>
  split at h
  · cases h
  next hn =>
  push Not at hthr
  injection h with h
  have htpos : t.tauPos = _ := (congrArg Patches.tauPos h).symm
  have htneg : t.tauNeg = _ := (congrArg Patches.tauNeg h).symm
  have hne : tausPos tp nTaus ≠ [] := by
    intro he; have := tausPos_head tp nTaus hn; rw [he] at this; cases this
  have hne2 : tausNeg tn nTaus ≠ [] := by
    intro he; have := tausNeg_head tn nTaus hn2; rw [he] at this; cases this
  obtain ⟨hm, _⟩ := argmax_objective (tausPos tp nTaus) hne (fun tau => posB tp tau probs) targets (tp + margin)
    (fun tau => scalePos tau probs) (fun p => decide (tp ≤ p)) (fun tau => posB_eq tp hthr.2 tau probs hp)
    (fun tau => by simpa [scalePos] using hl) t.tauPos htpos
  obtain ⟨hm2, hcase⟩ := argmax_objective (tausNeg tn nTaus) hne2 (fun tau => negB tn tau probs)
    (targets.map fun y => 1 - y) (tn + margin)
    (fun tau => scaleNeg tau probs) (fun p => decide (p ≤ 1 - tn)) (fun tau => negB_eq tn tau probs)
    (fun tau => by simpa [scaleNeg] using hl) t.tauNeg htneg
  obtain ⟨hq, hcnt⟩ := qualifies_congr (fun p => decide (p ≤ 1 - tn)) (tn + margin) (applyPatches (some t) probs)
    (scaleNeg t.tauNeg probs) (targets.map fun y => 1 - y)
    (apply_neg_covered tn hthr.1 t (tausPos_mem hthr.2 hm).1 probs hp)
  rw [hq, hcnt]
  rcases hcase with hc | ⟨h1, h2⟩
  · exact Or.inl hc
  · right
    refine ⟨h1, ?_⟩
    rw [tausNeg_head tn nTaus hn2] at h2
    exact (Option.some.inj h2).symm

/-- **C08.** With fitted patches and a negative threshold at most 1, probabilities stay probabilities, those equal to one
half are untouched, no probability crosses one half, and positives only grow while negatives only shrink. -/
theorem C08_apply_range (targets probs : List K) (tp tn : K) (nTaus : ℕ) (margin : K) (t : Patches K) (htn : tn ≤ 1)
    (h : calibrate targets probs tp tn nTaus margin = .ok t) (p : K) (hp : 0 ≤ p ∧ p ≤ 1) :
    ∃ q, applyPatches (some t) [p] = [q] ∧ 0 ≤ q ∧ q ≤ 1 ∧ (p = 1 / 2 → q = p) ∧ (1 / 2 < p → p ≤ q) ∧
      (p < 1 / 2 → q ≤ p) := by
  unfold calibrate at h
  split at h
  · cases h
  next hthr =>
  split at h
  · cases h
  next hn =>
  push Not at hthr
  injection h with h
  have htpos : t.tauPos = _ := (congrArg Patches.tauPos h).symm
  have htneg : t.tauNeg = _ := (congrArg Patches.tauNeg h).symm
  have mem_of : ∀ (grid vals : List K), grid ≠ [] → vals.length = grid.length → grid.getD (argmax vals) 0 ∈ grid := by
    intro grid vals hne hlen
    have hv : vals ≠ [] := by intro he; rw [he] at hlen; exact hne (List.eq_nil_of_length_eq_zero hlen.symm)
    have hlt : argmax vals < grid.length := hlen ▸ argmax_lt vals hv
    rw [List.getD_eq_getElem?_getD, List.getElem?_eq_getElem hlt]
    exact List.getElem_mem hlt
  have l1 : (tausPos tp nTaus).length = nTaus := by simp [tausPos, linspace]
  have l2 : (tausNeg tn nTaus).length = nTaus := by simp [tausNeg, linspace]
  have hm1 : t.tauPos ∈ tausPos tp nTaus := by
    rw [htpos]; exact mem_of _ _ (by intro he; rw [he] at l1; exact hn l1.symm) (by simp)
  have hm2 : t.tauNeg ∈ tausNeg tn nTaus := by
    rw [htneg]; exact mem_of _ _ (by intro he; rw [he] at l2; exact hn l2.symm) (by simp)
  have b1 := tausPos_mem hthr.2 hm1
  have b2 := tausNeg_mem hthr.1 hm2
  have htn0 : 0 ≤ t.tauNeg := by linarith
  refine ⟨_, applyPatches_row t p, ?_⟩
  by_cases hgt : 1 / 2 < p
  · have hge : p ≤ min (t.tauPos * p) 1 := le_min (by nlinarith) hp.2
    have hnl : ¬ min (t.tauPos * p) 1 < 1 / 2 := by intro hc; linarith
    simp only [if_pos hgt, if_neg hnl]
    exact ⟨by linarith, min_le_right _ _, fun h => by linarith, fun _ => hge, fun h => by linarith⟩
  · simp only [if_neg hgt]
    by_cases hlt : p < 1 / 2
    · simp only [if_pos hlt]
      exact ⟨by nlinarith, by nlinarith, fun h => by linarith, fun h => absurd h hgt, fun _ => by nlinarith⟩
    · simp only [if_neg hlt]
      exact ⟨hp.1, hp.2, fun _ => trivial, fun h => absurd h hgt, fun h => absurd h hlt⟩

/-- **C08, when patches are fitted.** Exactly if both thresholds exceed one half and the grid is not empty; otherwise a ValueError is raised. -/
theorem C08_fitted (targets probs : List K) (tp tn : K) (nTaus : ℕ) (margin : K) :
    ((∃ t, calibrate targets probs tp tn nTaus margin = .ok t) ↔ 1 / 2 < tp ∧ 1 / 2 < tn ∧ 1 ≤ nTaus) ∧
    (¬ (1 / 2 < tp ∧ 1 / 2 < tn ∧ 1 ≤ nTaus) → calibrate targets probs tp tn nTaus margin = .error "ValueError") := by
  unfold calibrate
  by_cases h1 : tn ≤ 1 / 2 ∨ tp ≤ 1 / 2
  · rw [if_pos h1]
    refine ⟨⟨fun ⟨t, h⟩ => (by cases h), fun ⟨h2, h3, _⟩ => ?_⟩, fun _ => rfl⟩
    rcases h1 with h1 | h1
    · exact absurd h3 (not_lt.2 h1)
    · exact absurd h2 (not_lt.2 h1)
  · rw [if_neg h1]
    push Not at h1
    by_cases h2 : nTaus = 0
    · rw [if_pos h2]
      exact ⟨⟨fun ⟨t, h⟩ => (by cases h), fun ⟨_, _, h3⟩ => by omega⟩, fun _ => rfl⟩
    · rw [if_neg h2]
      exact ⟨⟨fun _ => ⟨h1.2, h1.1, by omega⟩, fun _ => ⟨_, rfl⟩⟩, fun h => absurd ⟨h1.2, h1.1, by omega⟩ h⟩

/-- **C08.** Before calibration `apply_patches` is the identity. -/
theorem C08_no_patches (probs : List K) : applyPatches none probs = probs := rfl

-- a qualifying run: scaling 3/5 up to 3/4 covers two true positives
example : calibrate (K := ℚ) [1, 1, 0] [3 / 5, 4 / 5, 1 / 10] (3 / 4) (3 / 4) 3 0 = .ok ⟨5 / 4, 1⟩ ∧
    applyPatches (some ⟨5 / 4, 1⟩) [(3 / 5 : ℚ), 4 / 5, 1 / 10] = [3 / 4, 1, 1 / 10] := by decide +kernel
-- nothing qualifies among the positives: the scale is 1
example : calibrate (K := ℚ) [0, 0, 0] [3 / 5, 4 / 5, 1 / 10] (3 / 4) (3 / 4) 3 0 = .ok ⟨1, 1⟩ := by decide +kernel

/-- **C08, failure.** With a single grid point the negative grid is `[2 (1 - threshold)]` instead of `[1]`: nothing
qualifies, a warning is logged, and yet the negatives are rescaled. -/
theorem C08_single_point_false :
    ∃ (targets probs : List ℚ) (tp tn : ℚ) (t : Patches ℚ),
      calibrate targets probs tp tn 1 0 = .ok t ∧
      (∀ tau ∈ tausNeg tn 1, ¬ Qualifies (fun p => decide (p ≤ 1 - tn)) tn (scaleNeg tau probs)
        (targets.map fun y => 1 - y)) ∧
      applyPatches (some t) probs ≠ probs := by
  refine ⟨[1], [2 / 5], 3 / 4, 3 / 4, ⟨1, 1 / 2⟩, by decide +kernel, ?_, by decide +kernel⟩
  intro tau ht
  have : tau = 1 / 2 := by
    have e : tausNeg (3 / 4 : ℚ) 1 = [1 / 2] := by decide +kernel
    rw [e] at ht; simpa using ht
  subst this
  rintro ⟨_, h2⟩
  revert h2
  decide +kernel

/-- **C08, failure.** `true_negative_coverage` compares with the threshold itself although negative predictions are
those at most `1 - threshold`: it can report full coverage when no row is a negative prediction. -/
theorem C08_true_negative_coverage_false :
    ∃ (probs targets : List ℚ) (threshold : ℚ), 1 / 2 < threshold ∧ trueNegativeCoverage probs threshold = 1 ∧
      trueNegativePrecision probs targets threshold = none :=
  ⟨[3 / 5, 2 / 3], [1, 1], 3 / 4, by norm_num, by decide +kernel, by decide +kernel⟩

/-- **C08.** What the reported coverages are: the fractions of rows which are at least, and at most, the threshold; together they
exceed one by the fraction of rows exactly at the threshold. -/
theorem C08_coverages (probs : List K) (threshold : K) :
    truePositiveCoverage probs threshold = ((probs.filter fun p => decide (threshold ≤ p)).length : K) / (probs.length : K) ∧
    trueNegativeCoverage probs threshold = ((probs.filter fun p => decide (p ≤ threshold)).length : K) / (probs.length : K) ∧
    (probs ≠ [] → truePositiveCoverage probs threshold + trueNegativeCoverage probs threshold =
      1 + ((probs.filter fun p => decide (p = threshold)).length : K) / (probs.length : K)) := by
  have hc : ∀ f : K → Bool, (probs.map f).count true = (probs.filter f).length := by
    intro f
    rw [List.count, List.countP_map, List.countP_eq_length_filter]
    congr 2
    funext x
    simp
  have h1 : truePositiveCoverage probs threshold =
      ((probs.filter fun p => decide (threshold ≤ p)).length : K) / (probs.length : K) := by
    unfold truePositiveCoverage Multivalid.probB
    rw [hc, List.length_map]
  have h2 : trueNegativeCoverage probs threshold =
      ((probs.filter fun p => decide (p ≤ threshold)).length : K) / (probs.length : K) := by
    unfold trueNegativeCoverage Multivalid.probB
    rw [hc, List.length_map]
  refine ⟨h1, h2, fun hne => ?_⟩
  have hn : (probs.length : K) ≠ 0 := by
    have := List.length_pos_iff.2 hne
    exact_mod_cast this.ne'
  have hs : (probs.filter fun p => decide (threshold ≤ p)).length + (probs.filter fun p => decide (p ≤ threshold)).length =
      probs.length + (probs.filter fun p => decide (p = threshold)).length := by
    clear h1 h2 hn hne hc
    induction probs with
    | nil => rfl
    | cons q qs ih =>
      rcases lt_trichotomy q threshold with h | h | h
      · simp [h.le, h.ne, not_le.2 h]; omega
      · subst h; simp; omega
      · simp [h.le, h.ne', not_le.2 h]; omega
  rw [h1, h2, ← add_div]
  rw [div_eq_iff hn, add_mul, one_mul, div_mul_cancel₀ _ hn]
  exact_mod_cast hs

example : truePositiveCoverage (K := ℚ) [1 / 5, 3 / 5, 4 / 5] (3 / 5) = 2 / 3 ∧
    trueNegativeCoverage (K := ℚ) [1 / 5, 3 / 5, 4 / 5] (3 / 5) = 2 / 3 := by decide +kernel

/-! ### Concrete cases that meet the hypotheses of the theorems above -/

example := C08_positive (K := ℚ) [1, 1, 0] [3 / 5, 4 / 5, 1 / 10] (3 / 4) (3 / 4) 3 0 ⟨5 / 4, 1⟩ rfl (by decide +kernel) (by decide +kernel)
example := C08_negative (K := ℚ) [1, 1, 0] [3 / 5, 4 / 5, 1 / 10] (3 / 4) (3 / 4) 3 (by norm_num) 0 ⟨5 / 4, 1⟩ rfl (by decide +kernel) (by decide +kernel)
example := C08_apply_range (K := ℚ) [1, 1, 0] [3 / 5, 4 / 5, 1 / 10] (3 / 4) (3 / 4) 3 0 ⟨5 / 4, 1⟩ (by norm_num) (by decide +kernel) (7 / 10) (by norm_num)

end Verif.Props
