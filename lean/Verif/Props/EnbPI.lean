import Verif.Props.ConformalRegression
import Mathlib.Algebra.BigOperators.Group.List.Basic

/-! Properties C14–C15: the EnbPI method. -/
set_option linter.unusedSectionVars false

namespace Verif.Props

open Verif.ConformalRegression Verif.Quantile

variable {K : Type*} [Field K] [LinearOrder K] [IsStrictOrderedRing K] [FloorRing K]

/-! ### C14 -/

/-- Specification: the absolute residual contributed by one online update. -/
def newResidual (agg : List K → K) (s : EnbpiStep K) : K := |s.newY.headD 0 - agg (s.newPreds.map fun r => r.headD 0)|

theorem getD_zero_eq (r : List K) : r.getD 0 0 = r.headD 0 := by cases r <;> rfl

theorem enbpiFromResiduals_ok {agg : List K → K} {res : List K} {s : EnbpiStep K} {out : List (K × K) × List K}
    (h : enbpiFromResiduals agg res s.newPreds s.testPreds s.newY s.error = .ok out) :
    res ≠ [] ∧ s.newY.length = 1 ∧ out.2 = res.tail ++ [newResidual agg s] ∧
      ∃ rq, quantile out.2 (1 - s.error) = some rq ∧ out.1 = (List.range (ncols s.testPreds)).map fun j =>
        (agg (column s.testPreds j) - rq, agg (column s.testPreds j) + rq) := by
  unfold enbpiFromResiduals at h
  split at h
  · cases h
  split at h
  · cases h
  rw [bind_ok] at h
  obtain ⟨res', h1, h⟩ := h
  rw [bind_ok] at h
  obtain ⟨rq, hrq, h⟩ := h
  cases h
  rw [ofNan_ok] at hrq
  unfold enbpiShift at h1
  split at h1
  · next y hy =>
    split at h1
    · cases h1
    · next hne =>
      cases h1
      refine ⟨hne, by rw [hy]; rfl, ?_, rq, hrq, rfl⟩
      simp only [newResidual, hy, column, List.headD_cons, getD_zero_eq]
  · cases h1

/-- **C14.** After any successful history of online updates, the residual window holds exactly the most recent
`n` entries of "initial residuals followed by all new absolute residuals". -/
theorem C14_sliding_window (agg : List K → K) (res : List K) (steps : List (EnbpiStep K)) (out : List K)
    (h : enbpiRun agg res steps = .ok out) :
    out.length = res.length ∧
    out = (res ++ steps.map (newResidual agg)).drop ((res ++ steps.map (newResidual agg)).length - res.length) := by
  induction steps generalizing res with
  | nil => cases h; simp
  | cons s rest ih =>
    unfold enbpiRun at h
    rw [bind_ok] at h
    obtain ⟨o, ho, h⟩ := h
    obtain ⟨hne, _, hres, _⟩ := enbpiFromResiduals_ok ho
    obtain ⟨hl, heq⟩ := ih _ h
    cases res with
    | nil => exact absurd rfl hne
    | cons a tl =>
      rw [hres] at hl heq
      simp only [List.tail_cons, List.length_append, List.length_cons, List.length_nil, List.length_map] at hl heq ⊢
      refine ⟨by omega, ?_⟩
      rw [heq]
      have e1 : tl.length + 1 + (rest.length + 1) - (tl.length + 1) = rest.length + 1 := by omega
      have e2 : tl.length + (0 + 1) + rest.length - (tl.length + (0 + 1)) = rest.length := by omega
      rw [e1, e2]
      simp

/-- **C14.** Residuals stay non-negative through any history. -/
theorem C14_nonneg (agg : List K → K) (res : List K) (hres : ∀ r ∈ res, 0 ≤ r) (steps : List (EnbpiStep K))
    (out : List K) (h : enbpiRun agg res steps = .ok out) : ∀ r ∈ out, 0 ≤ r := by
  intro r hr
  rw [(C14_sliding_window agg res steps out h).2] at hr
  have := List.mem_of_mem_drop hr
  rw [List.mem_append, List.mem_map] at this
  rcases this with h1 | ⟨s, _, rfl⟩
  · exact hres r h1
  · exact abs_nonneg _

/-- One update with exactly one new target and consistent bootstrap counts. -/
def GoodStep (s : EnbpiStep K) : Prop :=
  s.newPreds.length = s.testPreds.length ∧ s.newY.length = 1 ∧ ncols s.newPreds = 1

/-- **C14.** A history of well-formed updates on a non-empty window always succeeds. -/
theorem C14_total (agg : List K → K) (res : List K) (hne : res ≠ []) (steps : List (EnbpiStep K))
    (h : ∀ s ∈ steps, GoodStep s) : ∃ out, enbpiRun agg res steps = .ok out := by
  induction steps generalizing res with
  | nil => exact ⟨res, rfl⟩
  | cons s rest ih =>
    obtain ⟨h1, h2, h3⟩ := h s (by simp)
    obtain ⟨y, hy⟩ : ∃ y, s.newY = [y] := List.length_eq_one_iff.1 h2
    unfold enbpiRun
    have hq : ∃ rq, quantile (res.tail ++ [|y - agg (column s.newPreds 0)|]) (1 - s.error) = some rq :=
      ⟨_, quantile_of_ne (by simp) _⟩
    obtain ⟨rq, hrq⟩ := hq
    have : enbpiFromResiduals agg res s.newPreds s.testPreds s.newY s.error =
        .ok ((List.range (ncols s.testPreds)).map fun j =>
          (agg (column s.testPreds j) - rq, agg (column s.testPreds j) + rq),
          res.tail ++ [|y - agg (column s.newPreds 0)|]) := by
      unfold enbpiFromResiduals
      rw [if_neg (by simpa using h1), if_neg (by omega), hy]
      unfold enbpiShift
      simp only [if_neg hne]
      show (ofNan _ >>= _) = _
      rw [hrq]; rfl
    rw [this]
    exact ih _ (by simp) (fun s' hs' => h s' (by simp [hs']))

/-- **C14.** Despite its documentation, an update with more than one new time step is rejected. -/
theorem C14_multiple_new_times_rejected (agg : List K → K) (res : List K) (newPreds testPreds : List (List K))
    (newY : List K) (e : K) (h : newY.length ≠ 1) :
    ∃ err, enbpiFromResiduals agg res newPreds testPreds newY e = .error err := by
  cases hc : enbpiFromResiduals agg res newPreds testPreds newY e with
  | error err => exact ⟨err, rfl⟩
  | ok out =>
    exact absurd (enbpiFromResiduals_ok (s := ⟨newPreds, testPreds, newY, e⟩) hc).2.1 h

-- two updates on a window of three
example : enbpiRun (K := ℚ) List.sum [1, 2, 3] [⟨[[5], [6]], [[0], [0]], [7], 1 / 2⟩, ⟨[[1], [1]], [[0], [0]], [7], 1 / 2⟩] =
    .ok [3, 4, 5] := by decide +kernel

/-! ### C15 -/

theorem mem_outOfBag {indices : List (List ℕ)} {t b : ℕ} :
    b ∈ outOfBag indices t ↔ ∃ row, indices[b]? = some row ∧ t ∉ row := by
  unfold outOfBag
  simp only [List.mem_filter, List.mem_range, Bool.not_eq_true', List.contains_eq_mem]
  constructor
  · rintro ⟨h1, h2⟩
    refine ⟨indices[b], by simp [h1], ?_⟩
    simpa [h1] using h2
  · rintro ⟨row, h1, h2⟩
    have := (List.getElem?_eq_some_iff.1 h1)
    obtain ⟨hb, rfl⟩ := this
    exact ⟨hb, by simpa [hb] using h2⟩

/-- **C15.** The residual of training point `t` depends only on the predictions at `t` of the bootstraps that do not
contain `t`: two prediction matrices which agree there give the same residual. -/
theorem C15_out_of_bag (agg : List K → K) (indices : List (List ℕ)) (P P' : List (List K)) (targets : List K) (t : ℕ)
    (h : ∀ b row, indices[b]? = some row → t ∉ row → (P.getD b []).getD t 0 = (P'.getD b []).getD t 0) :
    (enbpiResiduals agg indices P targets)[t]? = (enbpiResiduals agg indices P' targets)[t]? := by
  unfold enbpiResiduals
  simp only [List.getElem?_map]
  by_cases ht : t < targets.length
  · rw [List.getElem?_range ht]
    simp only [Option.map_some, Option.some.injEq]
    have : pickAt P (outOfBag indices t) t = pickAt P' (outOfBag indices t) t := by
      unfold pickAt
      apply List.map_congr_left
      intro b hb
      obtain ⟨row, h1, h2⟩ := mem_outOfBag.1 hb
      exact h b row h1 h2
    rw [this]
  · rw [List.getElem?_eq_none (by simpa using ht)]
    rfl

-- bootstrap 0 trains on {0,0}, bootstrap 1 on {0,1}: residual 1 ignores bootstrap 1, residual 0 has no model
example : enbpiResiduals (K := ℚ) List.sum [[0, 0], [0, 1]] [[1, 2], [3, 4]] [10, 10] = [10, 8] ∧
    enbpiResiduals (K := ℚ) List.sum [[0, 0], [0, 1]] [[9, 2], [9, 9]] [10, 10] = [10, 8] := by decide +kernel

/-- Specification: the entries at `t` of the rows `P` whose bootstrap sample does not contain `u`, in order. -/
def leftOut (indices : List (List ℕ)) (P : List (List K)) (u t : ℕ) : List K :=
  (indices.zip P).filterMap fun ip => if u ∈ ip.1 then none else some (ip.2.getD t 0)

theorem pickAt_outOfBag (indices : List (List ℕ)) (P : List (List K)) (h : indices.length = P.length) (u t : ℕ) :
    pickAt P (outOfBag indices u) t = leftOut indices P u t := by
  induction indices generalizing P with
  | nil => rfl
  | cons row rows ih =>
    cases P with
    | nil => cases h
    | cons p P =>
      have ih' := ih P (by simpa using h)
      have hstep : outOfBag (row :: rows) u =
          (if u ∈ row then [] else [0]) ++ (outOfBag rows u).map (· + 1) := by
        unfold outOfBag
        rw [List.length_cons, List.range_succ_eq_map, List.filter_cons, List.filter_map]
        by_cases hu : u ∈ row <;> simp [hu, Function.comp_def]
      rw [hstep]
      unfold pickAt leftOut at *
      rw [List.map_append, List.map_map, List.zip_cons_cons, List.filterMap_cons]
      have hc : ((fun b => ((p :: P).getD b []).getD t 0) ∘ fun x => x + 1) = fun b => (P.getD b []).getD t 0 := by
        funext b; simp
      rw [hc, ih']
      by_cases hu : u ∈ row <;> simp [hu]

/-- **C15.** The residual of training time `t` is the distance of its target to the aggregate of the predictions at `t` of the
bootstraps without `t`; if every bootstrap contains `t` it is the size of the target itself, not an aggregate of nothing. -/
theorem C15_residual_value (agg : List K → K) (indices : List (List ℕ)) (P : List (List K)) (h : indices.length = P.length)
    (targets : List K) (t : ℕ) (y : K) (hy : targets[t]? = some y) :
    ((∃ row ∈ indices, t ∉ row) → (enbpiResiduals agg indices P targets)[t]? = some |y - agg (leftOut indices P t t)|) ∧
    ((∀ row ∈ indices, t ∈ row) → (enbpiResiduals agg indices P targets)[t]? = some |y|) := by
  obtain ⟨ht, hty⟩ := List.getElem?_eq_some_iff.1 hy
  have hg : targets.getD t 0 = y := by simp [hy]
  have hval : (enbpiResiduals agg indices P targets)[t]? = some (if (outOfBag indices t).length > 0 then
      |y - agg (leftOut indices P t t)| else |y|) := by
    unfold enbpiResiduals
    rw [List.getElem?_map, List.getElem?_range ht]
    simp only [Option.map_some, hg, pickAt_outOfBag indices P h]
  rw [hval]
  constructor
  · rintro ⟨row, hr, hn⟩
    obtain ⟨b, hb, rfl⟩ := List.mem_iff_getElem.1 hr
    rw [if_pos (List.length_pos_of_mem (mem_outOfBag.2 ⟨_, List.getElem?_eq_getElem hb, hn⟩))]
  · intro hall
    rw [if_neg]
    intro hp
    obtain ⟨b, hb⟩ := List.exists_mem_of_length_pos hp
    obtain ⟨row, h1, h2⟩ := mem_outOfBag.1 hb
    exact h2 (hall row (List.mem_of_getElem? h1))

/-- **C15.** Likewise for the aggregated predictions of test time `j`: zero where every bootstrap contains the training time. -/
theorem C15_test_value (agg : List K → K) (indices : List (List ℕ)) (T : List (List K)) (h : indices.length = T.length)
    (n j t : ℕ) (ht : t < n) :
    ((∃ row ∈ indices, t ∉ row) → (enbpiTest agg indices T n j)[t]? = some (agg (leftOut indices T t j))) ∧
    ((∀ row ∈ indices, t ∈ row) → (enbpiTest agg indices T n j)[t]? = some 0) := by
  have hval : (enbpiTest agg indices T n j)[t]? = some (if (outOfBag indices t).length > 0 then
      agg (leftOut indices T t j) else 0) := by
    unfold enbpiTest
    rw [List.getElem?_map, List.getElem?_range ht]
    simp only [Option.map_some, pickAt_outOfBag indices T h]
  rw [hval]
  constructor
  · rintro ⟨row, hr, hn⟩
    obtain ⟨b, hb, rfl⟩ := List.mem_iff_getElem.1 hr
    rw [if_pos (List.length_pos_of_mem (mem_outOfBag.2 ⟨_, List.getElem?_eq_getElem hb, hn⟩))]
  · intro hall
    rw [if_neg]
    intro hp
    obtain ⟨b, hb⟩ := List.exists_mem_of_length_pos hp
    obtain ⟨row, h1, h2⟩ := mem_outOfBag.1 hb
    exact h2 (hall row (List.mem_of_getElem? h1))

-- the default aggregate of an empty list is not used
example : enbpiResiduals (K := ℚ) (fun l => l.sum + 5) [[0, 0], [0, 1]] [[1, 2], [3, 4]] [10, 10] = [10, 3] ∧
    leftOut (K := ℚ) [[0, 0], [0, 1]] [[1, 2], [3, 4]] 1 1 = [2] := by decide +kernel

/-- **C15.** Residuals are non-negative, there is one per training time. -/
theorem C15_residuals_nonneg (agg : List K → K) (indices : List (List ℕ)) (P : List (List K)) (targets : List K) :
    (enbpiResiduals agg indices P targets).length = targets.length ∧
      ∀ r ∈ enbpiResiduals agg indices P targets, 0 ≤ r := by
  constructor
  · simp [enbpiResiduals]
  · intro r hr
    unfold enbpiResiduals at hr
    rw [List.mem_map] at hr
    obtain ⟨t, _, rfl⟩ := hr
    dsimp only
    split <;> exact abs_nonneg _

theorem enbpiInterval_ok {agg : List K → K} {indices : List (List ℕ)} {P T : List (List K)} {targets : List K} {e : K}
    {ivs : List (K × K)} {res : List K} (h : enbpiInterval agg indices P T targets e = .ok (ivs, res)) :
    res = enbpiResiduals agg indices P targets ∧ T.length = indices.length ∧
    targets.length = (indices.headD []).length ∧
    ∃ rq, quantile res (1 - e) = some rq ∧ ivs.length = ncols T ∧ ∀ j (hj : j < ivs.length),
      ∃ c, quantile (enbpiTest agg indices T (indices.headD []).length j) (1 - e) = some c ∧
        ivs[j] = (c - rq, c + rq) := by
  unfold enbpiInterval at h
  dsimp only at h
  split at h
  · cases h
  split at h
  · cases h
  split at h
  · cases h
  split at h
  · cases h
  split at h
  · cases h
  next h1 h2 h3 h4 h5 =>
  rw [bind_ok] at h
  obtain ⟨rq, hrq, h⟩ := h
  rw [bind_ok] at h
  obtain ⟨iv, hiv, h⟩ := h
  cases h
  obtain ⟨hl, hall⟩ := mapM_range_ok hiv
  refine ⟨rfl, not_not.1 h4, not_not.1 h5, rq, ofNan_ok.1 hrq, hl, fun j hj => ?_⟩
  have := hall j hj
  rw [bind_ok] at this
  obtain ⟨c, hc, this⟩ := this
  refine ⟨c, ofNan_ok.1 hc, by injection this with this; exact this.symm⟩

/-- **C15.** Every interval is proper, and all test points get the same width, twice the `1-error` quantile of the
residuals. -/
theorem C15_proper_equal_width (agg : List K → K) (indices : List (List ℕ)) (P T : List (List K)) (targets : List K)
    (e : K) (ivs : List (K × K)) (res : List K) (h : enbpiInterval agg indices P T targets e = .ok (ivs, res)) :
    ∃ rq, quantile res (1 - e) = some rq ∧ ∀ iv ∈ ivs, iv.1 ≤ iv.2 ∧ iv.2 - iv.1 = 2 * rq := by
  obtain ⟨hres, _, _, rq, hrq, _, hall⟩ := enbpiInterval_ok h
  refine ⟨rq, hrq, fun iv hiv => ?_⟩
  obtain ⟨j, hj, rfl⟩ := List.mem_iff_getElem.1 hiv
  obtain ⟨c, _, hij⟩ := hall j hj
  have hnn : 0 ≤ rq := by
    obtain ⟨m, _, hm⟩ := Verif.ListAux.exists_max _ (quantile_some hrq).1
    refine (quantile_mem_range hrq (fun x hx => ?_) hm).1
    rw [hres] at hx
    exact (C15_residuals_nonneg agg indices P targets).2 x hx
  rw [hij]
  constructor
  · dsimp only; linarith
  · dsimp only; ring

/-- **C15.** The same for the online update: proper intervals of equal width, centred at the aggregated predictions. -/
theorem C15_online_proper (agg : List K → K) (res : List K) (s : EnbpiStep K) (hres : ∀ r ∈ res, 0 ≤ r)
    (out : List (K × K) × List K) (h : enbpiFromResiduals agg res s.newPreds s.testPreds s.newY s.error = .ok out) :
    ∃ rq, quantile out.2 (1 - s.error) = some rq ∧ ∀ iv ∈ out.1, iv.1 ≤ iv.2 ∧ iv.2 - iv.1 = 2 * rq := by
  obtain ⟨_, _, h2, rq, hrq, h1⟩ := enbpiFromResiduals_ok h
  refine ⟨rq, hrq, fun iv hiv => ?_⟩
  rw [h1, List.mem_map] at hiv
  obtain ⟨j, _, rfl⟩ := hiv
  have hnn : 0 ≤ rq := by
    obtain ⟨m, _, hm⟩ := Verif.ListAux.exists_max _ (quantile_some hrq).1
    refine (quantile_mem_range hrq (fun x hx => ?_) hm).1
    rw [h2, List.mem_append] at hx
    rcases hx with hx | hx
    · exact hres x (List.mem_of_mem_tail hx)
    · rw [List.mem_singleton] at hx; rw [hx]; exact abs_nonneg _
  dsimp only
  constructor
  · linarith
  · ring

/-- An aggregation function whose value lies within the range of its (non-empty) arguments, e.g. the mean. -/
def Averaging (agg : List K → K) : Prop :=
  ∀ (l : List K) (lo hi : K), l ≠ [] → (∀ x ∈ l, lo ≤ x) → (∀ x ∈ l, x ≤ hi) → lo ≤ agg l ∧ agg l ≤ hi

/-- The default `aggregation_fun`, enbpi.py L16. -/
def meanAgg (l : List K) : K := l.sum / l.length

theorem averaging_mean : Averaging (meanAgg (K := K)) := by
  intro l lo hi hne h1 h2
  have hl : (0 : K) < l.length := by
    have := List.length_pos_iff.2 hne
    exact_mod_cast this
  unfold meanAgg
  rw [le_div_iff₀ hl, div_le_iff₀ hl]
  constructor
  · have := List.card_nsmul_le_sum l lo h1
    rw [nsmul_eq_mul] at this; linarith
  · have := List.sum_le_card_nsmul l hi h2
    rw [nsmul_eq_mul] at this; linarith

/-- **C15.** If every training time is left out by some bootstrap, the centre of each interval lies within the range of
the bootstrap predictions for that test point. -/
theorem C15_centre_in_range (agg : List K → K) (hagg : Averaging agg) (indices : List (List ℕ)) (P T : List (List K))
    (targets : List K) (e : K) (ivs : List (K × K)) (res : List K)
    (h : enbpiInterval agg indices P T targets e = .ok (ivs, res))
    (hout : ∀ t < (indices.headD []).length, ∃ row ∈ indices, t ∉ row) (j : ℕ) (hj : j < ivs.length) (lo hi : K)
    (hlo : ∀ r ∈ T, lo ≤ r.getD j 0) (hhi : ∀ r ∈ T, r.getD j 0 ≤ hi) :
    lo ≤ (ivs[j].1 + ivs[j].2) / 2 ∧ (ivs[j].1 + ivs[j].2) / 2 ≤ hi := by
  obtain ⟨hres, hT, _, rq, hrq, _, hall⟩ := enbpiInterval_ok h
  obtain ⟨c, hc, hij⟩ := hall j hj
  have hcen : (ivs[j].1 + ivs[j].2) / 2 = c := by rw [hij]; dsimp only; ring
  rw [hcen]
  have key : ∀ x ∈ enbpiTest agg indices T (indices.headD []).length j, lo ≤ x ∧ x ≤ hi := by
    intro x hx
    unfold enbpiTest at hx
    rw [List.mem_map] at hx
    obtain ⟨t, ht, rfl⟩ := hx
    rw [List.mem_range] at ht
    obtain ⟨row, hrow, hnot⟩ := hout t ht
    obtain ⟨b, hb⟩ := List.mem_iff_getElem?.1 hrow
    have hmem : b ∈ outOfBag indices t := mem_outOfBag.2 ⟨row, hb, hnot⟩
    have hpos : (outOfBag indices t).length > 0 := List.length_pos_of_mem hmem
    dsimp only
    rw [if_pos hpos]
    have hent : ∀ y ∈ pickAt T (outOfBag indices t) j, lo ≤ y ∧ y ≤ hi := by
      intro y hy
      unfold pickAt at hy
      rw [List.mem_map] at hy
      obtain ⟨b', hb', rfl⟩ := hy
      obtain ⟨row', hr', _⟩ := mem_outOfBag.1 hb'
      have hlt : b' < T.length := by rw [hT]; exact (List.getElem?_eq_some_iff.1 hr').1
      have : T.getD b' [] ∈ T := by simp [hlt]
      exact ⟨hlo _ this, hhi _ this⟩
    exact hagg _ lo hi (by unfold pickAt; simpa using List.length_pos_iff.1 hpos) (fun y hy => (hent y hy).1)
      (fun y hy => (hent y hy).2)
  exact quantile_mem_range hc (fun x hx => (key x hx).1) (fun x hx => (key x hx).2)

/-- **C15, failure.** A training time contained in every bootstrap contributes a test prediction of 0, which can drag
the centre outside the range of all bootstrap predictions. -/
theorem C15_centre_in_range_false :
    ∃ (indices : List (List ℕ)) (P T : List (List ℚ)) (targets : List ℚ) (e : ℚ) (iv : ℚ × ℚ) (res : List ℚ),
      enbpiInterval meanAgg indices P T targets e = .ok ([iv], res) ∧ (∀ r ∈ T, (100 : ℚ) ≤ r.getD 0 0) ∧
        (iv.1 + iv.2) / 2 < 100 :=
  ⟨[[0, 0], [0, 0]], [[1, 1], [1, 1]], [[100], [100]], [1, 1], 1 / 2, (50 - 1 / 2, 50 + 1 / 2), [1, 0],
    by decide +kernel, by decide +kernel, by norm_num⟩

-- hypotheses of `C15_centre_in_range` are satisfiable
example : enbpiInterval (K := ℚ) meanAgg [[0, 0], [1, 1]] [[1, 2], [3, 4]] [[10], [20]] [1, 1] (1 / 2) =
      .ok ([(15 - 3 / 2, 15 + 3 / 2)], [2, 1]) ∧
    ∀ t < 2, ∃ row ∈ [[0, 0], [1, 1]], t ∉ row := by decide +kernel

/-! ### Concrete cases that meet the hypotheses of the theorems above -/

theorem exEnbpi_run : enbpiRun (K := ℚ) List.sum [1, 2, 3] [⟨[[5], [6]], [[0], [0]], [7], 1 / 2⟩, ⟨[[1], [1]], [[0], [0]], [7], 1 / 2⟩] =
    .ok [3, 4, 5] := by decide +kernel

example := C14_sliding_window (K := ℚ) List.sum [1, 2, 3] _ _ exEnbpi_run
example := C14_nonneg (K := ℚ) List.sum [1, 2, 3] (by decide +kernel) _ _ exEnbpi_run
example := C14_total (K := ℚ) List.sum [1, 2, 3] (by simp) [⟨[[5], [6]], [[0], [0]], [7], 1 / 2⟩, ⟨[[1], [1]], [[0], [0]], [7], 1 / 2⟩]
  (by simp [GoodStep, ncols])
example := C15_residual_value (K := ℚ) List.sum [[0, 0], [0, 1]] [[1, 2], [3, 4]] rfl [10, 10] 1 10 rfl

theorem exEnbpi_interval : enbpiInterval (K := ℚ) meanAgg [[0, 0], [1, 1]] [[1, 2], [3, 4]] [[10], [20]] [1, 1] (1 / 2) =
    .ok ([(15 - 3 / 2, 15 + 3 / 2)], [2, 1]) := by decide +kernel

example := C15_proper_equal_width (K := ℚ) meanAgg _ _ _ _ _ _ _ exEnbpi_interval
example := C15_centre_in_range (K := ℚ) meanAgg averaging_mean _ _ _ _ _ _ _ exEnbpi_interval (by decide) 0 (by decide) 10 20
  (by decide +kernel) (by decide +kernel)

theorem exEnbpi_online : enbpiFromResiduals (K := ℚ) List.sum [1, 2, 3] [[5], [6]] [[0], [0]] [7] (1 / 2) = .ok ([(-3, 3)], [2, 3, 4]) := by
  decide +kernel

example := C15_online_proper (K := ℚ) List.sum [1, 2, 3] ⟨[[5], [6]], [[0], [0]], [7], 1 / 2⟩ (by decide +kernel) _ exEnbpi_online

end Verif.Props
