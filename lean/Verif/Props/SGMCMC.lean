import Mathlib.Analysis.PSeries
import Mathlib.Tactic.Ring
import Mathlib.Tactic.Linarith
import Mathlib.Tactic.Positivity
import Mathlib.Tactic.FieldSimp
import Verif.Model.SGMCMC

/-!
# C35–C41: sampling callbacks, step schedules, preconditioners, integrators, SWAG, random keys
-/

set_option linter.unusedSectionVars false

namespace Verif.Props
open Verif.SGMCMC

/-! ## C35, C36: which states are collected -/

/-- The callback after the training steps `1, …, N`, where `s t` is the state after step `t`. -/
def collect {S : Type} (doSample : ℕ → ℕ → Bool) (s : ℕ → S) (N : ℕ) : Sampler S :=
  ((List.range' 1 N).map s).foldl (Sampler.stepEnd doSample) Sampler.init

theorem collect_succ {S : Type} (d : ℕ → ℕ → Bool) (s : ℕ → S) (N : ℕ) :
    collect d s (N + 1) = (collect d s N).stepEnd d (s (N + 1)) := by
  unfold collect
  rw [List.range'_1_concat, List.map_append, List.foldl_append]
  simp [Nat.add_comm]

/-- A sampler that samples at the steps satisfying `P` until it has `n` samples collects exactly the
first `n` of them, in slots `0, 1, …`. -/
theorem collect_spec {S : Type} (n : ℕ) (P : ℕ → Bool) (d : ℕ → ℕ → Bool)
    (hd : ∀ t c, d t c = (decide (c < n) && P t)) (s : ℕ → S) (N : ℕ) :
    (collect d s N).step = N ∧
    (collect d s N).count = (((List.range' 1 N).filter P).take n).length ∧
    (collect d s N).puts =
      (((List.range' 1 N).filter P).take n).zipIdx.map fun ti => (ti.2, s ti.1) := by
  induction N with
  | zero => simp [collect, Sampler.init]
  | succ N ih =>
    obtain ⟨h1, h2, h3⟩ := ih
    rw [collect_succ]
    unfold Sampler.stepEnd
    simp only [h1, h2, hd]
    rw [List.range'_1_concat, List.filter_append]
    set T := (List.range' 1 N).filter P with hT
    have hN : 1 + N = N + 1 := by omega
    rw [hN]
    by_cases hP : P (N + 1) = true
    · have hf : [N + 1].filter P = [N + 1] := by simp [hP]
      rw [hf]
      by_cases hc : (T.take n).length < n
      · have hlt : T.length < n := by simp at hc; omega
        rw [List.take_of_length_le (by omega : T.length ≤ n)] at h3 ⊢
        have htake : (T ++ [N + 1]).take n = T ++ [N + 1] :=
          List.take_of_length_le (by simp; omega)
        simp only [hP, hlt, decide_true, Bool.and_true, if_true, htake]
        refine ⟨trivial, by simp, ?_⟩
        rw [h3, List.zipIdx_append]
        simp
      · have hge : n ≤ T.length := by simp at hc; omega
        have htake : (T ++ [N + 1]).take n = T.take n := by
          rw [List.take_append_of_le_length hge]
        simp only [hc, decide_false, Bool.false_and, Bool.false_eq_true, if_false, htake]
        exact ⟨trivial, trivial, h3⟩
    · have hf : [N + 1].filter P = [] := by simp [hP]
      rw [hf, List.append_nil]
      simp only [hP, Bool.and_false, Bool.false_eq_true, if_false]
      exact ⟨trivial, trivial, h3⟩

theorem sghmc_times (b k : ℕ) (hk : 0 < k) (N : ℕ) :
    (List.range' 1 N).filter (fun t => decide (t > b) && decide ((t - b) % k = 0)) =
      (List.range ((N - b) / k)).map fun i => b + (i + 1) * k := by
  induction N with
  | zero => simp
  | succ N ih =>
    rw [List.range'_1_concat, List.filter_append, ih]
    have hN : 1 + N = N + 1 := by omega
    rw [hN]
    by_cases hb : N + 1 > b
    · have hsub : N + 1 - b = (N - b) + 1 := by omega
      rw [hsub, Nat.succ_div]
      by_cases hm : k ∣ (N - b) + 1
      · have h0 : ((N - b) + 1) % k = 0 := Nat.mod_eq_zero_of_dvd hm
        obtain ⟨c, hc⟩ := hm
        have hdiv : (N - b) / k + 1 = c := by
          have h1 : ((N - b) + 1) / k = c := by rw [hc]; exact Nat.mul_div_cancel_left c hk
          rw [Nat.succ_div, if_pos ⟨c, hc⟩] at h1
          exact h1
        rw [if_pos ⟨c, hc⟩, List.range_succ, List.map_append]
        congr 1
        have : [N + 1].filter (fun t => decide (t > b) && decide ((t - b) % k = 0)) = [N + 1] := by
          simp only [List.filter_cons, List.filter_nil, hsub, h0]
          simp; omega
        rw [this]
        simp only [List.map_cons, List.map_nil, List.cons.injEq, and_true]
        rw [hdiv, Nat.mul_comm c k, ← hc]; omega
      · have h0 : ¬ ((N - b) + 1) % k = 0 := fun h => hm (Nat.dvd_of_mod_eq_zero h)
        have : [N + 1].filter (fun t => decide (t > b) && decide ((t - b) % k = 0)) = [] := by
          simp only [List.filter_cons, List.filter_nil, hsub, h0]
          simp
        rw [if_neg hm, this]; simp
    · have h1 : N + 1 - b = 0 := by omega
      have h2 : N - b = 0 := by omega
      rw [h1, h2]
      simp; omega

theorem accepts_iff (n : ℕ) (P : ℕ → Bool) (d : ℕ → ℕ → Bool)
    (hd : ∀ t c, d t c = (decide (c < n) && P t)) (N : ℕ) :
    accepts d n N = true ↔ n ≤ ((List.range' 1 N).filter P).length := by
  unfold accepts
  by_cases hn : n = 0
  · simp [hn]
  · have : (fun t => d t 0) = P := by
      funext t; rw [hd]; simp; omega
    rw [this]; simp

/-- **C35.** If the constructor accepts the configuration (for a run of `N` training steps), the run
collects exactly `n_samples` states: sample `i` goes to slot `i` and is the state after step
`burnin + (i+1)·thinning`. -/
theorem C35_samples {S : Type} (n b k N : ℕ) (hk : 0 < k)
    (h : accepts (sghmcDoSample n b k) n N = true) (s : ℕ → S) :
    (collect (sghmcDoSample n b k) s N).puts =
      (List.range n).map fun i => (i, s (b + (i + 1) * k)) := by
  have hd : ∀ t c, sghmcDoSample n b k t c =
      (decide (c < n) && (decide (t > b) && decide ((t - b) % k = 0))) := by
    intro t c; simp [sghmcDoSample, Bool.and_assoc]
  rw [accepts_iff n _ _ hd, sghmc_times b k hk] at h
  rw [(collect_spec n _ _ hd s N).2.2, sghmc_times b k hk, ← List.map_take, List.take_range]
  simp only [List.length_map, List.length_range] at h
  rw [min_eq_left h]
  apply List.ext_getElem
  · simp
  · intro i h1 h2
    simp

example : (collect (sghmcDoSample 2 3 4) (fun t => t) 11).puts = [(0, 7), (1, 11)] := C35_samples 2 3 4 11 (by norm_num) (by decide +kernel) _

/-- **C35, the constructor.** The configuration is accepted exactly when the steps after burn-in
yield enough samples. -/
theorem C35_constructor (n b k N : ℕ) (hk : 0 < k) :
    accepts (sghmcDoSample n b k) n N = true ↔ n * k + b ≤ N ∨ n = 0 := by
  have hd : ∀ t c, sghmcDoSample n b k t c =
      (decide (c < n) && (decide (t > b) && decide ((t - b) % k = 0))) := by
    intro t c; simp [sghmcDoSample, Bool.and_assoc]
  rw [accepts_iff n _ _ hd, sghmc_times b k hk]
  simp only [List.length_map, List.length_range]
  rw [Nat.le_div_iff_mul_le hk]
  constructor
  · intro h
    rcases Nat.eq_zero_or_pos n with h0 | h0
    · exact Or.inr h0
    · have : 0 < n * k := Nat.mul_pos h0 hk
      left; omega
  · rintro (h | rfl)
    · omega
    · simp

example : accepts (sghmcDoSample 2 3 4) 2 11 = true ∧ accepts (sghmcDoSample 2 3 4) 2 10 = false :=
  ⟨(C35_constructor 2 3 4 11 (by norm_num)).2 (Or.inl (by norm_num)), by decide +kernel⟩

/-- **C35, at any time.** Nothing is collected during burn-in, and never more than `n_samples`,
whatever the number of steps run (also when training is continued). -/
theorem C35_never_more {S : Type} (n b k N : ℕ) (hk : 0 < k) (s : ℕ → S) :
    (collect (sghmcDoSample n b k) s N).puts.length ≤ n ∧
    (N ≤ b → (collect (sghmcDoSample n b k) s N).puts = []) := by
  have hd : ∀ t c, sghmcDoSample n b k t c =
      (decide (c < n) && (decide (t > b) && decide ((t - b) % k = 0))) := by
    intro t c; simp [sghmcDoSample, Bool.and_assoc]
  rw [(collect_spec n _ _ hd s N).2.2]
  refine ⟨by simp, fun h => ?_⟩
  rw [sghmc_times b k hk, Nat.sub_eq_zero_of_le h]
  simp

/-- Three samples with burn-in 10, thinning 4, from a run of 23 steps (22 would also be accepted,
21 would not). -/
example : accepts (sghmcDoSample 3 10 4) 3 23 = true ∧ accepts (sghmcDoSample 3 10 4) 3 21 = false ∧
    (collect (sghmcDoSample 3 10 4) id 23).puts = [(0, 14), (1, 18), (2, 22)] := by
  decide +kernel

/-- **C36, number of samples.** If the constructor of the cyclical callback accepts, exactly
`n_samples` states are collected, in slots `0, …, n-1` at increasing steps, each at a step whose
position in its cycle lies in the sampling part and is a multiple of the thinning. -/
theorem C36_samples {S : Type} (n L k N : ℕ) (ratio : ℚ)
    (h : accepts (cyclicalDoSample n L k ratio) n N = true) (s : ℕ → S) :
    ∃ ts : List ℕ, ts.length = n ∧ ts.Pairwise (· < ·) ∧
      (collect (cyclicalDoSample n L k ratio) s N).puts =
        ts.zipIdx.map (fun ti => (ti.2, s ti.1)) ∧
      ∀ t ∈ ts, 1 ≤ t ∧ t ≤ N ∧ ratio ≤ ((t % L : ℕ) : ℚ) / L ∧ t % L % k = 0 := by
  have hd : ∀ t c, cyclicalDoSample n L k ratio t c = (decide (c < n) &&
      (decide (((t % L : ℕ) : ℚ) / (L : ℚ) ≥ ratio) && decide (t % L % k = 0))) := by
    intro t c; simp [cyclicalDoSample, Bool.and_assoc]
  rw [accepts_iff n _ _ hd] at h
  refine ⟨_, ?_, ?_, (collect_spec n _ _ hd s N).2.2, ?_⟩
  · simp only [List.length_take]; omega
  · exact ((List.pairwise_lt_range' (s := 1) (n := N)).sublist List.filter_sublist).sublist
      (List.take_sublist _ _)
  · intro t ht
    have h1 := List.mem_filter.mp (List.mem_of_mem_take ht)
    have h2 := List.mem_range'_1.mp h1.1
    simp at h1
    exact ⟨by omega, by omega, h1.2.1, h1.2.2⟩

example := C36_samples (S := ℕ) 2 10 5 20 (1 / 2) (by decide +kernel) id

/-- **C36, phases.** The state after step `t` was produced by the update at
optimizer count `t - 1`. For a sampled step that is not the first of the sampling part of its cycle
(its predecessor's position also reaches the exploration ratio) that update is a Langevin update; at
the first such step it is an exploration (SGD) update. -/
theorem C36_phase_step (L : ℕ) (hL : 0 < L) (ratio : ℚ) (t : ℕ) (ht : 0 < t % L) :
    isSgld L ratio (t - 1) = true ↔ ratio ≤ (((t % L - 1 : ℕ)) : ℚ) / L := by
  have hmod : (t - 1) % L = t % L - 1 := by
    have hdm := Nat.div_add_mod t L
    have hlt := Nat.mod_lt t hL
    have h1 : t - 1 = L * (t / L) + (t % L - 1) := by omega
    rw [h1, Nat.mul_add_mod, Nat.mod_eq_of_lt (by omega)]
  unfold isSgld
  rw [hmod]; simp

example : isSgld 10 (1 / 2) (6 - 1) = true := (C36_phase_step 10 (by norm_num) (1 / 2) 6 (by norm_num)).2 (by norm_num)

/-- **C36, failure.** With cycles of 4 steps, exploration ratio 1/2 and thinning 1 the
constructor accepts, and the first collected state (step 2) is produced by an exploration update:
the callback counts one step ahead of the integrator. -/
theorem C36_phase_false :
    ∃ (L : ℕ) (ratio : ℚ), accepts (cyclicalDoSample 2 L 1 ratio) 2 8 = true ∧
      (collect (cyclicalDoSample 2 L 1 ratio) id 8).puts = [(0, 2), (1, 3)] ∧
      isSgld L ratio (2 - 1) = false :=
  ⟨4, 1 / 2, by decide +kernel, by decide +kernel, by decide +kernel⟩

/-! ## C37 step schedules -/

section schedules

theorem half_one_add_cos_mem (x : ℝ) :
    0 ≤ (1 + Real.cos x) * 0.5 ∧ (1 + Real.cos x) * 0.5 ≤ 1 := by
  have h1 := Real.neg_one_le_cos x
  have h2 := Real.cos_le_one x
  constructor <;> linarith

/-- **C37, constant.** -/
theorem C37_constant (init : ℝ) (f : ℕ → ℝ) (h : constantSchedule init = some f) (t : ℕ) :
    0 ≤ f t ∧ f t = init := by
  unfold constantSchedule at h
  by_cases h0 : init ≥ 0
  · simp only [h0, not_true_eq_false, if_false, Option.some.injEq] at h
    subst h; exact ⟨h0, rfl⟩
  · simp only [h0, not_false_eq_true, if_true] at h; simp at h

example := C37_constant 0.1 _ (if_neg (by norm_num)) 7

/-- **C37, cosine.** Step sizes lie between 0 and the initial one, start there, do not increase up to
`total_steps`, and reach 0 there. -/
theorem C37_cosine (init : ℝ) (total : ℤ) (f : ℕ → ℝ) (h : cosineSchedule init total = some f) :
    (∀ t, 0 ≤ f t ∧ f t ≤ init) ∧ f 0 = init ∧
    (∀ t u : ℕ, t ≤ u → (u : ℤ) ≤ total → f u ≤ f t) ∧
    (∀ u : ℕ, (u : ℤ) = total → f u = 0) := by
  unfold cosineSchedule at h
  by_cases h0 : init ≥ 0
  swap
  · rw [if_pos h0] at h; simp at h
  rw [if_neg (by simpa using h0)] at h
  by_cases h1 : total > 0
  swap
  · rw [if_pos h1] at h; simp at h
  rw [if_neg (by simpa using h1)] at h
  simp only [Option.some.injEq] at h
  have hT : (0 : ℝ) < (total : ℝ) := by exact_mod_cast h1
  subst h
  refine ⟨fun t => ?_, ?_, ?_, ?_⟩
  · obtain ⟨a, b⟩ := half_one_add_cos_mem ((t : ℝ) / (total : ℝ) * Real.pi)
    constructor
    · have := mul_nonneg h0 a
      linarith [this]
    · have := mul_le_mul_of_nonneg_left b h0
      linarith [this]
  · norm_num; ring
  · intro t u htu hu
    have hu' : (u : ℝ) ≤ (total : ℝ) := by exact_mod_cast hu
    have htu' : (t : ℝ) ≤ (u : ℝ) := by exact_mod_cast htu
    have hc : Real.cos ((u : ℝ) / total * Real.pi) ≤ Real.cos ((t : ℝ) / total * Real.pi) := by
      apply Real.cos_le_cos_of_nonneg_of_le_pi
      · positivity
      · have : (u : ℝ) / total ≤ 1 := by rw [div_le_one hT]; exact hu'
        nlinarith [Real.pi_pos]
      · apply mul_le_mul_of_nonneg_right _ Real.pi_pos.le
        exact div_le_div_of_nonneg_right htu' hT.le
    have := mul_le_mul_of_nonneg_left hc h0
    linarith
  · intro u hu
    have : (u : ℝ) = (total : ℝ) := by exact_mod_cast hu
    simp only [this, div_self hT.ne', one_mul, Real.cos_pi]
    norm_num

example := C37_cosine 0.1 100 _ ((if_neg (by norm_num)).trans (if_neg (by norm_num)))

/-- **C37, polynomial.** For a positive scale and a positive stabilisation constant the step sizes
are positive and strictly decreasing (so bounded by the first one). -/
theorem C37_polynomial (a b gamma : ℝ) (ha : 0 < a) (hb : 0 < b) (f : ℕ → ℝ)
    (h : polynomialSchedule a b gamma = some f) :
    (∀ t, 0 < f t ∧ f t ≤ f 0) ∧ ∀ t u, t < u → f u < f t := by
  unfold polynomialSchedule at h
  by_cases hg : 0.5 < gamma ∧ gamma ≤ 1
  swap
  · rw [if_pos hg] at h; simp at h
  rw [if_neg (by simpa using hg)] at h
  simp only [Option.some.injEq] at h
  have hanti : ∀ t u, t < u → f u < f t := by
    intro t u htu
    subst h
    apply mul_lt_mul_of_pos_left _ ha
    apply Real.rpow_lt_rpow_of_neg
    · positivity
    · have : (t : ℝ) < (u : ℝ) := by exact_mod_cast htu
      linarith
    · linarith [hg.1]
  refine ⟨fun t => ⟨?_, ?_⟩, hanti⟩
  · subst h; positivity
  · rcases Nat.eq_zero_or_pos t with rfl | ht
    · exact le_rfl
    · exact (hanti 0 t ht).le

example := C37_polynomial 0.1 1 0.55 (by norm_num) (by norm_num) _ (if_neg (by norm_num))

/-- **C37, Robbins–Monro.** The polynomial schedules that the constructor accepts satisfy the
conditions under which stochastic gradient Langevin dynamics converges: the step sizes are not
summable, their squares are. -/
theorem C37_robbins_monro (a b gamma : ℝ) (ha : 0 < a) (hb : 0 < b) (f : ℕ → ℝ)
    (h : polynomialSchedule a b gamma = some f) :
    ¬ Summable f ∧ Summable fun t => f t ^ 2 := by
  unfold polynomialSchedule at h
  by_cases hg : 0.5 < gamma ∧ gamma ≤ 1
  swap
  · rw [if_pos hg] at h; simp at h
  rw [if_neg (by simpa using hg)] at h
  simp only [Option.some.injEq] at h
  have hform : ∀ (p : ℝ) (t : ℕ), (b + (t : ℝ)) ^ (-p) = 1 / |(t : ℝ) + b| ^ p := by
    intro p t
    have hpos : 0 < (t : ℝ) + b := by positivity
    rw [abs_of_pos hpos, add_comm b, Real.rpow_neg hpos.le, one_div]
  constructor
  · subst h
    intro hs
    have h1 : Summable fun t : ℕ => 1 / |(t : ℝ) + b| ^ gamma := by
      have h2 := hs.mul_left a⁻¹
      refine h2.congr fun t => ?_
      rw [← hform, ← mul_assoc, inv_mul_cancel₀ ha.ne', one_mul]
    have := (Real.summable_one_div_nat_add_rpow b gamma).mp h1
    linarith [hg.2]
  · have h1 : Summable fun t : ℕ => 1 / |(t : ℝ) + b| ^ (2 * gamma) :=
      (Real.summable_one_div_nat_add_rpow b (2 * gamma)).mpr (by linarith [hg.1])
    refine (h1.mul_left (a ^ 2)).congr fun t => ?_
    subst h
    have hpos : 0 < b + (t : ℝ) := by positivity
    rw [← hform, mul_pow, ← Real.rpow_natCast ((b + (t : ℝ)) ^ (-gamma)) 2, ← Real.rpow_mul hpos.le]
    norm_num
    left
    congr 1
    ring

example := C37_robbins_monro 0.1 1 0.55 (by norm_num) (by norm_num) _ (if_neg (by norm_num))

/-- **C37, burn-in.** With at least one burn-in step, every step size lies between the initial and
the final one, the first is the initial one, and from the end of burn-in on it is the final one. -/
theorem C37_burnin (init final : ℝ) (burnin : ℤ) (hb : 0 < burnin) (f : ℕ → Option ℝ)
    (h : burninSchedule init final burnin = some f) :
    (∀ t, ∃ x, f t = some x ∧ 0 ≤ x ∧ min init final ≤ x ∧ x ≤ max init final) ∧
    f 0 = some init ∧ ∀ t : ℕ, burnin ≤ t → f t = some final := by
  unfold burninSchedule at h
  by_cases h0 : init ≥ 0
  swap
  · rw [if_pos h0] at h; simp at h
  rw [if_neg (by simpa using h0)] at h
  by_cases h1 : final ≥ 0
  swap
  · rw [if_pos h1] at h; simp at h
  rw [if_neg (by simpa using h1)] at h
  rw [if_neg (by simp; exact hb.le)] at h
  simp only [Option.some.injEq, hb.ne', if_false, Option.map_some] at h
  have hB : (0 : ℝ) < (burnin : ℝ) := by exact_mod_cast hb
  subst h
  refine ⟨fun t => ⟨_, rfl, ?_⟩, ?_, ?_⟩
  · obtain ⟨a, b⟩ := half_one_add_cos_mem (min ((t : ℝ) / (burnin : ℝ)) 1 * Real.pi)
    set c := (1 + Real.cos (min ((t : ℝ) / (burnin : ℝ)) 1 * Real.pi)) * 0.5
    have hc : 0 ≤ 1 - c := by linarith
    refine ⟨by have := mul_nonneg a h0; have := mul_nonneg hc h1; linarith, ?_, ?_⟩
    · have e1 := mul_le_mul_of_nonneg_left (min_le_left init final) a
      have e2 := mul_le_mul_of_nonneg_left (min_le_right init final) hc
      linarith
    · have e1 := mul_le_mul_of_nonneg_left (le_max_left init final) a
      have e2 := mul_le_mul_of_nonneg_left (le_max_right init final) hc
      linarith
  · simp; norm_num
  · intro t ht
    have ht' : (burnin : ℝ) ≤ (t : ℝ) := by exact_mod_cast ht
    have : min ((t : ℝ) / (burnin : ℝ)) 1 = 1 := min_eq_right (by rwa [le_div_iff₀ hB, one_mul])
    simp only [this, one_mul, Real.cos_pi]
    norm_num

example := C37_burnin 0.1 0.01 50 (by norm_num) _ ((if_neg (by norm_num)).trans ((if_neg (by norm_num)).trans (if_neg (by norm_num))))

/-- **C37 is false without burn-in.** `burnin_steps = 0` is accepted, but the first step size is
0/0, not a number. -/
theorem C37_burnin_zero_false :
    ∃ f, burninSchedule 1 1 0 = some f ∧ f 0 = none := by
  refine ⟨_, by unfold burninSchedule; norm_num; rfl, by simp⟩

/-- **C37, without burn-in.** Every later step size is the final one. -/
theorem C37_burnin_zero (init final : ℝ) (hi : 0 ≤ init) (hf : 0 ≤ final) :
    ∃ f, burninSchedule init final 0 = some f ∧ f 0 = none ∧ ∀ t, 0 < t → f t = some final := by
  refine ⟨_, by unfold burninSchedule; rw [if_neg (by simpa using hi), if_neg (by simpa using hf), if_neg (by norm_num)], by simp, ?_⟩
  intro t ht
  simp only [if_pos, if_neg ht.ne', Option.map_some, one_mul, Real.cos_pi]
  norm_num

/-- **C37, cyclical.** For a positive cycle length all step sizes lie between 0 and the initial one,
the schedule is constant until one step after burn-in, and from then on it repeats every `cycle`
steps. -/
theorem C37_cyclical (init : ℝ) (burnin cycle : ℕ) (hc : 0 < cycle) (f : ℕ → Option ℝ)
    (h : cyclicalSchedule init burnin cycle = some f) :
    (∀ t, ∃ x, f t = some x ∧ 0 ≤ x ∧ x ≤ init) ∧ (∀ t, t ≤ burnin + 1 → f t = some init) ∧
    (∀ t, burnin + 1 ≤ t → f (t + cycle) = f t) ∧
    (∀ t u, t ≤ u → u < cycle → ∃ x y, f (burnin + 1 + t) = some x ∧ f (burnin + 1 + u) = some y ∧
      y ≤ x) := by
  unfold cyclicalSchedule at h
  by_cases h0 : init ≥ 0
  swap
  · rw [if_pos h0] at h; simp at h
  rw [if_neg (by simpa using h0)] at h
  simp only [Option.some.injEq, hc.ne', if_false] at h
  subst h
  refine ⟨fun t => ⟨_, rfl, ?_⟩, ?_, ?_, ?_⟩
  · obtain ⟨a, b⟩ := half_one_add_cos_mem
      ((((t - burnin - 1) % cycle : ℕ) : ℝ) / (cycle : ℝ) * Real.pi)
    have e1 := mul_nonneg h0 a
    have e2 := mul_le_mul_of_nonneg_left b h0
    constructor <;> linarith
  · intro t ht
    have : t - burnin - 1 = 0 := by omega
    simp only [this, Nat.zero_mod]
    norm_num; ring
  · intro t ht
    have : t + cycle - burnin - 1 = (t - burnin - 1) + cycle := by omega
    simp only [this, Nat.add_mod_right]
  · intro t u htu hu
    refine ⟨_, _, rfl, rfl, ?_⟩
    have e1 : burnin + 1 + t - burnin - 1 = t := by omega
    have e2 : burnin + 1 + u - burnin - 1 = u := by omega
    simp only [e1, e2, Nat.mod_eq_of_lt hu, Nat.mod_eq_of_lt (lt_of_le_of_lt htu hu)]
    have hC : (0 : ℝ) < (cycle : ℝ) := by exact_mod_cast hc
    have htu' : (t : ℝ) ≤ (u : ℝ) := by exact_mod_cast htu
    have hcos : Real.cos ((u : ℝ) / cycle * Real.pi) ≤ Real.cos ((t : ℝ) / cycle * Real.pi) := by
      apply Real.cos_le_cos_of_nonneg_of_le_pi
      · positivity
      · have : (u : ℝ) / cycle ≤ 1 := by rw [div_le_one hC]; exact_mod_cast hu.le
        nlinarith [Real.pi_pos]
      · exact mul_le_mul_of_nonneg_right (div_le_div_of_nonneg_right htu' hC.le) Real.pi_pos.le
    have := mul_le_mul_of_nonneg_left hcos h0
    linarith

example := C37_cyclical 0.1 50 10 (by norm_num) _ (if_neg (by norm_num))

/-- **C37: cycles of the step size and of the phases do not start together.** The integrator starts a
new cycle (exploration) at optimizer counts that are multiples of the cycle length, with burn-in 0;
the step size there is the smallest of the cycle instead of the initial one. -/
theorem C37_cycle_start_false (init : ℝ) (hi : 0 < init) (cycle : ℕ) (hc : 2 ≤ cycle)
    (f : ℕ → Option ℝ) (h : cyclicalSchedule init 0 cycle = some f) :
    ∃ x, f cycle = some x ∧ x < init ∧ ∀ t y, f t = some y → x ≤ y := by
  unfold cyclicalSchedule at h
  rw [if_neg (by simpa using hi.le)] at h
  have hc0 : cycle ≠ 0 := by omega
  simp only [Option.some.injEq, hc0, if_false] at h
  subst h
  have hC : (0 : ℝ) < (cycle : ℝ) := by positivity
  have hm : (cycle - 0 - 1) % cycle = cycle - 1 := Nat.mod_eq_of_lt (by omega)
  have key : ∀ r : ℕ, r < cycle →
      Real.cos (((cycle - 1 : ℕ) : ℝ) / cycle * Real.pi) ≤ Real.cos ((r : ℝ) / cycle * Real.pi) := by
    intro r hr
    apply Real.cos_le_cos_of_nonneg_of_le_pi
    · positivity
    · have : ((cycle - 1 : ℕ) : ℝ) / cycle ≤ 1 := by
        rw [div_le_one hC]; exact_mod_cast Nat.sub_le cycle 1
      nlinarith [Real.pi_pos]
    · apply mul_le_mul_of_nonneg_right _ Real.pi_pos.le
      apply div_le_div_of_nonneg_right _ hC.le
      exact_mod_cast (by omega : r ≤ cycle - 1)
  refine ⟨_, rfl, ?_, ?_⟩
  · rw [hm]
    have hlt : Real.cos (((cycle - 1 : ℕ) : ℝ) / cycle * Real.pi) < Real.cos 0 := by
      apply Real.cos_lt_cos_of_nonneg_of_le_pi le_rfl
      · have : ((cycle - 1 : ℕ) : ℝ) / cycle ≤ 1 := by
          rw [div_le_one hC]; exact_mod_cast Nat.sub_le cycle 1
        nlinarith [Real.pi_pos]
      · have : (0 : ℝ) < ((cycle - 1 : ℕ) : ℝ) := by exact_mod_cast (by omega : 0 < cycle - 1)
        have := Real.pi_pos
        positivity
    rw [Real.cos_zero] at hlt
    nlinarith
  · intro t y hy
    simp only [Option.some.injEq] at hy
    subst hy
    rw [hm]
    have := key ((t - 0 - 1) % cycle) (Nat.mod_lt _ (by omega))
    nlinarith

/-- The schedules exist for concrete parameters. -/
example : (∃ f, cosineSchedule 0.1 100 = some f) ∧ (∃ f, polynomialSchedule 1 1 0.55 = some f) ∧
    (∃ f, burninSchedule 1 0.5 10 = some f) ∧ ∃ f, cyclicalSchedule 0.1 0 4 = some f := by
  refine ⟨?_, ?_, ?_, ?_⟩
  · unfold cosineSchedule; norm_num
  · unfold polynomialSchedule; norm_num
  · unfold burninSchedule; norm_num
  · unfold cyclicalSchedule; norm_num

end schedules

/-! ## C38 preconditioners -/

section precond
variable {ι : Type}

/-- The moment estimates after a history of gradients, oldest first. -/
noncomputable def moments (decay eps : ℝ) (gs : List (ι → ℝ)) : ι → ℝ :=
  gs.foldl (fun e g => (rmsprop ι decay eps).update g e) (rmsprop ι decay eps).init

theorem moments_concat (decay eps : ℝ) (gs : List (ι → ℝ)) (g : ι → ℝ) (i : ι) :
    moments decay eps (gs ++ [g]) i =
      moments decay eps gs i * decay + g i ^ 2 * (1 - decay) := by
  unfold moments
  rw [List.foldl_append, List.foldl_cons, List.foldl_nil]
  rfl

/-- **C38, moments.** The moment estimate is the exponentially weighted sum of squared gradients. -/
theorem C38_moments (decay eps : ℝ) (gs : List (ι → ℝ)) (i : ι) :
    moments decay eps gs i =
      (1 - decay) * (gs.zipIdx.map fun gk => decay ^ (gs.length - 1 - gk.2) * gk.1 i ^ 2).sum := by
  induction gs using List.reverseRecOn with
  | nil => simp [moments, rmsprop]
  | append_singleton l g ih =>
    rw [moments_concat, ih, List.zipIdx_append, List.map_append, List.sum_append]
    simp only [List.length_append, List.length_singleton, List.zipIdx_cons, List.zipIdx_nil,
      List.map_cons, List.map_nil, List.sum_cons, List.sum_nil, Nat.zero_add]
    have hs : (l.zipIdx.map fun gk => decay ^ (l.length + 1 - 1 - gk.2) * gk.1 i ^ 2) =
        l.zipIdx.map fun gk => decay * (decay ^ (l.length - 1 - gk.2) * gk.1 i ^ 2) := by
      apply List.map_congr_left
      rintro ⟨x, k⟩ hk
      have hlt : k < l.length := by
        have := List.mem_zipIdx hk
        omega
      have : l.length + 1 - 1 - k = (l.length - 1 - k) + 1 := by omega
      simp only [this, pow_succ]
      ring
    rw [hs, List.sum_map_mul_left]
    have hz : l.length + 1 - 1 - l.length = 0 := by omega
    rw [hz, pow_zero]
    ring

/-- **C38, non-negative.** With decay in [0,1] the estimates stay non-negative for every gradient
history, and at most the largest squared gradient. -/
theorem C38_moments_range (decay eps : ℝ) (h0 : 0 ≤ decay) (h1 : decay ≤ 1) (gs : List (ι → ℝ))
    (i : ι) (M : ℝ) (hM : 0 ≤ M) (hg : ∀ g ∈ gs, g i ^ 2 ≤ M) :
    0 ≤ moments decay eps gs i ∧ moments decay eps gs i ≤ M := by
  induction gs using List.reverseRecOn with
  | nil => simp [moments, rmsprop, hM]
  | append_singleton l g ih =>
    obtain ⟨a, b⟩ := ih fun x hx => hg x (by simp [hx])
    rw [moments_concat]
    have hgi := hg g (by simp)
    have hd : 0 ≤ 1 - decay := by linarith
    constructor
    · positivity
    · have e1 := mul_le_mul_of_nonneg_right b h0
      have e2 := mul_le_mul_of_nonneg_right hgi hd
      linarith

example := C38_moments_range 0.99 1e-7 (by norm_num) (by norm_num) [fun _ : Unit => 2, fun _ => -3] () 9 (by norm_num) (by simp; norm_num)

/-- **C38, algebra.** With `eps > 0`, for every state: applying the square root of the mass matrix
twice and then its inverse is the identity; `multiply_by_m_sqrt_inv` undoes `multiply_by_m_sqrt` in
either order; and the inverse is the inverse square root applied twice. -/
theorem C38_algebra (decay eps : ℝ) (he : 0 < eps) (v e : ι → ℝ) :
    let p := rmsprop ι decay eps
    p.mulInv (p.mulSqrt (p.mulSqrt v e) e) e = v ∧
    p.mulSqrtInv (p.mulSqrt v e) e = v ∧ p.mulSqrt (p.mulSqrtInv v e) e = v ∧
    p.mulSqrtInv (p.mulSqrtInv v e) e = p.mulInv v e := by
  have hpos : ∀ i, 0 < eps + Real.sqrt (e i) := fun i => by
    have := Real.sqrt_nonneg (e i); linarith
  have hs : ∀ i, Real.sqrt (eps + Real.sqrt (e i)) ≠ 0 := fun i =>
    (Real.sqrt_pos.mpr (hpos i)).ne'
  have hsq : ∀ i, Real.sqrt (eps + Real.sqrt (e i)) * Real.sqrt (eps + Real.sqrt (e i)) =
      eps + Real.sqrt (e i) := fun i => Real.mul_self_sqrt (hpos i).le
  refine ⟨?_, ?_, ?_, ?_⟩ <;> funext i <;> simp only [rmsprop]
  · rw [mul_assoc, hsq, mul_div_assoc, div_self (hpos i).ne', mul_one]
  · rw [mul_div_assoc, div_self (hs i), mul_one]
  · rw [div_mul_cancel₀ _ (hs i)]
  · rw [div_div, hsq]

example := C38_algebra 0.99 1e-7 (by norm_num) (fun _ : Unit => 2) fun _ => 4

/-- **C38, identity.** -/
theorem C38_identity (v : ι → ℝ) (u : Unit) :
    (identityPrecond ι).mulInv v u = v ∧ (identityPrecond ι).mulSqrt v u = v ∧
    (identityPrecond ι).mulSqrtInv v u = v := ⟨rfl, rfl, rfl⟩

example : moments (0.5 : ℝ) 0.1 [fun _ : Unit => 2, fun _ => 4] () = 9 := by
  simp [moments, rmsprop]; norm_num

end precond

/-! ## C39 SGHMC and SGLD -/

section integrators
variable {ι P : Type}

/-- **C39, no friction.** With momentum decay 0 and the RMSprop preconditioner, the SGHMC update is
the preconditioned Langevin update: drift `h·M⁻¹·g` plus noise `√(2h)·M^(-1/2)·ξ`, with `ξ` the
normal draws of this step's key; it does not depend on the momentum. -/
theorem C39_sgld_rmsprop (decay eps : ℝ) (he : 0 < eps) (resample : Option ℕ) (sch : ℕ → ℝ)
    (normal : Key → ι → ℝ) (g : ι → ℝ) (s : HMCState ι (ι → ℝ)) (hh : 0 ≤ sch s.count) (i : ι) :
    let p := rmsprop ι decay eps
    let pre := p.update g s.pre
    (sghmcUpdate p 0 resample sch normal g s).1 i =
      sch s.count * p.mulInv g pre i +
      Real.sqrt (2 * sch s.count) * p.mulSqrtInv (normal (.left s.key)) pre i := by
  intro p pre
  have hpos : 0 < eps + Real.sqrt (pre i) := by have := Real.sqrt_nonneg (pre i); linarith
  have hs := Real.mul_self_sqrt hpos.le
  have hs0 : Real.sqrt (eps + Real.sqrt (pre i)) ≠ 0 := (Real.sqrt_pos.mpr hpos).ne'
  have hsh := Real.mul_self_sqrt hh
  simp only [sghmcUpdate, zero_mul, zero_add, sub_zero, mul_one]
  show ((g i * Real.sqrt (sch s.count) +
      normal (.left s.key) i * Real.sqrt (eps + Real.sqrt (pre i)) * Real.sqrt 2) /
        (eps + Real.sqrt (pre i))) * Real.sqrt (sch s.count) =
    sch s.count * (g i / (eps + Real.sqrt (pre i))) + Real.sqrt (2 * sch s.count) *
      (normal (.left s.key) i / Real.sqrt (eps + Real.sqrt (pre i)))
  rw [Real.sqrt_mul (by norm_num : (0 : ℝ) ≤ 2)]
  set q := Real.sqrt (eps + Real.sqrt (pre i)) with hq
  rw [← hs]
  set r := Real.sqrt (sch s.count) with hr
  rw [← hsh]
  field_simp

example := C39_sgld_rmsprop 0.99 1e-7 (by norm_num) (some 3) (fun _ => 0.1) (fun _ _ => 1) (fun _ => 2) ⟨5, .seed 0, fun _ => 1, fun _ => 4⟩ (by norm_num) ()

/-- **C39, no friction, no preconditioner.** The update is `h·g + √(2h)·ξ`. -/
theorem C39_sgld_identity (resample : Option ℕ) (sch : ℕ → ℝ) (normal : Key → ι → ℝ) (g : ι → ℝ)
    (s : HMCState ι Unit) (hh : 0 ≤ sch s.count) (i : ι) :
    (sghmcUpdate (identityPrecond ι) 0 resample sch normal g s).1 i =
      sch s.count * g i + Real.sqrt (2 * sch s.count) * normal (.left s.key) i := by
  have hsh := Real.mul_self_sqrt hh
  simp only [sghmcUpdate, zero_mul, zero_add, sub_zero, mul_one, identityPrecond]
  rw [Real.sqrt_mul (by norm_num : (0 : ℝ) ≤ 2)]
  set r := Real.sqrt (sch s.count) with hr
  rw [← hsh]
  ring

/-- **C39, momentum resampling.** The momentum is replaced by zero exactly at the steps whose index
is a multiple of `momentum_resample_steps`, and kept otherwise. -/
theorem C39_resample (p : Precond ι P) (decay : ℝ) (r : ℕ) (sch : ℕ → ℝ) (normal : Key → ι → ℝ)
    (g : ι → ℝ) (s : HMCState ι P) :
    (r ∣ s.count → sghmcUpdate p decay (some r) sch normal g s =
      sghmcUpdate p decay none sch normal g { s with momentum := fun _ => 0 }) ∧
    (¬ r ∣ s.count → sghmcUpdate p decay (some r) sch normal g s =
      sghmcUpdate p decay none sch normal g s) := by
  constructor
  · intro h
    have : s.count % r = 0 := Nat.mod_eq_zero_of_dvd h
    simp [sghmcUpdate, this]
  · intro h
    have : ¬ s.count % r = 0 := fun h' => h (Nat.dvd_of_mod_eq_zero h')
    simp [sghmcUpdate, this]

/-- **C39, heavy ball.** In general the new momentum is `decay·m + √h·g + √(2(1-decay))·M^(1/2)·ξ`
and the update is `√h·M⁻¹·m'`: with the identity preconditioner, the momentum after any history is
the geometrically discounted sum of the scaled gradients and noises. -/
theorem C39_momentum (decay : ℝ) (sch : ℕ → ℝ) (normal : Key → ι → ℝ) (gs : List (ι → ℝ))
    (key : Key) (i : ι) :
    let run := gs.foldl (fun s g => (sghmcUpdate (identityPrecond ι) decay none sch normal g s).2)
      (sghmcInit (identityPrecond ι) key)
    run.count = gs.length ∧ run.key = Key.right^[gs.length] key ∧
    run.momentum i = (gs.zipIdx.map fun gt => decay ^ (gs.length - 1 - gt.2) *
      (gt.1 i * Real.sqrt (sch gt.2) +
        normal (.left (Key.right^[gt.2] key)) i * Real.sqrt (2 * (1 - decay)))).sum := by
  induction gs using List.reverseRecOn with
  | nil => simp [sghmcInit]
  | append_singleton l g ih =>
    obtain ⟨h1, h2, h3⟩ := ih
    simp only [List.foldl_append, List.foldl_cons, List.foldl_nil]
    set st := l.foldl (fun s g => (sghmcUpdate (identityPrecond ι) decay none sch normal g s).2)
      (sghmcInit (identityPrecond ι) key) with hst
    refine ⟨by simp [sghmcUpdate, h1], ?_, ?_⟩
    · simp only [sghmcUpdate, h2, List.length_append, List.length_singleton,
        Function.iterate_succ_apply']
    · show decay * st.momentum i + g i * Real.sqrt (sch st.count) +
        normal (.left st.key) i * Real.sqrt (2 * (1 - decay)) = _
      rw [h1, h2, h3, List.zipIdx_append, List.map_append, List.sum_append]
      simp only [List.length_append, List.length_singleton, List.zipIdx_cons, List.zipIdx_nil,
        List.map_cons, List.map_nil, List.sum_cons, List.sum_nil, Nat.zero_add]
      have hs : (l.zipIdx.map fun gt => decay ^ (l.length + 1 - 1 - gt.2) *
          (gt.1 i * Real.sqrt (sch gt.2) +
            normal (.left (Key.right^[gt.2] key)) i * Real.sqrt (2 * (1 - decay)))) =
          l.zipIdx.map fun gt => decay * (decay ^ (l.length - 1 - gt.2) *
          (gt.1 i * Real.sqrt (sch gt.2) +
            normal (.left (Key.right^[gt.2] key)) i * Real.sqrt (2 * (1 - decay)))) := by
        apply List.map_congr_left
        rintro ⟨x, k⟩ hk
        have hlt : k < l.length := by
          have := List.mem_zipIdx hk
          omega
        have : l.length + 1 - 1 - k = (l.length - 1 - k) + 1 := by omega
        simp only [this, pow_succ]
        ring
      rw [hs, List.sum_map_mul_left]
      have hz : l.length + 1 - 1 - l.length = 0 := by omega
      rw [hz, pow_zero]
      ring

theorem right_iterate_left_inj (key : Key) (a b : ℕ)
    (h : Key.left (Key.right^[a] key) = Key.left (Key.right^[b] key)) : a = b := by
  have h' : Key.right^[a] key = Key.right^[b] key := by injection h
  clear h
  have size : ∀ n, ∀ k : Key, sizeOf (Key.right^[n] k) = sizeOf k + n := by
    intro n
    induction n with
    | zero => intro k; rfl
    | succ n ih =>
      intro k
      rw [Function.iterate_succ_apply']
      have := ih k
      simp [this]; omega
  have := congrArg sizeOf h'
  rw [size, size] at this
  omega

/-- **C39, fresh noise.** No two steps of a run draw their noise from the same key. -/
theorem C39_fresh_noise (key : Key) (t u : ℕ) (h : t ≠ u) :
    Key.left (Key.right^[t] key) ≠ Key.left (Key.right^[u] key) :=
  fun heq => h (right_iterate_left_inj key t u heq)

example := C39_fresh_noise (.seed 0) 2 5 (by norm_num)

/-- **C36/C39, the cyclical integrator.** In the sampling phase its update is the frictionless SGHMC
update; in the exploration phase it is a noiseless ascent step `h·M⁻¹·g`, which leaves the key and the
momentum alone. The optimizer count grows by one in both. -/
theorem C39_cyclical (p : Precond ι P) (L : ℕ) (ratio : ℚ) (sch : ℕ → ℝ) (normal : Key → ι → ℝ)
    (g : ι → ℝ) (s : HMCState ι P) :
    let r := cyclicalUpdate p L ratio sch normal g s
    r.2.count = s.count + 1 ∧ r.2.pre = p.update g s.pre ∧
    (isSgld L ratio s.count = true → r = sghmcUpdate p 0 none sch normal g s) ∧
    (isSgld L ratio s.count = false →
      r.1 = p.mulInv (fun i => sch s.count * g i) (p.update g s.pre) ∧
      r.2.key = s.key ∧ r.2.momentum = s.momentum) := by
  unfold cyclicalUpdate
  cases h : isSgld L ratio s.count
  · refine ⟨rfl, rfl, fun h' => by simp at h', fun _ => ⟨?_, rfl, rfl⟩⟩
    simp only [Bool.false_eq_true, if_false]
    congr 1
    funext i
    norm_num
  · exact ⟨rfl, rfl, fun _ => rfl, fun h' => by simp at h'⟩

/-- A concrete step without friction: step size 1/2, gradient 2 and noise 1 give 1 + 1. -/
example : (sghmcUpdate (identityPrecond Unit) 0 none (fun _ => 1 / 2) (fun _ _ => 1)
    (fun _ => 2) (sghmcInit (identityPrecond Unit) (.seed 0))).1 () = 2 := by
  rw [C39_sgld_identity _ _ _ _ _ (by norm_num)]
  norm_num

end integrators

/-! ## C40 SWAG -/

section swag
variable {ι : Type}

/-- The statistics after the collected weights `xs`, each with the epoch it was collected in. -/
noncomputable def swagRun (rank : ℕ) (xs : List (ℕ × (ι → ℝ))) : Option (Swag ι) :=
  xs.foldl (swagStep rank) none

theorem swagRun_concat (rank : ℕ) (xs : List (ℕ × (ι → ℝ))) (ex : ℕ × (ι → ℝ)) :
    swagRun rank (xs ++ [ex]) = swagStep rank (swagRun rank xs) ex := by
  simp [swagRun]

/-- **C40, variance.** For every trajectory of weights and epochs the running second moment is at
least the squared running mean, so the clipping at zero never acts (in exact arithmetic). -/
theorem C40_variance_nonneg (rank : ℕ) (xs : List (ℕ × (ι → ℝ))) (s : Swag ι)
    (h : swagRun rank xs = some s) (i : ι) :
    0 ≤ s.sq i - s.mean i ^ 2 ∧ swagStd s i ^ 2 = s.sq i - s.mean i ^ 2 := by
  have key : 0 ≤ s.sq i - s.mean i ^ 2 := by
    induction xs using List.reverseRecOn generalizing s with
    | nil => simp [swagRun] at h
    | append_singleton l ex ih =>
      rw [swagRun_concat] at h
      cases hl : swagRun rank l with
      | none =>
        rw [hl] at h; simp only [swagStep, Option.some.injEq] at h
        subst h; simp
      | some s0 =>
        rw [hl] at h; simp only [swagStep, Option.some.injEq] at h
        have h0 := ih s0 hl
        subst h
        simp only
        have he : (0 : ℝ) ≤ (ex.1 : ℝ) := Nat.cast_nonneg _
        have hpos : (0 : ℝ) < (ex.1 : ℝ) + 1 := by linarith
        have : (s0.sq i * ex.1 + ex.2 i ^ 2) / ((ex.1 : ℝ) + 1) -
            ((s0.mean i * ex.1 + ex.2 i) / ((ex.1 : ℝ) + 1)) ^ 2 =
            ((s0.sq i - s0.mean i ^ 2) * ex.1 * (ex.1 + 1) +
              ex.1 * (s0.mean i - ex.2 i) ^ 2) / ((ex.1 : ℝ) + 1) ^ 2 := by
          field_simp; ring
        rw [this]
        positivity
  refine ⟨key, ?_⟩
  rw [swagStd, max_eq_left key, Real.sq_sqrt key]

example := C40_variance_nonneg 2 [(0, fun _ => 1), (1, fun _ => 3)] _ rfl ()

/-- **C40, mean.** With one update per epoch (epochs 0, 1, 2, …) the running mean and second moment
are the averages over all collected weights. -/
theorem C40_mean (rank : ℕ) (x : ℕ → ι → ℝ) (n : ℕ) (s : Swag ι)
    (h : swagRun rank ((List.range (n + 1)).map fun e => (e, x e)) = some s) (i : ι) :
    s.mean i = ((List.range (n + 1)).map fun e => x e i).sum / (n + 1) ∧
    s.sq i = ((List.range (n + 1)).map fun e => x e i ^ 2).sum / (n + 1) := by
  induction n generalizing s with
  | zero =>
    simp [swagRun, swagStep] at h
    subst h; simp
  | succ n ih =>
    rw [List.range_succ, List.map_append, List.map_cons, List.map_nil, swagRun_concat] at h
    cases hl : swagRun rank ((List.range (n + 1)).map fun e => (e, x e)) with
    | none =>
      exfalso
      rw [List.range_succ, List.map_append, List.map_cons, List.map_nil, swagRun_concat] at hl
      cases h2 : swagRun rank ((List.range n).map fun e => (e, x e)) <;>
        rw [h2] at hl <;> simp [swagStep] at hl
    | some s0 =>
      rw [hl] at h; simp only [swagStep, Option.some.injEq] at h
      obtain ⟨h1, h2⟩ := ih s0 hl
      subst h
      simp only
      rw [h1, h2, List.range_succ (n := n + 1)]
      simp only [List.map_append, List.map_cons, List.map_nil, List.sum_append, List.sum_cons,
        List.sum_nil, add_zero]
      push_cast
      have : ((n : ℝ) + 1) ≠ 0 := by positivity
      have : ((n : ℝ) + 1 + 1) ≠ 0 := by positivity
      constructor <;> field_simp

example := C40_mean 2 (fun e _ => (e : ℝ) ^ 2) 2 _ rfl ()

/-- **C40: with several updates per epoch the mean is not the mean of the collected weights.** During
the first epoch (number 0) every update replaces the mean by the latest weights. -/
theorem C40_mean_per_step_false :
    ∃ (xs : List (ℕ × (Unit → ℝ))) (s : Swag Unit), swagRun 2 xs = some s ∧
      xs.length = 2 ∧ s.mean () ≠ (xs.map fun ex => ex.2 ()).sum / xs.length := by
  refine ⟨[(0, fun _ => 0), (0, fun _ => 2)], _, rfl, rfl, ?_⟩
  norm_num

/-- Specification: the deviation column each weight contributed when it was collected. -/
noncomputable def deviations (rank : ℕ) (xs : List (ℕ × (ι → ℝ))) : List (ι → ℝ) :=
  (List.range xs.length).filterMap fun k =>
    match swagRun rank (xs.take (k + 1)), xs[k]? with
    | some s, some ex => some fun i => if k = 0 then 0 else ex.2 i - s.mean i
    | _, _ => none

theorem swagRun_isSome (rank : ℕ) (xs : List (ℕ × (ι → ℝ))) (h : xs ≠ []) :
    ∃ s, swagRun rank xs = some s := by
  rcases List.eq_nil_or_concat xs with rfl | ⟨l, x, rfl⟩
  · exact absurd rfl h
  · rw [List.concat_eq_append, swagRun_concat]
    cases swagRun rank l <;> exact ⟨_, rfl⟩

theorem deviations_concat (rank : ℕ) (xs : List (ℕ × (ι → ℝ))) (ex : ℕ × (ι → ℝ)) (s : Swag ι)
    (h : swagRun rank (xs ++ [ex]) = some s) :
    deviations rank (xs ++ [ex]) = deviations rank xs ++
      [fun i => if xs.length = 0 then 0 else ex.2 i - s.mean i] := by
  unfold deviations
  rw [List.length_append, List.length_singleton, List.range_succ, List.filterMap_append]
  congr 1
  · apply List.filterMap_congr
    intro k hk
    have hk' : k < xs.length := List.mem_range.mp hk
    rw [List.take_append_of_le_length (by omega), List.getElem?_append_left hk']
  · have : (xs ++ [ex]).take (xs.length + 1) = xs ++ [ex] :=
      List.take_of_length_le (by simp)
    simp [this, h]

/-- **C40, deviations.** With rank at least 2, the stored columns are the most recent deviations, and
at most `rank` of them: after `t` updates exactly the last `min(t, rank)`. (The first update
contributes a zero column.) -/
theorem C40_deviations (rank : ℕ) (hr : 2 ≤ rank) (xs : List (ℕ × (ι → ℝ))) (s : Swag ι)
    (h : swagRun rank xs = some s) :
    s.dev = (deviations rank xs).drop (xs.length - rank) ∧ s.dev.length = min xs.length rank := by
  have hlen : ∀ ys : List (ℕ × (ι → ℝ)), (deviations rank ys).length = ys.length := by
    intro ys
    induction ys using List.reverseRecOn with
    | nil => simp [deviations]
    | append_singleton l ex ih =>
      obtain ⟨t, ht⟩ := swagRun_isSome rank (l ++ [ex]) (by simp)
      rw [deviations_concat rank l ex t ht]; simp [ih]
  suffices H : s.dev = (deviations rank xs).drop (xs.length - rank) by
    refine ⟨H, ?_⟩
    rw [H, List.length_drop, hlen]; omega
  induction xs using List.reverseRecOn generalizing s with
  | nil => simp [swagRun] at h
  | append_singleton l ex ih =>
    rw [deviations_concat rank l ex s h]
    rw [swagRun_concat] at h
    cases hl : swagRun rank l with
    | none =>
      have hnil : l = [] := by
        by_contra hne
        obtain ⟨t, ht⟩ := swagRun_isSome rank l hne
        rw [ht] at hl; simp at hl
      subst hnil
      rw [hl] at h; simp only [swagStep, Option.some.injEq] at h
      subst h
      have : 0 + 1 - rank = 0 := by omega
      simp [deviations, this]
    | some s0 =>
      have hne : l ≠ [] := by rintro rfl; simp [swagRun] at hl
      have hpos : 0 < l.length := List.length_pos_iff.mpr hne
      have h0 := ih s0 hl
      rw [hl] at h
      simp only [swagStep, Option.some.injEq] at h
      subst h
      have hr1 : rank ≠ 1 := by omega
      simp only [hr1, if_false, hpos.ne']
      have hl0 : s0.dev.length = min l.length rank := by
        rw [h0, List.length_drop, hlen]; omega
      rw [hl0, h0, List.drop_drop]
      rw [List.length_append, List.length_singleton]
      rw [List.drop_append_of_le_length (by rw [hlen]; omega)]
      congr 2
      omega

example := C40_deviations 2 le_rfl [(0, fun _ : Unit => 1), (1, fun _ => 3), (2, fun _ => 8)] _ rfl

/-- **C40 is false for rank 1.** `dev[:, -rank + 1:]` is `dev[:, 0:]`: nothing is ever dropped, and the
number of stored columns grows with the number of updates. -/
theorem C40_rank_one_false (xs : List (ℕ × (ι → ℝ))) (s : Swag ι)
    (h : swagRun 1 xs = some s) : s.dev.length = xs.length := by
  induction xs using List.reverseRecOn generalizing s with
  | nil => simp [swagRun] at h
  | append_singleton l ex ih =>
    rw [swagRun_concat] at h
    cases hl : swagRun 1 l with
    | none =>
      have hnil : l = [] := by
        by_contra hne
        obtain ⟨t, ht⟩ := swagRun_isSome 1 l hne
        rw [ht] at hl; simp at hl
      subst hnil
      rw [hl] at h; simp only [swagStep, Option.some.injEq] at h
      subst h; simp
    | some s0 =>
      rw [hl] at h; simp only [swagStep, Option.some.injEq] at h
      subst h
      simp [ih s0 hl]

/-- Three epochs, rank 2. -/
example : ∃ s, swagRun 2 [(0, fun _ : Unit => 1), (1, fun _ => 3), (2, fun _ => 8)] = some s ∧
    s.mean () = 4 ∧ s.dev.map (fun c => c ()) = [1, 4] := by
  refine ⟨_, rfl, ?_, ?_⟩ <;> norm_num

end swag

/-! ## C41 random keys -/

theorem rngGets_eq (n : ℕ) (k : Key) :
    rngGets n k = (List.range n).map fun i => Key.left^[i + 1] k := by
  induction n generalizing k with
  | zero => rfl
  | succ n ih =>
    rw [rngGets, ih, List.range_succ_eq_map]
    simp only [rngGet, List.map_cons, List.map_map]
    congr 1

theorem left_iterate_size (n : ℕ) (k : Key) : sizeOf (Key.left^[n] k) = sizeOf k + n := by
  induction n with
  | zero => rfl
  | succ n ih => rw [Function.iterate_succ_apply']; simp [ih]; omega

/-- **C41.** Successive calls of `get` never return the same key, whatever the number of calls. -/
theorem C41_distinct (n : ℕ) (k : Key) : (rngGets n k).Nodup := by
  rw [rngGets_eq]
  apply List.Nodup.map_on _ List.nodup_range
  intro a _ b _ h
  have := congrArg sizeOf h
  rw [left_iterate_size, left_iterate_size] at this
  omega

/-- **C41, seeds.** Generators with different seeds never return a common key, and the n-th key is a
function of the seed and n only. -/
theorem C41_seeds (n m : ℕ) (a b : ℕ) (h : a ≠ b) :
    List.Disjoint (rngGets n (.seed a)) (rngGets m (.seed b)) := by
  rw [rngGets_eq, rngGets_eq]
  intro x hx hy
  simp only [List.mem_map, List.mem_range] at hx hy
  obtain ⟨i, -, rfl⟩ := hx
  obtain ⟨j, -, hj⟩ := hy
  have hs := congrArg sizeOf hj
  rw [left_iterate_size, left_iterate_size] at hs
  have key : ∀ (i j : ℕ), Key.left^[j] (.seed b) = Key.left^[i] (.seed a) → False := by
    intro i
    induction i with
    | zero =>
      intro j hj
      cases j with
      | zero => simp at hj; exact h hj.symm
      | succ j => rw [Function.iterate_succ_apply'] at hj; simp at hj
    | succ i ih =>
      intro j hj
      cases j with
      | zero => rw [Function.iterate_succ_apply'] at hj; simp at hj
      | succ j =>
        rw [Function.iterate_succ_apply', Function.iterate_succ_apply'] at hj
        injection hj with hj
        exact ih j hj
  exact key (i + 1) (j + 1) hj

example := C41_seeds 3 4 0 1 (by norm_num)

/-- **C41 is false for keys that are split by the caller.** `get` returns its own internal key, so a
caller who splits the returned key obtains, as first half, exactly the key the next call of `get`
will return. -/
theorem C41_split_collision_false (k : Key) :
    Key.left (rngGet k).1 = (rngGet (rngGet k).2).1 := rfl

example : rngGets 3 (.seed 7) =
    [.left (.seed 7), .left (.left (.seed 7)), .left (.left (.left (.seed 7)))] := rfl

end Verif.Props
