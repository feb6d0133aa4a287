import Verif.Model.FitRun
import Verif.Props.Training
import Verif.Props.SGMCMC
import Verif.Props.StateRepo
import Mathlib.Tactic.Linarith
import Mathlib.Tactic.Positivity

/-! Property C97: what a fit makes of its configuration. -/
set_option linter.unusedSectionVars false

namespace Verif.Props

open Verif.FitRun Verif.FitStart Verif.Training Verif.SGMCMC

section
variable {ι P O B : Type} [Fintype ι]

/-- The preparation for a checkpoint keeps the step. -/
def KeepsStep (p : Problem ι P O B) : Prop := ∀ s, (p.strip s).step = s.step

theorem trainStep_step (upd : (ι → ℝ) → P × O → P × O) (clip : (ι → ℝ) → ι → ℝ) (k : ℕ) (s : TState P O (ι → ℝ)) (g : ι → ℝ) :
    (trainStep ℝ upd clip k s g).step = s.step + 1 := by
  unfold trainStep accumStep TState.applyGrad
  split
  · dsimp only
    split <;> rfl
  · rfl

theorem jobOf_counting (a : Args) (p : Problem ι P O B) (hp : KeepsStep p) : StepCounting (jobOf a p) :=
  ⟨fun _ s _ => trainStep_step _ _ _ s _, hp⟩

/-! ### Number of epochs -/

/-- **C97.** Without early stopping every method trains all its epochs; SWAG does so whatever patience is configured. -/
theorem C97_all_epochs (m : Method) (c : Cfg) (a : Args) (ha : trainerArgs m c = some a)
    (hoff : m = .swag ∨ c.patience = none ∨ ∃ q, c.patience = some q ∧ q ≤ 0) (p : Problem ι P O B) (hp : KeepsStep p)
    (data : ℕ → List B) (s : TState P O (ι → ℝ)) (dir : Dir (TState P O (ι → ℝ))) (l : Loop (TState P O (ι → ℝ)) ℝ)
    (h : runFit a p data s dir = some l) :
    l.trained = c.epochs ∧ l.state.step = s.step + ((List.range c.epochs).map fun e => (data e).length).sum := by
  have hep : a.epochs = c.epochs := by
    cases m <;> simp only [trainerArgs, Option.some.injEq, reduceCtorEq] at ha <;> rw [← ha]
  have hact : a.es.active = false := by
    cases m <;> simp only [trainerArgs, Option.some.injEq, reduceCtorEq] at ha <;> rw [← ha] <;>
      simp only [reduceCtorEq, false_or] at hoff
    case swag => simp [ESConfig.active]
    all_goals
      rcases hoff with h | ⟨q, h, hq⟩
      · simp [ESConfig.active, h]
      · simp [ESConfig.active, h, hq]
  obtain ⟨h1, h2, -⟩ := C62_all_epochs (jobOf a p) (jobOf_counting a p hp) hact data a.epochs s dir l h
  rw [← hep]
  exact ⟨h1, h2⟩

/-- What is monitored. -/
theorem jobOf_metric (a : Args) (p : Problem ι P O B) (hv : p.hasVal = true) :
    (jobOf a p).metric =
      some (if a.monitorLoss then (fun s => if a.ascend then p.valLogProb s else -p.valLogProb s) else p.metric) := by
  simp [jobOf, hv]

/-- **C97.** MAP, ADVI and the members of an ensemble, validated after every epoch with patience `q`, stop exactly when the monitored
values have exhausted it. -/
theorem C97_patience (m : Method) (hm : m = .map ∨ m = .advi ∨ m = .deepEnsemble) (c : Cfg) (a : Args)
    (ha : trainerArgs m c = some a) (q : ℕ) (hq : 0 < q) (hpat : c.patience = some (q : ℤ)) (hev : c.evalEvery = 1)
    (p : Problem ι P O B) (hv : p.hasVal = true) (data : ℕ → List B) (s : TState P O (ι → ℝ))
    (dir : Dir (TState P O (ι → ℝ))) (l : Loop (TState P O (ι → ℝ)) ℝ) (h : runFit a p data s dir = some l) :
    (∀ st, ((jobOf a p).metric.map fun f => f st) = some (if c.monitorLoss then -p.valLogProb st else p.metric st)) ∧
      l.vals.length = l.trained ∧ l.trained ≤ c.epochs ∧
      (∀ t, t < l.trained → ¬ Exhausted c.minDelta q (l.vals.take t)) ∧
      (l.trained < c.epochs → Exhausted c.minDelta q l.vals) := by
  have e : a = ⟨c.epochs, c.saveDir, c.saveEvery, c.keep, c.evalEvery, c.monitorLoss, ⟨c.minDelta, c.patience, some "min"⟩,
      c.maxNorm, c.accSteps, c.callbacks, false⟩ := by
    rcases hm with rfl | rfl | rfl <;> simp only [trainerArgs, Option.some.injEq] at ha <;> exact ha.symm
  have h0 := C31_epochs_run (jobOf a p) _ (jobOf_metric a p hv) (by rw [e]; exact hev) q hq (by rw [e]; exact hpat)
    (by rw [e]; rfl) data a.epochs s dir l h
  subst e
  exact ⟨fun st => by rw [jobOf_metric _ p hv]; cases c.monitorLoss <;> rfl, h0⟩

end

/-- A sequence whose values never fall below the first by more than `d` exhausts the patience `p` at its `p + 2`-nd value. -/
theorem exhausted_of_floor (d : ℝ) (p : ℕ) (v : ℝ) (vs : List ℝ) (hvs : ∀ x ∈ vs, v - x ≤ d) :
    Exhausted d p (v :: vs) ↔ p + 1 ≤ vs.length := by
  have hbest : ∀ ws : List ℝ, (∀ x ∈ ws, v - x ≤ d) → bestOf d (v :: ws) = some v := by
    intro ws hws
    simp only [bestOf, Option.some.injEq]
    induction ws with
    | nil => rfl
    | cons w ws ih =>
      rw [List.foldl_cons, if_neg (not_lt.2 (hws w (by simp)))]
      exact ih fun x hx => hws x (by simp [hx])
  constructor
  · rintro ⟨pre, mid, suf, he, hl, hno⟩
    cases pre with
    | nil =>
      cases mid with
      | nil => simp at hl
      | cons m mid =>
        obtain ⟨b, hb, -⟩ := hno m (by simp)
        simp [bestOf] at hb
    | cons x pre =>
      have := congrArg List.length he
      simp only [List.length_cons, List.length_append, List.cons_append] at this
      omega
  · intro hlen
    refine ⟨[v], vs.take (p + 1), vs.drop (p + 1), ?_, by simp [hlen], fun m hm => ?_⟩
    · rw [List.append_assoc, List.take_append_drop]; rfl
    · exact ⟨v, by simp [bestOf], hvs m (List.mem_of_mem_take hm)⟩

section
variable {ι P O B : Type} [Fintype ι]

/-- The run stops after `q + 2` epochs if the monitored value never falls below its first one by more than `min_delta`. -/
theorem floor_epochs (a : Args) (q : ℕ) (hq : 0 < q) (hpat : a.es.patience = some (q : ℤ)) (hmode : a.es.mode = some "min")
    (hev : a.evalEvery = 1) (p : Problem ι P O B) (hv : p.hasVal = true) (data : ℕ → List B)
    (s : TState P O (ι → ℝ)) (dir : Dir (TState P O (ι → ℝ))) (l : Loop (TState P O (ι → ℝ)) ℝ)
    (h : runFit a p data s dir = some l)
    (hfloor : ∀ x ∈ l.vals, ∀ y ∈ l.vals.head?, y - x ≤ a.es.minDelta) : l.trained = min a.epochs (q + 2) := by
  obtain ⟨h1, h2, h3, h4⟩ := C31_epochs_run (jobOf a p) _ (jobOf_metric a p hv) hev q hq hpat hmode data a.epochs s dir l h
  cases hvals : l.vals with
  | nil =>
    rw [hvals] at h1 h4
    simp only [List.length_nil] at h1
    rcases Nat.eq_or_lt_of_le h2 with he | hlt
    · omega
    · obtain ⟨pre, mid, suf, he, hl, -⟩ := h4 hlt
      have := congrArg List.length he
      simp only [List.length_nil, List.length_append] at this
      omega
  | cons v vs =>
    rw [hvals] at h1 h3 h4 hfloor
    have hfl : ∀ x ∈ vs, v - x ≤ a.es.minDelta := fun x hx => hfloor x (by simp [hx]) v (by simp)
    have hle : l.trained ≤ q + 2 := by
      by_contra hgt
      push Not at hgt
      refine h3 (q + 2) hgt ?_
      rw [show q + 2 = (q + 1) + 1 from rfl, List.take_succ_cons]
      refine (exhausted_of_floor _ q v _ fun x hx => hfl x (List.mem_of_mem_take hx)).2 ?_
      rw [List.length_take, List.length_cons] at *
      omega
    rcases Nat.eq_or_lt_of_le h2 with he | hlt
    · omega
    · have := (exhausted_of_floor _ q v vs hfl).1 (h4 hlt)
      simp only [List.length_cons] at h1
      omega

/-- **C97, negation.** No fit can monitor a metric that is to be maximised: if it never falls below its first value by more than
`min_delta`, in particular if it gets better all the time, training stops after `patience + 2` epochs. -/
theorem C97_maximised_false (m : Method) (hm : m ≠ .swag) (c : Cfg) (a : Args) (ha : trainerArgs m c = some a) (q : ℕ)
    (hq : 0 < q) (hpat : c.patience = some (q : ℤ)) (hev : c.evalEvery = 1) (hmon : c.monitorLoss = false)
    (p : Problem ι P O B) (hv : p.hasVal = true) (data : ℕ → List B) (s : TState P O (ι → ℝ))
    (dir : Dir (TState P O (ι → ℝ))) (l : Loop (TState P O (ι → ℝ)) ℝ) (h : runFit a p data s dir = some l)
    (hfloor : ∀ x ∈ l.vals, ∀ y ∈ l.vals.head?, y - x ≤ c.minDelta) :
    (∀ st, ((jobOf a p).metric.map fun f => f st) = some (p.metric st)) ∧ l.trained = min c.epochs (q + 2) := by
  cases m <;> simp only [trainerArgs, Option.some.injEq, reduceCtorEq] at ha <;> first | exact absurd rfl hm | skip
  all_goals
    subst ha
    exact ⟨fun st => by rw [jobOf_metric _ p hv]; simp [hmon],
      floor_epochs _ q hq hpat rfl hev p hv data s dir l h hfloor⟩

/-- **C97, negation.** A sampler monitors the logarithm of the joint probability as if it were to be minimised: a chain that moves to
better parameters and never back below its first value is stopped after `patience + 2` epochs. -/
theorem C97_sampler_stops_false (m : Method) (hm : m = .sghmc ∨ m = .cyclicalSGLD) (c : Cfg) (a : Args)
    (ha : trainerArgs m c = some a) (q : ℕ) (hq : 0 < q) (hpat : c.patience = some (q : ℤ)) (hev : c.evalEvery = 1)
    (hmon : c.monitorLoss = true) (p : Problem ι P O B) (hv : p.hasVal = true) (data : ℕ → List B)
    (s : TState P O (ι → ℝ)) (dir : Dir (TState P O (ι → ℝ))) (l : Loop (TState P O (ι → ℝ)) ℝ)
    (h : runFit a p data s dir = some l) (hfloor : ∀ x ∈ l.vals, ∀ y ∈ l.vals.head?, y - x ≤ c.minDelta) :
    (∀ st, ((jobOf a p).metric.map fun f => f st) = some (p.valLogProb st)) ∧ l.trained = min c.epochs (q + 2) := by
  rcases hm with rfl | rfl <;> simp only [trainerArgs, Option.some.injEq] at ha
  all_goals
    subst ha
    exact ⟨fun st => by rw [jobOf_metric _ p hv]; simp [hmon],
      floor_epochs _ q hq hpat rfl hev p hv data s dir l h hfloor⟩

end

/-! ### Samples -/

section
variable {S B K : Type} [Field K] [LinearOrder K] [IsStrictOrderedRing K]

theorem epochs_ends (j : Job S B K) (hj : StepCounting j) (hg : j.gas ≤ 1) (data : ℕ → List B) (L : ℕ)
    (hL : ∀ e, (data e).length = L) (n e : ℕ) (l0 l : Loop S K) (h : epochs j data n e l0 = some l) :
    ∃ t, l.trained = l0.trained + t ∧ j.stepOf l.state = j.stepOf l0.state + t * L ∧
      l.ends = l0.ends ++ List.range' (j.stepOf l0.state + 1) (t * L) := by
  induction n generalizing e l0 with
  | zero =>
    simp only [epochs, Option.some.injEq] at h
    subst h
    exact ⟨0, by simp⟩
  | succ n ih =>
    unfold epochs at h
    cases h1 : trainEpoch j (data e) l0 with
    | none => rw [h1] at h; cases h
    | some l1 =>
      rw [h1] at h
      dsimp only at h
      have hends := (C62_keys j hj hg (data e) l0 l1 h1).2
      rw [hL e] at hends
      have hfr : j.stepOf l1.state = j.stepOf l0.state + L ∧ l1.trained = l0.trained + 1 := by
        obtain ⟨l', h', rfl⟩ := trainEpoch_some h1
        obtain ⟨a1, -, -, a4, -⟩ := epochFrom_frame j hj (data e) 0 _ l0 l' h'
        exact ⟨by rw [← hL e]; exact a1, by rw [← a4]⟩
      have hjoin : ∀ t, List.range' (j.stepOf l0.state + 1) L ++ List.range' (j.stepOf l0.state + L + 1) (t * L) =
          List.range' (j.stepOf l0.state + 1) ((t + 1) * L) := by
        intro t
        rw [show j.stepOf l0.state + L + 1 = j.stepOf l0.state + 1 + 1 * L by ring, List.range'_append]
        congr 1
        ring
      have hrest : ∀ l2 : Loop S K, l2.trained = l1.trained → l2.state = l1.state → l2.ends = l1.ends →
          epochs j data n (e + 1) l2 = some l → ∃ t, l.trained = l0.trained + t ∧ j.stepOf l.state = j.stepOf l0.state + t * L ∧
            l.ends = l0.ends ++ List.range' (j.stepOf l0.state + 1) (t * L) := by
        intro l2 e1 e2 e3 h2
        obtain ⟨t, t1, t2, t3⟩ := ih (e + 1) l2 h2
        refine ⟨t + 1, by rw [t1, e1, hfr.2]; ring, by rw [t2, e2, hfr.1]; ring, ?_⟩
        rw [t3, e3, e2, hends, hfr.1, List.append_assoc, hjoin]
      by_cases hv : shouldValidate j e = true
      · rw [if_pos hv] at h
        cases h2 : validate j l1 with
        | none => rw [h2] at h; cases h
        | some l2 =>
          rw [h2] at h
          dsimp only at h
          obtain ⟨v1, -, v3, -⟩ := validate_frame j l1 l2 h2
          have v4 : l2.ends = l1.ends := by
            unfold validate at h2
            split at h2
            · cases h2; rfl
            · dsimp only at h2
              split at h2
              · obtain ⟨d, -, rfl⟩ := Option.map_eq_some_iff.mp h2; rfl
              · cases h2; rfl
          by_cases hs : (j.es.active && l2.es.stop) = true
          · rw [if_pos hs] at h
            cases h
            exact ⟨1, by rw [v3, hfr.2], by rw [v1, hfr.1]; ring, by rw [v4, hends]; simp⟩
          · rw [if_neg hs] at h
            exact hrest l2 v3 v1 v4 h
      · rw [if_neg hv] at h
        exact hrest l1 rfl rfl rfl h

theorem train_ends (j : Job S B K) (hj : StepCounting j) (hg : j.gas ≤ 1) (data : ℕ → List B) (L : ℕ)
    (hL : ∀ e, (data e).length = L) (n : ℕ) (s : S) (dir : Dir S) (l : Loop S K) (h : train j data n s dir = some l) :
    l.ends = List.range' (j.stepOf s + 1) (l.trained * L) := by
  unfold train at h
  obtain ⟨l1, h1, h2⟩ := Option.bind_eq_some_iff.mp h
  have hfin : l.ends = l1.ends ∧ l.trained = l1.trained := by
    unfold trainEnd at h2
    split_ifs at h2
    · obtain ⟨d, -, rfl⟩ := Option.map_eq_some_iff.mp h2; exact ⟨rfl, rfl⟩
    · simp at h2; subst h2; exact ⟨rfl, rfl⟩
  obtain ⟨t, t1, -, t3⟩ := epochs_ends j hj hg data L hL n 0 _ l1 h1
  simp only [Nat.zero_add, List.nil_append] at t1 t3
  rw [hfin.1, hfin.2, t3, t1]

end

/-- The rule by which one of the two samplers takes samples, with room for `n`. -/
def SamplingRule (n : ℕ) (d : ℕ → ℕ → Bool) : Prop :=
  (∃ b k, d = sghmcDoSample n b k) ∨ ∃ L k r, d = cyclicalDoSample n L k r

theorem SamplingRule.spec {n : ℕ} {d : ℕ → ℕ → Bool} (h : SamplingRule n d) :
    ∃ Q : ℕ → Bool, ∀ t c, d t c = (decide (c < n) && Q t) := by
  rcases h with ⟨b, k, rfl⟩ | ⟨L, k, r, rfl⟩
  · exact ⟨fun t => decide (t > b) && decide ((t - b) % k = 0), fun t c => by simp [sghmcDoSample, Bool.and_assoc]⟩
  · exact ⟨fun t => decide (((t % L : ℕ) : ℚ) / (L : ℚ) ≥ r) && decide (t % L % k = 0),
      fun t c => by simp [cyclicalDoSample, Bool.and_assoc]⟩

/-- The callback after the steps of a run, each given by its number. -/
def callbackOn (d : ℕ → ℕ → Bool) (ends : List ℕ) : Sampler ℕ := ends.foldl (Sampler.stepEnd d) Sampler.init

section
variable {ι P O B : Type} [Fintype ι]

theorem callback_count (n : ℕ) (hn : 0 < n) (d : ℕ → ℕ → Bool) (hd : SamplingRule n d) (s0 N : ℕ) :
    (callbackOn d (List.range' (s0 + 1) N)).count = min n ((List.range' 1 N).filter fun t => d t 0).length := by
  obtain ⟨Q, hQ⟩ := hd.spec
  have e : callbackOn d (List.range' (s0 + 1) N) = collect d (fun t => s0 + t) N := by
    unfold callbackOn collect
    rw [List.map_add_range' (a := s0)]
  rw [e, (collect_spec n Q d hQ _ N).2.1, List.length_take]
  congr 3
  funext t
  rw [hQ]
  simp [hn]

/-- **C97.** Without early stopping a sampler whose constructor accepts the numbers collects exactly `n_samples` samples. -/
theorem C97_samples (m : Method) (hm : m = .sghmc ∨ m = .cyclicalSGLD) (c : Cfg) (a : Args) (ha : trainerArgs m c = some a)
    (hoff : c.patience = none ∨ ∃ q, c.patience = some q ∧ q ≤ 0) (n : ℕ) (hn : 0 < n) (d : ℕ → ℕ → Bool) (hd : SamplingRule n d)
    (p : Problem ι P O B) (hp : KeepsStep p) (data : ℕ → List B) (L : ℕ) (hL : ∀ e, (data e).length = L)
    (hacc : accepts d n (c.epochs * L) = true) (s : TState P O (ι → ℝ)) (dir : Dir (TState P O (ι → ℝ)))
    (l : Loop (TState P O (ι → ℝ)) ℝ) (h : runFit a p data s dir = some l) : (callbackOn d l.ends).count = n := by
  have hg : (jobOf a p).gas ≤ 1 := by
    rcases hm with rfl | rfl <;> simp only [trainerArgs, Option.some.injEq] at ha <;> subst ha <;> simp [jobOf]
  have htr := (C97_all_epochs m c a ha (Or.inr hoff) p hp data s dir l h).1
  have hends := train_ends (jobOf a p) (jobOf_counting a p hp) hg data L hL a.epochs s dir l h
  rw [hends, htr, show (jobOf a p).stepOf s = s.step from rfl, callback_count n hn d hd]
  simp only [accepts, Bool.not_eq_true', decide_eq_false_iff_not, not_lt] at hacc
  exact min_eq_left hacc

/-- **C97, negation.** With early stopping a sampler's chain that gets better all the time is stopped after `patience + 2` epochs:
it collects what falls into these, and slots stay empty if that is less than `n_samples`, although the constructor has accepted. -/
theorem C97_samples_false (m : Method) (hm : m = .sghmc ∨ m = .cyclicalSGLD) (c : Cfg) (a : Args) (ha : trainerArgs m c = some a)
    (q : ℕ) (hq : 0 < q) (hpat : c.patience = some (q : ℤ)) (hev : c.evalEvery = 1) (hmon : c.monitorLoss = true)
    (hlong : q + 2 ≤ c.epochs) (n : ℕ) (hn : 0 < n) (d : ℕ → ℕ → Bool) (hd : SamplingRule n d) (p : Problem ι P O B)
    (hp : KeepsStep p) (hv : p.hasVal = true) (data : ℕ → List B) (L : ℕ) (hL : ∀ e, (data e).length = L)
    (hrej : accepts d n ((q + 2) * L) = false) (s : TState P O (ι → ℝ)) (dir : Dir (TState P O (ι → ℝ)))
    (l : Loop (TState P O (ι → ℝ)) ℝ) (h : runFit a p data s dir = some l)
    (hfloor : ∀ x ∈ l.vals, ∀ y ∈ l.vals.head?, y - x ≤ c.minDelta) : (callbackOn d l.ends).count < n := by
  have hg : (jobOf a p).gas ≤ 1 := by
    rcases hm with rfl | rfl <;> simp only [trainerArgs, Option.some.injEq] at ha <;> subst ha <;> simp [jobOf]
  have htr := (C97_sampler_stops_false m hm c a ha q hq hpat hev hmon p hv data s dir l h hfloor).2
  have hends := train_ends (jobOf a p) (jobOf_counting a p hp) hg data L hL a.epochs s dir l h
  rw [hends, htr, min_eq_right hlong, show (jobOf a p).stepOf s = s.step from rfl, callback_count n hn d hd]
  simp only [accepts, Bool.not_eq_false', decide_eq_true_eq] at hrej
  omega

/-! ### Clipping and accumulation -/

/-- Specification: the norm of a gradient. -/
noncomputable def gnorm (g : ι → ℝ) : ℝ := Real.sqrt (∑ i, g i ^ 2)

theorem gnorm_smul (a : ℝ) (ha : 0 ≤ a) (g : ι → ℝ) : gnorm (a • g) = a * gnorm g := by
  unfold gnorm
  rw [← Real.sqrt_sq ha, ← Real.sqrt_mul (sq_nonneg a), Real.sqrt_sq ha, Finset.mul_sum]
  congr 1
  exact Finset.sum_congr rfl fun i _ => by simp [mul_pow]

theorem clipFn_norm (m : ℝ) (hm : 0 < m) (g : ι → ℝ) : gnorm (clipFn (some m) g) ≤ m := by
  have hN : 0 ≤ gnorm g := Real.sqrt_nonneg _
  have hpos : 0 < 1 / 10 ^ 7 + gnorm g := by positivity
  unfold clipFn
  rw [if_pos (by simpa using hm)]
  simp only [Option.getD_some]
  change gnorm (min 1 (m / (1 / 10 ^ 7 + gnorm g)) • g) ≤ m
  rw [gnorm_smul _ (le_min zero_le_one (div_nonneg hm.le hpos.le))]
  calc min 1 (m / (1 / 10 ^ 7 + gnorm g)) * gnorm g ≤ m / (1 / 10 ^ 7 + gnorm g) * (1 / 10 ^ 7 + gnorm g) := by
        refine mul_le_mul (min_le_right _ _) (by linarith [show (0 : ℝ) ≤ 1 / 10 ^ 7 by positivity]) hN (div_nonneg hm.le hpos.le)
    _ = m := div_mul_cancel₀ _ hpos.ne'

/-- **C97.** In every step of MAP, ADVI and of the members of an ensemble the optimizer is given no gradient of norm above
`max_grad_norm`: either parameters and optimizer are left (a gradient is accumulated) or they are updated with such a gradient. -/
theorem C97_clipped (m : Method) (hm : m = .map ∨ m = .advi ∨ m = .deepEnsemble) (c : Cfg) (a : Args)
    (ha : trainerArgs m c = some a) (r : ℝ) (hr : 0 < r) (hc : c.maxNorm = some r) (p : Problem ι P O B) (key : ℕ)
    (s : TState P O (ι → ℝ)) (b : B) :
    let s' := (jobOf a p).train key s b
    (s'.params = s.params ∧ s'.opt = s.opt) ∨ ∃ g, gnorm g ≤ r ∧ (s'.params, s'.opt) = p.upd g (s.params, s.opt) := by
  have e : a.maxNorm = some r := by
    rcases hm with rfl | rfl | rfl <;> simp only [trainerArgs, Option.some.injEq] at ha <;> subst ha <;> exact hc
  intro s'
  have hs : s' = trainStep ℝ p.upd (clipFn (some r)) (a.accSteps.getD 0) s
      (if a.ascend then p.grad key s b else -p.grad key s b) := by
    change (jobOf a p).train key s b = _
    simp only [jobOf, e]
  rw [hs]
  unfold trainStep accumStep TState.applyGrad
  split
  · dsimp only
    split
    · exact Or.inr ⟨_, clipFn_norm r hr _, rfl⟩
    · exact Or.inl ⟨rfl, rfl⟩
  · exact Or.inr ⟨_, clipFn_norm r hr _, rfl⟩

/-- **C97.** They make one update in `gradient_accumulation_steps` steps, with the clipped mean of the gradients in between. -/
theorem C97_accumulated (m : Method) (hm : m = .map ∨ m = .advi ∨ m = .deepEnsemble) (c : Cfg) (a : Args)
    (ha : trainerArgs m c = some a) (k : ℕ) (hk : 1 < k) (hc : c.accSteps = some k) (p : Problem ι P O B) :
    (jobOf a p).gas = k ∧ ∀ key s b, (jobOf a p).train key s b = accumStep ℝ p.upd (clipFn c.maxNorm) k s (-p.grad key s b) := by
  have e : a.accSteps = some k ∧ a.maxNorm = c.maxNorm ∧ a.ascend = false := by
    rcases hm with rfl | rfl | rfl <;> simp only [trainerArgs, Option.some.injEq] at ha <;> subst ha <;> exact ⟨hc, rfl, rfl⟩
  refine ⟨by simp [jobOf, e.1], fun key s b => ?_⟩
  simp only [jobOf, e.1, e.2.1, e.2.2, Option.getD_some, trainStep, if_pos hk, Bool.false_eq_true, if_false]

/-- **C97, negation.** SWAG and the samplers neither clip nor accumulate, whatever is configured: every step hands the whole gradient
to the optimizer. -/
theorem C97_unclipped_false (m : Method) (hm : m = .swag ∨ m = .sghmc ∨ m = .cyclicalSGLD) (c : Cfg) (a : Args)
    (ha : trainerArgs m c = some a) (p : Problem ι P O B) (key : ℕ) (s : TState P O (ι → ℝ)) (b : B) :
    let s' := (jobOf a p).train key s b
    (s'.params, s'.opt) = p.upd (if m = .swag then -p.grad key s b else p.grad key s b) (s.params, s.opt) := by
  rcases hm with rfl | rfl | rfl <;> simp only [trainerArgs, Option.some.injEq] at ha <;> subst ha <;>
    simp [jobOf, trainStep, TState.applyGrad, clipFn]

/-- **C97, negation.** The callbacks of the user are run by MAP, ADVI, SWAG and ensembles and by no sampler. -/
theorem C97_callbacks (m : Method) (c : Cfg) (a : Args) (ha : trainerArgs m c = some a) :
    a.callbacks = if m = .sghmc ∨ m = .cyclicalSGLD then [] else c.callbacks := by
  cases m <;> simp only [trainerArgs, Option.some.injEq, reduceCtorEq] at ha <;> subst ha <;> simp

end

/-! ### Status -/

/-- Specification: the status of the preliminary run is found in what `fit` returns. -/
def MapStatusReturned : Status → Prop
  | .one keys => "map" ∈ keys
  | _ => False

/-- **C97.** The status of a preliminary run of MAP is returned exactly if there was one by ADVI, SWAG, Laplace and SGHMC. False of
cyclical SGLD and ensembles: it is lost. -/
theorem C97_status (m : Method) (ran : Bool) :
    ((m = .advi ∨ m = .swag ∨ m = .laplace ∨ m = .sghmc) → (MapStatusReturned (statusOf m ran) ↔ ran = true)) ∧
    ((m = .cyclicalSGLD ∨ m = .deepEnsemble) → ¬ MapStatusReturned (statusOf m ran)) := by
  constructor
  · rintro (rfl | rfl | rfl | rfl) <;> cases ran <;> simp [statusOf, MapStatusReturned]
  · rintro (rfl | rfl) <;> simp [statusOf, MapStatusReturned]

/-! ### Where the state is kept -/

section
variable {A V : Type} [DecidableEq A]

open Verif.StateRepo

/-- **C97.** After a fit the posterior's state is the one training ended with (without accumulated gradients if it is kept on disk),
whatever the directory held before. -/
theorem C97_kept (m : Method) (c : Cfg) (disk : Loc (TS A V)) (hfile : ∀ x, disk ≠ .file x) (hk : 1 ≤ c.keep) (final : TS A V)
    (r : Repo (TS A V)) (h : storeState m c disk final = .ok r) :
    getState r false = .ok (if keptOnDisk m c then final.strip else final) := by
  unfold storeState put at h
  simp only [Bool.false_eq_true, if_false] at h
  cases hd : keptOnDisk m c with
  | false =>
    rw [hd] at h
    simp only [Bool.false_eq_true, if_false, Except.ok.injEq] at h
    subst h
    simp [getState]
  | true =>
    rw [hd] at h
    simp only [if_true] at h
    have key : ∀ d : Dir (TS A V), restore (.dir ((saveCkpt d final.strip.step final.strip c.keep true).getD [])) =
        .ok final.strip := by
      intro d
      obtain ⟨d', h'⟩ := saveCkpt_overwrite d final.strip.step final.strip c.keep
      rw [h', Option.getD_some]
      simp only [restore, (saveCkpt_some d _ _ c.keep hk true d' h').1]
    cases disk with
    | file x => exact absurd rfl (hfile x)
    | absent =>
      simp only [save, Except.map, Except.ok.injEq] at h
      subst h
      simpa [getState] using key []
    | dir d =>
      simp only [save, Except.map, Except.ok.injEq] at h
      subst h
      simpa [getState] using key d

/-- **C97.** The state of MAP, ADVI, SWAG and ensembles is kept on disk exactly if `dump_state` is set with a directory. -/
theorem C97_dump (m : Method) (hm : m = .map ∨ m = .advi ∨ m = .swag ∨ m = .deepEnsemble) (c : Cfg) :
    keptOnDisk m c = true ↔ c.dump = true ∧ c.saveDir = true := by
  rcases hm with rfl | rfl | rfl | rfl <;> simp [keptOnDisk, and_comm]

/-- **C97, negation.** Laplace and the samplers keep it on disk as soon as a directory is given, without `dump_state`. -/
theorem C97_dump_false (m : Method) (hm : m = .laplace ∨ m = .sghmc ∨ m = .cyclicalSGLD) (c : Cfg) (hdir : c.saveDir = true)
    (hdump : c.dump = false) : keptOnDisk m c = true ∧ ¬ (c.dump = true ∧ c.saveDir = true) := by
  rcases hm with rfl | rfl | rfl <;> simp [keptOnDisk, hdir, hdump]

end

section
variable {ι P O B : Type} [Fintype ι]

/-- **C97.** If a directory is given, its latest checkpoint after the fit is the state training ended with, whether `dump_state` is
set or not and whatever it held before. -/
theorem C97_reload (m : Method) (c : Cfg) (a : Args) (ha : trainerArgs m c = some a) (hdir : c.saveDir = true) (hk : 1 ≤ c.keep)
    (p : Problem ι P O B) (data : ℕ → List B) (s : TState P O (ι → ℝ)) (dir : Dir (TState P O (ι → ℝ)))
    (l : Loop (TState P O (ι → ℝ)) ℝ) (h : runFit a p data s dir = some l) :
    restoreCkpt l.dir = some (p.strip l.state) ∧ l.dir.length ≤ c.keep := by
  have e : a.hasDir = true ∧ a.keep = c.keep := by
    cases m <;> simp only [trainerArgs, Option.some.injEq, reduceCtorEq] at ha <;> subst ha <;> exact ⟨hdir, rfl⟩
  have := C62_final_checkpoint (jobOf a p) e.1 (by rw [← e.2] at hk; exact hk) data a.epochs s dir l h
  rw [← e.2]
  exact this

end

/-! ### Examples -/

/-- A chain that gets better by one in each step. -/
def climb : Problem Unit Unit Unit Unit where
  grad _ _ _ _ := 1
  upd _ po := po
  strip s := s
  hasVal := true
  valLogProb s := s.step
  metric s := s.step

/-- Ten epochs, patience 1. -/
def tenEpochs : Cfg := ⟨10, false, none, 2, false, 1, true, some 1, 0, some 1, some 2, [7]⟩

/-- What SGHMC is given for it. -/
def climbArgs : Args := ⟨10, false, none, 2, 1, true, ⟨0, some 1, some "min"⟩, none, none, [], true⟩

/-- The loop after `k` steps: values `vals` seen. -/
def climbLoop (k : ℕ) (es : ES ℝ) (vals : List ℝ) (t : ℕ) : Loop (TState Unit Unit (Unit → ℝ)) ℝ :=
  ⟨⟨k, (), (), none⟩, k, [], es, List.range k, List.range' 1 k, t, vals⟩

theorem climb_epoch (k : ℕ) (es : ES ℝ) (vals : List ℝ) (t : ℕ) :
    trainEpoch (jobOf climbArgs climb) [(), ()] (climbLoop k es vals t) = some (climbLoop (k + 2) es vals (t + 1)) := by
  simp [trainEpoch, epochFrom, stepEnd, jobOf, climbArgs, trainStep, TState.applyGrad, climbLoop, climb, List.range_succ,
    List.range'_concat, add_comm]
  omega

-- SGHMC is stopped after three epochs of two steps, with one of the four samples that ten epochs give
theorem climb_stopped : trainerArgs .sghmc tenEpochs = some climbArgs ∧ KeepsStep climb ∧
    accepts (sghmcDoSample 4 3 3) 4 (10 * 2) = true ∧ accepts (sghmcDoSample 4 3 3) 4 ((1 + 2) * 2) = false ∧
    ∃ l, runFit climbArgs climb (fun _ => [(), ()]) ⟨0, (), (), none⟩ [] = some l ∧ l.vals = [2, 4, 6] ∧
      (∀ x ∈ l.vals, ∀ y ∈ l.vals.head?, y - x ≤ tenEpochs.minDelta) ∧ l.trained = 3 ∧
      (callbackOn (sghmcDoSample 4 3 3) l.ends).puts = [(0, 6)] := by
  refine ⟨rfl, fun _ => rfl, by decide, by decide, climbLoop 6 ⟨0, 1, some 2, 2, true, false⟩ [2, 4, 6] 3, ?_, rfl, ?_, rfl,
    by decide⟩
  · have hne : "min" ≠ "max" := by decide
    have hv : ∀ e, shouldValidate (jobOf climbArgs climb) e = true := by
      intro e; simp [shouldValidate, jobOf, climbArgs, climb]
    have v1 : validate (jobOf climbArgs climb) (climbLoop 2 ⟨0, 1, none, 0, false, false⟩ [] 1) =
        some (climbLoop 2 ⟨0, 1, some 2, 0, false, true⟩ [2] 1) := by
      norm_num [validate, jobOf, climbArgs, climb, climbLoop, esUpdate, ESConfig.active, ES.update, hne]
    have v2 : validate (jobOf climbArgs climb) (climbLoop 4 ⟨0, 1, some 2, 0, false, true⟩ [2] 2) =
        some (climbLoop 4 ⟨0, 1, some 2, 1, false, false⟩ [2, 4] 2) := by
      norm_num [validate, jobOf, climbArgs, climb, climbLoop, esUpdate, ESConfig.active, ES.update, hne]
    have v3 : validate (jobOf climbArgs climb) (climbLoop 6 ⟨0, 1, some 2, 1, false, false⟩ [2, 4] 3) =
        some (climbLoop 6 ⟨0, 1, some 2, 2, true, false⟩ [2, 4, 6] 3) := by
      norm_num [validate, jobOf, climbArgs, climb, climbLoop, esUpdate, ESConfig.active, ES.update, hne]
    change (epochs (jobOf climbArgs climb) (fun _ => [(), ()]) (7 + 1 + 1 + 1) 0
      (climbLoop 0 ⟨0, 1, none, 0, false, false⟩ [] 0)).bind (trainEnd (jobOf climbArgs climb)) = _
    simp only [epochs, climb_epoch, hv, v1, v2, v3, if_true, Nat.zero_add, Nat.reduceAdd]
    simp [climbLoop, jobOf, climbArgs, ESConfig.active, trainEnd]
  · norm_num [climbLoop, tenEpochs]

-- clipping in MAP: the gradient 3 is given to the optimizer with norm at most 1/2
example : ∃ a, trainerArgs .map { tenEpochs with maxNorm := some (1 / 2) } = some a ∧ a.maxNorm = some (1 / 2) ∧
    a.callbacks = [7] ∧ gnorm (clipFn a.maxNorm fun _ : Unit => (3 : ℝ)) ≤ 1 / 2 :=
  ⟨_, rfl, rfl, rfl, clipFn_norm _ (by norm_num) _⟩

-- a MAP state kept on disk over an older run's checkpoints
example : ∃ r, storeState .map ⟨1, true, none, 2, true, 1, true, none, 0, none, none, []⟩
      (.dir [(3, ⟨3, none, fun _ : Unit => 0⟩), (9, ⟨9, none, fun _ => 1⟩)]) ⟨5, some 4, fun _ => 2⟩ = .ok r ∧
    (StateRepo.getState r false).toOption.map (fun s => (s.step, s.acc, s.attr ())) = some (5, none, 2) := ⟨_, rfl, by decide⟩

/-! ### Concrete cases that meet the hypotheses of the theorems above -/

/-- The stopped run. -/
theorem climb_run : ∃ l, runFit climbArgs climb (fun _ => [(), ()]) ⟨0, (), (), none⟩ [] = some l ∧
    ∀ x ∈ l.vals, ∀ y ∈ l.vals.head?, y - x ≤ tenEpochs.minDelta :=
  climb_stopped.2.2.2.2.imp fun _ h => ⟨h.1, h.2.2.1⟩

/-- Without a directory every run returns. -/
theorem climb_returns (a : Args) (ha : a.hasDir = false) (hg : (jobOf a climb).gas ≤ 2) :
    ∃ l, runFit a climb (fun _ => [(), ()]) ⟨0, (), (), none⟩ [] = some l :=
  (C62_runs (jobOf a climb) (by simp [jobOf, ha]) (fun _ => [(), ()]) (fun _ => ⟨by simp, hg⟩) a.epochs ⟨0, (), (), none⟩ []).imp fun _ h => h.1

example := (climb_returns ⟨10, false, none, 2, 1, true, ⟨0, none, some "min"⟩, none, none, [], true⟩ rfl (by simp [jobOf])).imp fun l h =>
  C97_all_epochs .sghmc { tenEpochs with patience := none } _ rfl (.inr (.inl rfl)) climb climb_stopped.2.1 _ _ _ l h
example := (climb_returns ⟨10, false, none, 2, 1, true, ⟨0, some 1, some "min"⟩, some 1, some 2, [7], false⟩ rfl (by simp [jobOf])).imp fun l h =>
  C97_patience .map (.inl rfl) tenEpochs _ rfl 1 one_pos rfl rfl climb rfl _ _ _ l h
example := C97_maximised_false .sghmc (by decide) { tenEpochs with monitorLoss := false } { climbArgs with monitorLoss := false } rfl 1 one_pos rfl
  rfl rfl climb rfl (fun _ => [(), ()]) ⟨0, (), (), none⟩ [] _ climb_run.choose_spec.1 climb_run.choose_spec.2
example := climb_run.imp fun l h => C97_sampler_stops_false .sghmc (.inl rfl) tenEpochs climbArgs rfl 1 one_pos rfl rfl rfl climb rfl _ _ _ l h.1 h.2
example := (climb_returns ⟨10, false, none, 2, 1, true, ⟨0, none, some "min"⟩, none, none, [], true⟩ rfl (by simp [jobOf])).imp fun l h =>
  C97_samples .sghmc (.inl rfl) { tenEpochs with patience := none } _ rfl (.inl rfl) 4 (by norm_num) _ (.inl ⟨3, 3, rfl⟩) climb
    climb_stopped.2.1 _ 2 (fun _ => rfl) climb_stopped.2.2.1 _ _ l h
example := climb_run.imp fun l h => C97_samples_false .sghmc (.inl rfl) tenEpochs climbArgs rfl 1 one_pos rfl rfl rfl (by norm_num [tenEpochs])
  4 (by norm_num) _ (.inl ⟨3, 3, rfl⟩) climb climb_stopped.2.1 rfl _ 2 (fun _ => rfl) climb_stopped.2.2.2.1 _ _ l h.1 h.2
example := C97_clipped .map (.inl rfl) tenEpochs _ rfl 1 one_pos rfl climb 0 ⟨0, (), (), none⟩ ()
example := C97_accumulated .map (.inl rfl) tenEpochs _ rfl 2 (by norm_num) rfl climb
example := C97_unclipped_false .sghmc (.inr (.inl rfl)) tenEpochs _ rfl climb 0 ⟨0, (), (), none⟩ ()
example := C97_callbacks .map tenEpochs _ rfl
example : ∃ r, storeState .map ⟨1, true, none, 2, true, 1, true, none, 0, none, none, []⟩
      (.dir [(3, ⟨3, none, fun _ : Unit => 0⟩), (9, ⟨9, none, fun _ => 1⟩)]) ⟨5, some 4, fun _ => 2⟩ = .ok r ∧
    StateRepo.getState r false = .ok (StateRepo.TS.strip ⟨5, some 4, fun _ => 2⟩) :=
  ⟨_, rfl, C97_kept .map ⟨1, true, none, 2, true, 1, true, none, 0, none, none, []⟩
    (.dir [(3, ⟨3, none, fun _ : Unit => 0⟩), (9, ⟨9, none, fun _ => 1⟩)]) (by simp) (by norm_num) ⟨5, some 4, fun _ => 2⟩ _ rfl⟩
example := C97_dump .map (.inl rfl) tenEpochs
example := C97_dump_false .sghmc (.inr (.inl rfl)) { tenEpochs with saveDir := true } rfl rfl

end Verif.Props
