import Verif.Model.EnsembleFit
import Verif.Props.MapLaw
import Verif.Props.Predictive

/-!
# C149: what the spread of a deep ensemble says
-/

set_option linter.unusedSectionVars false

namespace Verif.Props.EnsembleFit

open Verif.EnsembleFit Verif.FitRun Verif.FitStart Verif.Training Verif.Predictive Verif.Props Verif.Props.MapLaw Finset Filter Topology

variable {ι O B Key : Type} [Fintype ι]

/-! ## The members -/

theorem mapM_range {A : Type} (g : ℕ → Option A) (n : ℕ) (l : List A) :
    (List.range n).mapM g = some l ↔ l.length = n ∧ ∀ i, ∀ h : i < l.length, g i = some l[i] := by
  induction n generalizing l with
  | zero =>
    constructor
    · intro h
      simp only [List.range_zero, List.mapM_nil, Option.pure_def, Option.some.injEq] at h
      subst h
      simp
    · rintro ⟨h, -⟩
      rw [List.length_eq_zero_iff] at h
      subst h
      simp
  | succ n ih =>
    rw [List.range_succ, List.mapM_append]
    simp only [List.mapM_cons, List.mapM_nil, Option.pure_def, Option.bind_eq_bind]
    constructor
    · intro h
      obtain ⟨l', h1, h2⟩ := Option.bind_eq_some_iff.1 h
      obtain ⟨z, h3, h4⟩ := Option.bind_eq_some_iff.1 h2
      obtain ⟨x, h5, h6⟩ := Option.bind_eq_some_iff.1 h3
      obtain ⟨hl, hi⟩ := (ih l').1 h1
      simp only [Option.bind_some, Option.some.injEq] at h6 h4
      subst h6
      subst h4
      refine ⟨by simp [hl], fun i h => ?_⟩
      by_cases hlt : i < l'.length
      · rw [List.getElem_append_left hlt]
        exact hi i hlt
      · have : i = n := by simp at h; omega
        subst this
        rw [List.getElem_append_right (by omega)]
        simpa [hl] using h5
    · rintro ⟨hl, hi⟩
      have hne : l ≠ [] := by rintro rfl; simp at hl
      have h1 : (List.range n).mapM g = some l.dropLast := by
        refine (ih _).2 ⟨by simp [hl], fun i h => ?_⟩
        rw [List.getElem_dropLast]
        exact hi i _
      have h2 : g n = some (l.getLast hne) := by
        rw [List.getLast_eq_getElem]
        have := hi (l.length - 1) (by omega)
        simp only [hl, Nat.add_sub_cancel] at this ⊢
        exact this
      simp [h1, h2, List.dropLast_append_getLast hne]

/-- **C149, members.** A fit leaves as many members as the ensemble has, and member `i` is what a fit on its own from its start makes; no
other start, directory, generator or pass through the data has a part in it. -/
theorem C149_members {P : Type} (a : Args) (p : ℕ → Problem ι P O B) (data : ℕ → ℕ → List B) (start : ℕ → TState P O (ι → ℝ))
    (dirs : ℕ → Dir (TState P O (ι → ℝ))) (size : ℕ) (ms : List (TState P O (ι → ℝ))) :
    fitMembers a p data start dirs size = some ms ↔
      ms.length = size ∧ ∀ i, ∀ h : i < ms.length, ∃ l, runFit a (p i) (data i) (start i) (dirs i) = some l ∧ l.state = ms[i] := by
  unfold fitMembers
  rw [mapM_range]
  simp only [Option.map_eq_some_iff]

theorem sampleStat_eq {P : Type} (f : P → ℝ) (ms : List (TState P O (ι → ℝ))) (draw : Key → ℕ) (key : Key) (h : draw key < ms.length) :
    sampleStat f ms draw key = f ms[draw key].params := by
  unfold sampleStat
  rw [List.getElem?_eq_getElem h]

/-! ## Spread -/

theorem epistemic_eq (split : Key → ℕ → ℕ → Key) (m : Key → ℝ) (n : ℕ) (hn : 0 < n) (rng : Key) :
    epistemic split m n rng =
      max 0 ((∑ i ∈ range n, m (split rng n i) ^ 2) / n - ((∑ i ∈ range n, m (split rng n i)) / n) ^ 2) := by
  unfold epistemic
  simp only [loopSum_eq n hn]

theorem epistemic_affine (split : Key → ℕ → ℕ → Key) (m m' : Key → ℝ) (n : ℕ) (hn : 0 < n) (rng : Key) (q c : ℝ)
    (h : ∀ i < n, m (split rng n i) = c + q * m' (split rng n i)) : epistemic split m n rng = q ^ 2 * epistemic split m' n rng := by
  have hn' : (n : ℝ) ≠ 0 := by exact_mod_cast hn.ne'
  rw [epistemic_eq split m n hn, epistemic_eq split m' n hn, mul_max_of_nonneg _ _ (sq_nonneg q), mul_zero]
  congr 1
  have e1 : ∑ i ∈ range n, m (split rng n i) = n * c + q * ∑ i ∈ range n, m' (split rng n i) := by
    rw [mul_sum, sum_congr rfl fun i hi => h i (mem_range.1 hi), sum_add_distrib]
    simp
  have e2 : ∑ i ∈ range n, m (split rng n i) ^ 2 =
      n * c ^ 2 + 2 * c * q * (∑ i ∈ range n, m' (split rng n i)) + q ^ 2 * ∑ i ∈ range n, m' (split rng n i) ^ 2 := by
    rw [mul_sum, mul_sum, sum_congr rfl fun i hi => by rw [h i (mem_range.1 hi)]]
    rw [show (n : ℝ) * c ^ 2 = ∑ _i ∈ range n, c ^ 2 by simp, ← sum_add_distrib, ← sum_add_distrib]
    exact sum_congr rfl fun i _ => by ring
  rw [e1, e2]
  field_simp
  ring

theorem epistemic_le (split : Key → ℕ → ℕ → Key) (m : Key → ℝ) (n : ℕ) (hn : 0 < n) (rng : Key) (c e : ℝ)
    (h : ∀ i < n, |m (split rng n i) - c| ≤ e) : epistemic split m n rng ≤ e ^ 2 := by
  have hn' : (0 : ℝ) < n := by exact_mod_cast hn
  have h1 := epistemic_affine split (fun k => m k - c) m n hn rng 1 (-c) (fun i _ => by ring)
  rw [one_pow, one_mul] at h1
  rw [← h1, epistemic_eq _ _ n hn]
  refine max_le (sq_nonneg e) ?_
  have h2 : (∑ i ∈ range n, (m (split rng n i) - c) ^ 2) / n ≤ e ^ 2 := by
    rw [div_le_iff₀ hn']
    refine (sum_le_sum fun i hi => show (m (split rng n i) - c) ^ 2 ≤ e ^ 2 from ?_).trans ?_
    · rw [← sq_abs]
      exact pow_le_pow_left₀ (abs_nonneg _) (h i (mem_range.1 hi)) 2
    · simp [mul_comm]
  have := sq_nonneg ((∑ i ∈ range n, (m (split rng n i) - c)) / n)
  linarith

theorem predMean_near (split : Key → ℕ → ℕ → Key) (m : Key → ℝ) (n : ℕ) (hn : 0 < n) (rng : Key) (c e : ℝ)
    (h : ∀ i < n, |m (split rng n i) - c| ≤ e) : |predMean split m n rng - c| ≤ e := by
  have hn' : (0 : ℝ) < n := by exact_mod_cast hn
  unfold predMean
  rw [loopSum_eq n hn]
  have e1 : (∑ i ∈ range n, m (split rng n i)) / n - c = (∑ i ∈ range n, (m (split rng n i) - c)) / n := by
    rw [sum_sub_distrib]
    simp
    field_simp
  rw [e1, abs_div, abs_of_pos hn', div_le_iff₀ hn']
  refine (abs_sum_le_sum_abs _ _).trans ((sum_le_sum fun i hi => h i (mem_range.1 hi)).trans ?_)
  simp [mul_comm]

/-- **C149, collapse.** If all data are in one batch with a strongly concave log-joint, members trained by gradient descent all end at
the mode: for every statistic `f` that changes by at most `K` times the distance from the mode, every ensemble whose starts are within `D` of the mode and any
draws of members, the predictive mean is within `K rⁿ D` of the mode's value and the epistemic variance at most `(K rⁿ D)²` after `n` epochs, with one
`r < 1`: as `n` grows, an ensemble predicts as the single MAP fit and reports no epistemic uncertainty, whatever the data. -/
theorem C149_collapse (c : Cfg) (a : Args) (ha : trainerArgs .deepEnsemble c = some a)
    (hoff : c.patience = none ∨ ∃ q, c.patience = some q ∧ q ≤ 0) (p : ℕ → Problem ι (ι → ℝ) O B) (hp : ∀ i, KeepsStep (p i))
    (G : B → (ι → ℝ) → ι → ℝ) (lr : ℝ) (hd : ∀ i, Descent c (p i) G lr) (b : B) (g : (ι → ℝ) → ℝ) (hg : Gradient g (G b)) (μ L : ℝ)
    (hG : Concave (G b) μ L) (h0 : 0 < lr) (hlt : lr * L ^ 2 < 2 * μ) :
    ∃ x r, (∀ y, g y + μ / 2 * sumSq (y - x) ≤ g x) ∧ 0 ≤ r ∧ r < 1 ∧
      ∀ (start : ℕ → TState (ι → ℝ) O (ι → ℝ)) (dirs : ℕ → Dir (TState (ι → ℝ) O (ι → ℝ))) (size : ℕ) (ms : List (TState (ι → ℝ) O (ι → ℝ))),
        fitMembers a p (fun _ _ => [b]) start dirs size = some ms →
        ∀ (f : (ι → ℝ) → ℝ) (K D : ℝ), 0 ≤ K → (∀ y, |f y - f x| ≤ K * gnorm (y - x)) → (∀ i < size, gnorm ((start i).params - x) ≤ D) →
        ∀ (split : Key → ℕ → ℕ → Key) (draw : Key → ℕ), (∀ k, draw k < size) → ∀ n, 0 < n → ∀ rng,
          |predMean split (sampleStat f ms draw) n rng - f x| ≤ K * (r ^ c.epochs * D) ∧
          epistemic split (sampleStat f ms draw) n rng ≤ (K * (r ^ c.epochs * D)) ^ 2 := by
  obtain ⟨x, hx, -⟩ := C139_mode hG
  refine ⟨x, Real.sqrt (rate lr μ L), C139_maximum hG hg x hx, Real.sqrt_nonneg _, ?_, ?_⟩
  · rw [Real.sqrt_lt' one_pos, one_pow]
    exact rate_lt_one lr μ L h0 hlt
  · intro start dirs size ms hms f K D hK hf hD split draw hdraw n hn rng
    obtain ⟨hlen, hall⟩ := (C149_members a p _ start dirs size ms).1 hms
    have key : ∀ k, |sampleStat f ms draw k - f x| ≤ K * (Real.sqrt (rate lr μ L) ^ c.epochs * D) := by
      intro k
      have hk : draw k < ms.length := hlen ▸ hdraw k
      obtain ⟨l, hl, hst⟩ := hall (draw k) hk
      rw [sampleStat_eq f ms draw k hk, ← hst]
      have h1 := C139_distance .deepEnsemble (.inr rfl) c a ha (p (draw k)) G lr (hd _) (fun _ => [b]) μ L
        (fun _ b' hb => by rw [List.mem_singleton.1 hb]; exact hG) h0 hlt x 0
        (fun _ b' hb => by
          rw [List.mem_singleton.1 hb]
          show gnorm (G b x) ≤ 0
          rw [hx]
          simp [gnorm]) le_rfl (start (draw k)) (dirs (draw k)) l hl
      have h2 := (C97_all_epochs .deepEnsemble c a ha (Or.inr hoff) (p (draw k)) (hp _) _ _ _ l hl).1
      have h3 : gnorm (l.state.params - x) ≤ Real.sqrt (rate lr μ L) ^ c.epochs * gnorm ((start (draw k)).params - x) := by simpa [h2] using h1
      refine (hf _).trans (mul_le_mul_of_nonneg_left (h3.trans ?_) hK)
      exact mul_le_mul_of_nonneg_left (hD _ (hdraw k)) (pow_nonneg (Real.sqrt_nonneg _) _)
    exact ⟨predMean_near split _ n hn rng _ _ fun i _ => key _, epistemic_le split _ n hn rng _ _ fun i _ => key _⟩

theorem foldl_contract (G : B → (ι → ℝ) → ι → ℝ) (lr μ L : ℝ) (h0 : 0 < lr) (bs : List B) (hG : ∀ b ∈ bs, Concave (G b) μ L) (x y : ι → ℝ) :
    gnorm (bs.foldl (fun x b => x + lr • G b x) x - bs.foldl (fun x b => x + lr • G b x) y) ≤
      Real.sqrt (rate lr μ L) ^ bs.length * gnorm (x - y) := by
  induction bs using List.reverseRecOn with
  | nil => simp
  | append_singleton bs b ih =>
    have ih := ih fun b hb => hG b (by simp [hb])
    rw [List.foldl_append, List.foldl_append, List.length_append, List.length_singleton, pow_succ']
    simp only [List.foldl_cons, List.foldl_nil]
    refine (step_norm (hG b (by simp)) lr h0.le _ _).trans ?_
    rw [mul_assoc]
    exact mul_le_mul_of_nonneg_left ih (Real.sqrt_nonneg _)

/-- **C149, agreement.** Also with mini-batches: two members that see the same batches in the same order come closer to each other by the factor `r < 1` at every
step, wherever they started. -/
theorem C149_agree (c : Cfg) (a : Args) (ha : trainerArgs .deepEnsemble c = some a)
    (hoff : c.patience = none ∨ ∃ q, c.patience = some q ∧ q ≤ 0) (p : ℕ → Problem ι (ι → ℝ) O B) (hp : ∀ i, KeepsStep (p i))
    (G : B → (ι → ℝ) → ι → ℝ) (lr : ℝ) (hd : ∀ i, Descent c (p i) G lr) (data : ℕ → List B) (μ L : ℝ)
    (hG : ∀ e, ∀ b ∈ data e, Concave (G b) μ L) (h0 : 0 < lr) (hlt : lr * L ^ 2 < 2 * μ) :
    ∃ r, 0 ≤ r ∧ r < 1 ∧
      ∀ (start : ℕ → TState (ι → ℝ) O (ι → ℝ)) (dirs : ℕ → Dir (TState (ι → ℝ) O (ι → ℝ))) (size : ℕ) (ms : List (TState (ι → ℝ) O (ι → ℝ))),
        fitMembers a p (fun _ => data) start dirs size = some ms → ∀ i j, ∀ hi : i < ms.length, ∀ hj : j < ms.length,
          gnorm (ms[i].params - ms[j].params) ≤
            r ^ ((List.range c.epochs).map fun e => (data e).length).sum * gnorm ((start i).params - (start j).params) := by
  refine ⟨Real.sqrt (rate lr μ L), Real.sqrt_nonneg _, ?_, ?_⟩
  · rw [Real.sqrt_lt' one_pos, one_pow]
    exact rate_lt_one lr μ L h0 hlt
  · intro start dirs size ms hms i j hi hj
    obtain ⟨-, hall⟩ := (C149_members a p _ start dirs size ms).1 hms
    have key : ∀ i, ∀ hi : i < ms.length, ms[i].params =
        ((List.range c.epochs).flatMap data).foldl (fun x b => x + lr • G b x) (start i).params := by
      intro i hi
      obtain ⟨l, hl, hst⟩ := hall i hi
      rw [← hst, C139_iterates .deepEnsemble (.inr rfl) c a ha (p i) G lr (hd i) data (start i) (dirs i) l hl,
        (C97_all_epochs .deepEnsemble c a ha (Or.inr hoff) (p i) (hp i) _ _ _ l hl).1]
    rw [key i hi, key j hj, ← List.length_flatMap]
    refine foldl_contract G lr μ L h0 _ (fun b hb => ?_) _ _
    obtain ⟨e, -, he⟩ := List.mem_flatMap.1 hb
    exact hG e b he

/-- **C149, Gaussian posteriors.** With a one-dimensional Gaussian log-joint of mean `μ` and variance `v`, for every draw of members, the epistemic
variance of the parameter after `n` epochs is `(1 - lr / v)²ⁿ` times that of the starts: the spread of the ensemble is that of the
initialisation, shrunk, and not a function of the posterior variance `v` alone. -/
theorem C149_gaussian (c : Cfg) (a : Args) (ha : trainerArgs .deepEnsemble c = some a)
    (hoff : c.patience = none ∨ ∃ q, c.patience = some q ∧ q ≤ 0) (p : ℕ → Problem Unit (Unit → ℝ) O Unit) (hp : ∀ i, KeepsStep (p i))
    (lr μ v : ℝ) (hd : ∀ i, Descent c (p i) (fun _ x _ => -((x () - μ) / v)) lr)
    (start : ℕ → TState (Unit → ℝ) O (Unit → ℝ)) (dirs : ℕ → Dir (TState (Unit → ℝ) O (Unit → ℝ))) (size : ℕ)
    (ms : List (TState (Unit → ℝ) O (Unit → ℝ))) (h : fitMembers a p (fun _ _ => [()]) start dirs size = some ms)
    (split : Key → ℕ → ℕ → Key) (draw : Key → ℕ) (hdraw : ∀ k, draw k < size) (n : ℕ) (hn : 0 < n) (rng : Key) :
    epistemic split (sampleStat (fun θ => θ ()) ms draw) n rng =
      ((1 - lr / v) ^ c.epochs) ^ 2 * epistemic split (fun k => (start (draw k)).params ()) n rng := by
  obtain ⟨hlen, hall⟩ := (C149_members a p _ start dirs size ms).1 h
  refine epistemic_affine split _ _ n hn rng _ (μ - (1 - lr / v) ^ c.epochs * μ) fun i _ => ?_
  generalize split rng n i = k
  have hk : draw k < ms.length := hlen ▸ hdraw k
  obtain ⟨l, hl, hst⟩ := hall (draw k) hk
  rw [sampleStat_eq _ ms draw k hk, ← hst, C139_iterates .deepEnsemble (.inr rfl) c a ha (p _) _ lr (hd _) _ _ _ l hl,
    (C97_all_epochs .deepEnsemble c a ha (Or.inr hoff) (p _) (hp _) _ _ _ l hl).1]
  generalize (start (draw k)).params = y
  induction c.epochs with
  | zero => simp
  | succ n ih =>
    rw [List.range_succ, List.flatMap_append, List.foldl_append]
    generalize ((List.range n).flatMap fun _ => [()]).foldl _ y = x at ih ⊢
    simp only [List.flatMap_cons, List.flatMap_nil, List.append_nil, List.foldl_cons, List.foldl_nil, Pi.add_apply, Pi.smul_apply, smul_eq_mul]
    rw [ih, pow_succ]
    ring

/-- **C149, negation: the spread estimates the posterior variance.** For a Gaussian log-joint of variance `v` and a learning rate
between 0 and `2 v`: for every `ε > 0` some number of epochs brings the epistemic variance below `ε`, although the posterior variance is `v`; and for `n` epochs with
`4 n lr ≤ v` it stays between half the spread of the starts and that spread, however large the posterior variance `v`. -/
theorem C149_posterior_false (c : ℕ → Cfg) (a : ℕ → Args) (ha : ∀ e, trainerArgs .deepEnsemble (c e) = some (a e)) (hep : ∀ e, (c e).epochs = e)
    (hoff : ∀ e, (c e).patience = none ∨ ∃ q, (c e).patience = some q ∧ q ≤ 0) (p : ℕ → Problem Unit (Unit → ℝ) O Unit)
    (hp : ∀ i, KeepsStep (p i)) (lr μ v : ℝ) (h0 : 0 < lr) (hlt : lr < 2 * v)
    (hd : ∀ e i, Descent (c e) (p i) (fun _ x _ => -((x () - μ) / v)) lr)
    (start : ℕ → TState (Unit → ℝ) O (Unit → ℝ)) (dirs : ℕ → Dir (TState (Unit → ℝ) O (Unit → ℝ))) (size : ℕ)
    (ms : ℕ → List (TState (Unit → ℝ) O (Unit → ℝ))) (h : ∀ e, fitMembers (a e) p (fun _ _ => [()]) start dirs size = some (ms e))
    (split : Key → ℕ → ℕ → Key) (draw : Key → ℕ) (hdraw : ∀ k, draw k < size) (n : ℕ) (hn : 0 < n) (rng : Key) :
    Tendsto (fun e => epistemic split (sampleStat (fun θ => θ ()) (ms e) draw) n rng) atTop (𝓝 0) ∧
    ∀ e : ℕ, 4 * e * lr ≤ v →
      epistemic split (fun k => (start (draw k)).params ()) n rng / 2 ≤ epistemic split (sampleStat (fun θ => θ ()) (ms e) draw) n rng ∧
      epistemic split (sampleStat (fun θ => θ ()) (ms e) draw) n rng ≤ epistemic split (fun k => (start (draw k)).params ()) n rng := by
  have hv : 0 < v := by linarith
  have hq : |1 - lr / v| < 1 := by
    have h1 : 0 < lr / v := by positivity
    have h2 : lr / v < 2 := by rwa [div_lt_iff₀ hv]
    rw [abs_lt]
    constructor <;> linarith
  have heq : ∀ e, epistemic split (sampleStat (fun θ => θ ()) (ms e) draw) n rng =
      ((1 - lr / v) ^ 2) ^ e * epistemic split (fun k => (start (draw k)).params ()) n rng := by
    intro e
    rw [C149_gaussian (c e) (a e) (ha e) (hoff e) p hp lr μ v (hd e) start dirs size (ms e) (h e) split draw hdraw n hn rng, hep,
      pow_right_comm]
  have hE : 0 ≤ epistemic split (fun k => (start (draw k)).params ()) n rng := le_max_left _ _
  have hq2 : (1 - lr / v) ^ 2 < 1 := by
    rw [← sq_abs]
    nlinarith [abs_nonneg (1 - lr / v)]
  refine ⟨?_, fun e he => ?_⟩
  · simp only [heq]
    have := (tendsto_pow_atTop_nhds_zero_of_lt_one (sq_nonneg (1 - lr / v)) hq2).mul_const
      (epistemic split (fun k => (start (draw k)).params ()) n rng)
    simpa using this
  · rw [heq]
    refine ⟨?_, mul_le_of_le_one_left hE (pow_le_one₀ (sq_nonneg _) hq2.le)⟩
    have hb := one_add_mul_le_pow (a := (1 - lr / v) ^ 2 - 1) (by nlinarith [sq_nonneg (1 - lr / v)]) e
    rw [add_sub_cancel] at hb
    have h1 : (e : ℝ) * (lr / v) ≤ 1 / 4 := by
      rw [mul_div_assoc', div_le_iff₀ hv]
      linarith
    have h3 : 1 / 2 ≤ ((1 - lr / v) ^ 2) ^ e := by
      refine le_trans ?_ hb
      have h4 : (e : ℝ) * ((1 - lr / v) ^ 2 - 1) = -(2 * (e * (lr / v))) + e * (lr / v) ^ 2 := by ring
      rw [h4]
      have : (0 : ℝ) ≤ e * (lr / v) ^ 2 := by positivity
      linarith
    have := mul_le_mul_of_nonneg_right h3 hE
    linarith

/-! ## Examples -/

/-- Gradient descent with learning rate 1/2 on a Gaussian log-joint with mean 0 and variance 1. -/
noncomputable def fitUnit : Problem Unit (Unit → ℝ) Unit Unit where
  grad _ s _ _ := -((s.params () - 0) / 1)
  upd := sgd (1 / 2)
  strip s := s
  hasVal := false
  valLogProb _ := 0
  metric _ := 0

/-- Its configuration with `e` epochs. -/
def cfgUnit (e : ℕ) : Cfg := ⟨e, false, none, 2, false, 1, true, none, 0, none, none, []⟩

/-- What the trainer gets. -/
def argsUnit (e : ℕ) : Args := ⟨e, false, none, 2, 1, true, ⟨0, none, some "min"⟩, none, none, [], false⟩

/-- Starts at 1 and -1, 1 and -1, ... -/
def startUnit (i : ℕ) : TState (Unit → ℝ) Unit (Unit → ℝ) := ⟨0, fun _ => if i % 2 = 0 then 1 else -1, (), none⟩

theorem fit_unit (e size : ℕ) : ∃ ms, fitMembers (argsUnit e) (fun _ => fitUnit) (fun _ _ => [()]) startUnit (fun _ => []) size = some ms := by
  have h : ∀ i, ∃ l, runFit (argsUnit e) fitUnit (fun _ => [()]) (startUnit i) [] = some l := fun i =>
    let ⟨l, hl, _⟩ := C62_runs (jobOf (argsUnit e) fitUnit) rfl (fun _ => [()]) (fun _ => ⟨le_rfl, Nat.zero_le _⟩) e (startUnit i) []
    ⟨l, hl⟩
  choose l hl using h
  refine ⟨(List.range size).map fun i => (l i).state, (C149_members _ _ _ _ _ _ _).2 ⟨by simp, fun i hi => ⟨l i, hl i, by simp⟩⟩⟩

theorem unit_concave : Concave (fun (x : Unit → ℝ) (_ : Unit) => -((x () - 0) / 1)) 1 1 := by
  refine ⟨one_pos, le_rfl, fun x y => ?_, fun x y => ?_⟩ <;> simp [dot, sumSq] <;> nlinarith

-- three epochs with two members, one of each drawn: the epistemic variance is 1/64 of that of the starts, while the posterior variance is 1
example : ∃ ms, fitMembers (argsUnit 3) (fun _ => fitUnit) (fun _ _ => [()]) startUnit (fun _ => []) 2 = some ms ∧
    epistemic (fun _ _ i => i) (sampleStat (fun θ => θ ()) ms fun k : ℕ => k % 2) 2 0 = 1 / 64 := by
  obtain ⟨ms, hms⟩ := fit_unit 3 2
  refine ⟨ms, hms, ?_⟩
  rw [C149_gaussian (cfgUnit 3) (argsUnit 3) rfl (.inl rfl) (fun _ => fitUnit) (fun _ _ => rfl) (1 / 2) 0 1
    (fun _ => ⟨rfl, fun _ _ _ => rfl, rfl, .inl rfl⟩) startUnit _ 2 ms hms (fun _ _ i => i) (fun k => k % 2) (fun k => Nat.mod_lt _ (by norm_num)) 2
    (by norm_num) 0, epistemic_eq _ _ 2 (by norm_num)]
  norm_num [sum_range_succ, startUnit, cfgUnit]

-- the hypotheses of the limit
example (ms : ℕ → List (TState (Unit → ℝ) Unit (Unit → ℝ)))
    (h : ∀ e, fitMembers (argsUnit e) (fun _ => fitUnit) (fun _ _ => [()]) startUnit (fun _ => []) 2 = some (ms e)) :
    Tendsto (fun e => epistemic (fun _ _ i => i) (sampleStat (fun θ => θ ()) (ms e) fun k : ℕ => k % 2) 2 0) atTop (𝓝 0) :=
  (C149_posterior_false cfgUnit argsUnit (fun _ => rfl) (fun _ => rfl) (fun _ => .inl rfl) (fun _ => fitUnit) (fun _ _ => rfl) (1 / 2) 0 1 (by norm_num)
    (by norm_num) (fun _ _ => ⟨rfl, fun _ _ _ => rfl, rfl, .inl rfl⟩) startUnit _ 2 ms h (fun _ _ i => i) (fun k => k % 2)
    (fun k => Nat.mod_lt _ (by norm_num)) 2 (by norm_num) 0).1

-- collapse and agreement of the same fits
example : ∃ ms, fitMembers (argsUnit 3) (fun _ => fitUnit) (fun _ _ => [()]) startUnit (fun _ => []) 5 = some ms ∧ (∃ r < 1, ∀ i j,
    ∀ hi : i < ms.length, ∀ hj : j < ms.length, gnorm (ms[i].params - ms[j].params) ≤ r ^ 3 * gnorm ((startUnit i).params - (startUnit j).params)) ∧
    ∃ (x : Unit → ℝ) (r : ℝ), r < 1 ∧ ∀ D, (∀ i < 5, gnorm ((startUnit i).params - x) ≤ D) →
      epistemic (fun _ _ i => i) (sampleStat (fun θ => θ ()) ms fun k : ℕ => k % 5) 30 0 ≤ (1 * (r ^ 3 * D)) ^ 2 := by
  obtain ⟨ms, hms⟩ := fit_unit 3 5
  refine ⟨ms, hms, ?_, ?_⟩
  · obtain ⟨r, -, h1, h2⟩ := C149_agree (cfgUnit 3) (argsUnit 3) rfl (.inl rfl) (fun _ => fitUnit) (fun _ _ => rfl) (fun _ x _ => -((x () - 0) / 1)) (1 / 2)
      (fun _ => ⟨rfl, fun _ _ _ => rfl, rfl, .inl rfl⟩) (fun _ => [()]) 1 1 (fun _ _ _ => unit_concave) (by norm_num) (by norm_num)
    exact ⟨r, h1, fun i j hi hj => h2 _ _ _ ms hms i j hi hj⟩
  · obtain ⟨x, r, -, -, h1, h2⟩ := C149_collapse (Key := ℕ) (cfgUnit 3) (argsUnit 3) rfl (.inl rfl) (fun _ => fitUnit) (fun _ _ => rfl)
      (fun _ x _ => -((x () - 0) / 1)) (1 / 2) (fun _ => ⟨rfl, fun _ _ _ => rfl, rfl, .inl rfl⟩) () (fun x => -(x () ^ 2 / 2)) (by
        intro x d t
        have h : HasDerivAt (fun t : ℝ => -((x () + t * d ()) ^ 2 / 2)) (-((x () + t * d ()) * d ())) t := by
          have h1 : HasDerivAt (fun t : ℝ => x () + t * d ()) (d ()) t := by
            simpa using ((hasDerivAt_id t).mul_const (d ())).const_add (x ())
          exact ((h1.pow 2).div_const 2).neg.congr_deriv (by simp; ring)
        exact h.congr_deriv (by simp only [dot, univ_unique, sum_singleton, Pi.add_apply, Pi.smul_apply, smul_eq_mul]; ring)) 1 1 unit_concave (by norm_num) (by norm_num)
    refine ⟨x, r, h1, fun D hD => ?_⟩
    exact (h2 startUnit _ 5 ms hms (fun θ => θ ()) 1 D zero_le_one (fun y => by
      simp only [one_mul, gnorm_eq, sumSq, univ_unique, sum_singleton]
      rw [Real.sqrt_sq_eq_abs]
      rfl) hD (fun _ _ i => i) (fun k => k % 5) (fun k => Nat.mod_lt _ (by norm_num)) 30 (by norm_num) 0).2

end Verif.Props.EnsembleFit
