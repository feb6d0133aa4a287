import Verif.Model.ProbModel
import Verif.Props.Checkpoint
import Verif.Props.Likelihood
import Verif.Props.StateRepo
import Verif.Props.PredictiveSets
import Mathlib.Data.Finset.Card

/-!
# C89: training and calibrating a probabilistic model
-/

set_option linter.unusedSectionVars false

namespace Verif.Props.ProbModel
open Verif.ProbModel Verif.StateRepo Verif.Likelihood Verif.Props

/-! ## The precomputed outputs -/

section outputs
variable {Q X R : Type}

theorem mapM_pure_ok {α β : Type} (f : α → Except String β) (g : α → β) (l : List α)
    (h : ∀ a ∈ l, f a = .ok (g a)) : l.mapM f = .ok (l.map g) := by
  induction l with
  | nil => rfl
  | cons a t ih =>
    rw [List.mapM_cons, h a (by simp), ih fun b hb => h b (by simp [hb])]
    rfl

/-- **C89, precomputed outputs on the CPU.** Entry `s` of every batch's ensemble holds the outputs of the
same posterior sample, the one with key `s`, on the rows of that batch in order, and the size is the number
of rows of the data. -/
theorem C89_outputs (n : ℕ) (keys : ℕ → Q) (split : Q → ℕ → Q) (net : Q → X → R) (loader : List (List X)) :
    outputsLoader n keys split net none loader =
      .ok (loader.map fun b => (List.range n).map fun s => b.map (net (keys s)), loader.flatten.length) := by
  unfold outputsLoader
  rw [mapM_pure_ok (batchOutputs n keys split net none)
    (fun b => ((List.range n).map fun s => b.map (net (keys s)), b.length)) loader (fun _ _ => rfl)]
  simp only [bind, Except.bind, List.map_map, Except.ok.injEq, Prod.mk.injEq]
  refine ⟨rfl, ?_⟩
  rw [List.length_flatten]
  rfl

theorem mapIdx_ensemble (n : ℕ) (f : ℕ → ℕ → X → R) (sh : List (List X)) :
    (sh.mapIdx fun i rows => (List.range n).map fun s => rows.map (f s i)) =
      ((sh.mapIdx fun i rows => rows.map fun x => (i, x)).map fun b =>
        (List.range n).map fun s => b.map fun q => f s q.1 q.2) := by
  apply List.ext_getElem?
  intro i
  simp only [List.getElem?_mapIdx, List.getElem?_map, Option.map_map]
  congr 1
  funext rows
  simp [Function.comp_def]

/-- The blocks of a batch, one per device. -/
def deviceBlocks (d : ℕ) (b : List X) : List (List X) :=
  (List.range d).map fun i => (b.drop (i * (b.length / d))).take (b.length / d)

/-- **C89, precomputed outputs on devices.** If every batch can be spread over the `d` devices, the rows of
block `i` are evaluated with the posterior sample of device `i`'s own key, and the size that is returned is
the number of devices times the number of batches. Otherwise the call raises. -/
theorem C89_outputs_devices (n : ℕ) (hn : 0 < n) (keys : ℕ → Q) (split : Q → ℕ → Q) (net : Q → X → R)
    (d : ℕ) (loader : List (List X)) :
    ((∀ b ∈ loader, b.length % d = 0) →
      outputsLoader n keys split net (some d) loader =
        .ok (loader.map fun b => (List.range n).map fun s =>
          ((deviceBlocks d b).mapIdx fun i rows => rows.map (net (split (keys s) i))).flatten,
          d * loader.length)) ∧
    ((∃ b ∈ loader, b.length % d ≠ 0) →
      outputsLoader n keys split net (some d) loader = .error "ValueError") := by
  have hok : ∀ b : List X, b.length % d = 0 → batchOutputs n keys split net (some d) b =
      .ok ((List.range n).map fun s =>
          ((deviceBlocks d b).mapIdx fun i rows => rows.map (net (split (keys s) i))).flatten, d) := by
    intro b hb
    unfold batchOutputs
    have hs : Verif.Loader.shard d b = .ok (deviceBlocks d b) := by
      unfold Verif.Loader.shard
      rw [if_neg (by simpa using hb)]
      rfl
    simp only [bind, Except.bind, hs, Except.ok.injEq, Prod.mk.injEq]
    refine ⟨?_, by simp [deviceBlocks]⟩
    rw [mapIdx_ensemble n (fun s i => net (split (keys s) i)) (deviceBlocks d b),
      unshardEnsemble_map n hn (fun s (q : ℕ × X) => net (split (keys s) q.1) q.2)]
    congr 1
    funext s
    rw [List.map_flatten]
    congr 1
    apply List.ext_getElem?
    intro i
    simp only [List.getElem?_mapIdx, List.getElem?_map, Option.map_map]
    congr 1
    funext rows
    simp [Function.comp_def]
  constructor
  · intro h
    unfold outputsLoader
    rw [mapM_pure_ok (batchOutputs n keys split net (some d)) _ loader (fun b hb => hok b (h b hb))]
    simp only [bind, Except.bind, List.map_map, Except.ok.injEq, Prod.mk.injEq]
    refine ⟨rfl, ?_⟩
    rw [show ((fun x => x.2) ∘ fun b => ((List.range n).map fun s =>
          ((deviceBlocks d b).mapIdx fun i rows => rows.map (net (split (keys s) i))).flatten, d)) =
        fun _ : List X => d from rfl]
    simp [mul_comm]
  · rintro ⟨b, hb, hbd⟩
    have hmap : loader.mapM (batchOutputs n keys split net (some d)) = .error "ValueError" := by
      clear hn
      induction loader with
      | nil => simp at hb
      | cons c t ih =>
        rw [List.mapM_cons]
        by_cases hc : c.length % d = 0
        · rw [hok c hc]
          rcases List.mem_cons.mp hb with rfl | hb
          · exact absurd hc hbd
          · rw [ih hb]; rfl
        · have : batchOutputs n keys split net (some d) c = .error "ValueError" := by
            have hs : Verif.Loader.shard d c = .error "ValueError" := by
              unfold Verif.Loader.shard
              rw [if_pos (by simpa using hc)]
            simp only [batchOutputs, hs]
            rfl
          rw [this]; rfl
    unfold outputsLoader
    rw [hmap]
    rfl

/-- **The size is wrong on devices.** Four calibration points in one batch on a machine with one (non-CPU)
device are counted as one. -/
theorem C89_size_false :
    (outputsLoader 1 (fun _ => 0) (fun k _ => k) (fun (k x : ℕ) => k + x) (some 1) [[1, 2, 3, 4]]).toOption =
      some ([[[1, 2, 3, 4]]], 1) ∧
    (outputsLoader 1 (fun _ => 0) (fun k _ => k) (fun (k x : ℕ) => k + x) none [[1, 2, 3, 4]]).toOption =
      some ([[[1, 2, 3, 4]]], 4) := by
  decide +kernel

/-- **The samples of an ensemble are mixed on devices.** With two devices, sample `0` consists of the outputs
of two different draws from the posterior. -/
theorem C89_sample_false :
    (outputsLoader 1 (fun _ => 0) (fun k i => k + 10 * i) (fun (k x : ℕ) => 100 * k + x) (some 2)
      [[1, 2, 3, 4]]).toOption = some ([[[1, 2, 1003, 1004]]], 2) := by
  decide +kernel

example : (outputsLoader 2 (fun s => s) (fun k i => k + 10 * i) (fun (k x : ℕ) => 100 * k + x) none
    [[1, 2], [3]]).toOption = some ([[[1, 2], [101, 102]], [[3], [103]]], 3) := by
  decide +kernel

end outputs

/-! ## The objective -/

section objective

theorem exp_logMeanExp (v : List ℝ) (hv : v ≠ []) :
    Real.exp (logMeanExp v) = (v.map Real.exp).sum / v.length := by
  have hpos : 0 < (v.map Real.exp).sum := by
    cases v with
    | nil => exact absurd rfl hv
    | cons a t =>
      rw [List.map_cons, List.sum_cons]
      exact add_pos_of_pos_of_nonneg (Real.exp_pos a)
        (List.sum_nonneg (by intro x hx; obtain ⟨y, -, rfl⟩ := List.mem_map.mp hx; exact (Real.exp_pos y).le))
  have hlen : (0 : ℝ) < v.length := by exact_mod_cast List.length_pos_iff.mpr hv
  unfold logMeanExp
  rw [Real.exp_sub, Real.exp_log hpos, Real.exp_log hlen]

theorem sum_le_card {f : ℝ → ℝ} (c : ℝ) (v : List ℝ) (h : ∀ x ∈ v, f x ≤ c) :
    (v.map f).sum ≤ v.length * c := by
  induction v with
  | nil => simp
  | cons a t ih =>
    rw [List.map_cons, List.sum_cons, List.length_cons]
    push_cast
    have h1 := h a (by simp)
    have h2 := ih fun x hx => h x (by simp [hx])
    linarith

theorem card_le_sum {f : ℝ → ℝ} (c : ℝ) (v : List ℝ) (h : ∀ x ∈ v, c ≤ f x) :
    v.length * c ≤ (v.map f).sum := by
  induction v with
  | nil => simp
  | cons a t ih =>
    rw [List.map_cons, List.sum_cons, List.length_cons]
    push_cast
    have h1 := h a (by simp)
    have h2 := ih fun x hx => h x (by simp [hx])
    linarith

variable {O CM P : Type}

/-- The calibrated outputs: the calibrator's forward pass outside calibration mode. -/
def calibrated (cal : Option (P → Bool → Option CM → O → O × CM)) (p : P) (m : Option CM) (o : O) : O :=
  match cal with
  | none => o
  | some f => (f p false m o).1

theorem predJoint_ok (cal : Option (P → Bool → Option CM → O → O × CM)) (ll : O → List ℝ) (n : ℕ)
    (ensemble : List O) (stored : Option P × Option (CalibVal CM)) (p : P) (m : Option CM)
    (hcal : cal = none → m = none) (hne : ensemble ≠ [])
    (hll : ∀ o ∈ ensemble, ll (calibrated cal p m o) ≠ []) :
    predJoint cal ll n ensemble stored (some p) (m.map .frozen) =
      .ok (logMeanExp (ensemble.map fun o => weighted n (ll (calibrated cal p m o)))) := by
  unfold predJoint
  simp only [Option.isNone_some, Bool.false_eq_true, if_false]
  rw [mapM_pure_ok _ (fun o => weighted n (ll (calibrated cal p m o))) ensemble ?_]
  · simp only [bind, Except.bind, List.length_map]
    rw [if_neg (by simpa [List.length_eq_zero_iff] using hne)]
  · intro o ho
    have hfin : finalOutputs (M := Unit) cal (fun _ _ => (o, ()))
        { outputs := some o, calibParams := some p, calibMutable := m.map .frozen } p m =
        calibrated cal p m o := by
      unfold finalOutputs calibrated rawOutputs
      cases cal <;> simp
    rw [C70_result (M := Unit) cal (fun _ _ => (o, ())) ll n
      { outputs := some o, calibParams := some p, calibMutable := m.map .frozen } p m
      ⟨by simp, by simp, by simp⟩ rfl rfl hcal (by rw [hfin]; exact hll o ho), hfin]
    rfl

/-- **C89, objective.** The objective of calibration, given an ensemble of outputs, is the logarithm of the
ensemble mean of the likelihood of the calibrated outputs, each row's likelihood raised to the power
`n / B` for `n` data points and a batch of `B`. -/
theorem C89_objective (cal : Option (P → Bool → Option CM → O → O × CM)) (ll : O → List ℝ) (n B : ℕ)
    (ensemble : List O) (stored : Option P × Option (CalibVal CM)) (p : P) (m : Option CM)
    (hcal : cal = none → m = none) (hne : ensemble ≠ []) (hB : 0 < B)
    (hll : ∀ o ∈ ensemble, (ll (calibrated cal p m o)).length = B) :
    ∃ v, predJoint cal ll n ensemble stored (some p) (m.map .frozen) = .ok v ∧
      Real.exp v = (ensemble.map fun o =>
        ((ll (calibrated cal p m o)).map fun l => Real.exp (l * (n / B))).prod).sum / ensemble.length := by
  refine ⟨_, predJoint_ok cal ll n ensemble stored p m hcal hne ?_, ?_⟩
  · intro o ho h
    have := hll o ho
    rw [h] at this
    simp at this
    omega
  · rw [exp_logMeanExp _ (by simpa using hne), List.length_map, List.map_map]
    congr 2
    apply List.map_congr_left
    intro o ho
    simp only [Function.comp, weighted, hll o ho]
    generalize ll (calibrated cal p m o) = l
    induction l with
    | nil => simp
    | cons a t ih => rw [List.sum_cons, add_mul, Real.exp_add, ih, List.map_cons, List.prod_cons]

/-- **C89, objective on the whole data.** With all the data in one batch, it is the logarithm of the
posterior predictive mean of the likelihood of the data. -/
theorem C89_objective_full (cal : Option (P → Bool → Option CM → O → O × CM)) (ll : O → List ℝ) (n : ℕ)
    (ensemble : List O) (stored : Option P × Option (CalibVal CM)) (p : P) (m : Option CM)
    (hcal : cal = none → m = none) (hne : ensemble ≠ []) (hn : 0 < n)
    (hll : ∀ o ∈ ensemble, (ll (calibrated cal p m o)).length = n) :
    ∃ v, predJoint cal ll n ensemble stored (some p) (m.map .frozen) = .ok v ∧
      Real.exp v = (ensemble.map fun o =>
        ((ll (calibrated cal p m o)).map Real.exp).prod).sum / ensemble.length := by
  obtain ⟨v, hv, he⟩ := C89_objective cal ll n n ensemble stored p m hcal hne hn hll
  refine ⟨v, hv, ?_⟩
  rw [he, div_self (by exact_mod_cast hn.ne')]
  simp

/-- **C89, range of the objective.** It lies between the smallest and the largest weighted log-likelihood of
the ensemble, and is at least their mean. -/
theorem C89_objective_range (cal : Option (P → Bool → Option CM → O → O × CM)) (ll : O → List ℝ) (n : ℕ)
    (ensemble : List O) (stored : Option P × Option (CalibVal CM)) (p : P) (m : Option CM)
    (hcal : cal = none → m = none) (hne : ensemble ≠ [])
    (hll : ∀ o ∈ ensemble, ll (calibrated cal p m o) ≠ []) :
    ∃ v, predJoint cal ll n ensemble stored (some p) (m.map .frozen) = .ok v ∧
      (∀ c, (∀ o ∈ ensemble, weighted n (ll (calibrated cal p m o)) ≤ c) → v ≤ c) ∧
      (∀ c, (∀ o ∈ ensemble, c ≤ weighted n (ll (calibrated cal p m o))) → c ≤ v) ∧
      (ensemble.map fun o => weighted n (ll (calibrated cal p m o))).sum / ensemble.length ≤ v := by
  refine ⟨_, predJoint_ok cal ll n ensemble stored p m hcal hne hll, ?_⟩
  generalize hw : (ensemble.map fun o => weighted n (ll (calibrated cal p m o))) = w
  have hwl : w.length = ensemble.length := by rw [← hw, List.length_map]
  have hwne : w ≠ [] := by
    intro h
    rw [h] at hwl
    exact hne (List.length_eq_zero_iff.mp hwl.symm)
  have hlen : (0 : ℝ) < w.length := by exact_mod_cast List.length_pos_iff.mpr hwne
  have hexp := exp_logMeanExp w hwne
  have hmem : ∀ x ∈ w, ∃ o ∈ ensemble, weighted n (ll (calibrated cal p m o)) = x := by
    intro x hx
    rw [← hw] at hx
    simpa using hx
  refine ⟨fun c hc => ?_, fun c hc => ?_, ?_⟩
  · rw [← Real.exp_le_exp, hexp, div_le_iff₀ hlen, mul_comm]
    refine sum_le_card _ w fun x hx => ?_
    obtain ⟨o, ho, rfl⟩ := hmem x hx
    exact Real.exp_le_exp.mpr (hc o ho)
  · rw [← Real.exp_le_exp, hexp, le_div_iff₀ hlen, mul_comm]
    refine card_le_sum _ w fun x hx => ?_
    obtain ⟨o, ho, rfl⟩ := hmem x hx
    exact Real.exp_le_exp.mpr (hc o ho)
  · rw [← hwl]
    generalize hv : logMeanExp w = v at hexp ⊢
    -- `exp (x - v) ≥ 1 + x - v`, summed
    have h1 : (w.map fun x => x - v + 1).sum ≤ (w.map fun x => Real.exp (x - v)).sum :=
      List.sum_le_sum fun x _ => Real.add_one_le_exp _
    have h2 : (w.map fun x => Real.exp (x - v)).sum = w.length := by
      have : (w.map fun x => Real.exp (x - v)) = (w.map Real.exp).map fun y => y * (Real.exp v)⁻¹ := by
        rw [List.map_map]
        apply List.map_congr_left
        intro x _
        simp [Real.exp_sub, div_eq_mul_inv]
      rw [this, List.sum_map_mul_right, List.map_id', ← div_eq_mul_inv, div_eq_iff (Real.exp_pos v).ne']
      rw [eq_div_iff hlen.ne'] at hexp
      linarith
    have h3 : (w.map fun x => x - v + 1).sum = w.sum - w.length * v + w.length := by
      clear h1 h2 hexp hv hlen hwne hwl hw hmem
      induction w with
      | nil => simp
      | cons a t ih =>
        rw [List.map_cons, List.sum_cons, ih, List.sum_cons, List.length_cons]
        push_cast
        ring
    rw [div_le_iff₀ hlen]
    linarith

/-- **C89, one posterior sample.** With a single sample (as with a MAP posterior) the mean of the objective
over equally sized batches is the log-likelihood of all the data, so that minibatch calibration is
unbiased. -/
theorem C89_single_epoch (cal : Option (P → Bool → Option CM → O → O × CM)) (ll : O → List ℝ)
    (stored : Option P × Option (CalibVal CM)) (p : P) (m : Option CM)
    (hcal : cal = none → m = none) (batches : List O) (B : ℕ) (hB : 0 < B) (hne : batches ≠ [])
    (hll : ∀ o ∈ batches, (ll (calibrated cal p m o)).length = B) :
    ∃ vs, batches.mapM (fun o => predJoint cal ll (batches.length * B) [o] stored (some p)
        (m.map .frozen)) = .ok vs ∧
      vs.sum / vs.length = (batches.map fun o => (ll (calibrated cal p m o)).sum).sum := by
  refine ⟨batches.map fun o => weighted (batches.length * B) (ll (calibrated cal p m o)), ?_, ?_⟩
  · refine mapM_pure_ok _ _ _ fun o ho => ?_
    rw [predJoint_ok cal ll _ [o] stored p m hcal (by simp) ?_]
    · simp [logMeanExp]
    · intro o' ho' h
      rw [List.mem_singleton] at ho'
      subst ho'
      have := hll o' ho
      rw [h] at this
      simp at this
      omega
  · rw [List.length_map]
    have hlen : (batches.length : ℝ) ≠ 0 := by
      exact_mod_cast (List.length_pos_iff.mpr hne).ne'
    have hB' : (B : ℝ) ≠ 0 := by exact_mod_cast hB.ne'
    rw [div_eq_iff hlen, ← List.sum_map_mul_right]
    congr 1
    apply List.map_congr_left
    intro o ho
    unfold weighted
    rw [hll o ho]
    push_cast
    field_simp

/-- **Minibatch calibration is biased with several posterior samples.** Two data points in two batches and
two samples, one good on the first point and the other on the second: the mean of the batch objectives is
`log (5/2)`, the objective on all the data `log 2`. -/
theorem C89_minibatch_false :
    let ll : List ℝ → List ℝ := id
    (∃ a b : ℝ,
      predJoint (P := Unit) (CM := Unit) none ll 2 [[Real.log 2], [Real.log 1]] (none, none) (some ()) none
        = .ok a ∧
      predJoint (P := Unit) (CM := Unit) none ll 2 [[Real.log 1], [Real.log 2]] (none, none) (some ()) none
        = .ok b ∧ (a + b) / 2 = Real.log (5 / 2)) ∧
    predJoint (P := Unit) (CM := Unit) none ll 2 [[Real.log 2, Real.log 1], [Real.log 1, Real.log 2]]
      (none, none) (some ()) none = .ok (Real.log 2) := by
  have h4 : Real.exp (Real.log 2 * 2) = 4 := by
    rw [mul_two, Real.exp_add, Real.exp_log (by norm_num)]; norm_num
  refine ⟨⟨Real.log (5 / 2), Real.log (5 / 2), ?_, ?_, by ring⟩, ?_⟩
  · rw [show (none : Option (CalibVal Unit)) = (none : Option Unit).map .frozen from rfl,
      predJoint_ok none _ 2 _ _ () none (fun _ => rfl) (by simp) (by simp [calibrated])]
    simp only [calibrated, List.map_cons, List.map_nil, logMeanExp, weighted, id]
    simp [h4]
    rw [← Real.log_div (by norm_num) (by norm_num)]
    norm_num
  · rw [show (none : Option (CalibVal Unit)) = (none : Option Unit).map .frozen from rfl,
      predJoint_ok none _ 2 _ _ () none (fun _ => rfl) (by simp) (by simp [calibrated])]
    simp only [calibrated, List.map_cons, List.map_nil, logMeanExp, weighted, id]
    simp [h4]
    rw [← Real.log_div (by norm_num) (by norm_num)]
    norm_num
  · rw [show (none : Option (CalibVal Unit)) = (none : Option Unit).map .frozen from rfl,
      predJoint_ok none _ 2 _ _ () none (fun _ => rfl) (by simp) (by simp [calibrated])]
    simp only [calibrated, List.map_cons, List.map_nil, logMeanExp, weighted, id]
    simp
    rw [Real.exp_log (by norm_num), ← Real.log_div (by norm_num) (by norm_num)]
    norm_num

/-- **The wrong size changes which calibration wins.** One batch of four rows. The first calibration gives
every row likelihood one in both samples; the second gives `3/2` in one sample and `1/4` in the other. On the
data (size four) the second has the higher objective; with the size one that is counted on a single
device (see `C89_size_false`) the first has. -/
theorem C89_size_objective_false :
    let ll : List ℝ → List ℝ := id
    let first : List (List ℝ) := [[0, 0, 0, 0], [0, 0, 0, 0]]
    let a := Real.log (3 / 2)
    let b := Real.log (1 / 4)
    let second : List (List ℝ) := [[a, a, a, a], [b, b, b, b]]
    ∃ f4 s4 f1 s1 : ℝ,
      predJoint (P := Unit) (CM := Unit) none ll 4 first (none, none) (some ()) none = .ok f4 ∧
      predJoint (P := Unit) (CM := Unit) none ll 4 second (none, none) (some ()) none = .ok s4 ∧
      predJoint (P := Unit) (CM := Unit) none ll 1 first (none, none) (some ()) none = .ok f1 ∧
      predJoint (P := Unit) (CM := Unit) none ll 1 second (none, none) (some ()) none = .ok s1 ∧
      f4 < s4 ∧ s1 < f1 := by
  intro ll first a b second
  have key : ∀ (n : ℕ) (e : List (List ℝ)), e ≠ [] → (∀ o ∈ e, o.length = 4) →
      ∃ v, predJoint (P := Unit) (CM := Unit) none ll n e (none, none) (some ()) none = .ok v ∧
      Real.exp v = (e.map fun o => (o.map fun l => Real.exp (l * (n / (4 : ℕ)))).prod).sum / e.length := by
    intro n e he h4
    exact C89_objective (none : Option (Unit → Bool → Option Unit → List ℝ → List ℝ × Unit)) ll n 4 e
      (none, none) () none (fun _ => rfl) he (by norm_num) h4
  obtain ⟨f4, hf4, ef4⟩ := key 4 first (by simp [first]) (by simp [first])
  obtain ⟨s4, hs4, es4⟩ := key 4 second (by simp [second]) (by simp [second])
  obtain ⟨f1, hf1, ef1⟩ := key 1 first (by simp [first]) (by simp [first])
  obtain ⟨s1, hs1, es1⟩ := key 1 second (by simp [second]) (by simp [second])
  have ha : Real.exp a = 3 / 2 := Real.exp_log (by norm_num)
  have hb : Real.exp b = 1 / 4 := Real.exp_log (by norm_num)
  refine ⟨f4, s4, f1, s1, hf4, hs4, hf1, hs1, ?_, ?_⟩
  · rw [← Real.exp_lt_exp, ef4, es4]
    simp [first, second, ha, hb]
    norm_num
  · rw [← Real.exp_lt_exp, ef1, es1]
    have ha' : Real.exp (a * 4⁻¹) * (Real.exp (a * 4⁻¹) * (Real.exp (a * 4⁻¹) * Real.exp (a * 4⁻¹))) = 3 / 2 := by
      rw [← Real.exp_add, ← Real.exp_add, ← Real.exp_add, ← ha]; congr 1; ring
    have hb' : Real.exp (b * 4⁻¹) * (Real.exp (b * 4⁻¹) * (Real.exp (b * 4⁻¹) * Real.exp (b * 4⁻¹))) = 1 / 4 := by
      rw [← Real.exp_add, ← Real.exp_add, ← Real.exp_add, ← hb]; congr 1; ring
    simp [first, second, ha', hb']
    norm_num

/-- **C89, default parameters.** Without calibration parameters the posterior's own parameters and state are
used, whatever state is passed. -/
theorem C89_stored (cal : Option (P → Bool → Option CM → O → O × CM)) (ll : O → List ℝ) (n : ℕ)
    (ensemble : List O) (p : P) (m : Option (CalibVal CM)) (other : Option (CalibVal CM))
    (stored : Option P × Option (CalibVal CM)) :
    predJoint cal ll n ensemble (some p, m) none other = predJoint cal ll n ensemble stored (some p) m := by
  unfold predJoint
  simp

end objective

/-! ## Calibrating and training -/

section world
variable {A V : Type} [DecidableEq A]

/-- The repository holds the state `s` (in memory, or as the only checkpoint of its directory). -/
def Good (r : Repo (TS A V)) (s : TS A V) : Prop :=
  (r.dirSet = false ∧ r.mem = some s) ∨ DiskHas r (some s)

theorem good_get (r : Repo (TS A V)) (s : TS A V) (h : Good r s) : getState r false = .ok s := by
  rcases h with ⟨h1, h2⟩ | h
  · simp [getState, h1, h2]
  · have := diskHas_get r (some s) h
    cases hg : getState r false with
    | error e => rw [hg] at this; simp [Except.toOption] at this
    | ok t => rw [hg] at this; simp [Except.toOption] at this; rw [this]

theorem good_update (r : Repo (TS A V)) (s : TS A V) (vars : List (A × V)) (h : Good r s) :
    ∃ r', update r vars false 1 = .ok r' ∧ Good r' (s.replace vars) := by
  rcases h with ⟨h1, h2⟩ | h
  · refine ⟨{ r with mem := some (s.replace vars) }, ?_, Or.inl ⟨h1, rfl⟩⟩
    simp [update, pull, getState, put, h1, h2, bind, Except.bind]
  · have hacc : s.acc = none := h.2.2
    obtain ⟨r1, hp, hh⟩ := diskHas_pull r s h
    obtain ⟨r2, hp2, hh2⟩ := diskHas_put r1 none hh (s.replace vars)
    refine ⟨r2, ?_, Or.inr ?_⟩
    · simp only [update, hp]; exact hp2
    · have : ({ s.replace vars with acc := none } : TS A V) = s.replace vars := by
        simp [TS.replace, hacc]
      rwa [this] at hh2

/-- The posterior holds exactly the given states. -/
def Holds : Post A V → List (TS A V) → Prop
  | .one r, ss => ∃ s, ss = [s] ∧ Good r s
  | .many m, ss => m.length = ss.length ∧
    ∀ (i : ℕ) (r : Repo (TS A V)) (s : TS A V), m[i]? = some r → ss[i]? = some s → Good r s

/-- The state with calibration parameters and calibration state replaced, and nothing else changed. -/
def withCalib (cp cm : A) (v : V × V) (s : TS A V) : TS A V :=
  { s with attr := fun a => if a = cp then v.1 else if a = cm then v.2 else s.attr a }

theorem replace_withCalib (cp cm : A) (hne : cp ≠ cm) (v : V × V) (s : TS A V) :
    s.replace [(cp, v.1), (cm, v.2)] = withCalib cp cm v s := by
  unfold TS.replace withCalib
  congr 1
  funext a
  simp only [List.foldl_cons, List.foldl_nil]
  by_cases h1 : cp = a
  · subst h1
    rw [if_neg (Ne.symm hne)]
    simp
  · by_cases h2 : cm = a
    · subst h2
      simp [Ne.symm h1]
    · simp [h1, h2, Ne.symm h1, Ne.symm h2]

theorem holds_setCalib (cp cm : A) (hne : cp ≠ cm) (v : V × V) (p : Post A V) (ss : List (TS A V))
    (h : Holds p ss) :
    ∃ p', setCalib cp cm v p = .ok p' ∧ Holds p' (ss.map (withCalib cp cm v)) := by
  cases p with
  | one r =>
    obtain ⟨s, rfl, hg⟩ := h
    obtain ⟨r', hu, hg'⟩ := good_update r s [(cp, v.1), (cm, v.2)] hg
    rw [replace_withCalib cp cm hne] at hg'
    exact ⟨.one r', by simp only [setCalib, hu], _, rfl, hg'⟩
  | many m =>
    obtain ⟨hlen, hg⟩ := h
    have key : ∀ k, k ≤ m.length → ∃ mk,
        (List.range k).foldlM (fun m' i => multiUpdate m' [(cp, v.1), (cm, v.2)] i 1) m = .ok mk ∧
        mk.length = m.length ∧ ∀ (i : ℕ) (r : Repo (TS A V)) (s : TS A V), mk[i]? = some r → ss[i]? = some s →
          Good r (if i < k then withCalib cp cm v s else s) := by
      intro k
      induction k with
      | zero => intro _; exact ⟨m, rfl, rfl, fun i r s hr hs => by simpa using hg i r s hr hs⟩
      | succ k ih =>
        intro hk
        obtain ⟨mk, hf, hl, hh⟩ := ih (by omega)
        have hkm : k < mk.length := by omega
        have hks : k < ss.length := by omega
        have hgk := hh k mk[k] ss[k] (List.getElem?_eq_getElem hkm) (List.getElem?_eq_getElem hks)
        rw [if_neg (by omega)] at hgk
        obtain ⟨r', hu, hg'⟩ := good_update _ _ [(cp, v.1), (cm, v.2)] hgk
        rw [replace_withCalib cp cm hne] at hg'
        refine ⟨mk.set k r', ?_, by simpa using hl, ?_⟩
        · rw [List.range_succ, List.foldlM_append, hf]
          simp only [bind, Except.bind, List.foldlM_cons, List.foldlM_nil]
          simp only [multiUpdate, List.getElem?_eq_getElem hkm, hu, Except.map]
          rfl
        · intro i r s hr hs
          rw [List.getElem?_set] at hr
          by_cases hik : k = i
          · subst hik
            simp [hkm] at hr
            subst hr
            rw [List.getElem?_eq_getElem hks] at hs
            simp at hs
            subst hs
            simpa using hg'
          · rw [if_neg hik] at hr
            have := hh i r s hr hs
            by_cases hlt : i < k
            · rw [if_pos hlt] at this; rwa [if_pos (by omega)]
            · rw [if_neg hlt] at this; rwa [if_neg (by omega)]
    obtain ⟨m', hf, hl, hh⟩ := key m.length le_rfl
    refine ⟨.many m', by simp only [setCalib, multiUpdateAll, hf], by simpa [hl] using hlen, ?_⟩
    intro i r s hr hs
    rw [List.getElem?_map] at hs
    cases hss : ss[i]? with
    | none => rw [hss] at hs; simp at hs
    | some t =>
      rw [hss] at hs
      simp at hs
      subst hs
      have := hh i r t hr hss
      have hi : i < m'.length := by
        by_contra hc
        rw [List.getElem?_eq_none (by omega)] at hr
        cases hr
      rwa [if_pos (by omega)] at this

theorem holds_calibKeys (cp cm : A) (p : Post A V) (s : TS A V) (ss : List (TS A V))
    (h : Holds p (s :: ss)) : calibKeys cp cm p = .ok (s.attr cp, s.attr cm) := by
  cases p with
  | one r =>
    obtain ⟨t, ht, hg⟩ := h
    simp at ht
    rw [ht.1]
    simp only [calibKeys, good_get r t hg]
  | many m =>
    obtain ⟨hlen, hg⟩ := h
    have h0 : 0 < m.length := by rw [hlen]; simp
    have := good_get _ _ (hg 0 m[0] s (List.getElem?_eq_getElem h0) rfl)
    simp only [calibKeys, multiGet, List.getElem?_eq_getElem h0, this]

variable {St F : Type}

/-- **C89, calibration.** Calibration starts from the calibration parameters and state held by the posterior
(of its first state, if there are several) or, if a path is given, from the restored ones. When it
succeeds, every state of the posterior has exactly these two attributes replaced by the calibrated ones:
parameters, optimizer state, step and all other attributes are untouched. -/
theorem C89_calibrate (cp cm : A) (hne : cp ≠ cm) (p : Post A V) (s : TS A V) (ss : List (TS A V))
    (hp : Holds p (s :: ss)) (j : CalibJob V St) (hd : j.dim = .ok ()) (hr : j.random = .ok ())
    (hc : j.hasCalibrator = true) (start : V × V)
    (hs : (j.restored = none ∧ start = (s.attr cp, s.attr cm)) ∨ j.restored = some (.ok start))
    (v : V × V) (st : St) (hrun : j.run start = .ok (v, st)) :
    ∃ p', calibrate cp cm (some p) j = (some p', .ok (some st)) ∧
      Holds p' ((s :: ss).map (withCalib cp cm v)) := by
  obtain ⟨p', hp', hh⟩ := holds_setCalib cp cm hne v p _ hp
  refine ⟨p', ?_, hh⟩
  unfold calibrate
  rcases hs with ⟨hs, rfl⟩ | hs
  · simp only [hd, hr, hc, hs, holds_calibKeys cp cm p s ss hp, hrun, hp', Bool.not_true,
      Bool.false_eq_true, if_false]
  · simp only [hd, hr, hc, hs, hrun, hp', Bool.not_true, Bool.false_eq_true, if_false]

/-- **C89, no calibration.** Without a calibrator nothing happens and there is no status, whether or not the
posterior has been fitted; with one, an unfitted posterior is refused; whenever calibration raises, the
posterior is left as it was. -/
theorem C89_not_calibrated (cp cm : A) (post : Option (Post A V)) (j : CalibJob V St) :
    (j.dim = .ok () → j.random = .ok () → j.hasCalibrator = false →
      calibrate cp cm post j = (post, .ok none)) ∧
    (j.dim = .ok () → j.random = .ok () → j.hasCalibrator = true → post = none →
      calibrate cp cm post j = (none, .error "ValueError")) ∧
    (∀ e, j.dim = .error e → calibrate cp cm post j = (post, .error e)) ∧
    (∀ e, j.dim = .ok () → j.random = .error e → calibrate cp cm post j = (post, .error e)) ∧
    (∀ e, (calibrate cp cm post j).2 = .error e → (calibrate cp cm post j).1 = post) := by
  refine ⟨fun h1 h2 h3 => by simp [calibrate, h1, h2, h3], fun h1 h2 h3 h4 => by
      simp [calibrate, h1, h2, h3, h4], fun e h => by simp [calibrate, h],
      fun e h1 h2 => by simp [calibrate, h1, h2], fun e => ?_⟩
  unfold calibrate
  split
  · intro _; rfl
  · split
    · intro _; rfl
    · split
      · intro _; rfl
      · split
        · intro _; rfl
        · split
          · intro _; rfl
          · split
            · intro _; rfl
            · split
              · intro _; rfl
              · intro h; simp at h

/-- **C89, training.** A model whose output dimension does not fit the training data is refused before
anything is fitted. Otherwise the posterior is fitted first; without a calibration loader, or with one
without batches, that is all, and the calibration status is `None`. With a non-empty calibration loader the
fitted posterior is then calibrated: the result is that of calling `calibrate` afterwards, and if that
raises, the posterior stays fitted. -/
theorem C89_train (cp cm : A) (post : Option (Post A V)) (dim : Except String Unit)
    (fit : Option (Post A V) → Option (Post A V) × Except String F) (batches : Option ℕ)
    (j : CalibJob V St) :
    (∀ e, dim = .error e → train cp cm post dim fit batches j = (post, .error e)) ∧
    (∀ p e, dim = .ok () → fit post = (p, .error e) →
      train cp cm post dim fit batches j = (p, .error e)) ∧
    (∀ p f, dim = .ok () → fit post = (p, .ok f) → (batches = none ∨ batches = some 0) →
      train cp cm post dim fit batches j = (p, .ok (f, none))) ∧
    (∀ p f k, dim = .ok () → fit post = (p, .ok f) → batches = some (k + 1) →
      (train cp cm post dim fit batches j).1 = (calibrate cp cm p j).1 ∧
      (train cp cm post dim fit batches j).2 = (calibrate cp cm p j).2.map (fun st => (f, st)) ∧
      (∀ e, (train cp cm post dim fit batches j).2 = .error e →
        (train cp cm post dim fit batches j).1 = p)) := by
  refine ⟨fun e h => by simp [train, h], fun p e h1 h2 => by simp [train, h1, h2], ?_, ?_⟩
  · rintro p f h1 h2 (rfl | rfl) <;> simp [train, h1, h2]
  · rintro p f k h1 h2 rfl
    have hcal := (C89_not_calibrated cp cm p j).2.2.2.2
    rcases hc : calibrate cp cm p j with ⟨q, e | st⟩
    · rw [hc] at hcal
      have : train cp cm post dim fit (some (k + 1)) j = (q, .error e) := by simp [train, h1, h2, hc]
      rw [this]
      exact ⟨rfl, rfl, fun e' _ => hcal e rfl⟩
    · have : train cp cm post dim fit (some (k + 1)) j = (q, .ok (f, st)) := by simp [train, h1, h2, hc]
      rw [this]
      exact ⟨rfl, rfl, fun e' h => by simp at h⟩

/-- **C89, classification data.** Labels pass the dimension check exactly when there are any and the network
has as many outputs as there are different labels in the data. -/
theorem C89_dim (modelDim : ℕ) (batches : List (List ℕ)) :
    checkDimCls modelDim batches = .ok () ↔
      batches.flatten ≠ [] ∧ batches.flatten.toFinset.card = modelDim := by
  unfold checkDimCls
  rw [List.card_toFinset]
  by_cases h1 : batches.flatten.length = 0
  · rw [if_pos h1]
    constructor
    · intro h; cases h
    · rintro ⟨h, -⟩; exact absurd (List.length_eq_zero_iff.mp h1) h
  · rw [if_neg h1]
    have hne : batches.flatten ≠ [] := fun h => h1 (by rw [h]; rfl)
    by_cases h2 : modelDim ≠ batches.flatten.dedup.length
    · rw [if_pos h2]
      constructor
      · intro h; cases h
      · rintro ⟨-, h⟩; exact absurd h.symm h2
    · rw [if_neg h2]
      push Not at h2
      exact ⟨fun _ => ⟨hne, h2.symm⟩, fun _ => rfl⟩

/-- **C89, regression data.** The targets of the first batch must have half as many columns as the model and
the log-variance model together have outputs. -/
theorem C89_dim_regression (modelDim : ℕ) (width : Option ℕ) :
    checkDimReg modelDim width = .ok () ↔ ∃ w, width = some w ∧ 0 < w ∧ modelDim = 2 * w := by
  unfold checkDimReg
  cases width with
  | none => simp
  | some w =>
    by_cases hw : w = 0
    · simp [hw]
    · by_cases hm : modelDim = 2 * w <;> simp [hw, hm, Nat.pos_of_ne_zero hw]

/-- **Calibration data must show every class.** A three-class network is fitted on data with all classes, and
then refuses to be calibrated, or validated, on data in which one class does not occur. -/
theorem C89_missing_class_false :
    checkDimCls 3 [[0, 1], [2, 1]] = .ok () ∧
    checkBoth (checkDimCls 3) [[0, 1], [1, 0]] none = .error "ValueError" ∧
    checkBoth (checkDimCls 3) [[0, 1], [2, 0]] (some [[0, 2]]) = .error "ValueError" := by
  decide +kernel

/-- Two ensemble members, with their own calibration states, calibrated from the first one's: both get the
result, keep their other attributes, and stay on disk. -/
example :
    let mk (a b c : ℕ) : Repo (TS (Fin 3) ℕ) :=
      { dirSet := true, other := .absent, mem := none
        ckpt := .dir [(7, ⟨7, none, fun i => if i = 0 then a else if i = 1 then b else c⟩)] }
    let j : CalibJob ℕ String :=
      { dim := .ok (), random := .ok (), hasCalibrator := true, restored := none
        run := fun q => .ok ((q.1 + 100, q.2 + 200), "status") }
    (match calibrate (0 : Fin 3) 1 (some (.many [mk 1 2 3, mk 4 5 6])) j with
      | (some (.many m), .ok (some st)) =>
        some ((multiExtractAll m [0, 1, 2]).toOption, st)
      | _ => none) =
    some (some [[(0, 101), (1, 202), (2, 3)], [(0, 101), (1, 202), (2, 6)]], "status") := by
  decide +kernel

end world

/-! ## Calibrating from a checkpoint -/

section restore
open Verif.Ckpt Verif.Props.Checkpoint
variable {P M C O G D : Type}

/-- **C89, calibrating from a checkpoint.** A checkpoint that a calibration run wrote gives back its calibration parameters and state. -/
theorem C89_restore (tx : Tx P O G) (s : Ckpt.State P M C O G D) (hc : s.cls = .outputCalib) (h : Made s) (m : M)
    (hm : s.mutbl = some m) : restoredStart tx (save s) = .ok (s.params, some m) := by
  obtain ⟨s', h1, h2, -⟩ := C86_round_trip_optimizer tx s (by rw [hc]; decide) h
  unfold restoredStart
  simp only [bind, Except.bind, h1]
  rw [h2.params, h2.mutbl, hm]

/-- **C89, calibrating from a dumped state, is false**: `dump_state` leaves the posterior's state in the checkpoint directory; a calibration restored
from there takes the parameters of the network for calibration parameters. -/
theorem C89_restore_dump_false (tx : Tx P O G) (s : Ckpt.State P M C O G D) (hp : s.cls ∈ posteriorClasses)
    (h : Made s) : restoredStart tx (save s) = .ok (s.params, s.mutbl) := by
  obtain ⟨s', h1, h2, -⟩ := C86_round_trip_optimizer tx s hp h
  unfold restoredStart
  simp only [bind, Except.bind, h1]
  rw [h2.params, h2.mutbl]

/-- A MAP state with network parameters 5 and calibration parameters 2: the calibration starts from 5. -/
example : (restoredStart (P := ℕ) (M := ℕ) (C := ℕ) (O := ℕ) (G := ℕ) (D := ℕ) ⟨fun p => p, fun _ po => po⟩
    (save (G := ℕ)
      { cls := .map, step := 3, params := 5, mutbl := none, calibParams := some 2, calibMutable := none, opt := none, tx := none,
        acc := none, scale := none, name := encodeName "MAPState" })).toOption = some (5, none) := by
  decide +kernel

end restore

/-! ### Concrete cases that meet the hypotheses of the theorems above -/

example := (C89_outputs_devices 2 (by norm_num) (fun s => s) (fun k i => k + 10 * i) (fun (k x : ℕ) => 100 * k + x) 2 [[1, 2], [3, 4, 5, 6]]).1
  (by simp)

/-- A calibrator that scales the outputs and counts its calls. -/
def exCal : Option (ℝ → Bool → Option ℕ → ℝ → ℝ × ℕ) := some fun p _ m o => (p * o, m.getD 0 + 1)

example := C89_objective exCal (fun o => [o, 2 * o]) 6 2 [1, 3] (none, none) 5 (some 4) (by simp [exCal]) (by simp) (by norm_num) (by simp)
example := C89_objective_full exCal (fun o => [o, 2 * o]) 2 [1, 3] (none, none) 5 (some 4) (by simp [exCal]) (by simp) (by norm_num) (by simp)
example := C89_objective_range exCal (fun o => [o, 2 * o]) 6 [1, 3] (none, none) 5 (some 4) (by simp [exCal]) (by simp) (by simp)
example := C89_single_epoch exCal (fun o => [o, 2 * o]) (none, none) 5 (some 4) (by simp [exCal]) [1, 3] 2 (by norm_num) (by simp) (by simp)

/-- Two repositories on disk. -/
def exPost (a b c : ℕ) : Verif.StateRepo.Repo (TS (Fin 3) ℕ) :=
  { dirSet := true, other := .absent, mem := none
    ckpt := .dir [(7, ⟨7, none, fun i => if i = 0 then a else if i = 1 then b else c⟩)] }

/-- A calibration that adds to what it starts from. -/
def exJob : CalibJob ℕ String :=
  { dim := .ok (), random := .ok (), hasCalibrator := true, restored := none
    run := fun q => .ok ((q.1 + 100, q.2 + 200), "status") }

example := C89_calibrate (0 : Fin 3) 1 (by decide) (.many [exPost 1 2 3, exPost 4 5 6]) ⟨7, none, fun i => if i = 0 then 1 else if i = 1 then 2 else 3⟩
  [⟨7, none, fun i => if i = 0 then 4 else if i = 1 then 5 else 6⟩]
  ⟨rfl, fun i r s hr hs => by
    match i with
    | 0 => cases hr; cases hs; exact .inr ⟨rfl, rfl, rfl⟩
    | 1 => cases hr; cases hs; exact .inr ⟨rfl, rfl, rfl⟩
    | n + 2 => simp at hr⟩
  exJob rfl rfl rfl (1, 2) (.inl ⟨rfl, rfl⟩) (101, 202) "status" rfl
example := (C89_not_calibrated (0 : Fin 3) 1 none exJob).2.1 rfl rfl rfl rfl
example := (C89_train (0 : Fin 3) 1 none (.ok ()) (fun _ => (some (.one (exPost 1 2 3)), .ok "fit")) (some 1) exJob).2.2.2 _ _ 0 rfl rfl rfl

end Verif.Props.ProbModel
