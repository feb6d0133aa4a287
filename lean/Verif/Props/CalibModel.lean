import Verif.Model.CalibModel
import Verif.Props.Likelihood
import Mathlib.Data.Finset.Card

/-!
C87: models calibrated by a loss.
-/

set_option linter.unusedSectionVars false

namespace Verif.Props.CalibModel
open Verif.Likelihood Verif.CalibModel Verif.Props

section loss
variable {O M CM P K : Type}

/-- **C87.** For a network without state, outside and inside training, the loss is the loss function at the network's outputs in the mode
asked for; the outputs come back if asked for. -/
theorem C87_loss (forward : Bool → Option M → O × M) (lossFn : O → K) (c : Call O M CM P) (ha : Allowed c) (ho : c.outputs = none)
    (hm : c.mutable = none) (hc : c.calibMutable = none) :
    lossCall forward lossFn c = .ok (lossFn (forward c.train none).1,
      { outputs := if "outputs" ∈ c.aux then some (forward c.train none).1 else none
        mutable := none
        calibMutable := if "calib_mutable" ∈ c.aux then some none else none }) := by
  have hg := (guards_none c).mpr ha
  have hmu : "mutable" ∉ c.aux := fun h => (ha.2.2.mp h).2 hm
  have hmu' : c.aux.contains "mutable" = false := by simpa using hmu
  unfold lossCall
  rw [hg]
  simp only [modelPart, ho, hm, hmu', calibPart, hc, modelApply, bind, Except.bind]
  by_cases h1 : "outputs" ∈ c.aux <;> by_cases h2 : "calib_mutable" ∈ c.aux <;> simp [h1, h2]

/-- **C87.** With state, the loss outside training (validation) is the loss function at the outputs of the network with its state. -/
theorem C87_validation (forward : Bool → Option M → O × M) (lossFn : O → K) (m : Option M) :
    lossCall forward lossFn (valCall m : Call O M CM P) = .ok (lossFn (forward false m).1,
      { outputs := some (forward false m).1, mutable := none, calibMutable := none }) := by
  cases m <;> rfl

/-- **C87, training with state, is false**: for every network with state (batch normalisation) and every loss function the training step
raises, because the pair of outputs and state is handed to the loss function. -/
theorem C87_state_false (forward : Bool → Option M → O × M) (lossFn : O → K) (m : M) :
    lossCall forward lossFn (trainCall (some m) : Call O M CM P) = .error "AttributeError" := rfl

/-- **C87, precomputed outputs, is false**: with outputs given the variable they are read from is not assigned. -/
theorem C87_precomputed_false (forward : Bool → Option M → O × M) (lossFn : O → K) (o : O) :
    lossCall forward lossFn ({ outputs := some o } : Call O M CM P) = .error "UnboundLocalError" := rfl

end loss

/-! ## The run -/

section run
variable {O M K B W G : Type}

/-- **C87.** Calibration of a network without state is descent on the loss function: every step on a batch updates the parameters by the
gradient of `w ↦ loss_fn (outputs of the network in training mode, targets)`, over all batches in order, epoch by epoch; no data set
size, prior or calibrator enters. -/
theorem C87_run (net : Net O M B W) (lossFn : O → B → K) (grad : (W → Except String K) → W → G) (upd : G → W → W) (bs : List B)
    (n : ℕ) (w : W) :
    calibEpochs net lossFn grad upd bs n (w, none) =
      .ok ((List.replicate n bs).flatten.foldl
        (fun w b => upd (grad (fun w => .ok (lossFn (net true w b none).1 b)) w) w) w, none) := by
  have hobj : ∀ (b : B) (w : W), objective net lossFn (none : Option M) b w =
      .ok (lossFn (net true w b none).1 b, { outputs := some (net true w b none).1 }) := fun b w => rfl
  have hstep : ∀ (b : B) (w : W), calibStep net lossFn grad upd (w, none) b =
      .ok (upd (grad (fun w => .ok (lossFn (net true w b none).1 b)) w) w, none) := by
    intro b w
    unfold calibStep
    simp only [bind, Except.bind, hobj, Except.map]
  have hb : ∀ (bs : List B) (w : W), calibBatches net lossFn grad upd (w, none) bs =
      .ok (bs.foldl (fun w b => upd (grad (fun w => .ok (lossFn (net true w b none).1 b)) w) w) w, none) := by
    intro bs
    induction bs with
    | nil => intro w; rfl
    | cons b bs ih =>
      intro w
      unfold calibBatches
      simp only [bind, Except.bind, hstep, ih, List.foldl_cons]
  induction n generalizing w with
  | zero => rfl
  | succ n ih =>
    unfold calibEpochs
    simp only [bind, Except.bind, hb, ih]
    rw [List.replicate_succ, List.flatten_cons, List.foldl_append]

/-- **C87, networks with state, is false**: calibration raises at the first batch, whatever the data, loss and optimizer. -/
theorem C87_run_state_false (net : Net O M B W) (lossFn : O → B → K) (grad : (W → Except String K) → W → G) (upd : G → W → W) (b : B)
    (bs : List B) (n : ℕ) (w : W) (m : M) :
    calibEpochs net lossFn grad upd (b :: bs) (n + 1) (w, some m) = .error "AttributeError" := rfl

/-- **C87.** A calibration that is run: the loaders pass their checks and a directory is there if the state is to be dumped; it starts
from the checkpoint if one is given (also if the current state is asked for as well), from the current state if only that is asked for,
and from scratch otherwise; the result is kept on disk exactly if asked for. -/
theorem C87_calibrate (checks : List (Except String Unit)) (hch : ∀ e ∈ checks, e = .ok ()) (c : Conf) (src : Sources M W)
    (net : Net O M B W) (lossFn : O → B → K) (grad : (W → Except String K) → W → G) (upd : G → W → W) (bs : List B) (epochs : ℕ)
    (hd : c.dumpState = true → c.saveDir = true) (cur : W × Option M)
    (hcur : c.restorePath = false → c.startCurrent = true → src.current = some cur) (r : W × Option M)
    (hr : calibEpochs net lossFn grad upd bs epochs
      (if c.restorePath = true then src.restored else if c.startCurrent = true then cur else src.fresh) = .ok r) :
    calibrate checks c src net lossFn grad upd bs epochs = .ok (r, if c.dumpState then .disk else .memory) := by
  have hf : checks.forM id = (.ok () : Except String Unit) := by
    induction checks with
    | nil => rfl
    | cons e es ih =>
      have h1 := hch e List.mem_cons_self
      rw [List.forM_eq_forM, List.forM_cons]
      simp only [id, h1, bind, Except.bind]
      exact ih fun e' he' => hch e' (List.mem_cons_of_mem _ he')
  have hdd : (c.dumpState && !c.saveDir) = false := by
    cases h : c.dumpState
    · rfl
    · rw [hd h]; rfl
  unfold calibrate initState
  simp only [bind, Except.bind, hf, hdd]
  by_cases h1 : c.restorePath = true
  · rw [if_pos h1] at hr
    simp only [h1, if_true]
    rw [hr]
    rfl
  · have h1' : c.restorePath = false := by simpa using h1
    rw [if_neg h1] at hr
    by_cases h2 : c.startCurrent = true
    · rw [if_pos h2] at hr
      have hs := hcur h1' h2
      simp only [h1', h2, hs, Option.isSome_some, if_true, Option.getD_some]
      simp only [Bool.false_eq_true, if_false]
      rw [hr]
    · have h2' : c.startCurrent = false := by simpa using h2
      rw [if_neg h2] at hr
      simp only [h1', h2', Bool.false_eq_true, if_false]
      rw [hr]

/-- **C87.** Calibrations that are refused: a loader fails its check; the state is to be dumped without a directory; the current state is
asked for before there is one. -/
theorem C87_refused (checks : List (Except String Unit)) (c : Conf) (src : Sources M W)
    (net : Net O M B W) (lossFn : O → B → K) (grad : (W → Except String K) → W → G) (upd : G → W → W) (bs : List B) (epochs : ℕ)
    (h : (∃ e, .error e ∈ checks) ∨ (c.dumpState = true ∧ c.saveDir = false) ∨
      (c.restorePath = false ∧ c.startCurrent = true ∧ src.current = none)) :
    ∃ e, calibrate checks c src net lossFn grad upd bs epochs = .error e := by
  unfold calibrate
  cases hf : (checks.forM id : Except String Unit) with
  | error e => exact ⟨e, rfl⟩
  | ok u =>
    rcases h with ⟨e, he⟩ | ⟨h1, h2⟩ | ⟨h1, h2, h3⟩
    · exfalso
      clear c
      induction checks with
      | nil => cases he
      | cons x xs ih =>
        rw [List.forM_eq_forM, List.forM_cons] at hf
        cases hx : x with
        | error e' => rw [hx] at hf; cases hf
        | ok u' =>
          rw [hx] at hf
          refine ih hf ?_
          rcases List.mem_cons.1 he with h | h
          · rw [hx] at h; cases h
          · exact h
    · exact ⟨"ValueError", by simp [bind, Except.bind, h1, h2]⟩
    · by_cases hd : (c.dumpState && !c.saveDir) = true
      · exact ⟨"ValueError", by simp only [bind, Except.bind, hd, if_true]⟩
      · refine ⟨"AttributeError", ?_⟩
        simp only [bind, Except.bind, hd, initState, h1, h2, h3]
        rfl

end run

/-- **C87.** The classifier's data check: some data, and as many different labels as the network has outputs. -/
theorem C87_check_classifier (size : ℕ) (labels : List ℤ) (width : ℕ) :
    checkClassifier size labels width = .ok () ↔ 0 < size ∧ labels.toFinset.card = width := by
  unfold checkClassifier
  rw [List.card_toFinset]
  by_cases h1 : size = 0
  · simp [h1]
  · rw [if_neg h1]
    by_cases h2 : width = labels.dedup.length
    · rw [if_neg (by simpa using h2)]
      simp [h2, Nat.pos_of_ne_zero h1]
    · rw [if_pos h2]
      constructor
      · intro h; cases h
      · intro h; exact absurd h.2.symm h2

/-- **C87.** The regressor's data check: a batch with targets of some dimension, and a network with twice as many outputs (mean and
log-variance). -/
theorem C87_check_regressor (dim : Option ℕ) (width : ℕ) :
    checkRegressor dim width = .ok () ↔ ∃ d, dim = some d ∧ 0 < d ∧ width = 2 * d := by
  unfold checkRegressor
  cases dim with
  | none => simp
  | some d =>
    simp only [Option.getD_some, Option.some.injEq]
    by_cases h1 : d = 0
    · simp [h1]
    · rw [if_neg h1]
      by_cases h2 : width = 2 * d
      · rw [if_neg (by simpa using h2)]
        simp [h2, Nat.pos_of_ne_zero h1]
      · rw [if_pos h2]
        constructor
        · intro h; cases h
        · rintro ⟨d', rfl, -, h⟩; exact absurd h h2

/-- **C87.** Data that are refused raise `ValueError`. -/
theorem C87_check_errors (size : ℕ) (labels : List ℤ) (dim : Option ℕ) (width : ℕ) (e : String) :
    (checkClassifier size labels width = .error e → e = "ValueError") ∧
    (checkRegressor dim width = .error e → e = "ValueError") := by
  constructor
  · intro h
    unfold checkClassifier at h
    split at h
    · cases h; rfl
    · split at h <;> cases h; rfl
  · intro h
    unfold checkRegressor at h
    split at h
    · cases h; rfl
    · split at h <;> cases h; rfl

/-- **C87, any calibration set, is false**: a calibration or validation set in which a class does not occur is refused. -/
theorem C87_check_false : checkClassifier 100 (List.replicate 99 0 ++ [1]) 3 = .error "ValueError" := by decide +kernel

/-- **C87, gradient clipping, is false**: `max_grad_norm` of the configuration is not used. Minimising `w ↦ 10 w` with rate 1 moves by 10
per step in spite of a bound of 1. -/
theorem C87_clip_false :
    calibrate (M := Unit) (O := ℤ) (B := Unit) [] { maxGradNorm := some 1 } ⟨(0, none), none, (0, none)⟩ (fun _ w _ _ => (10 * w, ()))
      (fun o _ => o) (fun f (w : ℤ) => match f (w + 1), f w with
        | .ok a, .ok b => a - b
        | _, _ => 0) (fun g w => w - g) [()] 2 = .ok ((-20, none), .memory) := rfl

/-- **C87.** Before calibration there is no state to predict with or to save. -/
theorem C87_uncalibrated {S : Type} (state : Option S) : (∃ s, stateOf state = .ok s) ↔ state.isSome = true := by
  cases state <;> simp [stateOf]

/-! ## Examples -/

example : Allowed ({ aux := ["outputs"], train := true } : Call ℤ ℕ Unit Unit) := by
  refine ⟨?_, ?_, ?_⟩ <;> simp

example : calibrate (M := Unit) (O := ℤ) (B := ℤ) [checkRegressor (some 1) 2] { restorePath := true, startCurrent := true }
    ⟨(5, none), none, (0, none)⟩ (fun _ w b _ => (w - b, ())) (fun o _ => o * o)
    (fun f (w : ℤ) => match f (w + 1), f (w - 1) with
        | .ok a, .ok b => (a - b) / 2
        | _, _ => 0) (fun g w => w - g) [1, 2] 1 = .ok ((7, none), .memory) := rfl

example : checkClassifier 4 [0, 1, 2, 1] 3 = .ok () := by decide +kernel

/-! ### Concrete cases that meet the hypotheses of the theorems above -/

example := C87_loss (M := ℕ) (CM := Unit) (P := Unit) (fun train _ => (if train then (3 : ℤ) else 4, 5)) (fun o => o * o)
  { aux := ["outputs"], train := true } ⟨by simp, by simp, by simp⟩ rfl rfl rfl

/-- A network with one weight, the squared loss and a difference quotient. -/
def exNet : Net ℤ Unit ℤ ℤ := fun _ w b _ => (w - b, ())

def exGrad (f : ℤ → Except String ℤ) (w : ℤ) : ℤ := match f (w + 1), f (w - 1) with
  | .ok a, .ok b => (a - b) / 2
  | _, _ => 0

example := C87_run exNet (fun o _ => o * o) exGrad (fun g w => w - g) [1, 2] 3 5
example := C87_run_state_false exNet (fun o _ => o * o) exGrad (fun g w => w - g) 1 [2] 3 5 ()
example := C87_calibrate [checkRegressor (some 1) 2] (by decide +kernel) { restorePath := true, startCurrent := true } ⟨(5, none), none, (0, none)⟩
  exNet (fun o _ => o * o) exGrad (fun g w => w - g) [1, 2] 1 (by simp) (0, none) (by simp) (7, none) rfl
example := C87_refused (W := ℤ) [] { dumpState := true } ⟨(5, none), none, (0, none)⟩
  exNet (fun o _ => o * o) exGrad (fun g w => w - g) [1, 2] 1 (.inr (.inl ⟨rfl, rfl⟩))

end Verif.Props.CalibModel
