import Mathlib.Algebra.BigOperators.Fin
import Mathlib.Algebra.BigOperators.GroupWithZero.Action
import Mathlib.Analysis.Real.Sqrt
import Mathlib.Tactic.Ring
import Mathlib.Tactic.FieldSimp
import Mathlib.Tactic.Linarith
import Verif.Model.MultiDevice
import Verif.Props.OutputCalib
import Verif.Lemmas.ConformalRegression

/-!
# C88 Training on several devices
-/

set_option linter.unusedSectionVars false

namespace Verif.Props.MultiDevice
open Verif.Training Verif.OutputCalib Verif.MultiDevice Verif.Props.OutputCalib

section
variable {P O G M Q α K : Type} [Field K] [CharZero K] [AddCommGroup G] [Module K G] {d : ℕ}

/-- Specification: the part of the states that must be the same everywhere. -/
def Agree (s t : Dev P O G M) : Prop :=
  s.core.step = t.core.step ∧ s.core.params = t.core.params ∧ s.core.opt = t.core.opt

/-- Specification: the gradient of the negative log-joint estimate on some rows: data set size over number of rows, times the sum over the
rows, plus the prior. -/
def jointGrad (K : Type) [Field K] [Module K G] (size : K) (lik : P → α → G) (prior : P → G) (p : P) (rows : List α) : G :=
  (size / (rows.length : K)) • (rows.map (lik p)).sum + prior p

theorem run_ok_iff (c : Setup P O G M Q α) (key : ℕ → Fin d → Q) (bs : List (List α)) (n : ℕ) (s : Fin d → Dev P O G M) :
    (∀ b ∈ bs, d ∣ b.length) ↔ ∃ s', multiRun K c key n bs s = .ok s' := by
  induction bs generalizing n s with
  | nil => simp [multiRun]
  | cons b bs ih =>
    by_cases hb : d ∣ b.length
    · obtain ⟨sh, h1, _⟩ := (C85_shard d b).2 hb
      simp only [multiRun, h1, bind, Except.bind]
      rw [← ih]
      simp [hb]
    · simp only [multiRun, (C85_shard d b).1 hb, bind, Except.bind]
      simp [hb]

/-- **C88, refusal.** Training on `d` devices raises `ValueError` exactly if some batch has a size that is no multiple of `d`. -/
theorem C88_refused (c : Setup P O G M Q α) (key : ℕ → Fin d → Q) (bs : List (List α)) (n : ℕ) (s : Fin d → Dev P O G M) :
    multiRun K c key n bs s = .error "ValueError" ↔ ∃ b ∈ bs, ¬ d ∣ b.length := by
  induction bs generalizing n s with
  | nil => simp [multiRun]
  | cons b bs ih =>
    by_cases hb : d ∣ b.length
    · obtain ⟨sh, h1, _⟩ := (C85_shard d b).2 hb
      simp only [multiRun, h1, bind, Except.bind]
      rw [ih]
      simp [hb]
    · simp only [multiRun, (C85_shard d b).1 hb, bind, Except.bind]
      simp [hb]

/-- **C88, replicas.** Without a dynamic loss scale, whatever the gradients, network states, keys, optimizer, clipping and accumulation:
after any number of batches all devices hold the same parameters, optimizer state and step count. -/
theorem C88_replicas (c : Setup P O G M Q α) (hc : c.scaled = false) (key : ℕ → Fin d → Q) (bs : List (List α)) (n : ℕ)
    (s s' : Fin d → Dev P O G M) (hs : ∀ i j, Agree (s i) (s j)) (h : multiRun K c key n bs s = .ok s') :
    ∀ i j, Agree (s' i) (s' j) := by
  induction bs generalizing n s with
  | nil => simp only [multiRun, Except.ok.injEq] at h; subst h; exact hs
  | cons b bs ih =>
    simp only [multiRun] at h
    obtain ⟨sh, h1, h2⟩ := Verif.bind_ok.mp h
    refine ih (n + 1) _ ?_ h2
    intro i j
    obtain ⟨e1, e2, e3⟩ := hs i j
    unfold Agree multiStep
    simp only [hc, Bool.false_eq_true, if_false]
    by_cases hk : c.k > 1
    · simp only [if_pos hk]
      by_cases hm : ((s i).core.step + 1) % c.k = 0
      · have hm' : ((s j).core.step + 1) % c.k = 0 := e1 ▸ hm
        simp only [if_pos hm, if_pos hm', TState.applyGrad, e1, e2, e3, and_self]
      · have hm' : ¬ ((s j).core.step + 1) % c.k = 0 := e1 ▸ hm
        simp only [if_neg hm, if_neg hm', e1, e2, e3, and_self]
    · simp only [if_neg hk, TState.applyGrad, e1, e2, e3, and_self]

theorem pmean_const (hd : 0 < d) (g : G) : pmean K (fun _ : Fin d => g) = g := by
  unfold pmean
  rw [Finset.sum_const, Finset.card_univ, Fintype.card_fin, ← Nat.cast_smul_eq_nsmul K, smul_smul,
    inv_mul_cancel₀ (Nat.cast_ne_zero.mpr hd.ne'), one_smul]

theorem pmean_add (f g : Fin d → G) : pmean K (fun i => f i + g i) = pmean K f + pmean K g := by
  unfold pmean
  rw [Finset.sum_add_distrib, smul_add]

theorem pmean_smul (r : K) (f : Fin d → G) : pmean K (fun i => r • f i) = r • pmean K f := by
  unfold pmean
  rw [← Finset.smul_sum, smul_smul, smul_smul, mul_comm]

theorem sum_rowsOf (sh : List (List α)) (hl : sh.length = d) (f : List α → G) :
    ∑ i : Fin d, f (rowsOf sh i) = (sh.map f).sum := by
  subst hl
  rw [← List.sum_ofFn]
  congr 1
  apply List.ext_getElem
  · simp
  · intro i h1 h2
    have hi : i < sh.length := by simpa using h2
    simp [rowsOf, List.getD, List.getElem?_eq_getElem hi]

/-- The mean over the devices of the log-joint gradients of their rows is the log-joint gradient of the batch. -/
theorem joint_shards (size : K) (lik : P → α → G) (prior : P → G) (p : P) (hd : 0 < d) (b : List α) (hne : b ≠ [])
    (hb : d ∣ b.length) (sh : List (List α)) (h : shard d b = .ok sh) :
    pmean K (fun i : Fin d => jointGrad K size lik prior p (rowsOf sh i)) = jointGrad K size lik prior p b := by
  obtain ⟨sh', h1, h2, h3, h4⟩ := (C85_shard d b).2 hb
  rw [h] at h1
  obtain rfl : sh = sh' := by simpa using h1
  have hpos : 0 < b.length := List.length_pos_iff.mpr hne
  have hlen : ∀ i : Fin d, (rowsOf sh i).length = b.length / d := by
    intro i
    have hi : (i : ℕ) < sh.length := h2 ▸ i.2
    simp only [rowsOf, List.getD, List.getElem?_eq_getElem hi, Option.getD_some]
    exact h4 _ (List.getElem_mem _)
  unfold jointGrad
  rw [pmean_add, pmean_const hd]
  congr 1
  simp only [hlen]
  rw [pmean_smul]
  unfold pmean
  rw [sum_rowsOf sh h2 (fun rows => (rows.map (lik p)).sum)]
  have hsum : (sh.map fun rows => (rows.map (lik p)).sum).sum = (b.map (lik p)).sum := by
    rw [← h3, List.map_flatten, List.sum_flatten, List.map_map]
    rfl
  rw [hsum, smul_smul]
  congr 1
  obtain ⟨m, hm⟩ := hb
  have hm0 : m ≠ 0 := by rintro rfl; rw [Nat.mul_zero] at hm; omega
  rw [hm, Nat.mul_div_cancel_left m hd]
  have hd' : (d : K) ≠ 0 := Nat.cast_ne_zero.mpr hd.ne'
  have hm' : (m : K) ≠ 0 := Nat.cast_ne_zero.mpr hm0
  push_cast
  field_simp

/-- **C88, one device.** For the log-joint loss of a network without state and randomness, and without a dynamic loss scale: training on
`d` devices with batches whose sizes are positive multiples of `d` gives on every device exactly the parameters, optimizer state and step
count of training on one device with the same batches, after every number of steps, with any optimizer, clipping and accumulation. -/
theorem C88_single (c : Setup P O G M Q α) (hc : c.scaled = false) (size : K) (lik : P → α → G) (prior : P → G)
    (hg : ∀ p m q rows, c.grad p m q rows = jointGrad K size lik prior p rows) (hd : 0 < d) (key : ℕ → Fin d → Q) (key1 : ℕ → Q)
    (bs : List (List α)) (hbs : ∀ b ∈ bs, b ≠ [] ∧ d ∣ b.length) (n : ℕ) (s0 : Dev P O G M) :
    ∃ s', multiRun K c key n bs (replicate s0) = .ok s' ∧ ∀ i, Agree (s' i) (oneRun K c key1 n bs s0) := by
  have main : ∀ (bs : List (List α)) (n : ℕ) (s : Fin d → Dev P O G M) (t : Dev P O G M), (∀ b ∈ bs, b ≠ [] ∧ d ∣ b.length) →
      (∀ i, Agree (s i) t) → (∀ i, (s i).core.acc.isSome = t.core.acc.isSome) →
      pmean K (fun i => (s i).core.acc.getD 0) = t.core.acc.getD 0 →
      ∃ s', multiRun K c key n bs s = .ok s' ∧ ∀ i, Agree (s' i) (oneRun K c key1 n bs t) := by
    intro bs
    induction bs with
    | nil => intro n s t _ h1 _ _; exact ⟨s, rfl, h1⟩
    | cons b bs ih =>
      intro n s t hb h1 h2 h3
      obtain ⟨hne, hdiv⟩ := hb b (by simp)
      obtain ⟨sh, hsh, hrest⟩ := (C85_shard d b).2 hdiv
      simp only [multiRun, hsh, bind, Except.bind, oneRun]
      have hp : ∀ i, (s i).core.params = t.core.params := fun i => (h1 i).2.1
      have ho : ∀ i, (s i).core.opt = t.core.opt := fun i => (h1 i).2.2
      have hst : ∀ i, (s i).core.step = t.core.step := fun i => (h1 i).1
      have hmean : pmean K (fun i : Fin d => jointGrad K size lik prior (s i).core.params (rowsOf sh i)) =
          jointGrad K size lik prior t.core.params b := by
        simp only [hp]
        exact joint_shards size lik prior _ hd b hne hdiv sh hsh
      have hadd : ∀ (a : Option G) (g : G), addAcc a g = g + a.getD 0 := by
        intro a g; cases a <;> simp [addAcc]
      have hacc : pmean K (fun j : Fin d => addAcc (s j).core.acc (jointGrad K size lik prior (s j).core.params (rowsOf sh j))) =
          addAcc t.core.acc (jointGrad K size lik prior t.core.params b) := by
        simp only [hadd]
        rw [pmean_add, hmean, h3]
      refine ih (n + 1) _ _ (fun b' hb' => hb b' (by simp [hb'])) ?_ ?_ ?_
      · intro i
        unfold Agree multiStep oneStep trainStep
        simp only [hc, Bool.false_eq_true, if_false, hg]
        by_cases hk : c.k > 1
        · simp only [if_pos hk, accumStep]
          rw [pmean_smul, hacc]
          by_cases hm : (t.core.step + 1) % c.k = 0
          · simp only [hst, if_pos hm, TState.applyGrad, hp, ho, and_self]
          · simp only [hst, if_neg hm, hp, ho, and_self]
        · simp only [if_neg hk, TState.applyGrad]
          rw [hmean]
          simp only [hst, hp, ho, and_self]
      · intro i
        unfold multiStep oneStep trainStep
        simp only [hc, Bool.false_eq_true, if_false]
        by_cases hk : c.k > 1
        · simp only [if_pos hk, accumStep, hst]
          split <;> rfl
        · simp only [if_neg hk, TState.applyGrad]
          exact h2 i
      · unfold multiStep oneStep trainStep
        simp only [hc, Bool.false_eq_true, if_false, hg]
        by_cases hk : c.k > 1
        · simp only [if_pos hk, accumStep, hst]
          by_cases hm : (t.core.step + 1) % c.k = 0
          · simp only [if_pos hm, Option.getD_some]
            exact pmean_const (K := K) hd 0
          · simp only [if_neg hm, Option.getD_some]
            exact hacc
        · simp only [if_neg hk, TState.applyGrad]
          exact h3
  refine main bs n (replicate s0) s0 hbs (fun i => ⟨rfl, rfl, rfl⟩) (fun i => rfl) ?_
  exact pmean_const (K := K) hd (s0.core.acc.getD 0)

/-- The setup of the examples: gradient descent on squares, `size` 4, no prior. -/
def demo (scaled : Bool) (k : ℕ) : Setup ℚ Unit ℚ ℚ Unit ℚ :=
  { upd := fun g po => (po.1 - g / 4, po.2), clip := fun g => max (-2) (min 2 g), k := k
    grad := fun p _ _ rows => jointGrad ℚ 4 (fun p x => p - x) (fun _ => 0) p rows
    next := fun _ m _ rows => m.map fun m => (m + rows.sum / rows.length) / 2
    scaled := scaled, fin := fun _ => true }

/-- Two devices, two batches of four rows: the parameters of one device, with clipping. -/
example : ∃ s', multiRun ℚ (demo false 1) (fun _ _ => ()) 0 [[1, 2, 3, 6], [0, 1, 0, 0]] (replicate (d := 2) ⟨⟨0, 0, (), none⟩, none⟩) =
    .ok s' ∧ (s' 0).core.params = 1 / 4 ∧ (s' 1).core.params = 1 / 4 ∧
    (oneRun ℚ (demo false 1) (fun _ => ()) 0 [[1, 2, 3, 6], [0, 1, 0, 0]] ⟨⟨0, 0, (), none⟩, none⟩).core.params = 1 / 4 :=
  ⟨_, rfl, by decide +kernel, by decide +kernel, by decide +kernel⟩

/-- The same with accumulation over two batches. -/
example : ∃ s', multiRun ℚ (demo false 2) (fun _ _ => ()) 0 [[1, 2], [0, 1]] (replicate (d := 2) ⟨⟨0, 0, (), none⟩, none⟩) =
    .ok s' ∧ (s' 0).core.params = 1 / 2 ∧ (s' 1).core.params = 1 / 2 :=
  ⟨_, rfl, by decide +kernel, by decide +kernel⟩

/-- The rows that device `i` sees of each batch. -/
def ownRows (i : Fin d) (bs : List (List α)) : List (List α) :=
  bs.map fun b => (b.drop (i * (b.length / d))).take (b.length / d)

theorem blocks_getD (m n : ℕ) (xs : List α) (k : ℕ) (hk : k < n) : (blocks m n xs).getD k [] = (xs.drop (k * m)).take m := by
  induction n generalizing xs k with
  | zero => omega
  | succ n ih =>
    cases k with
    | zero => simp [blocks]
    | succ k =>
      simp only [blocks, List.getD_cons_succ]
      rw [ih _ k (by omega), List.drop_drop, Nat.succ_mul, Nat.add_comm]

/-- **C88, half precision.** With a dynamic loss scale nothing is exchanged between the devices: every device ends where one device
would, trained on its own rows of every batch only. In particular what `train` returns has seen the first rows of every batch only. -/
theorem C88_scaled (c : Setup P O G M Q α) (hc : c.scaled = true) (key : ℕ → Fin d → Q) (bs : List (List α)) (n : ℕ)
    (s s' : Fin d → Dev P O G M) (h : multiRun K c key n bs s = .ok s') (i : Fin d) :
    s' i = oneRun K c (fun n => key n i) n (ownRows i bs) (s i) := by
  induction bs generalizing n s with
  | nil => simp only [multiRun, Except.ok.injEq] at h; subst h; rfl
  | cons b bs ih =>
    simp only [multiRun] at h
    obtain ⟨sh, h1, h2⟩ := Verif.bind_ok.mp h
    rw [ih (n + 1) _ h2]
    simp only [ownRows, List.map_cons, oneRun]
    congr 1
    have hr : rowsOf (d := d) sh i = (b.drop (i * (b.length / d))).take (b.length / d) := by
      unfold shard at h1
      by_cases hm : b.length % d ≠ 0
      · rw [if_pos hm] at h1; cases h1
      · rw [if_neg hm] at h1
        simp only [Except.ok.injEq] at h1
        rw [← h1]
        exact blocks_getD _ _ _ _ i.2
    unfold multiStep oneStep
    simp only [hc, if_true, hr]

/-- **C88 is false in half precision.** Two devices, one batch of two rows: the replicas disagree, and the returned parameters ignore the
second row. -/
theorem C88_scaled_false :
    ∃ s', multiRun ℚ (demo true 1) (fun _ _ => ()) 0 [[0, 1]] (replicate (d := 2) ⟨⟨0, 0, (), none⟩, none⟩) = .ok s' ∧
      (s' 0).core.params = 0 ∧ (s' 1).core.params = 1 / 2 ∧ (returned s').core.params = 0 ∧
      (oneRun ℚ (demo true 1) (fun _ => ()) 0 [[0, 1]] ⟨⟨0, 0, (), none⟩, none⟩).core.params = 1 / 2 :=
  ⟨_, rfl, by decide +kernel, by decide +kernel, by decide +kernel, by decide +kernel⟩

end

section mutbl
variable {P O G M Q α K : Type} [Field K] [CharZero K] [AddCommGroup G] [Module K G] [AddCommGroup M] [Module K M] {d : ℕ}

/-- **C88, checkpoints.** A checkpoint (and what callbacks store) holds the common parameters, optimizer state and step count and the
average over all devices of the network's state, without accumulated gradients; validation gives every device that average and changes nothing else. -/
theorem C88_checkpoint (s : Fin (d + 1) → Dev P O G M) (m : Fin (d + 1) → M) (hm : ∀ i, (s i).mutbl = some (m i)) :
    Agree (saved K s) (s 0) ∧ (saved K s).core.acc = none ∧ (saved K s).mutbl = some (((d + 1 : ℕ) : K)⁻¹ • ∑ i, m i) ∧
    ∀ i, (syncMutable K s i).core = (s i).core ∧ (syncMutable K s i).mutbl = (saved K s).mutbl := by
  refine ⟨⟨rfl, rfl, rfl⟩, rfl, ?_, fun i => ⟨rfl, rfl⟩⟩
  simp [saved, syncMutable, hm, pmean]

/-- **C88, networks without state.** They stay without. -/
theorem C88_stateless (c : Setup P O G M Q α) (hn : ∀ p q rows, c.next p none q rows = none) (key : ℕ → Fin d → Q) (bs : List (List α))
    (n : ℕ) (s s' : Fin d → Dev P O G M) (hs : ∀ i, (s i).mutbl = none) (h : multiRun K c key n bs s = .ok s') :
    ∀ i, (s' i).mutbl = none := by
  induction bs generalizing n s with
  | nil => simp only [multiRun, Except.ok.injEq] at h; subst h; exact hs
  | cons b bs ih =>
    simp only [multiRun] at h
    obtain ⟨sh, _, h2⟩ := Verif.bind_ok.mp h
    refine ih (n + 1) _ ?_ h2
    intro i
    simp [multiStep, hs, hn]

/-- **C88 is false for the network's state.** The state returned by `train` is that of the first device, not the average: it ignores the
other devices' rows, and differs from the checkpoint written at the same moment. -/
theorem C88_mutable_false :
    ∃ s', multiRun ℚ (demo false 1) (fun _ _ => ()) 0 [[0, 8]] (replicate (d := 1 + 1) ⟨⟨0, 0, (), none⟩, some 0⟩) = .ok s' ∧
      (returned s').mutbl = some 0 ∧ (saved ℚ s').mutbl = some 2 ∧ (returned s').core.params = (saved ℚ s').core.params ∧
      (oneRun ℚ (demo false 1) (fun _ => ()) 0 [[0, 8]] ⟨⟨0, 0, (), none⟩, some 0⟩).mutbl = some 2 :=
  ⟨_, rfl, by decide +kernel, by decide +kernel, by decide +kernel, by decide +kernel⟩

end mutbl

/-- **C88, keys.** Keys at different devices or different steps are different. -/
theorem C88_keys (rng : Key) (d i j s t : ℕ) (h : deviceKey rng d i s = deviceKey rng d j t) : i = j ∧ s = t := by
  simp only [deviceKey, Key.fold.injEq, Key.split.injEq, true_and] at h
  exact ⟨h.1, h.2⟩

section metrics
variable {α K : Type} [Field K] [CharZero K]

/-- **C88, training metrics.** They are those of the whole batch. -/
theorem C88_train_metric (d : ℕ) (metric : List α → K) (rows : List α) (h : d ∣ rows.length) :
    trainMetric d metric rows = .ok (metric rows) := by
  obtain ⟨sh, h1, h2, h3, h4⟩ := (C85_shard d rows).2 h
  simp [trainMetric, h1, Except.map, h3]

/-- **C88, validation metrics.** Metrics that average over the rows are those of the whole batch. -/
theorem C88_val_metric (d : ℕ) (hd : 0 < d) (f : α → K) (rows : List α) (hne : rows ≠ []) (h : d ∣ rows.length) :
    valMetric d (fun r => (r.map f).sum / (r.length : K)) rows = .ok ((rows.map f).sum / (rows.length : K)) := by
  obtain ⟨sh, h1, h2, h3, h4⟩ := (C85_shard d rows).2 h
  have hb : 0 < rows.length / d := Nat.div_pos (Nat.le_of_dvd (List.length_pos_iff.mpr hne) h) hd
  have := grad_shards (K := K) f sh _ hb h4
  rw [h3] at this
  simp only [gradMany, gradOne, vmean, smul_eq_mul, List.length_map, h2] at this
  simp only [valMetric, h1, Except.map, Except.ok.injEq]
  rw [div_eq_inv_mul, div_eq_inv_mul, ← this]
  congr 3
  funext r
  rw [div_eq_inv_mul]
  simp [gradOne, vmean]

/-- **C88, validation loss.** The log-joint loss on a validation batch is that of one device. -/
theorem C88_val_loss (d : ℕ) (hd : 0 < d) (size : K) (lik : α → K) (prior : K) (rows : List α) (hne : rows ≠ []) (h : d ∣ rows.length) :
    valMetric d (fun r => size / (r.length : K) * (r.map lik).sum + prior) rows =
      .ok (size / (rows.length : K) * (rows.map lik).sum + prior) := by
  obtain ⟨sh, h1, h2, h3, h4⟩ := (C85_shard d rows).2 h
  have := joint_shards (K := K) size (fun (_ : Unit) x => lik x) (fun _ => prior) () hd rows hne h sh h1
  unfold pmean at this
  rw [sum_rowsOf sh h2 (fun r => jointGrad K size (fun (_ : Unit) x => lik x) (fun _ => prior) () r)] at this
  simp only [valMetric, h1, Except.map, Except.ok.injEq]
  rw [div_eq_inv_mul, ← smul_eq_mul]
  exact this

end metrics

/-- **C88 is false for other validation metrics.** The root mean squared error of the errors 0 and 1 is not the one reported on two
devices, which is 1/2. -/
theorem C88_val_metric_false :
    let rmse : List ℝ → ℝ := fun r => Real.sqrt ((r.map fun e => e ^ 2).sum / r.length)
    valMetric 2 rmse [0, 1] = .ok (1 / 2) ∧ rmse [0, 1] ≠ 1 / 2 := by
  intro rmse
  constructor
  · have : shard 2 [(0 : ℝ), 1] = .ok [[0], [1]] := by
      simp [shard, blocks]
    simp [valMetric, this, Except.map, rmse]
  · intro h
    have h2 : rmse [0, 1] ^ 2 = 1 / 2 := by
      simp only [rmse]
      rw [Real.sq_sqrt (by norm_num)]
      norm_num
    rw [h] at h2
    norm_num at h2

/-! ### Concrete cases that meet the hypotheses of the theorems above -/

/-- A run of two devices over two batches of four rows. -/
theorem demo_runs (scaled : Bool) (m : Option ℚ) : ∃ s', multiRun ℚ (demo scaled 1) (fun _ _ => ()) 0 [[1, 2, 3, 6], [0, 1, 0, 0]]
    (replicate (d := 2) ⟨⟨0, 0, (), none⟩, m⟩) = .ok s' := ⟨_, rfl⟩

example := (demo_runs false (some 1)).imp fun s' h => C88_replicas (demo false 1) rfl _ _ _ _ s' (fun _ _ => ⟨rfl, rfl, rfl⟩) h
example := (demo_runs true (some 1)).imp fun s' h => C88_scaled (demo true 1) rfl _ _ _ _ s' h 1
example := C88_checkpoint (K := ℚ) (P := ℚ) (O := Unit) (G := ℚ) (M := ℚ) (d := 1)
  ![⟨⟨0, 0, (), some 3⟩, some 1⟩, ⟨⟨0, 0, (), some 5⟩, some 2⟩] ![1, 2] (by intro i; fin_cases i <;> rfl)
example := (demo_runs false none).imp fun s' h => C88_stateless (demo false 1) (fun _ _ _ => rfl) _ _ _ _ s' (fun _ => rfl) h
example := C88_train_metric (K := ℚ) 2 (fun r => r.sum) [1, 2, 3, 6] (by decide)
example := C88_val_metric (K := ℚ) 2 (by decide) (fun x : ℚ => x ^ 2) [1, 2, 3, 6] (by simp) (by decide)
example := C88_val_loss (K := ℚ) 2 (by decide) 100 (fun x : ℚ => x ^ 2) 5 [1, 2, 3, 6] (by simp) (by decide)
example (rng : Verif.MultiDevice.Key) : deviceKey rng 2 0 7 ≠ deviceKey rng 2 1 7 := fun h => absurd (C88_keys rng 2 0 1 7 7 h).1 (by decide)

end Verif.Props.MultiDevice
