import Verif.Props.MapLaw
import Verif.Props.LangevinSchedule

/-!
Property C141: MAP fits with mini-batches and a learning rate that decreases.
-/
set_option linter.unusedSectionVars false

namespace Verif.Props.MapSchedule

open Verif.FitRun Verif.FitStart Verif.Training Verif.Props Verif.Props.MapLaw Finset Filter Topology

variable {ι B : Type} [Fintype ι]

/-! ### The iterates -/

/-- `optax.sgd` with a schedule of learning rates, with `apply_updates`: its state is the number of updates made. -/
def sgdWith (lr : ℕ → ℝ) (g : ι → ℝ) (po : (ι → ℝ) × ℕ) : (ι → ℝ) × ℕ := (po.1 - lr po.2 • g, po.2 + 1)

/-- Specification: a fit by gradient descent with learning rates `lr`, without clipping and accumulation, where `G b` is the gradient of the
log-joint of batch `b`. -/
structure Descent (c : Cfg) (p : Problem ι (ι → ℝ) ℕ B) (G : B → (ι → ℝ) → ι → ℝ) (lr : ℕ → ℝ) : Prop where
  upd : p.upd = sgdWith lr
  grad : ∀ key s b, p.grad key s b = G b s.params
  norm : c.maxNorm = none
  acc : c.accSteps = none ∨ c.accSteps = some 1

/-- One step. -/
def move (G : B → (ι → ℝ) → ι → ℝ) (lr : ℕ → ℝ) (q : (ι → ℝ) × ℕ) (b : B) : (ι → ℝ) × ℕ := (q.1 + lr q.2 • G b q.1, q.2 + 1)

/-- Specification: parameters and number of updates after `e` epochs. -/
def after (G : B → (ι → ℝ) → ι → ℝ) (lr : ℕ → ℝ) (data : ℕ → List B) (q : (ι → ℝ) × ℕ) : ℕ → (ι → ℝ) × ℕ
  | 0 => q
  | e + 1 => (data e).foldl (move G lr) (after G lr data q e)

/-- **C141, the iterates** of a fit with a schedule. -/
theorem C141_iterates (m : Method) (hm : m = .map ∨ m = .deepEnsemble) (c : Cfg) (a : Args) (ha : trainerArgs m c = some a)
    (p : Problem ι (ι → ℝ) ℕ B) (G : B → (ι → ℝ) → ι → ℝ) (lr : ℕ → ℝ) (hd : Descent c p G lr) (data : ℕ → List B)
    (s : TState (ι → ℝ) ℕ (ι → ℝ)) (dir : Dir (TState (ι → ℝ) ℕ (ι → ℝ))) (l : Loop (TState (ι → ℝ) ℕ (ι → ℝ)) ℝ)
    (h : runFit a p data s dir = some l) : (l.state.params, l.state.opt) = after G lr data (s.params, s.opt) l.trained := by
  have e : a.accSteps = c.accSteps ∧ a.maxNorm = c.maxNorm ∧ a.ascend = false := by
    rcases hm with rfl | rfl <;> simp only [trainerArgs, Option.some.injEq] at ha <;> subst ha <;> exact ⟨rfl, rfl, rfl⟩
  have hk : ¬ a.accSteps.getD 0 > 1 := by
    rw [e.1]
    rcases hd.acc with h | h <;> rw [h] <;> simp
  have hT : ∀ key s b, (jobOf a p).train key s b =
      { s with step := s.step + 1, params := s.params + lr s.opt • G b s.params, opt := s.opt + 1 } := by
    intro key s b
    show trainStep ℝ p.upd (clipFn a.maxNorm) (a.accSteps.getD 0) s (if a.ascend then p.grad key s b else -p.grad key s b) = _
    rw [trainStep, if_neg hk, e.2.1, hd.norm, e.2.2, hd.upd, hd.grad]
    simp [clipFn, TState.applyGrad, sgdWith]
  have h1 := train_state (jobOf a p) (fun (s : TState (ι → ℝ) ℕ (ι → ℝ)) b =>
    { s with step := s.step + 1, params := s.params + lr s.opt • G b s.params, opt := s.opt + 1 }) hT data a.epochs s dir l h
  have hfold : ∀ (bs : List B) (s : TState (ι → ℝ) ℕ (ι → ℝ)),
      ((bs.foldl (fun (s : TState (ι → ℝ) ℕ (ι → ℝ)) b =>
        { s with step := s.step + 1, params := s.params + lr s.opt • G b s.params, opt := s.opt + 1 }) s).params,
       (bs.foldl (fun (s : TState (ι → ℝ) ℕ (ι → ℝ)) b =>
        { s with step := s.step + 1, params := s.params + lr s.opt • G b s.params, opt := s.opt + 1 }) s).opt) =
      bs.foldl (move G lr) (s.params, s.opt) := by
    intro bs
    induction bs with
    | nil => intro s; rfl
    | cons b bs ih =>
      intro s
      simp only [List.foldl_cons]
      exact ih _
  rw [h1, hfold]
  generalize l.trained = t
  induction t with
  | zero => rfl
  | succ t ih =>
    rw [List.range_succ, List.flatMap_append, List.foldl_append, ih, after]
    simp

/-! ### One epoch -/

theorem gnorm_sub_le (x y : ι → ℝ) : gnorm (x - y) ≤ gnorm x + gnorm y := by
  have h : gnorm (-y) = gnorm y := by simp [gnorm]
  rw [sub_eq_add_neg, ← h]
  exact gnorm_add_le _ _

theorem gnorm_smul_abs (a : ℝ) (x : ι → ℝ) : gnorm (a • x) = |a| * gnorm x := by
  rcases le_total 0 a with h | h
  · rw [gnorm_smul a h, abs_of_nonneg h]
  · have : gnorm (a • x) = gnorm ((-a) • x) := by simp [gnorm]
    rw [this, gnorm_smul (-a) (by linarith), abs_of_nonpos h]

theorem epoch_close (G : B → (ι → ℝ) → ι → ℝ) (lr : ℕ → ℝ) (k n : ℕ) (η ε L D : ℝ) (hη : 0 ≤ η) (hε0 : 0 ≤ ε) (hε : ε ≤ 1) (hL : 0 ≤ L)
    (hsmall : 4 * k * η * L ≤ 1) (hlr : ∀ i < k, |lr (n + i) - η| ≤ ε * η) (z : ι → ℝ) (bs : List B) (hk : bs.length ≤ k)
    (hlip : ∀ b ∈ bs, ∀ x y, gnorm (G b x - G b y) ≤ L * gnorm (x - y)) (hD : ∀ b ∈ bs, gnorm (G b z) ≤ D) :
    (bs.foldl (move G lr) (z, n)).2 = n + bs.length ∧
      gnorm ((bs.foldl (move G lr) (z, n)).1 - z) ≤ 4 * bs.length * η * D ∧
      gnorm ((bs.foldl (move G lr) (z, n)).1 - z - η • (bs.map fun b => G b z).sum) ≤ bs.length * (η * D * (ε + 8 * k * L * η)) := by
  induction bs using List.reverseRecOn with
  | nil => simp [gnorm]
  | append_singleton bs b ih =>
    rw [List.length_append, List.length_singleton] at hk
    obtain ⟨h1, h2, h3⟩ := ih (by omega) (fun b hb => hlip b (by simp [hb])) (fun b hb => hD b (by simp [hb]))
    have hb := hD b (by simp)
    have hl := hlip b (by simp)
    rw [List.foldl_append, List.foldl_cons, List.foldl_nil, List.length_append, List.length_singleton, List.map_append, List.sum_append,
      List.map_singleton, List.sum_singleton]
    set q := bs.foldl (move G lr) (z, n) with hq
    set i := bs.length with hi
    have hw := hlr i (by omega)
    have hD0 : 0 ≤ D := (gnorm_nonneg _).trans hb
    have hw2 : |lr (n + i)| ≤ 2 * η := by
      have := abs_sub_abs_le_abs_sub (lr (n + i)) η
      rw [abs_of_nonneg hη] at this
      nlinarith
    have hik : (i : ℝ) ≤ k := by exact_mod_cast (by omega : i ≤ k)
    have hi0 : (0 : ℝ) ≤ i := Nat.cast_nonneg i
    have hmove : gnorm (G b q.1 - G b z) ≤ L * (4 * i * η * D) := (hl q.1 z).trans (mul_le_mul_of_nonneg_left h2 hL)
    have hsm : 4 * i * η * L ≤ 1 := by
      have : 4 * (i : ℝ) * η * L ≤ 4 * k * η * L := by
        have := mul_le_mul_of_nonneg_right hik (mul_nonneg hη hL)
        nlinarith
      linarith
    have hg : gnorm (G b q.1) ≤ 2 * D := by
      have h4 : G b q.1 = (G b q.1 - G b z) + G b z := by abel
      have h5 := gnorm_add_le (G b q.1 - G b z) (G b z)
      rw [← h4] at h5
      nlinarith
    have hexp : (move G lr q b).1 = q.1 + lr (n + i) • G b q.1 := by
      unfold move
      rw [h1]
    refine ⟨by simp only [move]; omega, ?_, ?_⟩
    · rw [hexp, show q.1 + lr (n + i) • G b q.1 - z = (q.1 - z) + lr (n + i) • G b q.1 by abel]
      refine (gnorm_add_le _ _).trans ?_
      rw [gnorm_smul_abs]
      have h6 : |lr (n + i)| * gnorm (G b q.1) ≤ 2 * η * (2 * D) := mul_le_mul hw2 hg (gnorm_nonneg _) (by linarith)
      push_cast
      nlinarith
    · have e : (move G lr q b).1 - z - η • ((bs.map fun b => G b z).sum + G b z) =
          (q.1 - z - η • (bs.map fun b => G b z).sum) + ((lr (n + i) - η) • G b z + lr (n + i) • (G b q.1 - G b z)) := by
        rw [hexp, smul_add, sub_smul, smul_sub]
        abel
      rw [e]
      refine (gnorm_add_le _ _).trans ?_
      have h6 := gnorm_add_le ((lr (n + i) - η) • G b z) (lr (n + i) • (G b q.1 - G b z))
      rw [gnorm_smul_abs, gnorm_smul_abs] at h6
      have h7 : |lr (n + i) - η| * gnorm (G b z) ≤ ε * η * D := mul_le_mul hw hb (gnorm_nonneg _) (by positivity)
      have h8 : |lr (n + i)| * gnorm (G b q.1 - G b z) ≤ 2 * η * (L * (4 * k * η * D)) := by
        refine mul_le_mul hw2 (hmove.trans (mul_le_mul_of_nonneg_left ?_ hL)) (gnorm_nonneg _) (by linarith)
        have := mul_le_mul_of_nonneg_right hik (mul_nonneg hη hD0)
        nlinarith
      push_cast
      nlinarith

/-! ### Convergence -/

theorem sqrt_rate_le (h m L : ℝ) (h0 : 0 ≤ h) (hm : 0 < m) (hL : m ≤ L) (hs : h * L ^ 2 ≤ m) :
    Real.sqrt (rate h m L) ≤ 1 - h * m / 2 := by
  have h1 : h * m ≤ 1 := by
    have : m ^ 2 ≤ L ^ 2 := by nlinarith
    have : h * m ^ 2 ≤ m := (mul_le_mul_of_nonneg_left this h0).trans hs
    have : m * (h * m) ≤ m * 1 := by linarith
    exact le_of_mul_le_mul_left this hm
  refine Real.sqrt_le_iff.2 ⟨by linarith, ?_⟩
  unfold rate
  nlinarith [mul_le_mul_of_nonneg_left hs h0, sq_nonneg (h * m)]

/-- **C141, convergence.** Mini-batches in any order that may change from epoch to epoch, whose gradients add up to those of the log-joint of all the
data: if the learning rates tend to zero, sum to infinity and vary little within an epoch, the parameters converge to the mode from any start. -/
theorem C141_converges (G : B → (ι → ℝ) → ι → ℝ) (F : (ι → ℝ) → ι → ℝ) (m L : ℝ) (hF : Concave F m L) (data : ℕ → List B) (k : ℕ) (hk : 0 < k)
    (hlen : ∀ e, (data e).length = k) (hsum : ∀ e x, ((data e).map fun b => G b x).sum = (k : ℝ) • F x)
    (hlip : ∀ e, ∀ b ∈ data e, ∀ x y, gnorm (G b x - G b y) ≤ L * gnorm (x - y)) (x : ι → ℝ) (hx : F x = 0) (δ : ℝ)
    (hδ : ∀ e, ∀ b ∈ data e, gnorm (G b x) ≤ δ) (lr : ℕ → ℝ) (η ε : ℕ → ℝ) (hη0 : ∀ e, 0 ≤ η e) (hη : Tendsto η atTop (𝓝 0))
    (hηsum : Tendsto (fun n => ∑ e ∈ range n, η e) atTop atTop) (hε0 : ∀ e, 0 ≤ ε e) (hε : Tendsto ε atTop (𝓝 0)) (n₀ : ℕ)
    (hlr : ∀ e, ∀ i < k, |lr (n₀ + e * k + i) - η e| ≤ ε e * η e) (x₀ : ι → ℝ) :
    Tendsto (fun e => gnorm ((after G lr data (x₀, n₀) e).1 - x)) atTop (𝓝 0) := by
  have hLpos : 0 < L := lt_of_lt_of_le hF.pos hF.le
  have hm := hF.pos
  have hkR : (1 : ℝ) ≤ k := by exact_mod_cast hk
  have hδ0 : 0 ≤ δ := by
    obtain ⟨b, hb⟩ := List.exists_mem_of_length_pos (by rw [hlen 0]; exact hk : 0 < (data 0).length)
    exact (gnorm_nonneg _).trans (hδ 0 b hb)
  have hcount : ∀ e, (after G lr data (x₀, n₀) e).2 = n₀ + e * k := by
    have hf : ∀ (bs : List B) (q : (ι → ℝ) × ℕ), (bs.foldl (move G lr) q).2 = q.2 + bs.length := by
      intro bs
      induction bs with
      | nil => intro q; rfl
      | cons b bs ih =>
        intro q
        rw [List.foldl_cons, ih, List.length_cons]
        simp only [move]
        omega
    intro e
    induction e with
    | zero => simp [after]
    | succ e ih =>
      rw [after, hf, ih, hlen]
      ring
  set d : ℕ → ℝ := fun e => gnorm ((after G lr data (x₀, n₀) e).1 - x) with hd
  let τ : ℕ → ℝ := fun e => k * (ε e + 8 * k * L * η e)
  have hτ : Tendsto τ atTop (𝓝 0) := by
    have := (hε.add (hη.const_mul (8 * k * L))).const_mul (k : ℝ)
    simpa using this
  have hτ0 : ∀ e, 0 ≤ τ e := fun e => by
    have := hε0 e
    have := hη0 e
    positivity
  -- one epoch
  have hstep : ∀ᶠ e in atTop, d (e + 1) ≤ (1 - η e * m / 4) * d e + η e * m / 4 * (4 * τ e * δ / m) := by
    have s1 : ∀ᶠ e in atTop, 4 * k * η e * L < 1 := by
      have := (hη.const_mul (4 * (k : ℝ))).mul_const L
      rw [mul_zero, zero_mul] at this
      exact this.eventually_lt_const one_pos
    have s2 : ∀ᶠ e in atTop, ε e < 1 := hε.eventually_lt_const one_pos
    have s3 : ∀ᶠ e in atTop, k * η e * L ^ 2 < m := by
      have := (hη.const_mul (k : ℝ)).mul_const (L ^ 2)
      rw [mul_zero, zero_mul] at this
      exact this.eventually_lt_const hm
    have s4 : ∀ᶠ e in atTop, τ e * L < m / 4 := by
      have := hτ.mul_const L
      rw [zero_mul] at this
      exact this.eventually_lt_const (by linarith)
    filter_upwards [s1, s2, s3, s4] with e s1 s2 s3 s4
    set y := (after G lr data (x₀, n₀) e).1 with hy
    have hq : after G lr data (x₀, n₀) e = (y, n₀ + e * k) := Prod.ext rfl (hcount e)
    have hD : ∀ b ∈ data e, gnorm (G b y) ≤ δ + L * d e := by
      intro b hb
      have h4 : G b y = G b x + (G b y - G b x) := by abel
      rw [h4]
      exact (gnorm_add_le _ _).trans (add_le_add (hδ e b hb) (hlip e b hb y x))
    obtain ⟨-, -, h3⟩ := epoch_close G lr k (n₀ + e * k) (η e) (ε e) L (δ + L * d e) (hη0 e) (hε0 e) s2.le hLpos.le s1.le (hlr e) y (data e)
      (hlen e).le (hlip e) hD
    rw [hsum, hlen, smul_smul, ← hq] at h3
    have h5 : d (e + 1) ≤ gnorm ((after G lr data (x₀, n₀) (e + 1)).1 - y - (η e * k) • F y) +
        gnorm ((y + (η e * k) • F y) - (x + (η e * k) • F x)) := by
      refine le_of_eq_of_le (congrArg gnorm ?_) (gnorm_add_le _ _)
      rw [hx, smul_zero]
      abel
    have h6 := step_norm hF (η e * k) (mul_nonneg (hη0 e) (by linarith)) y x
    have h7 := sqrt_rate_le (η e * k) m L (mul_nonneg (hη0 e) (by linarith)) hm hF.le (by nlinarith)
    have h8 : gnorm ((after G lr data (x₀, n₀) (e + 1)).1 - y - (η e * k) • F y) ≤ η e * (δ + L * d e) * τ e := by
      refine h3.trans (le_of_eq ?_)
      simp only [τ]
      ring
    have hde : 0 ≤ d e := gnorm_nonneg _
    have h9 : Real.sqrt (rate (η e * k) m L) * gnorm (y - x) ≤ (1 - η e * m / 2) * d e := by
      refine mul_le_mul_of_nonneg_right (h7.trans ?_) hde
      have : η e * m ≤ η e * k * m := by
        have := mul_le_mul_of_nonneg_left hkR (mul_nonneg (hη0 e) hm.le)
        linarith
      linarith
    have h10 : η e * (L * d e) * τ e ≤ η e * m / 4 * d e := by
      have := mul_le_mul_of_nonneg_left s4.le (mul_nonneg (hη0 e) hde)
      linarith
    have h11 : η e * m / 4 * (4 * τ e * δ / m) = η e * δ * τ e := by
      field_simp
    rw [h11]
    nlinarith
  have hsmall : ∀ᶠ e in atTop, η e * m / 4 ≤ 1 := by
    have := (hη.mul_const m).div_const 4
    rw [zero_mul, zero_div] at this
    exact (this.eventually_lt_const one_pos).mono fun e h => h.le
  obtain ⟨T, hT⟩ := eventually_atTop.1 (hstep.and hsmall)
  -- the bounding sequence
  let u : ℕ → ℝ := fun n => Nat.rec (d T) (fun n v => (1 - η (T + n) * m / 4) * v + η (T + n) * m / 4 * (4 * τ (T + n) * δ / m)) n
  have hu : ∀ n, u (n + 1) = (1 - η (T + n) * m / 4) * u n + η (T + n) * m / 4 * (4 * τ (T + n) * δ / m) := fun n => rfl
  have hdu : ∀ n, d (T + n) ≤ u n := by
    intro n
    induction n with
    | zero => exact le_rfl
    | succ n ih =>
      obtain ⟨h1, h2⟩ := hT (T + n) (by omega)
      rw [hu, ← add_assoc]
      exact h1.trans (add_le_add (mul_le_mul_of_nonneg_left ih (by linarith)) le_rfl)
  have hS : Tendsto (fun n => ∑ e ∈ range n, η (T + e) * m / 4) atTop atTop := by
    have hshift : Tendsto (fun n => ∑ e ∈ range (T + n), η e) atTop atTop :=
      hηsum.comp (tendsto_atTop_mono (fun n => Nat.le_add_left n T) tendsto_id)
    have h1 := tendsto_atTop_add_const_left atTop (-∑ e ∈ range T, η e) hshift
    have h2 := h1.const_mul_atTop (by linarith : 0 < m / 4)
    refine h2.congr fun n => ?_
    rw [sum_range_add, neg_add_cancel_left, mul_sum]
    exact sum_congr rfl fun e _ => by ring
  have hb : Tendsto (fun n => 4 * τ (T + n) * δ / m) atTop (𝓝 0) := by
    have h1 : Tendsto (fun n => τ (T + n)) atTop (𝓝 0) := hτ.comp (tendsto_atTop_mono (fun n => Nat.le_add_left n T) tendsto_id)
    have := ((h1.const_mul 4).mul_const δ).div_const m
    simpa using this
  have hulim := LangevinSchedule.averaging u (fun n => η (T + n) * m / 4) (fun n => 4 * τ (T + n) * δ / m) hu
    (Eventually.of_forall fun n => by have := hη0 (T + n); positivity) (Eventually.of_forall fun n => (hT (T + n) (by omega)).2) hS hb
  have hlim := squeeze_zero (fun n => gnorm_nonneg _) hdu hulim
  rw [← tendsto_add_atTop_iff_nat T]
  exact hlim.congr fun n => by rw [add_comm]

/-- **C141, fits.** Fits of more and more epochs, with a schedule of learning rates and any order of the batches, find the mode. -/
theorem C141_finds_mode (me : Method) (hme : me = .map ∨ me = .deepEnsemble) (c : ℕ → Cfg) (a : ℕ → Args)
    (ha : ∀ n, trainerArgs me (c n) = some (a n)) (hep : ∀ n, (c n).epochs = n)
    (hoff : ∀ n, (c n).patience = none ∨ ∃ q, (c n).patience = some q ∧ q ≤ 0) (p : Problem ι (ι → ℝ) ℕ B) (hp : KeepsStep p)
    (G : B → (ι → ℝ) → ι → ℝ) (lr : ℕ → ℝ) (hd : ∀ n, Descent (c n) p G lr) (F : (ι → ℝ) → ι → ℝ) (f : (ι → ℝ) → ℝ) (hf : Gradient f F) (m L : ℝ)
    (hF : Concave F m L) (data : ℕ → List B) (k : ℕ) (hk : 0 < k) (hlen : ∀ e, (data e).length = k)
    (hsum : ∀ e x, ((data e).map fun b => G b x).sum = (k : ℝ) • F x)
    (hlip : ∀ e, ∀ b ∈ data e, ∀ x y, gnorm (G b x - G b y) ≤ L * gnorm (x - y))
    (hδ : ∀ x, ∃ δ, ∀ e, ∀ b ∈ data e, gnorm (G b x) ≤ δ) (η ε : ℕ → ℝ) (hη0 : ∀ e, 0 ≤ η e) (hη : Tendsto η atTop (𝓝 0))
    (hηsum : Tendsto (fun n => ∑ e ∈ range n, η e) atTop atTop) (hε0 : ∀ e, 0 ≤ ε e) (hε : Tendsto ε atTop (𝓝 0))
    (s : TState (ι → ℝ) ℕ (ι → ℝ)) (hlr : ∀ e, ∀ i < k, |lr (s.opt + e * k + i) - η e| ≤ ε e * η e)
    (dir : Dir (TState (ι → ℝ) ℕ (ι → ℝ))) (l : ℕ → Loop (TState (ι → ℝ) ℕ (ι → ℝ)) ℝ) (h : ∀ n, runFit (a n) p data s dir = some (l n)) :
    ∃ x, (∀ y, f y + m / 2 * sumSq (y - x) ≤ f x) ∧ Tendsto (fun n => gnorm ((l n).state.params - x)) atTop (𝓝 0) := by
  obtain ⟨x, hx, -⟩ := C139_mode hF
  obtain ⟨δ, hδ⟩ := hδ x
  refine ⟨x, C139_maximum hF hf x hx, ?_⟩
  have h1 := C141_converges G F m L hF data k hk hlen hsum hlip x hx δ hδ lr η ε hη0 hη hηsum hε0 hε s.opt hlr s.params
  refine h1.congr fun n => ?_
  have h2 := congrArg Prod.fst (C141_iterates me hme (c n) (a n) (ha n) p G lr (hd n) data s dir (l n) (h n))
  have h3 := (C97_all_epochs me (c n) (a n) (ha n) (Or.inr (hoff n)) p hp data s dir (l n) (h n)).1
  rw [h3, hep] at h2
  rw [← h2]

/-! ### Schedules -/

/-- Specification: learning rates that tend to zero, sum to infinity and vary little within epochs of `k` steps, after `n₀` updates. -/
def Decreasing (lr : ℕ → ℝ) (k n₀ : ℕ) : Prop :=
  ∃ η ε : ℕ → ℝ, (∀ e, 0 ≤ η e) ∧ Tendsto η atTop (𝓝 0) ∧ Tendsto (fun n => ∑ e ∈ range n, η e) atTop atTop ∧ (∀ e, 0 ≤ ε e) ∧
    Tendsto ε atTop (𝓝 0) ∧ ∀ e, ∀ i < k, |lr (n₀ + e * k + i) - η e| ≤ ε e * η e

/-- **C141, schedules.** `a / (n + b)` after `n` updates is such a schedule. -/
theorem C141_inverse (a b : ℝ) (ha : 0 < a) (hb : 0 < b) (k n₀ : ℕ) (hk : 0 < k) : Decreasing (fun n => a / (n + b)) k n₀ := by
  have hkR : (0 : ℝ) < k := by exact_mod_cast hk
  have hpos : ∀ e : ℕ, (0 : ℝ) < n₀ + e * k + b := fun e => by positivity
  have hinf : Tendsto (fun e : ℕ => (n₀ : ℝ) + e * k + b) atTop atTop := by
    have h1 : Tendsto (fun e : ℕ => (e : ℝ) * k) atTop atTop := tendsto_natCast_atTop_atTop.atTop_mul_const hkR
    exact tendsto_atTop_add_const_right _ _ (tendsto_atTop_add_const_left _ _ h1)
  refine ⟨fun e => a / (n₀ + e * k + b), fun e => k / (n₀ + e * k + b), fun e => (div_pos ha (hpos e)).le, hinf.const_div_atTop a, ?_,
    fun e => (div_pos hkR (hpos e)).le, hinf.const_div_atTop _, ?_⟩
  · have h1 := Real.tendsto_sum_range_one_div_nat_succ_atTop.const_mul_atTop (div_pos ha (by positivity : (0 : ℝ) < n₀ + k + b))
    refine tendsto_atTop_mono (fun n => ?_) h1
    rw [mul_sum]
    refine sum_le_sum fun e _ => ?_
    rw [div_mul_div_comm, mul_one]
    refine div_le_div_of_nonneg_left ha.le (hpos e) ?_
    have : (0 : ℝ) ≤ e := Nat.cast_nonneg e
    have : (0 : ℝ) ≤ n₀ := Nat.cast_nonneg n₀
    nlinarith [mul_nonneg (Nat.cast_nonneg (α := ℝ) n₀) (Nat.cast_nonneg (α := ℝ) e)]
  · intro e i hi
    have hN := hpos e
    set N : ℝ := n₀ + e * k + b with hNdef
    have e1 : ((n₀ + e * k + i : ℕ) : ℝ) + b = N + i := by
      rw [hNdef]
      push_cast
      ring
    have hi0 : (0 : ℝ) ≤ i := Nat.cast_nonneg i
    have hik : (i : ℝ) ≤ k := by exact_mod_cast hi.le
    dsimp only
    rw [e1, ← hNdef]
    have e2 : a / (N + i) - a / N = -(a * i / (N * (N + i))) := by
      field_simp
      ring
    rw [e2, abs_neg, abs_of_nonneg (by positivity), div_mul_div_comm]
    refine div_le_div₀ (by positivity) (by nlinarith) (by positivity) ?_
    exact mul_le_mul_of_nonneg_left (by linarith) hN.le

/-- **C141, schedules.** So is a rate that is constant in every epoch, tends to zero and sums to infinity. -/
theorem C141_per_epoch (r : ℕ → ℝ) (h0 : ∀ e, 0 ≤ r e) (h1 : Tendsto r atTop (𝓝 0)) (h2 : Tendsto (fun n => ∑ e ∈ range n, r e) atTop atTop)
    (k : ℕ) (hk : 0 < k) : Decreasing (fun n => r (n / k)) k 0 := by
  refine ⟨r, fun _ => 0, h0, h1, h2, fun _ => le_rfl, tendsto_const_nhds, fun e i hi => ?_⟩
  have : (0 + e * k + i) / k = e := by
    rw [zero_add, mul_comm, Nat.mul_add_div hk, Nat.div_eq_of_lt hi, add_zero]
  dsimp only
  rw [this]
  simp

/-! ### A linear softmax classifier on shuffled mini-batches -/

section
variable {κ : Type} [Fintype κ] {c n k : ℕ}

open Verif.OutputLayer

/-- The batches of an epoch: the rows in the order of `σ`, `n` at a time. -/
def batches (rows : Fin (k * n) → (κ → ℝ) × ℤ) (σ : Fin k × Fin n ≃ Fin (k * n)) : List (Fin n → (κ → ℝ) × ℤ) :=
  List.ofFn fun j => fun i => rows (σ (j, i))

theorem batches_sum (hn : 0 < n) (hk : 0 < k) (lv : ℝ) (rows : Fin (k * n) → (κ → ℝ) × ℤ) (σ : Fin k × Fin n ≃ Fin (k * n)) (w : κ × Fin c → ℝ) :
    ((batches rows σ).map fun b => gradPost (k * n) lv b w).sum = (k : ℝ) • gradPost (k * n) lv rows w := by
  have hnR : (n : ℝ) ≠ 0 := by exact_mod_cast hn.ne'
  have hkR : (k : ℝ) ≠ 0 := by exact_mod_cast hk.ne'
  unfold batches
  rw [List.map_ofFn, List.sum_ofFn]
  funext a
  simp only [Finset.sum_apply, Function.comp_apply, Pi.smul_apply, smul_eq_mul, gradPost]
  rw [sum_sub_distrib, ← sum_mul, sum_const, card_univ, Fintype.card_fin, nsmul_eq_mul]
  have h1 : ∑ j : Fin k, ∑ i : Fin n, (rows (σ (j, i))).1 a.1 *
      (oneHot c (rows (σ (j, i))).2 a.2 - softmax (logits w (rows (σ (j, i))).1) a.2) =
      ∑ r, (rows r).1 a.1 * (oneHot c (rows r).2 a.2 - softmax (logits w (rows r).1) a.2) := by
    rw [← Fintype.sum_prod_type' (f := fun j i => (rows (σ (j, i))).1 a.1 *
      (oneHot c (rows (σ (j, i))).2 a.2 - softmax (logits w (rows (σ (j, i))).1) a.2))]
    exact Equiv.sum_comp σ fun r => (rows r).1 a.1 * (oneHot c (rows r).2 a.2 - softmax (logits w (rows r).1) a.2)
  rw [h1]
  push_cast
  field_simp

theorem Concave.gnorm_le {G : (ι → ℝ) → ι → ℝ} {m L L' : ℝ} (h : Concave G m L) (hL : L ≤ L') (x y : ι → ℝ) :
    gnorm (G x - G y) ≤ L' * gnorm (x - y) := by
  have hL0 : 0 ≤ L := h.pos.le.trans h.le
  have h1 := Real.sqrt_le_sqrt (h.lip x y)
  rw [Real.sqrt_mul (sq_nonneg L), Real.sqrt_sq hL0] at h1
  exact h1.trans (mul_le_mul_of_nonneg_right hL (gnorm_nonneg _))

/-- **C141, classifiers.** MAP fits of a linear softmax classifier with a Gaussian prior, on mini-batches of equal size that are shuffled anew in every epoch in any
way, with a decreasing learning rate: they find the maximum of the log-posterior. -/
theorem C141_classifier (hc : 0 < c) (hn : 0 < n) (hk : 0 < k) (lv : ℝ) (rows : Fin (k * n) → (κ → ℝ) × ℤ) (σ : ℕ → Fin k × Fin n ≃ Fin (k * n))
    (me : Method) (hme : me = .map ∨ me = .deepEnsemble) (cfg : ℕ → Cfg) (a : ℕ → Args) (ha : ∀ n, trainerArgs me (cfg n) = some (a n))
    (hep : ∀ n, (cfg n).epochs = n) (hoff : ∀ n, (cfg n).patience = none ∨ ∃ q, (cfg n).patience = some q ∧ q ≤ 0)
    (p : Problem (κ × Fin c) (κ × Fin c → ℝ) ℕ (Fin n → (κ → ℝ) × ℤ)) (hp : KeepsStep p) (lr : ℕ → ℝ)
    (hd : ∀ i, Descent (cfg i) p (fun b => gradPost (k * n) lv b) lr) (s : TState (κ × Fin c → ℝ) ℕ (κ × Fin c → ℝ))
    (hlr : Decreasing lr k s.opt) (dir : Dir (TState (κ × Fin c → ℝ) ℕ (κ × Fin c → ℝ)))
    (l : ℕ → Loop (TState (κ × Fin c → ℝ) ℕ (κ × Fin c → ℝ)) ℝ) (h : ∀ i, runFit (a i) p (fun e => batches rows (σ e)) s dir = some (l i)) :
    ∃ x, (∀ y, logPost (k * n) lv rows y + Real.exp (-lv) / 2 * sumSq (y - x) ≤ logPost (k * n) lv rows x) ∧
      Tendsto (fun i => gnorm ((l i).state.params - x)) atTop (𝓝 0) := by
  obtain ⟨η, ε, h1, h2, h3, h4, h5, h6⟩ := hlr
  have hnR : (0 : ℝ) < n := by exact_mod_cast hn
  have hkR : (1 : ℝ) ≤ k := by exact_mod_cast hk
  let S : ℝ := ∑ r, sumSq (rows r).1
  have hS0 : 0 ≤ S := sum_nonneg fun r _ => sq_nonneg' _
  let L : ℝ := S * k + Real.exp (-lv)
  have hF : Concave (gradPost (c := c) (k * n) lv rows) (Real.exp (-lv)) L := by
    have h := C139_classifier (c := c) hc (k * n) lv rows
    have hle : curvature (k * n) lv rows ≤ L := by
      have e : (((k * n : ℕ) : ℝ) / (k * n : ℕ)) = 1 := div_self (by positivity)
      show S * (((k * n : ℕ) : ℝ) / (k * n : ℕ)) + Real.exp (-lv) ≤ L
      rw [e]
      show S * 1 + _ ≤ S * k + _
      have := mul_le_mul_of_nonneg_left hkR hS0
      linarith
    refine ⟨h.pos, h.le.trans hle, h.mono, fun x y => ?_⟩
    have h7 := Concave.gnorm_le h hle x y
    have h8 := pow_le_pow_left₀ (gnorm_nonneg _) h7 2
    rwa [mul_pow, sq_gnorm, sq_gnorm] at h8
  refine C141_finds_mode me hme cfg a ha hep hoff p hp (fun b => gradPost (k * n) lv b) lr hd (gradPost (k * n) lv rows) (logPost (k * n) lv rows)
    (C139_gradient hc (k * n) lv rows) (Real.exp (-lv)) L hF (fun e => batches rows (σ e)) k hk (fun e => by simp [batches])
    (fun e x => batches_sum hn hk lv rows (σ e) x) ?_ ?_ η ε h1 h2 h3 h4 h5 s h6 dir l h
  · intro e b hb x y
    obtain ⟨j, rfl⟩ := List.mem_ofFn.1 hb
    refine Concave.gnorm_le (C139_classifier (c := c) hc (k * n) lv _) ?_ x y
    unfold curvature
    show _ ≤ S * k + Real.exp (-lv)
    have e1 : (((k * n : ℕ) : ℝ) / n) = k := by
      push_cast
      field_simp
    rw [e1]
    refine add_le_add (mul_le_mul_of_nonneg_right ?_ (by linarith)) le_rfl
    have e2 : S = ∑ q : Fin k × Fin n, sumSq (rows (σ e q)).1 := (Equiv.sum_comp (σ e) fun r => sumSq (rows r).1).symm
    rw [e2, Fintype.sum_prod_type]
    exact single_le_sum (f := fun j => ∑ i : Fin n, sumSq (rows (σ e (j, i))).1) (fun j _ => sum_nonneg fun i _ => sq_nonneg' _) (mem_univ j)
  · intro x
    refine ⟨∑ f : Fin n → Fin (k * n), gnorm (gradPost (c := c) (k * n) lv (fun i => rows (f i)) x), fun e b hb => ?_⟩
    obtain ⟨j, rfl⟩ := List.mem_ofFn.1 hb
    exact single_le_sum (f := fun f : Fin n → Fin (k * n) => gnorm (gradPost (c := c) (k * n) lv (fun i => rows (f i)) x))
      (fun f _ => gnorm_nonneg _) (mem_univ fun i => σ e (j, i))

end

/-! ### Example -/

/-- Two batches of one row each, learning rates `1 / (n + 1)`. -/
noncomputable def fitShuffled : Problem (Unit × Fin 2) (Unit × Fin 2 → ℝ) ℕ (Fin 1 → (Unit → ℝ) × ℤ) where
  grad _ s b := gradPost (2 * 1) 0 b s.params
  upd := sgdWith fun n => 1 / (n + 1)
  strip s := s
  hasVal := false
  valLogProb _ := 0
  metric _ := 0

/-- Its configuration, by the number of epochs. -/
def cfgShuffled (n : ℕ) : Cfg := ⟨n, false, none, 2, false, 1, true, none, 0, none, none, []⟩

-- fits from (3, 3), with the batches swapped in every other epoch, find the mode
example : ∃ x : Unit × Fin 2 → ℝ, (∀ y : Unit × Fin 2 → ℝ, logPost 2 0 twoRows y ≤ logPost 2 0 twoRows x) ∧
    ∃ l : ℕ → Loop (TState (Unit × Fin 2 → ℝ) ℕ (Unit × Fin 2 → ℝ)) ℝ,
      (∀ n, runFit (⟨n, false, none, 2, 1, true, ⟨0, none, some "min"⟩, none, none, [], false⟩) fitShuffled
        (fun e => batches (k := 2) (n := 1) twoRows (if e % 2 = 0 then finProdFinEquiv else finProdFinEquiv.trans (Equiv.swap 0 1))) ⟨0, fun _ => 3, 0, none⟩ [] =
          some (l n)) ∧ Tendsto (fun n => gnorm ((l n).state.params - x)) atTop (𝓝 0) := by
  have hr : ∀ n, ∃ l, runFit (⟨n, false, none, 2, 1, true, ⟨0, none, some "min"⟩, none, none, [], false⟩) fitShuffled
      (fun e => batches (k := 2) (n := 1) twoRows (if e % 2 = 0 then finProdFinEquiv else finProdFinEquiv.trans (Equiv.swap 0 1)))
        ⟨0, fun _ => 3, 0, none⟩ [] = some l := by
    intro n
    obtain ⟨l, hl, -⟩ := C62_runs (jobOf ⟨n, false, none, 2, 1, true, ⟨0, none, some "min"⟩, none, none, [], false⟩ fitShuffled) rfl
      (fun e => batches (k := 2) (n := 1) twoRows (if e % 2 = 0 then finProdFinEquiv else finProdFinEquiv.trans (Equiv.swap 0 1)))
      (fun _ => ⟨by simp [batches], Nat.zero_le _⟩) n ⟨0, fun _ => 3, 0, none⟩ []
    exact ⟨l, hl⟩
  choose l hl using hr
  obtain ⟨x, h1, h2⟩ := C141_classifier (c := 2) (n := 1) (k := 2) (by norm_num) (by norm_num) (by norm_num) 0 twoRows
    (fun e => if e % 2 = 0 then finProdFinEquiv else finProdFinEquiv.trans (Equiv.swap 0 1)) .map (.inl rfl) cfgShuffled _ (fun _ => rfl)
    (fun _ => rfl) (fun _ => .inl rfl) fitShuffled (fun _ => rfl) (fun n => 1 / (n + 1)) (fun _ => ⟨rfl, fun _ _ _ => rfl, rfl, .inl rfl⟩)
    ⟨0, fun _ => 3, 0, none⟩ (C141_inverse 1 1 one_pos one_pos 2 0 (by norm_num)) [] l hl
  refine ⟨x, fun y => ?_, l, hl, h2⟩
  have h3 := h1 y
  have h4 : 0 ≤ Real.exp (-0) / 2 * sumSq (y - x) := mul_nonneg (by positivity) (sq_nonneg' _)
  simp only [Nat.mul_one] at h3
  linarith

/-! ### Concrete cases that meet the hypotheses of the theorems above -/

example := C141_converges (ι := Unit) (B := Unit) (fun _ x i => -x i) (fun x i => -x i) 1 1
  ⟨one_pos, le_rfl, fun x y => by simp only [dot, sumSq, Finset.univ_unique, Finset.sum_singleton, Pi.sub_apply]; nlinarith,
    fun x y => by simp only [sumSq, Finset.univ_unique, Finset.sum_singleton, Pi.sub_apply]; nlinarith⟩
  (fun _ => [()]) 1 one_pos (fun _ => rfl) (fun _ _ => by simp)
  (fun _ _ _ x y => by
    rw [one_mul]
    refine le_of_eq ?_
    simp only [gnorm, Finset.univ_unique, Finset.sum_singleton, Pi.sub_apply]
    congr 1
    ring)
  0 (by ext; simp) 0 (by intros; simp [gnorm]) (fun n => 1 / ((n : ℝ) + 1)) (fun n => 1 / ((n : ℝ) + 1)) (fun _ => 0) (fun t => by positivity)
  tendsto_one_div_add_atTop_nhds_zero_nat Real.tendsto_sum_range_one_div_nat_succ_atTop (fun _ => le_rfl) tendsto_const_nhds 0
  (by
    intro e i hi
    obtain rfl : i = 0 := by omega
    simp) (fun _ => 5)
example := C141_per_epoch (fun t => 1 / ((t : ℝ) + 1)) (fun t => by positivity) tendsto_one_div_add_atTop_nhds_zero_nat
  Real.tendsto_sum_range_one_div_nat_succ_atTop 3 (by norm_num)

example : ∃ l, runFit ⟨10, false, none, 2, 1, true, ⟨0, none, some "min"⟩, none, none, [], false⟩ fitShuffled
      (fun _ => batches (k := 2) (n := 1) twoRows finProdFinEquiv) ⟨0, fun _ => 3, 0, none⟩ [] = some l ∧
    (l.state.params, l.state.opt) = after (fun b => gradPost (2 * 1) 0 b) (fun n => 1 / (n + 1)) (fun _ => batches (k := 2) (n := 1) twoRows finProdFinEquiv)
      (fun _ => 3, 0) l.trained := by
  obtain ⟨l, hl, -⟩ := C62_runs (jobOf ⟨10, false, none, 2, 1, true, ⟨0, none, some "min"⟩, none, none, [], false⟩ fitShuffled) rfl
    (fun _ => batches (k := 2) (n := 1) twoRows finProdFinEquiv) (fun _ => ⟨by simp [batches], Nat.zero_le _⟩) 10 ⟨0, fun _ => 3, 0, none⟩ []
  exact ⟨l, hl, C141_iterates .map (.inl rfl) (cfgShuffled 10) _ rfl fitShuffled _ _ ⟨rfl, fun _ _ _ => rfl, rfl, .inl rfl⟩ _ _ _ l hl⟩

end Verif.Props.MapSchedule
