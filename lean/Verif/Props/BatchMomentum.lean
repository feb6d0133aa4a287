import Verif.Props.BatchLaw
import Mathlib.LinearAlgebra.FiniteDimensional.Basic
import Mathlib.LinearAlgebra.FiniteDimensional.Lemmas

/-!
Property C150: SGHMC, with its momentum, on mini-batches, when the posterior is Gaussian.

The unknown is, as in C121, the mean of independent normal data with known variances, the prior is a normal distribution of mean zero.
-/
set_option linter.unusedSectionVars false

namespace Verif.Props.BatchMomentum

open Verif.SGMCMC Verif.Likelihood Verif.Props Verif.Props.Langevin Verif.Props.BatchLaw MeasureTheory ProbabilityTheory Finset Filter Topology

/-! ## The sampler and its recursion -/

section Sampler

variable {ι : Type}

/-- SGHMC with momentum decay `d` and the constant step size `h`, the batch `B t` being used in step `t`: `sghmc_integrator` without preconditioning and without
resampling of the momentum, driven by the gradient of the log-joint probability of the batch. -/
noncomputable def sghmcOn (d h : ℝ) (N : ℕ) (v w : ι → ℝ) (B : ℕ → List (ι → ℝ)) (normal : Key → ι → ℝ) (key : Key) (x₀ : ι → ℝ) (t : ℕ) : ι → ℝ :=
  (sghmcRunOn (identityPrecond ι) d none (fun _ => h) normal
    (fun t x i => deriv (batchJoint N (v i) (w i) ((B t).map (· i))) (x i)) key x₀ t).1

/-- Position and momentum of a coordinate: the momentum is pulled towards the centre `c t` of the batch, and shaken by `z t`. -/
noncomputable def traj (d h s : ℝ) (c z : ℕ → ℝ) (x₀ : ℝ) : ℕ → ℝ × ℝ
  | 0 => (x₀, 0)
  | t + 1 =>
    let p := traj d h s c z x₀ t
    let m := d * p.2 - Real.sqrt h / s * (p.1 - c t) + Real.sqrt (2 * (1 - d)) * z t
    (p.1 + Real.sqrt h * m, m)

/-- **C150, the sampler.** A coordinate of the sample follows the recursion, the centres being those of the batches. -/
theorem C150_sampler (d h : ℝ) (N : ℕ) (v w : ι → ℝ) (B : ℕ → List (ι → ℝ)) (hB : ∀ t, B t ≠ []) (normal : Key → ι → ℝ) (key : Key)
    (x₀ : ι → ℝ) (i : ι) (hv : 0 < v i) (hw : 0 < w i) (t : ℕ) :
    sghmcOn d h N v w B normal key x₀ t i =
      (traj d h (postVar N (v i) (w i)) (fun t => centre N (v i) (w i) ((B t).map (· i))) (fun t => normal (.left (Key.right^[t] key)) i) (x₀ i) t).1 := by
  suffices H : ∀ t : ℕ, let R := sghmcRunOn (identityPrecond ι) d none (fun _ => h) normal (fun t x i => deriv (batchJoint N (v i) (w i) ((B t).map (· i))) (x i)) key x₀ t;
      R.2.key = Key.right^[t] key ∧ (R.1 i, R.2.momentum i) =
        traj d h (postVar N (v i) (w i)) (fun t => centre N (v i) (w i) ((B t).map (· i))) (fun t => normal (.left (Key.right^[t] key)) i) (x₀ i) t from
    congrArg Prod.fst (H t).2
  intro t
  induction t with
  | zero => exact ⟨rfl, rfl⟩
  | succ t ih =>
    intro R
    set R' := sghmcRunOn (identityPrecond ι) d none (fun _ => h) normal
      (fun t x i => deriv (batchJoint N (v i) (w i) ((B t).map (· i))) (x i)) key x₀ t with hR'
    obtain ⟨hk, hp⟩ := ih
    have hg : deriv (batchJoint N (v i) (w i) ((B t).map (· i))) (R'.1 i) =
        -(R'.1 i - centre N (v i) (w i) ((B t).map (· i))) / postVar N (v i) (w i) :=
      (C121_gradient N (v i) (w i) hv hw _ (by simpa using hB t) (R'.1 i)).deriv
    have hkey : R.2.key = Key.right^[t + 1] key := by
      simp only [R, sghmcRunOn, sghmcUpdate]
      rw [← hR', hk, Function.iterate_succ_apply']
    have hmom : R.2.momentum i = d * R'.2.momentum i + deriv (batchJoint N (v i) (w i) ((B t).map (· i))) (R'.1 i) * Real.sqrt h +
        normal (.left R'.2.key) i * Real.sqrt (2 * (1 - d)) := by
      simp only [R, sghmcRunOn, sghmcUpdate, identityPrecond]
      rfl
    have hpos : R.1 i = R'.1 i + R.2.momentum i * Real.sqrt h := by
      simp only [R, sghmcRunOn, sghmcUpdate, identityPrecond]
      rfl
    refine ⟨hkey, ?_⟩
    simp only [traj]
    rw [← hp]
    have hm' : R.2.momentum i = d * R'.2.momentum i - Real.sqrt h / postVar N (v i) (w i) * (R'.1 i - centre N (v i) (w i) ((B t).map (· i))) +
        Real.sqrt (2 * (1 - d)) * normal (.left (Key.right^[t] key)) i := by
      rw [hmom, hg, hk]
      ring
    rw [← hm', hpos]
    ext
    · simp only; ring
    · rfl

end Sampler

/-! ## The recursion solved -/

/-- The step without noise, as a linear map. -/
noncomputable def linMap (r s d : ℝ) : ℝ × ℝ →ₗ[ℝ] ℝ × ℝ where
  toFun := lin r s d
  map_add' x y := by
    ext
    · simp only [lin, Prod.fst_add, Prod.snd_add]; ring
    · simp only [lin, Prod.fst_add, Prod.snd_add]; ring
  map_smul' a x := by
    ext
    · simp only [lin, Prod.smul_fst, Prod.smul_snd, smul_eq_mul, RingHom.id_apply]; ring
    · simp only [lin, Prod.smul_fst, Prod.smul_snd, smul_eq_mul, RingHom.id_apply]; ring

theorem linMap_pow (r s d : ℝ) (n : ℕ) (z : ℝ × ℝ) : (linMap r s d ^ n) z = (lin r s d)^[n] z := by
  rw [Module.End.pow_apply]; rfl

/-- What pushes the deviation from `μ` in step `k`. -/
noncomputable def push (d h s μ : ℝ) (c z : ℕ → ℝ) (k : ℕ) : ℝ := Real.sqrt h / s * (c k - μ) + Real.sqrt (2 * (1 - d)) * z k

theorem traj_step (d h s μ : ℝ) (c z : ℕ → ℝ) (x₀ : ℝ) (t : ℕ) :
    traj d h s c z x₀ (t + 1) - (μ, 0) =
      linMap (Real.sqrt h) s d (traj d h s c z x₀ t - (μ, 0)) + push d h s μ c z t • ((Real.sqrt h, 1) : ℝ × ℝ) := by
  have : ∀ p, linMap (Real.sqrt h) s d p = lin (Real.sqrt h) s d p := fun _ => rfl
  rw [this]
  ext
  · simp only [traj, push, lin, Prod.fst_sub, Prod.snd_sub, Prod.fst_add, Prod.smul_fst, smul_eq_mul]; ring
  · simp only [traj, push, lin, Prod.fst_sub, Prod.snd_sub, Prod.snd_add, Prod.smul_snd, smul_eq_mul]; ring

theorem traj_sum (d h s μ : ℝ) (c z : ℕ → ℝ) (x₀ : ℝ) (t : ℕ) :
    traj d h s c z x₀ t - (μ, 0) = (linMap (Real.sqrt h) s d ^ t) (x₀ - μ, 0) +
      ∑ k ∈ range t, push d h s μ c z k • (linMap (Real.sqrt h) s d ^ (t - 1 - k)) (Real.sqrt h, 1) := by
  induction t with
  | zero => simp [traj]
  | succ t ih =>
    rw [traj_step, ih, map_add, map_sum, sum_range_succ, show t + 1 - 1 - t = 0 by omega, pow_zero, pow_succ', Module.End.mul_apply, add_assoc, Module.End.one_apply]
    congr 2
    refine sum_congr rfl fun k hk => ?_
    rw [mem_range] at hk
    rw [map_smul, ← Module.End.mul_apply, ← pow_succ', show t - 1 - k + 1 = t + 1 - 1 - k by omega]

/-- The weight in the position of what happened `k` steps ago. -/
noncomputable def wt (d h s : ℝ) (k : ℕ) : ℝ := ((lin (Real.sqrt h) s d)^[k] (Real.sqrt h, 1)).1

theorem traj_fst (d h s μ : ℝ) (c z : ℕ → ℝ) (x₀ : ℝ) (t : ℕ) :
    (traj d h s c z x₀ t).1 = sampleMean d h s μ x₀ t + ∑ k ∈ range t, wt d h s (t - 1 - k) * push d h s μ c z k := by
  have := congrArg Prod.fst (traj_sum d h s μ c z x₀ t)
  simp only [Prod.fst_sub, Prod.fst_add, Prod.fst_sum, Prod.smul_fst, smul_eq_mul, linMap_pow] at this
  unfold sampleMean wt
  rw [sub_eq_iff_eq_add] at this
  rw [this, add_right_comm, add_comm μ]
  congr 1
  exact sum_congr rfl fun k _ => mul_comm _ _

/-- The noise adds to what the recursion does without it. -/
theorem traj_split (d h s : ℝ) (c z : ℕ → ℝ) (x₀ : ℝ) (t : ℕ) :
    (traj d h s c z x₀ t).1 = (traj d h s c (fun _ => 0) x₀ t).1 + ∑ k ∈ range t, Real.sqrt (2 * (1 - d)) * wt d h s (t - 1 - k) * z k := by
  rw [traj_fst d h s 0 c z, traj_fst d h s 0 c (fun _ => 0), add_assoc, ← sum_add_distrib]
  congr 1
  refine sum_congr rfl fun k _ => ?_
  unfold push
  ring

/-! ## The law of a sample, the batches being given -/

variable {ι Ω : Type} [MeasurableSpace Ω]

/-- **C150, the law of a sample.** Whatever the batches, a coordinate of the sample is normal with the variance it would have without mini-batches (C108); its mean follows the centres
of the batches, with momentum. -/
theorem C150_law (P : Measure Ω) [IsProbabilityMeasure P] (normal : Ω → Key → ι → ℝ) (i : ι)
    (hm : ∀ k, Measurable fun ω => normal ω k i) (hi : iIndepFun (fun k ω => normal ω k i) P)
    (hl : ∀ k, P.map (fun ω => normal ω k i) = gaussianReal 0 1) (d h : ℝ) (hd1 : d ≤ 1) (N : ℕ) (v w : ι → ℝ) (hv : 0 < v i) (hw : 0 < w i)
    (B : ℕ → List (ι → ℝ)) (hB : ∀ t, B t ≠ []) (key : Key) (x₀ : ι → ℝ) (t : ℕ) :
    P.map (fun ω => sghmcOn d h N v w B (normal ω) key x₀ t i) =
      gaussianReal (traj d h (postVar N (v i) (w i)) (fun t => centre N (v i) (w i) ((B t).map (· i))) (fun _ => 0) (x₀ i) t).1
        (Real.toNNReal (sampleVar d h (postVar N (v i) (w i)) t)) := by
  set s := postVar N (v i) (w i)
  set m := (traj d h s (fun t => centre N (v i) (w i) ((B t).map (· i))) (fun _ => 0) (x₀ i) t).1 with hmdef
  have hrun : ∀ ω, sghmcOn d h N v w B (normal ω) key x₀ t i = m +
      ∑ k ∈ range t, Real.sqrt (2 * (1 - d)) * wt d h s (t - 1 - k) * normal ω (.left (Key.right^[k] key)) i := fun ω => by
    rw [C150_sampler d h N v w B hB (normal ω) key x₀ i hv hw t, traj_split]
  have hsum := sum_gaussian P (fun k ω => normal ω (.left (Key.right^[k] key)) i) (fun k => hm _)
    (hi.precomp (keys_injective key)) (fun k => hl _) (fun k => Real.sqrt (2 * (1 - d)) * wt d h s (t - 1 - k)) (range t)
  have hvar : ∑ k ∈ range t, (Real.sqrt (2 * (1 - d)) * wt d h s (t - 1 - k)) ^ 2 = sampleVar d h s t := by
    unfold sampleVar
    rw [mul_sum, ← Finset.sum_range_reflect]
    refine sum_congr rfl fun k hk => ?_
    rw [mul_pow, Real.sq_sqrt (by linarith)]
    have : t - 1 - (t - 1 - k) = k := by rw [mem_range] at hk; omega
    rw [this]
    rfl
  simp only [hrun]
  rw [hvar] at hsum
  have hmeas : Measurable fun ω => ∑ k ∈ range t, Real.sqrt (2 * (1 - d)) * wt d h s (t - 1 - k) * normal ω (.left (Key.right^[k] key)) i :=
    Finset.measurable_sum _ fun k _ => (hm _).const_mul _
  have hcomp : (fun ω => m + ∑ k ∈ range t, Real.sqrt (2 * (1 - d)) * wt d h s (t - 1 - k) * normal ω (.left (Key.right^[k] key)) i) =
      (fun y => m + y) ∘ fun ω => ∑ k ∈ range t, Real.sqrt (2 * (1 - d)) * wt d h s (t - 1 - k) * normal ω (.left (Key.right^[k] key)) i := rfl
  rw [hcomp, ← Measure.map_map (by fun_prop) hmeas, hsum, gaussianReal_map_const_add, zero_add]

/-! ## Batches drawn independently -/

/-- **C150, random batches.** If the batches are drawn independently, with centres of mean `μ` and variance `V`, the sample has, in the long run, the mean `μ` and a variance larger by
the factor `1 + h V / (2 (1 - d) σ⁴)` than without mini-batches. -/
theorem C150_random (P : Measure Ω) [IsProbabilityMeasure P] (C Z : ℕ → Ω → ℝ) (hC : ∀ k, MemLp (C k) 2 P) (hZ : ∀ k, MemLp (Z k) 2 P)
    (hind : iIndepFun (fun k ω => (C k ω, Z k ω)) P) (hpair : ∀ k, IndepFun (C k) (Z k) P) (μ V : ℝ)
    (hCm : ∀ k, ∫ ω, C k ω ∂P = μ) (hCv : ∀ k, ProbabilityTheory.variance (C k) P = V) (hZm : ∀ k, ∫ ω, Z k ω ∂P = 0) (hZv : ∀ k, ProbabilityTheory.variance (Z k) P = 1)
    (d h s x₀ : ℝ) (hd0 : 0 ≤ d) (hd1 : d < 1) (hs : 0 < s) (hh : 0 < h) (hstep : h < 2 * (1 + d) * s) :
    Tendsto (fun t => ∫ ω, (traj d h s (C · ω) (Z · ω) x₀ t).1 ∂P) atTop (𝓝 μ) ∧
    Tendsto (fun t => ProbabilityTheory.variance (fun ω => (traj d h s (C · ω) (Z · ω) x₀ t).1) P) atTop
      (𝓝 (s / (1 - h / (2 * (1 + d) * s)) * (1 + h * V / (2 * (1 - d) * s ^ 2)))) := by
  have hd : (0 : ℝ) ≤ 2 * (1 - d) := by linarith
  set U : ℕ → Ω → ℝ := fun k ω => push d h s μ (C · ω) (Z · ω) k with hU
  have hUe : ∀ k, U k = (fun ω => Real.sqrt h / s * (C k ω - μ)) + fun ω => Real.sqrt (2 * (1 - d)) * Z k ω := fun k => rfl
  have hCμ : ∀ k, MemLp (fun ω => C k ω - μ) 2 P := fun k => (hC k).sub (memLp_const μ)
  have hUL : ∀ k, MemLp (U k) 2 P := fun k => by
    rw [hUe]
    exact ((hCμ k).const_mul _).add ((hZ k).const_mul _)
  have hUi : iIndepFun U P := hind.comp (fun _ (p : ℝ × ℝ) => Real.sqrt h / s * (p.1 - μ) + Real.sqrt (2 * (1 - d)) * p.2) fun _ => by fun_prop
  have hUm : ∀ k, ∫ ω, U k ω ∂P = 0 := fun k => by
    rw [hUe]
    simp only [Pi.add_apply]
    rw [integral_add (((hCμ k).integrable one_le_two).const_mul _) (((hZ k).integrable one_le_two).const_mul _), integral_const_mul, integral_const_mul, hZm,
      integral_sub ((hC k).integrable one_le_two) (integrable_const μ), hCm]
    simp
  have hUv : ∀ k, ProbabilityTheory.variance (U k) P = h / s ^ 2 * V + 2 * (1 - d) := fun k => by
    have hi : IndepFun (fun ω => Real.sqrt h / s * (C k ω - μ)) (fun ω => Real.sqrt (2 * (1 - d)) * Z k ω) P :=
      (hpair k).comp (φ := fun x => Real.sqrt h / s * (x - μ)) (ψ := fun x => Real.sqrt (2 * (1 - d)) * x) (by fun_prop) (by fun_prop)
    rw [hUe, hi.variance_add ((hCμ k).const_mul _) ((hZ k).const_mul _), variance_const_mul, variance_const_mul, hZv, Real.sq_sqrt hd,
      variance_sub_const (hC k).aestronglyMeasurable, hCv, div_pow, Real.sq_sqrt hh.le, mul_one]
  have he : ∀ t, (fun ω => (traj d h s (C · ω) (Z · ω) x₀ t).1) =
      fun ω => sampleMean d h s μ x₀ t + (∑ k ∈ range t, fun ω => wt d h s (t - 1 - k) * U k ω) ω := fun t => by
    funext ω
    rw [traj_fst d h s μ, Finset.sum_apply]
  have hsL : ∀ t, MemLp (∑ k ∈ range t, fun ω => wt d h s (t - 1 - k) * U k ω) 2 P := fun t => memLp_finsetSum' _ fun k _ => (hUL k).const_mul _
  have hmean : ∀ t, ∫ ω, (traj d h s (C · ω) (Z · ω) x₀ t).1 ∂P = sampleMean d h s μ x₀ t := fun t => by
    rw [he t, integral_add (integrable_const _) ((hsL t).integrable one_le_two)]
    have : ∫ ω, (∑ k ∈ range t, fun ω => wt d h s (t - 1 - k) * U k ω) ω ∂P = 0 := by
      simp only [Finset.sum_apply]
      rw [integral_finsetSum _ fun k _ => ((hUL k).integrable one_le_two).const_mul _]
      simp [integral_const_mul, hUm]
    rw [this]
    simp
  have hvar : ∀ t, ProbabilityTheory.variance (fun ω => (traj d h s (C · ω) (Z · ω) x₀ t).1) P = sampleVar d h s t * (1 + h * V / (2 * (1 - d) * s ^ 2)) := fun t => by
    rw [he t, variance_const_add (hsL t).aestronglyMeasurable, IndepFun.variance_sum (fun k _ => (hUL k).const_mul _)]
    · simp only [variance_const_mul, hUv]
      rw [← sum_mul, ← sum_range_reflect]
      have : ∑ k ∈ range t, wt d h s (t - 1 - (t - 1 - k)) ^ 2 = ∑ k ∈ range t, wt d h s k ^ 2 := by
        refine sum_congr rfl fun k hk => ?_
        rw [mem_range] at hk
        rw [show t - 1 - (t - 1 - k) = k by omega]
      rw [this]
      have h1 : 1 - d ≠ 0 := by linarith
      change (∑ k ∈ range t, wt d h s k ^ 2) * _ = 2 * (1 - d) * (∑ k ∈ range t, wt d h s k ^ 2) * _
      field_simp
      ring
    · intro j _ k _ hjk
      exact (hUi.indepFun hjk).comp (φ := fun x => wt d h s (t - 1 - j) * x) (ψ := fun x => wt d h s (t - 1 - k) * x) (by fun_prop) (by fun_prop)
  obtain ⟨l1, l2⟩ := C108_limit d h s μ x₀ hd0 hd1 hs hh hstep
  constructor
  · simp only [hmean]
    exact l1
  · simp only [hvar]
    exact l2.mul_const _

/-- The long-run variance with random batches, relative to that without. -/
noncomputable def inflation (d h s V : ℝ) : ℝ := 1 + h * V / (2 * (1 - d) * s ^ 2)

/-- **C150, refuted: mini-batches leave the distribution alone, or momentum averages their noise out.** The long-run variance exceeds that without mini-batches, and that of the posterior;
what the batches add to it in proportion is `1 / (1 - d)` times what they add for SGLD with the same step size, hence beyond any bound as the momentum decay approaches one. -/
theorem C150_random_false (h s V : ℝ) (hs : 0 < s) (hh : 0 < h) (hV : 0 < V) :
    (∀ d, 0 ≤ d → d < 1 → h < 2 * (1 + d) * s → s < limitVar d h s ∧ limitVar d h s < limitVar d h s * inflation d h s V) ∧
    (∀ d, d < 1 → inflation d h s V - 1 = (inflation 0 h s V - 1) / (1 - d)) ∧
    (∀ K, ∃ d, 0 ≤ d ∧ d < 1 ∧ K < inflation d h s V) := by
  have hq : 0 < h * V / (2 * s ^ 2) := by positivity
  have hrel : ∀ d, d < 1 → inflation d h s V - 1 = (inflation 0 h s V - 1) / (1 - d) := fun d hd => by
    have h1 : 1 - d ≠ 0 := by linarith
    unfold inflation
    field_simp
    ring
  refine ⟨fun d hd0 hd1 hstep => ?_, hrel, fun K => ?_⟩
  · have hp : 0 < 2 * (1 + d) * s := by positivity
    have h1 : 0 < 1 - h / (2 * (1 + d) * s) := by
      rw [sub_pos, div_lt_one hp]; exact hstep
    have h2 : 1 - h / (2 * (1 + d) * s) < 1 := by
      have : 0 < h / (2 * (1 + d) * s) := by positivity
      linarith
    have h4 : 0 < limitVar d h s := by unfold limitVar; positivity
    have h5 : 0 < 1 - d := by linarith
    have h6 : 0 < h * V / (2 * (1 - d) * s ^ 2) := by positivity
    refine ⟨?_, ?_⟩
    · unfold limitVar
      rw [lt_div_iff₀ h1]
      nlinarith
    · unfold inflation
      nlinarith
  · set q := h * V / (2 * s ^ 2) with hqd
    have e0 : inflation 0 h s V - 1 = q := by
      unfold inflation
      rw [hqd, sub_zero, mul_one]
      ring
    have hK : 0 < |K| + 1 + q := by positivity
    refine ⟨1 - q / (|K| + 1 + q), ?_, ?_, ?_⟩
    · rw [sub_nonneg, div_le_one hK]
      have := abs_nonneg K
      linarith
    · have : 0 < q / (|K| + 1 + q) := by positivity
      linarith
    · have := hrel (1 - q / (|K| + 1 + q)) (by have : 0 < q / (|K| + 1 + q) := by positivity
                                               linarith)
      rw [e0, sub_sub_cancel, div_div_eq_mul_div, mul_div_cancel_left₀ _ hq.ne'] at this
      have := le_abs_self K
      linarith

/-! ## Batches in a fixed order -/

theorem traj_shift (d h s μ : ℝ) (c z : ℕ → ℝ) (p : ℕ → ℝ × ℝ) (hp : ∀ t, p (t + 1) - (μ, 0) =
      linMap (Real.sqrt h) s d (p t - (μ, 0)) + push d h s μ c z t • ((Real.sqrt h, 1) : ℝ × ℝ)) (x₀ : ℝ) (t : ℕ) :
    traj d h s c z x₀ t - p t = (linMap (Real.sqrt h) s d ^ t) ((x₀, 0) - p 0) := by
  induction t with
  | zero => simp [traj]
  | succ t ih =>
    rw [pow_succ', Module.End.mul_apply, ← ih, ← sub_sub_sub_cancel_right _ _ ((μ, 0) : ℝ × ℝ), traj_step, hp, add_sub_add_right_eq_sub, ← map_sub, sub_sub_sub_cancel_right]

/-- The recursion from any position and momentum. -/
noncomputable def from_ (d h s : ℝ) (c : ℕ → ℝ) (z₀ : ℝ × ℝ) : ℕ → ℝ × ℝ
  | 0 => z₀
  | t + 1 => linMap (Real.sqrt h) s d (from_ d h s c z₀ t) + (Real.sqrt h / s * c t) • ((Real.sqrt h, 1) : ℝ × ℝ)

theorem from_diff (d h s : ℝ) (c : ℕ → ℝ) (z₀ z₁ : ℝ × ℝ) (t : ℕ) :
    from_ d h s c z₀ t - from_ d h s c z₁ t = (linMap (Real.sqrt h) s d ^ t) (z₀ - z₁) := by
  induction t with
  | zero => simp [from_]
  | succ t ih => simp only [from_]; rw [add_sub_add_right_eq_sub, ← map_sub, ih, pow_succ', Module.End.mul_apply]

theorem from_periodic (d h s : ℝ) (c : ℕ → ℝ) (n : ℕ) (hc : ∀ t, c (t + n) = c t) (z₀ : ℝ × ℝ) (hz : from_ d h s c z₀ n = z₀) (t : ℕ) :
    from_ d h s c z₀ (t + n) = from_ d h s c z₀ t := by
  induction t with
  | zero => rw [zero_add, hz]; rfl
  | succ t ih => rw [add_right_comm]; simp only [from_]; rw [ih, hc]

/-- **C150, batches in a fixed order.** The mean of the sample approaches a cycle of one epoch, the same from any start; its average over an epoch is that of the centres of the
batches, whatever the momentum decay. -/
theorem C150_cycle (d h s : ℝ) (hd0 : 0 ≤ d) (hd1 : d < 1) (hs : 0 < s) (hh : 0 < h) (hstep : h < 2 * (1 + d) * s) (c : ℕ → ℝ) (n : ℕ) (hn : 0 < n)
    (hc : ∀ t, c (t + n) = c t) :
    ∃ p : ℕ → ℝ, (∀ t, p (t + n) = p t) ∧ ∑ j ∈ range n, p j = ∑ j ∈ range n, c j ∧
      ∀ x₀, Tendsto (fun t => (traj d h s c (fun _ => 0) x₀ t).1 - p t) atTop (𝓝 0) := by
  have hr : Real.sqrt h ≠ 0 := (Real.sqrt_pos.2 hh).ne'
  have hrr : Real.sqrt h ^ 2 = h := Real.sq_sqrt hh.le
  have htend : ∀ z, Tendsto (fun t => (linMap (Real.sqrt h) s d ^ t) z) atTop (𝓝 0) := fun z => by
    obtain ⟨h1, h2⟩ := lin_tendsto (Real.sqrt h) s d hs hr hd0 hd1 (by rw [hrr]; exact hstep) z
    simp only [linMap_pow]
    exact h1.prodMk_nhds h2
  set T : ℝ × ℝ →ₗ[ℝ] ℝ × ℝ := LinearMap.id - linMap (Real.sqrt h) s d ^ n with hT
  have hinj : Function.Injective T := by
    rw [← LinearMap.ker_eq_bot, LinearMap.ker_eq_bot']
    intro z hz
    have hfix : (linMap (Real.sqrt h) s d ^ n) z = z := by
      rw [hT, LinearMap.sub_apply, LinearMap.id_apply, sub_eq_zero] at hz
      exact hz.symm
    have hall : ∀ k, (linMap (Real.sqrt h) s d ^ (n * k)) z = z := fun k => by
      induction k with
      | zero => simp
      | succ k ih => rw [Nat.mul_succ, pow_add, Module.End.mul_apply, hfix, ih]
    have h1 : Tendsto (fun k => (linMap (Real.sqrt h) s d ^ (n * k)) z) atTop (𝓝 0) :=
      (htend z).comp (tendsto_id.const_mul_atTop' hn)
    simp only [hall] at h1
    exact tendsto_nhds_unique tendsto_const_nhds h1
  obtain ⟨z₀, hz₀⟩ := (LinearMap.injective_iff_surjective.1 hinj) (from_ d h s c 0 n)
  have hper : from_ d h s c z₀ n = z₀ := by
    have h1 := from_diff d h s c z₀ 0 n
    rw [sub_zero, ← hz₀, hT, LinearMap.sub_apply, LinearMap.id_apply] at h1
    rw [sub_eq_iff_eq_add] at h1
    rw [h1]
    abel
  have hp := from_periodic d h s c n hc z₀ hper
  refine ⟨fun t => (from_ d h s c z₀ t).1, fun t => congrArg Prod.fst (hp t), ?_, fun x₀ => ?_⟩
  · set q := from_ d h s c z₀ with hq
    have hsnd : ∀ t, (q (t + 1)).2 = d * (q t).2 - Real.sqrt h / s * ((q t).1 - c t) := fun t => by
      have : q (t + 1) = lin (Real.sqrt h) s d (q t) + (Real.sqrt h / s * c t) • ((Real.sqrt h, 1) : ℝ × ℝ) := rfl
      rw [this]
      simp only [lin, Prod.snd_add, Prod.smul_snd, smul_eq_mul]
      ring
    have hfst : ∀ t, (q (t + 1)).1 = (q t).1 + Real.sqrt h * (q (t + 1)).2 := fun t => by
      have : q (t + 1) = lin (Real.sqrt h) s d (q t) + (Real.sqrt h / s * c t) • ((Real.sqrt h, 1) : ℝ × ℝ) := rfl
      rw [this]
      simp only [lin, Prod.fst_add, Prod.snd_add, Prod.smul_fst, Prod.smul_snd, smul_eq_mul]
      ring
    have hq0 : q n = q 0 := by have := hp 0; rwa [zero_add] at this
    have hshift : ∀ f : ℝ × ℝ → ℝ, ∑ j ∈ range n, f (q (j + 1)) = ∑ j ∈ range n, f (q j) := fun f => by
      have h1 := sum_range_succ (fun j => f (q j)) n
      have h2 := sum_range_succ' (fun j => f (q j)) n
      rw [h1, hq0] at h2
      linarith
    have hm0 : ∑ j ∈ range n, (q j).2 = 0 := by
      have h1 := hshift Prod.fst
      simp only [hfst, sum_add_distrib, ← mul_sum] at h1
      have h2 := hshift Prod.snd
      rw [h2] at h1
      have h3 : Real.sqrt h * ∑ j ∈ range n, (q j).2 = 0 := by linarith
      exact (mul_eq_zero.1 h3).resolve_left hr
    have h1 := hshift Prod.snd
    simp only [hsnd, sum_sub_distrib, ← mul_sum, hm0] at h1
    have h2 : Real.sqrt h / s * (∑ j ∈ range n, (q j).1 - ∑ j ∈ range n, c j) = 0 := by linarith
    have h3 := (mul_eq_zero.1 h2).resolve_left (div_ne_zero hr hs.ne')
    linarith
  · have h1 : ∀ t, traj d h s c (fun _ => 0) x₀ t - from_ d h s c z₀ t = (linMap (Real.sqrt h) s d ^ t) ((x₀, 0) - z₀) := fun t => by
      refine traj_shift d h s 0 c (fun _ => 0) (from_ d h s c z₀) (fun t => ?_) x₀ t
      have h0 : ((0 : ℝ), (0 : ℝ)) = 0 := rfl
      simp only [h0, sub_zero, push, from_, mul_zero, add_zero]
    have h2 := (continuous_fst.tendsto (0 : ℝ × ℝ)).comp (htend ((x₀, 0) - z₀))
    refine h2.congr fun t => ?_
    simp only [Function.comp_apply]
    rw [← h1 t]
    rfl

/-! ### Concrete cases that meet the hypotheses of the theorems above -/

example := C150_sampler (ι := Fin 2) (1 / 2) (1 / 10) 4 ![1, 2] ![3, 4] (fun t => [![t, 1], ![2, 3]]) (by simp) (fun _ _ => 1) (.seed 0) ![5, 6] 1 (by simp) (by simp)
example := C150_law (ι := Fin 2) (Measure.infinitePi fun _ : Key => gaussianReal 0 1) (fun ω k _ => ω k) 1
  (fun k => measurable_pi_apply k) (iIndepFun_infinitePi (X := fun _ x => x) fun _ => measurable_id)
  (fun k => Measure.infinitePi_map_eval _ k) (1 / 2) (1 / 10) (by norm_num) 4 ![1, 2] ![3, 4] (by simp) (by simp)
  (fun t => [![t, 1], ![2, 3]]) (by simp)
example : ∃ (Ω : Type) (_ : MeasurableSpace Ω) (P : Measure Ω) (_ : IsProbabilityMeasure P) (C Z : ℕ → Ω → ℝ),
    Tendsto (fun t => ProbabilityTheory.variance (fun ω => (traj (1 / 2) (1 / 6) (1 / 3) (C · ω) (Z · ω) 5 t).1) P) atTop (𝓝 (1 / 3 / (5 / 6) * (5 / 2))) := by
  obtain ⟨Ω, i, P, j, C, Z, h1, h2, h3, h4, h5, h6, h7, h8⟩ := ex_random
  have := (C150_random P C Z h1 h2 h3 h4 0 1 h5 h6 h7 h8 (1 / 2) (1 / 6) (1 / 3) 5 (by norm_num) (by norm_num) (by norm_num) (by norm_num) (by norm_num)).2
  refine ⟨Ω, i, P, j, C, Z, ?_⟩
  convert this using 2
  norm_num
example := C150_random_false (1 / 6) (1 / 3) 1 (by norm_num) (by norm_num) (by norm_num)
example := C150_cycle (1 / 2) (1 / 6) (1 / 3) (by norm_num) (by norm_num) (by norm_num) (by norm_num) (by norm_num) (fun t => if t % 2 = 0 then -(2 / 3) else 2 / 3) 2 (by decide)
  (fun t => by simp)

end Verif.Props.BatchMomentum
