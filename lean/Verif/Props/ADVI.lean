import Mathlib.MeasureTheory.Integral.Bochner.Basic
import Mathlib.Data.List.Sort
import Mathlib.Data.Char
import Mathlib.Probability.Distributions.Uniform
import Mathlib.Probability.Distributions.Gaussian.Real
import Mathlib.Probability.ProbabilityMassFunction.Integrals
import Verif.Props.Laplace

/-! Properties of ADVI (C76) and of SWAG samples (C77). -/

set_option linter.unusedSectionVars false

namespace Verif.Props

open Verif.GaussPost Verif.Nested Verif.Nested.Obj

variable {ι : Type} [Fintype ι]

/-! ## The flow -/

/-- **C76, the flow is invertible.** Backward inverts forward and forward inverts backward, and their log-determinants are
opposite. -/
theorem C76_inverse (mean logStd u : ι → ℝ) :
    adviBackward mean logStd (adviForward mean logStd u).1 = (u, -(adviForward mean logStd u).2) ∧
    adviForward mean logStd (adviBackward mean logStd u).1 = (u, -(adviBackward mean logStd u).2) := by
  constructor
  · refine Prod.ext (funext fun i => ?_) rfl
    show Real.exp (-logStd i) * (mean i + Real.exp (logStd i) * u i - mean i) = u i
    rw [add_sub_cancel_left, ← mul_assoc, ← Real.exp_add]
    simp
  · refine Prod.ext (funext fun i => ?_) (by simp [adviForward, adviBackward])
    show mean i + Real.exp (logStd i) * (Real.exp (-logStd i) * (u i - mean i)) = u i
    rw [← mul_assoc, ← Real.exp_add]
    simp

/-- **C76, the density.** The density of the approximate posterior, base density of the backward image times the backward
Jacobian, is the diagonal Gaussian with the stored mean and standard deviation `exp(log_std) * exp(log_std_base)`. -/
theorem C76_density (mean logStd v : ι → ℝ) (b : ℝ) :
    diagLogProb (fun _ => 0) (baseStd b) (adviBackward mean logStd v).1 + (adviBackward mean logStd v).2 =
      diagLogProb mean (fun i => Real.exp (logStd i) * Real.exp b) v := by
  unfold diagLogProb adviBackward
  dsimp only
  rw [← sub_eq_add_neg, ← Finset.sum_sub_distrib]
  refine Finset.sum_congr rfl fun i _ => ?_
  unfold normLogpdf baseStd
  rw [mul_one, sub_zero, Real.log_mul (Real.exp_pos _).ne' (Real.exp_pos _).ne', Real.log_exp, Real.log_exp]
  have : Real.exp (-logStd i) * (v i - mean i) / Real.exp b = (v i - mean i) / (Real.exp (logStd i) * Real.exp b) := by
    rw [Real.exp_neg]
    field_simp
  rw [this]
  ring

/-- **C76, the base.** `log_joint_prob` of a diagonal Gaussian is the logarithm of the product of the normal densities with its means and
squared standard deviations; hence `C76_density` is about probability densities. -/
theorem C76_gaussian (mean std x : ι → ℝ) (hs : ∀ i, 0 < std i) :
    Real.exp (diagLogProb mean std x) =
      ∏ i, ProbabilityTheory.gaussianPDFReal (mean i) (Real.toNNReal (std i ^ 2)) (x i) := by
  unfold diagLogProb
  rw [Real.exp_sum]
  refine Finset.prod_congr rfl fun i _ => ?_
  unfold normLogpdf
  have h := hs i
  have hpi := Real.pi_pos
  rw [ProbabilityTheory.gaussianPDFReal_def, Real.coe_toNNReal _ (sq_nonneg _)]
  change _ = (Real.sqrt (2 * Real.pi * std i ^ 2))⁻¹ * Real.exp (-(x i - mean i) ^ 2 / (2 * std i ^ 2))
  have h1 : Real.sqrt (2 * Real.pi * std i ^ 2) = Real.sqrt (2 * Real.pi) * std i := by
    rw [Real.sqrt_mul (by positivity), Real.sqrt_sq h.le]
  have h2 : Real.exp (Real.log (2 * Real.pi) / 2) = Real.sqrt (2 * Real.pi) := by
    rw [Real.sqrt_eq_rpow, Real.rpow_def_of_pos (by positivity)]
    congr 1
    ring
  have h3 : -((x i - mean i) / std i) ^ 2 / 2 = -(x i - mean i) ^ 2 / (2 * std i ^ 2) := by
    field_simp
  rw [sub_sub, Real.exp_sub, Real.exp_add, h2, Real.exp_log h, h1, h3, div_eq_mul_inv, mul_comm]

/-- **C76, samples.** A sample is the stored mean plus `exp(log_std) * exp(log_std_base)` times standard normal noise. -/
theorem C76_push (mean logStd z : ι → ℝ) (b : ℝ) (i : ι) :
    (adviForward mean logStd (diagSample (fun _ => 0) (baseStd b) z)).1 i =
      mean i + Real.exp (logStd i) * Real.exp b * z i := by
  simp only [adviForward, diagSample, baseStd]
  ring

/-- **C76, the loss.** For given base samples the training loss is the Monte Carlo estimate of the divergence
`E_q[log q - log p]` of the approximate posterior from the joint, minus a term that does not depend on the variational
parameters. -/
theorem C76_loss {n : ℕ} (negLogp : (ι → ℝ) → ℝ) (mean logStd : ι → ℝ) (b : ℝ) (u : Fin n → ι → ℝ) :
    adviLoss negLogp mean logStd u =
      (∑ s, (diagLogProb mean (fun i => Real.exp (logStd i) * Real.exp b) (fun i => mean i + Real.exp (logStd i) * u s i) +
        negLogp (fun i => mean i + Real.exp (logStd i) * u s i))) / n -
      (∑ s, diagLogProb (fun _ => 0) (baseStd b) (u s)) / n := by
  unfold adviLoss meanOver
  rw [← sub_div, ← sub_div, ← Finset.sum_sub_distrib, ← Finset.sum_sub_distrib]
  congr 1
  refine Finset.sum_congr rfl fun s _ => ?_
  have h := C76_density mean logStd (adviForward mean logStd (u s)).1 b
  rw [(C76_inverse mean logStd (u s)).1] at h
  have h' : diagLogProb mean (fun i => Real.exp (logStd i) * Real.exp b) (fun i => mean i + Real.exp (logStd i) * u s i) =
      diagLogProb (fun _ => 0) (baseStd b) (u s) + -(adviForward mean logStd (u s)).2 := h.symm
  rw [h']
  simp only [adviForward]
  ring

/-! ## Raveling -/

theorem unravel_flatten {α : Type} (ls : List (List α)) : unravelSizes (ls.map List.length) ls.flatten = ls := by
  induction ls with
  | nil => rfl
  | cons l ls ih => simp [unravelSizes, ih]

theorem flatten_unravel {α : Type} (ns : List ℕ) (v : List α) (h : v.length = ns.sum) :
    (unravelSizes ns v).flatten = v ∧ (unravelSizes ns v).map List.length = ns := by
  induction ns generalizing v with
  | nil =>
    simp at h
    subst h
    exact ⟨rfl, rfl⟩
  | cons n ns ih =>
    rw [List.sum_cons] at h
    obtain ⟨h1, h2⟩ := ih (v.drop n) (by rw [List.length_drop]; omega)
    constructor
    · show v.take n ++ (unravelSizes ns (v.drop n)).flatten = v
      rw [h1, List.take_append_drop]
    · show (v.take n).length :: _ = _
      rw [h2, List.length_take]
      congr 1
      omega

variable {K : Type} [LinearOrder K] {α : Type}

theorem zip_map_self {A B : Type} (l : List A) (f : A → B) : l.zip (l.map f) = l.map fun a => (a, f a) := by
  conv_lhs => rw [← List.map_id l, List.map_map]
  rw [List.zip_map']; rfl

/-- Reading parameters at paths with arrays. -/
theorem getPaths_ok (d : Obj K (List α)) (ps : List (List K)) (mf : List K → List α)
    (h : ∀ p ∈ ps, nestedGet d p = .ok (leaf (mf p))) :
    getPaths d ps = .ok (ps.map mf) ∧ ravelPaths d ps = .ok (ps.map mf).flatten := by
  have h1 : getPaths d ps = .ok (ps.map mf) := by
    unfold getPaths
    rw [mapM_map_ok _ (fun p => leaf (mf p)) ps h]
    show Except.ok (List.map leafVal (ps.map fun p => leaf (mf p))) = _
    rw [List.map_map]; rfl
  exact ⟨h1, by unfold ravelPaths; rw [h1]; rfl⟩

/-- A list of arrays for the paths of a duplicate-free list is a function of the path. -/
theorem exists_fun_of_nodup {A B : Type} [DecidableEq A] [Inhabited B] (l : List A) (hl : l.Nodup) (bs : List B)
    (h : bs.length = l.length) : ∃ f : A → B, l.map f = bs := by
  induction l generalizing bs with
  | nil => exact ⟨fun _ => default, by rw [List.length_nil, List.length_eq_zero_iff] at h; rw [h]; rfl⟩
  | cons a l ih =>
    cases bs with
    | nil => simp at h
    | cons b bs =>
      obtain ⟨ha, hl⟩ := List.nodup_cons.1 hl
      obtain ⟨f, hf⟩ := ih hl bs (by simpa using h)
      refine ⟨fun x => if x = a then b else f x, ?_⟩
      rw [List.map_cons, if_pos rfl, ← hf]
      congr 1
      apply List.map_congr_left
      intro x hx
      rw [if_neg (by rintro rfl; exact ha hx)]

theorem nodup_of_apart {ps : List (List K)} (h : ps.Pairwise Apart) : ps.Nodup :=
  h.imp fun {_ _} hab => by rintro rfl; exact hab.1 (List.prefix_refl _)

/-- Writing a vector into the selected parameters: they hold its consecutive pieces, all else is unchanged. -/
theorem unravelInto_spec (d : Obj K (List α)) (ps : List (List K)) (mf : List K → List α) (hp : ps.Pairwise Apart)
    (h : ∀ p ∈ ps, nestedGet d p = .ok (leaf (mf p))) (v : List α) (hv : v.length = ((ps.map mf).flatten).length) :
    ∃ d' vf, unravelInto d ps v = .ok d' ∧ (ps.map vf).flatten = v ∧ (∀ p ∈ ps, (vf p).length = (mf p).length) ∧
      (∀ p ∈ ps, nestedGet d' p = .ok (leaf (vf p))) ∧
      (∀ q, (∀ p ∈ ps, Apart q p) → ∀ r, nestedGet d' q = .ok r ↔ nestedGet d q = .ok r) := by
  obtain ⟨u1, u2⟩ := flatten_unravel ((ps.map mf).map List.length) v (by rw [hv, List.length_flatten])
  have hlen : (unravelSizes ((ps.map mf).map List.length) v).length = ps.length := by
    have := congrArg List.length u2
    simpa using this
  obtain ⟨vf, hvf⟩ := exists_fun_of_nodup ps (nodup_of_apart hp) _ hlen
  obtain ⟨d', hd'⟩ := setMany_existing_ok (ps.map fun p => (p, (leaf (vf p) : Obj K (List α)))) (List.pairwise_map.2 hp) d (by
    intro po hpo
    obtain ⟨p, hps, rfl⟩ := List.mem_map.1 hpo
    exact ⟨_, h p hps⟩)
  have hset : nestedSet d ps (ps.map fun p => leaf (vf p)) false = .ok d' := by
    unfold nestedSet
    rw [if_neg (by simp), zip_map_self]; exact hd'
  obtain ⟨-, s2, s3⟩ := C27_set_many false d d' ps _ hp hset
  refine ⟨d', vf, ?_, by rw [hvf]; exact u1, ?_, fun p hps => s2 (p, leaf (vf p)) (by
    rw [zip_map_self]; exact List.mem_map.2 ⟨p, hps, rfl⟩), s3⟩
  · unfold unravelInto
    rw [(getPaths_ok d ps mf h).1]
    show nestedSet d ps ((unravelSizes ((ps.map mf).map List.length) v).map leaf) false = _
    rw [← hvf, List.map_map]; exact hset
  · rw [← hvf, List.map_map, List.map_map] at u2
    exact fun p hps => List.map_inj_left.1 u2 p hps

/-- Storing the variational parameters and unpairing them at the selected paths in any order. -/
theorem advi_recover (lm ls : K) (hl : lm ≠ ls) (params : Obj K (List ℝ)) (ps ps' : List (List K)) (mf : List K → List ℝ)
    (hp : ps.Pairwise Apart) (h : ∀ p ∈ ps, nestedGet params p = .ok (leaf (mf p))) (hperm : ps.Perm ps') (m s : List ℝ)
    (hm : m.length = ((ps.map mf).flatten).length) (hs : s.length = ((ps.map mf).flatten).length) :
    ∃ st d e vf sf, adviPair lm ls params ps m s = .ok st ∧ nestedUnpair st ps' lm ls = .ok (d, e) ∧
      unravelInto params ps m = .ok d ∧ (ps.map vf).flatten = m ∧ (ps.map sf).flatten = s ∧
      (∀ p ∈ ps, (vf p).length = (mf p).length ∧ (sf p).length = (mf p).length ∧ nestedGet d p = .ok (leaf (vf p)) ∧
        nestedGet e p = .ok (leaf (sf p))) := by
  obtain ⟨d, vf, h1, h2, h3, h4, -⟩ := unravelInto_spec params ps mf hp h m hm
  obtain ⟨u1, u2⟩ := flatten_unravel ((ps.map mf).map List.length) s (by rw [hs, List.length_flatten])
  have hlen : (unravelSizes ((ps.map mf).map List.length) s).length = ps.length := by
    have := congrArg List.length u2
    simpa using this
  obtain ⟨sf, hsf⟩ := exists_fun_of_nodup ps (nodup_of_apart hp) _ hlen
  obtain ⟨st, e, e1, e2, e3⟩ := pair_unpair_perm lm ls hl d ps ps' (fun p => leaf (sf p)) hp (fun p hps => ⟨_, h4 p hps⟩) hperm
  refine ⟨st, d, e, vf, sf, ?_, e2, h1, h2, by rw [hsf, u1], fun p hps => ⟨h3 p hps, ?_, h4 p hps, e3 p hps⟩⟩
  · unfold adviPair
    rw [h1, (getPaths_ok params ps mf h).1]
    show nestedPair d ps ((unravelSizes ((ps.map mf).map List.length) s).map leaf) lm ls = _
    rw [← hsf, List.map_map]; exact e1
  · rw [← hsf, List.map_map, List.map_map] at u2
    exact List.map_inj_left.1 u2 p hps

/-- **C76, storing.** The variational parameters stored in the state: unpairing them at the selected paths, in whatever order,
gives back the means and the log-standard-deviations of every selected parameter. -/
theorem C76_recover (lm ls : K) (hl : lm ≠ ls) (params : Obj K (List ℝ)) (ps ps' : List (List K)) (mf : List K → List ℝ)
    (hp : ps.Pairwise Apart) (h : ∀ p ∈ ps, nestedGet params p = .ok (leaf (mf p))) (hperm : ps.Perm ps') (m s : List ℝ)
    (hm : m.length = ((ps.map mf).flatten).length) (hs : s.length = ((ps.map mf).flatten).length) :
    ∃ st d e, adviPair lm ls params ps m s = .ok st ∧ nestedUnpair st ps' lm ls = .ok (d, e) ∧
      unravelInto params ps m = .ok d ∧ ravelPaths d ps = .ok m ∧ ravelPaths e ps = .ok s := by
  obtain ⟨st, d, e, vf, sf, h1, h2, h3, h4, h5, h6⟩ := advi_recover lm ls hl params ps ps' mf hp h hperm m s hm hs
  exact ⟨st, d, e, h1, h2, h3, by rw [(getPaths_ok d ps vf fun p hps => (h6 p hps).2.2.1).2, h4],
    by rw [(getPaths_ok e ps sf fun p hps => (h6 p hps).2.2.2).2, h5]⟩

/-- What a sample is when the selection is read in another order: the vectors of means and log-standard-deviations follow the
order read, the sample is written back in the order of the fit. -/
theorem advi_sample_order (lm ls : K) (hl : lm ≠ ls) (params : Obj K (List ℝ)) (ps ps' : List (List K)) (mf : List K → List ℝ)
    (hp : ps.Pairwise Apart) (h : ∀ p ∈ ps, nestedGet params p = .ok (leaf (mf p))) (hperm : ps.Perm ps') (m s u : List ℝ)
    (hm : m.length = ((ps.map mf).flatten).length) (hs : s.length = ((ps.map mf).flatten).length)
    (hu : u.length = ((ps.map mf).flatten).length) :
    ∃ st d' vf sf wf, adviPair lm ls params ps m s = .ok st ∧ adviSample lm ls params ps st ps' u = .ok d' ∧
      (ps.map vf).flatten = m ∧ (ps.map sf).flatten = s ∧
      (∀ p ∈ ps, (vf p).length = (mf p).length ∧ (sf p).length = (mf p).length ∧ (wf p).length = (mf p).length ∧
        nestedGet d' p = .ok (leaf (wf p))) ∧
      (ps.map wf).flatten = forwardList (ps'.map vf).flatten (ps'.map sf).flatten u ∧
      (∀ q, (∀ p ∈ ps, Apart q p) → ∀ r, nestedGet d' q = .ok r ↔ nestedGet params q = .ok r) := by
  obtain ⟨st, d, e, vf, sf, h1, h2, h3, h4, h5, h6⟩ := advi_recover lm ls hl params ps ps' mf hp h hperm m s hm hs
  have hv : ravelPaths d ps' = .ok (ps'.map vf).flatten :=
    (getPaths_ok d ps' vf fun p hps => (h6 p (hperm.mem_iff.2 hps)).2.2.1).2
  have hs' : ravelPaths e ps' = .ok (ps'.map sf).flatten :=
    (getPaths_ok e ps' sf fun p hps => (h6 p (hperm.mem_iff.2 hps)).2.2.2).2
  have l1 : ((ps'.map vf).flatten).length = m.length := by
    rw [← h4]; exact ((hperm.map vf).flatten).length_eq.symm
  have l2 : ((ps'.map sf).flatten).length = s.length := by
    rw [← h5]; exact ((hperm.map sf).flatten).length_eq.symm
  obtain ⟨d', wf, i1, i2, i3, i4, i5⟩ := unravelInto_spec params ps mf hp h
    (forwardList (ps'.map vf).flatten (ps'.map sf).flatten u) (by
      unfold forwardList
      rw [List.length_zipWith, List.length_zip, l1, l2]
      omega)
  refine ⟨st, d', vf, sf, wf, h1, ?_, h4, h5, fun p hps => ⟨(h6 p hps).1, (h6 p hps).2.1, i3 p hps, i4 p hps⟩, i2, i5⟩
  unfold adviSample
  simp only [h2, bind, Except.bind, hv, hs', i1]

/-- **C76, samples of selected parameters.** With the selection read in the order of the fit, a sample holds in the selected
parameters, array by array, mean plus `exp(log_std)` times base noise, and every other parameter as it was. -/
theorem C76_sample (lm ls : K) (hl : lm ≠ ls) (params : Obj K (List ℝ)) (ps : List (List K)) (mf : List K → List ℝ)
    (hp : ps.Pairwise Apart) (h : ∀ p ∈ ps, nestedGet params p = .ok (leaf (mf p))) (m s u : List ℝ)
    (hm : m.length = ((ps.map mf).flatten).length) (hs : s.length = ((ps.map mf).flatten).length)
    (hu : u.length = ((ps.map mf).flatten).length) :
    ∃ st d', adviPair lm ls params ps m s = .ok st ∧ adviSample lm ls params ps st ps u = .ok d' ∧
      ravelPaths d' ps = .ok (List.zipWith (fun m su => m + Real.exp su.1 * su.2) m (s.zip u)) ∧
      (∀ q, (∀ p ∈ ps, Apart q p) → ∀ r, nestedGet d' q = .ok r ↔ nestedGet params q = .ok r) := by
  obtain ⟨st, d', vf, sf, wf, h1, h2, h3, h4, h5, h6, h7⟩ :=
    advi_sample_order lm ls hl params ps ps mf hp h (List.Perm.refl _) m s u hm hs hu
  refine ⟨st, d', h1, h2, ?_, h7⟩
  rw [(getPaths_ok d' ps wf fun p hps => (h5 p hps).2.2.2).2, h6, h3, h4]; rfl

/-! ## Orders of parameters -/

/-- The fresh dictionary of selected arrays raveled: in sorted order of the paths. -/
theorem ravelTree_build (ps : List (List K)) (hp : ps.Pairwise Apart) (hne : ∀ p ∈ ps, p ≠ []) (vf : List K → List α) :
    ∃ e, nestedSet nil ps (ps.map fun p => leaf (vf p)) true = .ok e ∧
      ravelTree e = ((ps.insertionSort (· ≤ ·)).map vf).flatten := by
  obtain ⟨e, h1, hw, hdict, h2, h3⟩ := build_spec (ps.map fun p => (p, vf p)) (List.pairwise_map.2 hp) (by
    intro pv hpv
    obtain ⟨p, hps, rfl⟩ := List.mem_map.1 hpv
    exact hne p hps)
  simp only [List.map_map] at h1
  have e1 : ps.map (Prod.fst ∘ fun p => (p, vf p)) = ps := by
    conv_rhs => rw [← List.map_id ps]
    rfl
  rw [e1] at h1
  refine ⟨e, h1, ?_⟩
  unfold ravelTree
  congr 1
  have hmem : ∀ pv, pv ∈ Nested.flatten e ↔ pv ∈ ps.map fun p => (p, vf p) := by
    rintro ⟨q, v⟩
    rw [mem_flatten e hw]
    constructor
    · intro hq
      have hqne : q ≠ [] := by
        rintro rfl
        cases hq
        simp [isDict] at hdict
      obtain ⟨pv, hpv, t, ht⟩ := h3 q _ hqne hq
      have := h2 pv hpv
      rw [← ht, at?_append, hq] at this
      change at? t (leaf v) = _ at this
      by_cases htn : t = []
      · subst htn
        cases this
        rw [List.append_nil] at ht
        rw [ht]; exact hpv
      · rw [at?_leaf htn] at this; cases this
    · intro hq
      exact h2 _ hq
  have hnd1 : (Nested.flatten e).Nodup := List.Nodup.of_map _ (nodup_flatten e hw)
  have hnd2 : (ps.map fun p => (p, vf p)).Nodup := (nodup_of_apart hp).map fun a b hab => (Prod.mk.inj hab).1
  have hperm : (Nested.flatten e).Perm (ps.map fun p => (p, vf p)) := (List.perm_ext_iff_of_nodup hnd1 hnd2).2 hmem
  -- both sorted lists of pairs are permutations of each other with the same order of paths
  let S := (Nested.flatten e).insertionSort fun a b => a.1 ≤ b.1
  have hS : S.Perm (ps.map fun p => (p, vf p)) := (List.perm_insertionSort _ _).trans hperm
  have hval : S.map (·.2) = (S.map (·.1)).map vf := by
    rw [List.map_map]
    apply List.map_congr_left
    intro pv hpv
    obtain ⟨p, -, rfl⟩ := List.mem_map.1 (hS.mem_iff.1 hpv)
    rfl
  show S.map (·.2) = _
  rw [hval]
  congr 1
  have hfst : (S.map (·.1)).Perm ps := by
    have := hS.map (·.1)
    rw [List.map_map] at this
    rwa [e1] at this
  have hsorted : (S.map (·.1)).Pairwise (· ≤ ·) := by
    have htot : Std.Total (fun a b : List K × List α => a.1 ≤ b.1) := ⟨fun a b => le_total a.1 b.1⟩
    have htr : IsTrans (List K × List α) (fun a b => a.1 ≤ b.1) := ⟨fun a b c h1 h2 => le_trans h1 h2⟩
    exact List.pairwise_map.2 (List.pairwise_insertionSort (fun a b : List K × List α => a.1 ≤ b.1) (Nested.flatten e))
  exact List.Perm.eq_of_pairwise' hsorted (List.pairwise_insertionSort (· ≤ ·) ps)
    (hfst.trans (List.perm_insertionSort _ _).symm)

/-- **C76, start of training with frozen parameters.** The vector the training of the flow starts from holds the arrays of the
selected parameters in sorted order of their paths. -/
theorem C76_train_start (params : Obj K (List α)) (ps : List (List K)) (mf : List K → List α) (hp : ps.Pairwise Apart)
    (h : ∀ p ∈ ps, nestedGet params p = .ok (leaf (mf p))) (vf : List K → List α)
    (hv : ∀ p ∈ ps, (vf p).length = (mf p).length) :
    adviTrainStart params ps (ps.map vf).flatten = .ok ((ps.insertionSort (· ≤ ·)).map vf).flatten := by
  have hmap : (ps.map vf).map List.length = (ps.map mf).map List.length := by
    rw [List.map_map, List.map_map]
    exact List.map_congr_left fun p hps => hv p hps
  obtain ⟨d', wf, h1, h2, h3, h4, -⟩ := unravelInto_spec params ps mf hp h (ps.map vf).flatten (by
    rw [List.length_flatten, List.length_flatten, hmap])
  have hwv : ps.map wf = ps.map vf := by
    have a1 := unravel_flatten (ps.map wf)
    have a2 := unravel_flatten (ps.map vf)
    have a3 : (ps.map wf).map List.length = (ps.map mf).map List.length := by
      rw [List.map_map, List.map_map]
      exact List.map_congr_left fun p hps => h3 p hps
    rw [h2, a3, ← hmap, a2] at a1
    exact a1.symm
  obtain ⟨e, e1, e2⟩ := ravelTree_build ps hp (fun p hps => ((nestedGet_eq _ _ _).1 (h p hps)).1) vf
  unfold adviTrainStart
  have hm : ps.mapM (nestedGet d') = .ok (ps.map fun p => leaf (vf p)) := mapM_map_ok _ _ _ fun p hps => by
    rw [h4 p hps, List.map_inj_left.1 hwv p hps]
  simp only [h1, bind, Except.bind, hm, e1]
  show Except.ok (ravelTree e) = _
  rw [e2]

/-- **C76, start of training.** If the selected paths are in sorted order, as after a jitted run, training starts from the
vector given (for instance the MAP values). -/
theorem C76_train_start_sorted (params : Obj K (List α)) (ps : List (List K)) (mf : List K → List α) (hp : ps.Pairwise Apart)
    (h : ∀ p ∈ ps, nestedGet params p = .ok (leaf (mf p))) (hsort : ps.Pairwise (· ≤ ·)) :
    adviTrainStart params ps (ps.map mf).flatten = .ok (ps.map mf).flatten := by
  rw [C76_train_start params ps mf hp h mf fun _ _ => rfl, List.Pairwise.insertionSort_eq hsort]

/-- **C76, going on with a fit.** The log-standard-deviations a further fit starts from are the stored ones, in sorted order of
the paths, hence in the order of the selection if that is sorted. -/
theorem C76_log_stds (logStds : Obj K (List α)) (ps : List (List K)) (sf : List K → List α) (hp : ps.Pairwise Apart)
    (h : ∀ p ∈ ps, nestedGet logStds p = .ok (leaf (sf p))) :
    adviRavLogStds logStds ps = .ok ((ps.insertionSort (· ≤ ·)).map sf).flatten ∧
    (ps.Pairwise (· ≤ ·) → adviRavLogStds logStds ps = .ok (ps.map sf).flatten) := by
  obtain ⟨e, e1, e2⟩ := ravelTree_build ps hp (fun p hps => ((nestedGet_eq _ _ _).1 (h p hps)).1) sf
  have key : adviRavLogStds logStds ps = .ok ((ps.insertionSort (· ≤ ·)).map sf).flatten := by
    unfold adviRavLogStds
    rw [mapM_map_ok _ (fun p => leaf (sf p)) ps h]
    simp only [bind, Except.bind, e1]
    show Except.ok (ravelTree e) = _
    rw [e2]
  exact ⟨key, fun hs => by rw [key, List.Pairwise.insertionSort_eq hs]⟩

/-- **C76, start of training: failure.** With the paths in another order, here `kernel` before `bias` as flax creates them, the
start is not the MAP: the kernel gets the bias and part of itself. -/
theorem C76_train_start_false :
    ravelPaths (cons ['k'] (leaf [1, 2]) (cons ['b'] (leaf [3]) nil) : Obj (List Char) (List ℕ)) [[['k']], [['b']]] =
      .ok [1, 2, 3] ∧
    adviTrainStart (cons ['k'] (leaf [1, 2]) (cons ['b'] (leaf [3]) nil)) [[['k']], [['b']]] [1, 2, 3] = .ok [3, 1, 2] ∧
    unravelInto (cons ['k'] (leaf [1, 2]) (cons ['b'] (leaf [3]) nil) : Obj (List Char) (List ℕ)) [[['k']], [['b']]] [3, 1, 2] =
      .ok (cons ['k'] (leaf [3, 1]) (cons ['b'] (leaf [2]) nil)) := by
  decide +kernel

/-- **C77, vectors and parameters.** With frozen parameters and the selection in sorted order, a vector of SWAG goes back to the
parameters it came from: the parameters rebuilt hold at every selected path what the trained ones held. -/
theorem C77_back (params trained : Obj K (List α)) (ps : List (List K)) (mf tf : List K → List α) (hp : ps.Pairwise Apart)
    (h : ∀ p ∈ ps, nestedGet params p = .ok (leaf (mf p))) (ht : ∀ p ∈ ps, nestedGet trained p = .ok (leaf (tf p)))
    (hlen : ∀ p ∈ ps, (tf p).length = (mf p).length) (hsort : ps.Pairwise (· ≤ ·)) :
    ∃ d', swagBack params ps ps trained = .ok d' ∧ (∀ p ∈ ps, nestedGet d' p = .ok (leaf (tf p))) ∧
      (∀ q, (∀ p ∈ ps, Apart q p) → ∀ r, nestedGet d' q = .ok r ↔ nestedGet params q = .ok r) := by
  obtain ⟨e, e1, e2⟩ := ravelTree_build ps hp (fun p hps => ((nestedGet_eq _ _ _).1 (h p hps)).1) tf
  rw [List.Pairwise.insertionSort_eq hsort] at e2
  have hmap : (ps.map tf).map List.length = (ps.map mf).map List.length := by
    rw [List.map_map, List.map_map]
    exact List.map_congr_left fun p hps => hlen p hps
  obtain ⟨d', wf, h1, h2, h3, h4, h5⟩ := unravelInto_spec params ps mf hp h (ps.map tf).flatten (by
    rw [List.length_flatten, List.length_flatten, hmap])
  have hwv : ps.map wf = ps.map tf := by
    have a1 := unravel_flatten (ps.map wf)
    have a2 := unravel_flatten (ps.map tf)
    have a3 : (ps.map wf).map List.length = (ps.map mf).map List.length := by
      rw [List.map_map, List.map_map]
      exact List.map_congr_left fun p hps => h3 p hps
    rw [h2, a3, ← hmap, a2] at a1
    exact a1.symm
  refine ⟨d', ?_, fun p hps => by rw [h4 p hps, List.map_inj_left.1 hwv p hps], h5⟩
  unfold swagBack
  have hm : ps.mapM (nestedGet trained) = .ok (ps.map fun p => leaf (tf p)) := mapM_map_ok _ _ _ ht
  simp only [bind, Except.bind, hm, e1, e2, h1]

/-- **C77, failure.** With eleven selected parameters read back from a checkpoint the selection is in another order, and the
parameters are exchanged: the third parameter gets the value of the fourth, and so on. -/
theorem C77_disk_false :
    let ps : List (List (List Char)) := (List.range 11).map fun i => [[Char.ofNat (97 + i)]]
    let params : Obj (List Char) (List ℕ) := (List.range 11).foldr (fun i o => cons [Char.ofNat (97 + i)] (leaf [i]) o) nil
    swagBack params ps ps params = .ok params ∧
    (swagBack params ps (decode (encode ps)) params).bind (fun d => nestedGet d [['k']]) = .ok (leaf [2]) ∧
    nestedGet params [['k']] = .ok (leaf [10]) := by
  decide +kernel

theorem nestedGet_inst {K V : Type} (i j : DecidableEq K) (d : Obj K V) (p : List K) :
    @nestedGet K V i d p = @nestedGet K V j d p := by rw [Subsingleton.elim i j]

/-- **C76, failure.** The same selection order breaks ADVI samples when the state is read from a checkpoint in the session of
the fit: with all noise zero the sample is not the mean, the arrays are exchanged. -/
theorem C76_disk_false :
    let ps : List (List (List Char)) := (List.range 11).map fun i => [[Char.ofNat (97 + i)]]
    let params : Obj (List Char) (List ℝ) := (List.range 11).foldr (fun i o => cons [Char.ofNat (97 + i)] (leaf [(i : ℝ)]) o) nil
    ∃ st d', adviPair ['m'] ['s'] params ps ((List.range 11).map Nat.cast) (List.replicate 11 0) = .ok st ∧
      adviSample ['m'] ['s'] params ps st (decode (encode ps)) (List.replicate 11 0) = .ok d' ∧
      nestedGet params [['c']] = .ok (leaf [2]) ∧ nestedGet d' [['c']] = .ok (leaf [10]) := by
  have hdec : decode (encode ((List.range 11).map fun i => [[Char.ofNat (97 + i)]])) =
      (["a", "b", "k", "c", "d", "e", "f", "g", "h", "i", "j"].map fun s => [s.toList]) := C30_eleven_false
  intro ps params
  have hps : ps = [[['a']], [['b']], [['c']], [['d']], [['e']], [['f']], [['g']], [['h']], [['i']], [['j']], [['k']]] := by
    decide +kernel
  have hdec' : decode (encode ps) =
      [[['a']], [['b']], [['k']], [['c']], [['d']], [['e']], [['f']], [['g']], [['h']], [['i']], [['j']]] := by
    decide +kernel
  let mf : List (List Char) → List ℝ := fun p => match nestedGet params p with
    | .ok o => leafVal o
    | .error _ => []
  have hget : ∀ i < 11, nestedGet params [[Char.ofNat (97 + i)]] = .ok (leaf [(i : ℝ)]) := by
    intro i hi
    interval_cases i <;> rfl
  have hmf : ∀ i < 11, mf [[Char.ofNat (97 + i)]] = [(i : ℝ)] := by
    intro i hi
    show (match nestedGet params [[Char.ofNat (97 + i)]] with | .ok o => leafVal o | .error _ => []) = _
    rw [hget i hi]; rfl
  have hmem : ∀ p ∈ ps, ∃ i < 11, p = [[Char.ofNat (97 + i)]] := by
    intro p hp
    obtain ⟨i, hi, rfl⟩ := List.mem_map.1 hp
    exact ⟨i, List.mem_range.1 hi, rfl⟩
  have h : ∀ p ∈ ps, nestedGet params p = .ok (leaf (mf p)) := by
    intro p hp
    obtain ⟨i, hi, rfl⟩ := hmem p hp
    rw [hmf i hi, hget i hi]
  have h' : ∀ p ∈ ps, @nestedGet _ _ (fun a b => LinearOrder.toDecidableEq a b) params p = .ok (leaf (mf p)) := by
    intro p hp
    exact (nestedGet_inst _ _ _ _).trans (h p hp)
  have hone : ∀ p ∈ ps, (mf p).length = 1 := by
    intro p hp
    obtain ⟨i, hi, rfl⟩ := hmem p hp
    rw [hmf i hi]; rfl
  have hlen : ((ps.map mf).flatten).length = 11 := by
    rw [List.length_flatten, List.map_map, List.map_congr_left (f := List.length ∘ mf) (g := fun _ => 1) fun p hp => hone p hp]
    rfl
  have hperm : ps.Perm (decode (encode ps)) := by
    rw [hdec', hps]; decide +kernel
  have hap : ps.Pairwise Apart := by
    rw [hps]
    simp [Apart]
  obtain ⟨st, d', vf, sf, wf, h1, h2, h3, h4, h5, h6, -⟩ := advi_sample_order ['m'] ['s'] (by decide) params ps
    (decode (encode ps)) mf hap h' hperm ((List.range 11).map Nat.cast) (List.replicate 11 0) (List.replicate 11 0)
    (by rw [hlen]; rfl) (by rw [hlen]; rfl) (by rw [hlen]; rfl)
  refine ⟨st, d', h1, h2, by exact_mod_cast hget 2 (by norm_num), ?_⟩
  have hc : [['c']] ∈ ps := by rw [hps]; decide
  have hd' : nestedGet d' [['c']] = .ok (leaf (wf [['c']])) := (nestedGet_inst _ _ _ _).trans (h5 _ hc).2.2.2
  rw [hd']
  have sing : ∀ f : List (List Char) → List ℝ, (∀ p ∈ ps, (f p).length = 1) → ∃ g : List (List Char) → ℝ, ∀ p ∈ ps, f p = [g p] :=
    fun f hf => ⟨fun p => (f p).headD 0, fun p hp => by
      obtain ⟨x, hx⟩ := List.length_eq_one_iff.1 (hf p hp)
      show f p = [(f p).headD 0]
      rw [hx]; rfl⟩
  obtain ⟨gv, hgv⟩ := sing vf fun p hp => (h5 p hp).1.trans (hone p hp)
  obtain ⟨gs, hgs⟩ := sing sf fun p hp => (h5 p hp).2.1.trans (hone p hp)
  obtain ⟨gw, hgw⟩ := sing wf fun p hp => (h5 p hp).2.2.1.trans (hone p hp)
  have fl : ∀ (l : List (List (List Char))) (f : List (List Char) → List ℝ) (g : List (List Char) → ℝ),
      (∀ p ∈ l, f p = [g p]) → (l.map f).flatten = l.map g := by
    intro l f g hfg
    induction l with
    | nil => rfl
    | cons a l ih => rw [List.map_cons, List.flatten_cons, hfg a (by simp), ih fun p hp => hfg p (by simp [hp])]; rfl
  have hgv' : ∀ p ∈ decode (encode ps), vf p = [gv p] := fun p hp => hgv p (hperm.mem_iff.2 hp)
  have hgs' : ∀ p ∈ decode (encode ps), sf p = [gs p] := fun p hp => hgs p (hperm.mem_iff.2 hp)
  rw [fl _ _ _ hgw, fl _ _ _ hgv', fl _ _ _ hgs', hdec', hps] at h6
  rw [fl _ _ _ hgv, hps] at h3
  have hk : gv [['k']] = 10 := by
    have := congrArg (fun l => l.getD 10 0) h3
    simpa using this
  have hw : gw [['c']] = gv [['k']] + Real.exp (gs [['k']]) * 0 := by
    have := congrArg (fun l => l.getD 2 0) h6
    simpa [forwardList, List.replicate] using this
  rw [hgw _ hc, hw, hk]
  norm_num

/-! ## SWAG samples -/

open MeasureTheory in
/-- **C77, moments.** Whatever the distribution of the noise, if it has mean zero and identity covariance (as standard normal
noise has), the sampled parameters have the averaged parameters as mean, and covariance half the diagonal of the squared
standard deviations plus `1 / (2 rank)` times the deviations times their transpose. -/
theorem C77_moments [DecidableEq ι] {Ω : Type} [MeasurableSpace Ω] (μ : Measure Ω) [IsProbabilityMeasure μ] {r : ℕ} (hr : 0 < r)
    (mean std : ι → ℝ) (dev : ι → Fin r → ℝ) (z : ι ⊕ Fin r → Ω → ℝ) (hi : ∀ k, Integrable (z k) μ)
    (hii : ∀ k l, Integrable (fun ω => z k ω * z l ω) μ) (h0 : ∀ k, ∫ ω, z k ω ∂μ = 0)
    (h1 : ∀ k l, ∫ ω, z k ω * z l ω ∂μ = if k = l then 1 else 0) :
    let x := fun ω => swagSample mean std dev (fun i => z (.inl i) ω) (fun j => z (.inr j) ω)
    (∀ i, ∫ ω, x ω i ∂μ = mean i) ∧
    (∀ i j, ∫ ω, (x ω i - mean i) * (x ω j - mean j) ∂μ =
      (if i = j then std i ^ 2 else 0) / 2 + (∑ k, dev i k * dev j k) / (2 * r)) := by
  intro x
  let A : ι → ι ⊕ Fin r → ℝ := fun i k => match k with
    | .inl a => if a = i then 1 / Real.sqrt 2 * std i else 0
    | .inr b => 1 / Real.sqrt 2 / Real.sqrt r * dev i b
  have hx : ∀ ω i, x ω i = mean i + ∑ k, A i k * z k ω := by
    intro ω i
    simp only [x, swagSample, Fintype.sum_sum_type, A, ite_mul, zero_mul, Finset.sum_ite_eq', Finset.mem_univ, if_true]
    rw [Finset.mul_sum]
    simp only [mul_assoc, add_assoc]
  constructor
  · intro i
    simp only [hx]
    rw [integral_add (integrable_const _) (integrable_finsetSum _ fun k _ => (hi k).const_mul _),
      integral_finsetSum _ fun k _ => (hi k).const_mul _]
    simp [integral_const_mul, h0]
  · intro i j
    have hprod : ∀ ω, (x ω i - mean i) * (x ω j - mean j) = ∑ k, ∑ l, A i k * A j l * (z k ω * z l ω) := by
      intro ω
      rw [hx, hx, add_sub_cancel_left, add_sub_cancel_left, Finset.sum_mul_sum]
      exact Finset.sum_congr rfl fun k _ => Finset.sum_congr rfl fun l _ => by ring
    simp only [hprod]
    rw [integral_finsetSum _ fun k _ => integrable_finsetSum _ fun l _ => (hii k l).const_mul _]
    have : ∀ k, ∫ ω, ∑ l, A i k * A j l * (z k ω * z l ω) ∂μ = A i k * A j k := by
      intro k
      rw [integral_finsetSum _ fun l _ => (hii k l).const_mul _]
      simp [integral_const_mul, h1]
    simp only [this]
    rw [Fintype.sum_sum_type]
    have s2 : Real.sqrt 2 * Real.sqrt 2 = 2 := Real.mul_self_sqrt (by norm_num)
    have sr : Real.sqrt r * Real.sqrt r = r := Real.mul_self_sqrt (by positivity)
    have hrp : (0 : ℝ) < r := by exact_mod_cast hr
    have hsr : Real.sqrt r ≠ 0 := (Real.sqrt_pos.2 hrp).ne'
    have hs2 : Real.sqrt 2 ≠ 0 := (Real.sqrt_pos.2 (by norm_num : (0 : ℝ) < 2)).ne'
    congr 1
    · simp only [A]
      by_cases hij : i = j
      · subst hij
        simp only [ite_mul, zero_mul, Finset.sum_ite_eq', Finset.mem_univ, if_true]
        field_simp
        rw [sq (Real.sqrt 2), s2]; ring
      · simp only [ite_mul, zero_mul, Finset.sum_ite_eq', Finset.mem_univ, if_true, if_neg hij, mul_zero, zero_div]
    · simp only [A]
      rw [Finset.sum_div]
      refine Finset.sum_congr rfl fun k _ => ?_
      rw [show (2 : ℝ) * r = (Real.sqrt 2 * Real.sqrt 2) * (Real.sqrt r * Real.sqrt r) by rw [s2, sr]]
      field_simp

/-! ## Examples -/

/-- Forward and loss with one sample. -/
example : adviForward (fun _ : Fin 1 => 2) (fun _ => 0) (fun _ => 3) = (fun _ => 5, 0) := by
  simp only [adviForward, Real.exp_zero, Finset.sum_const_zero]
  norm_num

/-- A selection with two arrays, in sorted order; the hypotheses of the sampling theorem hold. -/
example : ([[1], [2, 1]] : List (List ℕ)).Pairwise Apart ∧ ([[1], [2, 1]] : List (List ℕ)).Pairwise (· ≤ ·) ∧
    nestedGet (cons 1 (leaf [5, 6]) (cons 2 (cons 1 (leaf [7]) nil) nil) : Obj ℕ (List ℕ)) [2, 1] = .ok (leaf [7]) ∧
    adviTrainStart (cons 1 (leaf [5, 6]) (cons 2 (cons 1 (leaf [7]) nil) nil) : Obj ℕ (List ℕ)) [[1], [2, 1]] [5, 6, 7] =
      .ok [5, 6, 7] ∧
    swagBack (cons 1 (leaf [5, 6]) (cons 2 (cons 1 (leaf [7]) nil) nil) : Obj ℕ (List ℕ)) [[1], [2, 1]] [[1], [2, 1]]
      (cons 1 (leaf [8, 9]) (cons 2 (cons 1 (leaf [10]) nil) nil)) =
      .ok (cons 1 (leaf [8, 9]) (cons 2 (cons 1 (leaf [10]) nil) nil)) := by
  refine ⟨by simp [Apart], by decide, rfl, by decide +kernel, by decide +kernel⟩

open MeasureTheory in
/-- Noise with the moments required exists: a fair sign for the only standard deviation and an independent one for the only
deviation, on four points. -/
example : ∃ (μ : Measure (Bool × Bool)) (_ : IsProbabilityMeasure μ) (z : Fin 1 ⊕ Fin 1 → Bool × Bool → ℝ),
    (∀ k, Integrable (z k) μ) ∧ (∀ k l, Integrable (fun ω => z k ω * z l ω) μ) ∧ (∀ k, ∫ ω, z k ω ∂μ = 0) ∧
    (∀ k l, ∫ ω, z k ω * z l ω ∂μ = if k = l then 1 else 0) := by
  refine ⟨(PMF.uniformOfFintype (Bool × Bool)).toMeasure, inferInstance, fun k ω => match k with
    | .inl _ => if ω.1 then 1 else -1
    | .inr _ => if ω.2 then 1 else -1, fun k => Integrable.of_finite, fun k l => Integrable.of_finite, ?_, ?_⟩
  · intro k
    rw [PMF.integral_eq_sum]
    rcases k with k | k <;> simp [Fintype.sum_prod_type]
  · intro k l
    rw [PMF.integral_eq_sum]
    rcases k with k | k <;> rcases l with l | l <;> simp [Fintype.sum_prod_type, Subsingleton.elim k l] <;> norm_num

/-! ### Concrete cases that meet the hypotheses of the theorems above -/

/-- A tree with two selected arrays, and the arrays. -/
def exAdvi : Obj ℕ (List ℝ) := cons 1 (leaf [5, 6]) (cons 2 (cons 1 (leaf [7]) nil) nil)

def exAdviAt : List ℕ → List ℝ := fun p => if p = [1] then [5, 6] else [7]

theorem exAdvi_at : ∀ p ∈ ([[1], [2, 1]] : List (List ℕ)), nestedGet exAdvi p = .ok (leaf (exAdviAt p)) := by
  intro p hp
  simp only [List.mem_cons, List.not_mem_nil, or_false] at hp
  rcases hp with rfl | rfl
  · simp [exAdviAt]; rfl
  · simp [exAdviAt]; rfl

theorem exAdvi_apart : ([[1], [2, 1]] : List (List ℕ)).Pairwise Apart := by simp [Apart]

example := C76_gaussian (ι := Fin 2) ![1, 2] ![3, 1 / 2] ![0, 5] (by intro i; fin_cases i <;> simp)
example := C76_loss (ι := Fin 2) (n := 3) (fun x => x 0 ^ 2 + x 1) ![1, 2] ![0, -1] (-5) (fun s i => s + i)
example := C76_recover 0 3 (by decide) exAdvi [[1], [2, 1]] [[2, 1], [1]] exAdviAt exAdvi_apart exAdvi_at
  (List.Perm.swap _ _ _) [1, 2, 3] [-1, -2, -3] (by simp [exAdviAt]) (by simp [exAdviAt])
example := C76_sample 0 3 (by decide) exAdvi [[1], [2, 1]] exAdviAt exAdvi_apart exAdvi_at
  [1, 2, 3] [-1, -2, -3] [1 / 2, 0, 4] (by simp [exAdviAt]) (by simp [exAdviAt]) (by simp [exAdviAt])
example := C76_train_start exAdvi [[1], [2, 1]] exAdviAt exAdvi_apart exAdvi_at (fun p => (exAdviAt p).map (· + 1))
  (by simp)
example := C76_train_start_sorted exAdvi [[1], [2, 1]] exAdviAt exAdvi_apart exAdvi_at (by decide)
example := C76_log_stds exAdvi [[1], [2, 1]] exAdviAt exAdvi_apart exAdvi_at
example := C77_back exAdvi exAdvi [[1], [2, 1]] exAdviAt exAdviAt exAdvi_apart exAdvi_at exAdvi_at (fun _ _ => rfl) (by decide)

end Verif.Props
