import Verif.Model.LoaderEpochs
import Verif.Props.Loader
import Verif.Props.Extras
import Verif.Props.BatchLaw

/-!
Property C151: what a shuffled array loader yields in successive epochs.
-/
set_option linter.unusedSectionVars false

namespace Verif.Props.LoaderEpochs

open Verif.Loader Verif.LoaderEpochs Verif.Props

variable {α β : Type}

theorem shuffled_eq (g : Numpy) (x : List α) (y : List β) (bs : ℕ) (hbs : 0 < bs) (h : x.length = y.length) (pf : Bool)
    (hg : (g.seeded 0 x.length).Perm (List.range x.length)) (p : ℕ) :
    dataLoader g x y (some bs) true pf p = .ok ((List.range ((x.length - 1) / bs + 1)).map fun i =>
      (((gather x (g.seeded 0 x.length)).drop (i * bs)).take bs, ((gather y (g.seeded 0 x.length)).drop (i * bs)).take bs)) := by
  unfold dataLoader iterBatchArray drawPerm
  simp only [if_true]
  set q := g.seeded 0 x.length with hq
  have hlt : ∀ i ∈ q, i < x.length := fun i hi => List.mem_range.1 (hg.mem_iff.1 hi)
  have hlt' : ∀ i ∈ q, i < y.length := fun i hi => h ▸ hlt i hi
  have hlen : q.length = x.length := by rw [hg.length_eq, List.length_range]
  have h1 : (gather x q).length = x.length := by rw [gather_length x q hlt, hlen]
  have h2 : (gather y q).length = y.length := by rw [gather_length y q hlt', hlen, h]
  have hll : fromBatchArray (gather x q) (gather y q) (some bs) none pf = fromBatchArray x y (some bs) (some q) pf := by
    unfold fromBatchArray
    simp only [h1, h2]
  rw [← hll, C21_batches _ _ bs hbs (by rw [h1, h2, h]) pf, h1]

/-- **C151, every epoch is the same.** Whatever numpy draws, all passes over a loader built from arrays yield the same batches in the same order, shuffled or not. -/
theorem C151_same (g : Numpy) (x : List α) (y : List β) (bs : Option ℕ) (shuffle pf : Bool) (p q : ℕ) :
    dataLoader g x y bs shuffle pf p = dataLoader g x y bs shuffle pf q ∧ arrayLoader g x bs shuffle pf p = arrayLoader g x bs shuffle pf q := ⟨rfl, rfl⟩

/-- **C151, a pass.** Every pass sees every row once, inputs and targets together; without shuffling in their order, with shuffling and a batch size in the order
that numpy draws from the seed 0. -/
theorem C151_pass (g : Numpy) (x : List α) (y : List β) (bs : ℕ) (hbs : 0 < bs) (h : x.length = y.length) (shuffle pf : Bool)
    (hg : (g.seeded 0 x.length).Perm (List.range x.length)) (p : ℕ) :
    ∃ l, dataLoader g x y (some bs) shuffle pf p = .ok l ∧ Aligned l ∧ (pairs l).Perm (x.zip y) ∧ (shuffle = false → pairs l = x.zip y) ∧
      (shuffle = true → pairs l = gather (x.zip y) (g.seeded 0 x.length)) := by
  obtain ⟨l, hl, ha, hp, hn⟩ := C21_one_pass x y (some bs) (by simp [hbs.ne']) h pf (if shuffle then some (drawPerm g (some 0) p x.length) else none)
    (by intro q hq; cases shuffle <;> simp_all [drawPerm])
  refine ⟨l, hl, ha, hp, fun hs => hn (by simp [hs]), fun hs => ?_⟩
  subst hs
  simp only [if_true, drawPerm] at hl
  set q := g.seeded 0 x.length with hq
  have hlt : ∀ i ∈ q, i < x.length := fun i hi => List.mem_range.1 (hg.mem_iff.1 hi)
  have hlt' : ∀ i ∈ q, i < y.length := fun i hi => h ▸ hlt i hi
  have hlen : q.length = x.length := by rw [hg.length_eq, List.length_range]
  have h1 : (gather x q).length = x.length := by rw [gather_length x q hlt, hlen]
  have h2 : (gather y q).length = y.length := by rw [gather_length y q hlt', hlen, h]
  obtain ⟨l', hl', -, -, hn'⟩ := C21_one_pass (gather x q) (gather y q) (some bs) (by simp [hbs.ne']) (by rw [h1, h2, h]) pf none (by simp)
  have hll : fromBatchArray (gather x q) (gather y q) (some bs) none pf = fromBatchArray x y (some bs) (some q) pf := by
    unfold fromBatchArray
    simp only [h1, h2]
  rw [hll, hl] at hl'
  injection hl' with hl'
  rw [hl', hn' rfl]
  exact gather_zip x y h q hlt

/-- **C151, separate loaders stay matched.** A loader of inputs and a loader of targets built separately from arrays of the same length, both shuffled or both not, yield, in any passes, the inputs
and the targets of the batches of the data loader. -/
theorem C151_matched (g : Numpy) (x : List α) (y : List β) (bs : Option ℕ) (h : x.length = y.length) (shuffle pf : Bool)
    (hg : (g.seeded 0 x.length).Perm (List.range x.length)) (p q r : ℕ) :
    arrayLoader g x bs shuffle pf p = (dataLoader g x y bs shuffle pf r).map toInputs ∧
    arrayLoader g y bs shuffle pf q = (dataLoader g x y bs shuffle pf r).map toTargets := by
  have hperm : ∀ z ∈ (if shuffle then some (g.seeded 0 x.length) else none), z.Perm (List.range x.length) := by
    intro z hz; cases shuffle <;> simp_all
  refine ⟨C21_inputs_loader x y bs h pf _ hperm, ?_⟩
  have := C21_targets_loader x y bs h pf _ hperm
  unfold arrayLoader iterArray drawPerm
  rw [← h]
  exact this

/-- **C151, a training.** The batches of `e` epochs are those of the first pass, `e` times over: the batch of step `t` is the batch `t mod n` of the first pass. -/
theorem C151_run (g : Numpy) (x : List α) (y : List β) (bs : Option ℕ) (shuffle pf : Bool) (l : List (Batch α β))
    (hl : dataLoader g x y bs shuffle pf 0 = .ok l) (e : ℕ) :
    visited (dataLoader g x y bs shuffle pf) e = .ok (List.replicate e l).flatten ∧
    ∀ t < e * l.length, (List.replicate e l).flatten[t]? = l[t % l.length]? := by
  constructor
  · induction e with
    | zero => rfl
    | succ e ih =>
      have he : dataLoader g x y bs shuffle pf e = .ok l := hl
      simp only [visited, ih, he, bind, Except.bind]
      rw [List.replicate_succ', List.flatten_append]
      simp
  · induction e with
    | zero => simp
    | succ e ih =>
      intro t ht
      rw [List.replicate_succ', List.flatten_append, List.flatten_singleton]
      have hlen : (List.replicate e l).flatten.length = e * l.length := by simp
      by_cases h : t < e * l.length
      · rw [List.getElem?_append_left (by rw [hlen]; exact h), ih t h]
      · push Not at h
        rw [List.getElem?_append_right (by rw [hlen]; exact h), hlen]
        have h1 : t - e * l.length < l.length := by rw [Nat.succ_mul] at ht; omega
        congr 1
        conv_rhs => rw [show t = (t - e * l.length) + l.length * e by rw [mul_comm l.length]; omega]
        rw [Nat.add_mul_mod_self_left, Nat.mod_eq_of_lt h1]

/-- A numpy in which two passes without a seed draw different permutations. -/
def rotating : Numpy := ⟨fun s n => (List.range n).rotate (s + 1), fun p n => (List.range n).rotate p⟩

/-- **C151, refuted: "the data loader should shuffle at every call".** The loader's batches never change from one pass to another, while the iterable that it is made of, without a seed, would shuffle anew. Without
a batch size nothing is shuffled at all. -/
theorem C151_shuffle_false :
    (∀ (g : Numpy) (x : List α) (y : List β) (bs : Option ℕ) (p q : ℕ), dataLoader g x y bs true false p = dataLoader g x y bs true false q) ∧
    (∃ p q, iterBatchArray rotating [1, 2, 3, 4] [10, 20, 30, 40] (some 2) true false none p ≠ iterBatchArray rotating [1, 2, 3, 4] [10, 20, 30, 40] (some 2) true false none q) ∧
    ∀ (g : Numpy) (x : List α) (y : List β) (seed : Option ℕ) (p : ℕ), iterBatchArray g x y none true false seed p = .ok [(x, y)] :=
  ⟨fun _ _ _ _ _ _ => rfl, ⟨0, 1, by decide⟩, fun _ _ _ _ _ => rfl⟩

/-! ## What this does to SGLD -/

open BatchLaw Langevin LangevinSchedule Verif.SGMCMC MeasureTheory ProbabilityTheory Filter Topology Finset

variable {ι Ω : Type} [MeasurableSpace Ω]

/-- The batch of targets that step `t` of the training uses. -/
def stepBatch (l : List (Batch α (ι → ℝ))) (t : ℕ) : List (ι → ℝ) := ((l[t % l.length]?).map Prod.snd).getD []

/-- **C151, SGLD on a shuffled loader.** Let SGLD learn the mean of normal data `y` from a shuffled loader with a batch size that divides the number of rows. Every sample is normal (C121), and its mean
approaches a cycle of one epoch whose average is the posterior mean; the shuffling happens once and for all. -/
theorem C151_sgld (P : Measure Ω) [IsProbabilityMeasure P] (normal : Ω → Key → ι → ℝ) (i : ι)
    (hm : ∀ k, Measurable fun ω => normal ω k i) (hi : iIndepFun (fun k ω => normal ω k i) P)
    (hl : ∀ k, P.map (fun ω => normal ω k i) = gaussianReal 0 1) (resample : Option ℕ) (h : ℝ) (hh : 0 < h) (v w : ι → ℝ) (hv : 0 < v i) (hw : 0 < w i)
    (g : Numpy) (x : List α) (y : List (ι → ℝ)) (bs : ℕ) (hbs : 0 < bs) (hxy : x.length = y.length) (hy : y ≠ []) (hdiv : bs ∣ y.length) (pf : Bool)
    (hg : (g.seeded 0 x.length).Perm (List.range x.length)) (hstep : h < 2 * postVar y.length (v i) (w i)) (key : Key) (x₀ : ι → ℝ) :
    ∃ l, (∀ p, dataLoader g x y (some bs) true pf p = .ok l) ∧
      ∃ m : ℕ → ℝ, (∀ t, P.map (fun ω => sgldOn resample h y.length v w (stepBatch l) (normal ω) key x₀ t i) =
          gaussianReal (m t) (Real.toNNReal (schedVar (fun _ => h) (postVar y.length (v i) (w i)) t))) ∧
        ∃ c : ℕ → ℝ, (∀ t, c (t + y.length / bs) = c t) ∧ Tendsto (fun t => m t - c t) atTop (𝓝 0) ∧
          ∑ j ∈ range (y.length / bs), c j = (y.length / bs : ℕ) * centre y.length (v i) (w i) (y.map (· i)) := by
  have hY := hxy ▸ hg
  have hn : 0 < y.length := List.length_pos_iff.2 hy
  obtain ⟨k, hk⟩ := hdiv
  have hk0 : 0 < k := by
    rcases Nat.eq_zero_or_pos k with rfl | h0
    · rw [mul_zero] at hk; omega
    · exact h0
  have hkd : y.length / bs = k := by rw [hk, Nat.mul_div_cancel_left _ hbs]
  have hnum : (x.length - 1) / bs + 1 = k := by
    rw [hxy, hk]
    obtain ⟨k', rfl⟩ := Nat.exists_eq_succ_of_ne_zero hk0.ne'
    have : bs * (k' + 1) - 1 = (bs - 1) + bs * k' := by rw [Nat.mul_succ]; omega
    rw [Nat.succ_eq_add_one, this, Nat.add_mul_div_left _ _ hbs, Nat.div_eq_of_lt (by omega)]
    omega
  set Y := gather y (g.seeded 0 x.length) with hYd
  have hYp : Y.Perm y := gather_perm y _ (by rw [← hxy]; exact hg)
  have hYl : Y.length = bs * k := by rw [hYp.length_eq, hk]
  set l := (List.range k).map fun j => (((gather x (g.seeded 0 x.length)).drop (j * bs)).take bs, (Y.drop (j * bs)).take bs) with hld
  have hload : ∀ p, dataLoader g x y (some bs) true pf p = .ok l := fun p => by
    rw [shuffled_eq g x y bs hbs hxy pf hg p, hnum]
  have hll : l.length = k := by simp [hld]
  have hbatch : ∀ t, stepBatch l t = (Y.drop (t % k * bs)).take bs := fun t => by
    have ht := Nat.mod_lt t hk0
    unfold stepBatch
    rw [hll, hld, List.getElem?_map, List.getElem?_range ht]
    rfl
  have hblen : ∀ t, (stepBatch l t).length = bs := fun t => by
    have ht := Nat.mod_lt t hk0
    rw [hbatch, List.length_take, List.length_drop, hYl]
    have : t % k * bs + bs ≤ bs * k := by
      have := Nat.mul_le_mul_left bs (Nat.succ_le_of_lt ht)
      rw [Nat.mul_succ] at this
      rw [mul_comm (t % k)]
      exact this
    omega
  have hbne : ∀ t, stepBatch l t ≠ [] := fun t h0 => by
    have := hblen t
    rw [h0] at this
    simp at this
    omega
  refine ⟨l, hload, _, fun t => C121_law P normal i hm hi hl resample h hh.le y.length v w hv hw (stepBatch l) hbne key x₀ t, ?_⟩
  obtain ⟨c, hc1, hc2, hc3⟩ := C121_cycle h (postVar y.length (v i) (w i)) (postVar_pos _ _ _ hv hw) hh hstep
    (fun t => centre y.length (v i) (w i) ((stepBatch l t).map (· i))) k hk0 (fun t => by simp only [hbatch, Nat.add_mod_right]) (x₀ i)
  refine ⟨c, by rw [hkd]; exact hc1, hc3, ?_⟩
  rw [hkd, hc2]
  have hep := C121_epoch y.length (v i) (w i) ((List.range k).map fun j => (stepBatch l j).map (· i)) bs hbs (by
    intro b hb
    obtain ⟨j, -, rfl⟩ := List.mem_map.1 hb
    rw [List.length_map, hblen])
  rw [List.map_map, List.length_map, List.length_range] at hep
  have hsum : ∑ j ∈ range k, centre y.length (v i) (w i) ((stepBatch l j).map (· i)) =
      ((List.range k).map ((centre y.length (v i) (w i)) ∘ fun j => (stepBatch l j).map (· i))).sum := by
    rfl
  rw [hsum, hep]
  have hflat : ((List.range k).map fun j => (stepBatch l j).map (· i)).flatten = Y.map (· i) := by
    have h1 : ((List.range k).map fun j => (stepBatch l j).map (· i)) = ((List.range k).map fun j => (Y.drop (j * bs)).take bs).map (List.map (· i)) := by
      rw [List.map_map]
      refine List.map_congr_left fun j hj => ?_
      rw [hbatch, Nat.mod_eq_of_lt (List.mem_range.1 hj)]
      rfl
    rw [h1, ← List.map_flatten, chunks_flatten, List.take_of_length_le (by rw [hYl, mul_comm])]
  rw [hflat]
  have hpm := hYp.map (· i)
  unfold centre
  rw [hpm.sum_eq, hpm.length_eq]

/-- **C151, refuted: one sample per epoch is unbiased because the loader shuffles.** Two batches, in the order drawn from the seed 0: the mean of the sample at the end of an epoch tends to a value that is off as soon as
the centres of the two batches differ. -/
theorem C151_thinning_false (h : ℝ) (hh : 0 < h) (v w : ℝ) (hv : 0 < v) (hw : 0 < w) (hstep : h < 2 * postVar 2 v w) (a b : ℝ) (hab : a ≠ b) (x₀ : ℝ) :
    ∃ l : List (Batch ℕ (Unit → ℝ)), (∀ p, dataLoader rotating [0, 1] [fun _ => a, fun _ => b] (some 1) true false p = .ok l) ∧
      ∃ L, Tendsto (fun e => meanOn h (postVar 2 v w) (fun t => centre 2 v w ((stepBatch l t).map (· ()))) x₀ (2 * e)) atTop (𝓝 L) ∧ L ≠ centre 2 v w [a, b] := by
  refine ⟨[([1], [fun _ => b]), ([0], [fun _ => a])], fun p => ?_, ?_⟩
  · rw [shuffled_eq rotating ([0, 1] : List ℕ) ([fun _ => a, fun _ => b] : List (Unit → ℝ)) 1 (by decide) rfl false (by decide) p]
    have hr : rotating.seeded 0 2 = [1, 0] := by decide
    simp [hr, gather, List.range_succ]
  have hs := postVar_pos 2 v w hv hw
  obtain ⟨h1, h2⟩ := C121_thinning_false h (postVar 2 v w) hs hh hstep
    (fun t => centre 2 v w ((stepBatch ([([1], [fun _ => b]), ([0], [fun _ => a])] : List (Batch ℕ (Unit → ℝ))) t).map (· ()))) (fun t => by simp [stepBatch]) x₀
  refine ⟨_, h1, ?_⟩
  have e0 : centre 2 v w ((stepBatch ([([1], [fun _ => b]), ([0], [fun _ => a])] : List (Batch ℕ (Unit → ℝ))) 0).map (· ())) = centre 2 v w [b] := rfl
  have e1 : centre 2 v w ((stepBatch ([([1], [fun _ => b]), ([0], [fun _ => a])] : List (Batch ℕ (Unit → ℝ))) 1).map (· ())) = centre 2 v w [a] := rfl
  have hmean : (centre 2 v w [b] + centre 2 v w [a]) / 2 = centre 2 v w [a, b] := by
    unfold centre
    simp
    ring
  rw [e0, e1, hmean] at h2 ⊢
  refine h2 fun hcc => hab ?_
  unfold centre at hcc
  have hne : postVar 2 v w * ((2 : ℕ) / v) ≠ 0 := by positivity
  have := mul_left_cancel₀ hne hcc
  simpa using this.symm

/-! ### Concrete cases that meet the hypotheses of the theorems above -/

example := C151_same rotating [1, 2, 3, 4] ["a", "b", "c", "d"] (some 2) true false 0 5
example := C151_pass rotating ([1, 2, 3, 4] : List ℕ) ["a", "b", "c", "d"] 2 (by decide) rfl true false (by decide) 3
example : dataLoader rotating [1, 2, 3, 4] ["a", "b", "c", "d"] (some 2) true false 7 = .ok [([2, 3], ["b", "c"]), ([4, 1], ["d", "a"])] := by decide
example := C151_matched rotating ([1, 2, 3, 4] : List ℕ) ["a", "b", "c", "d"] (some 2) rfl true true (by decide) 3 4 5
example := C151_run rotating [1, 2, 3, 4] ["a", "b", "c", "d"] (some 2) true false _ rfl 6
example := C151_sgld (ι := Fin 2) (Measure.infinitePi fun _ : Key => gaussianReal 0 1) (fun ω k _ => ω k) 1
  (fun k => measurable_pi_apply k) (iIndepFun_infinitePi (X := fun _ x => x) fun _ => measurable_id)
  (fun k => Measure.infinitePi_map_eval _ k) none (1 / 10) (by norm_num) ![1, 2] ![3, 4] (by simp) (by simp) rotating ([1, 2, 3, 4] : List ℕ) [![1, 2], ![3, 4], ![5, 6], ![7, 8]] 2 (by decide)
  rfl (by simp) (by decide) true (by decide) (by simp [postVar]; norm_num)
example := C151_thinning_false (1 / 10) (by norm_num) 1 1 (by norm_num) (by norm_num) (by norm_num [postVar]) 3 4 (by norm_num) 0

end Verif.Props.LoaderEpochs
