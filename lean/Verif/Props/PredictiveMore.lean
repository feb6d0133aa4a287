import Verif.Model.PredictiveMore
import Verif.Props.OutputLayer
import Verif.Props.Predictive
import Verif.Props.PredictiveSets

/-!
# C98 entropies of regression predictions; C48, C64: intervals as arrays, conformal sets from loader to sets
-/

set_option linter.unusedSectionVars false

namespace Verif.Props
open Verif.Predictive Verif.OutputLayer Verif.Loader Verif.PredictiveMore

/-! ## C98 entropies -/

section entropies
variable {d T : ℕ}

/-- **C98, decomposition.** With the same random number generator, that is the same outputs and noise, the entropy is the sum of
the aleatoric and the epistemic one. -/
theorem C98_decomposition (n : ℕ) (hn : 0 < n) (o : ℕ → Out d) (z : ℕ → Fin T → Fin d → ℝ) :
    PredictiveMore.regEntropy n o z = regAleatoric n o z + regEpistemic n o z := by
  unfold PredictiveMore.regEntropy regAleatoric regEpistemic
  rw [loopSum_eq n hn, loopSum_eq n hn, loopSum_eq n hn, ← add_div, ← Finset.sum_add_distrib]
  congr 1
  apply Finset.sum_congr rfl
  intro i _
  rw [Finset.sum_sub_distrib]
  ring

/-- **C98, decomposition without a generator.** Each of the three methods draws its own noise when no generator is passed; the sum
is then not the entropy. -/
theorem C98_own_noise_false : ∃ (o : ℕ → Out 1) (z1 z2 z3 : ℕ → Fin 1 → Fin 1 → ℝ),
    PredictiveMore.regEntropy 1 o z1 ≠ regAleatoric 1 o z2 + regEpistemic 1 o z3 := by
  refine ⟨fun _ => (fun _ => 0, fun _ => 0), fun _ _ _ => 0, fun _ _ _ => 1, fun _ _ _ => 0, ?_⟩
  have h1 : ∀ (z : ℕ → Fin 1 → Fin 1 → ℝ) (a : ℝ), (∀ i t j, z i t j = a) →
      PredictiveMore.regEntropy 1 (fun _ => ((fun _ => 0, fun _ => 0) : Out 1)) z = (a ^ 2 + Real.log (2 * Real.pi)) / 2 := by
    intro z a hz
    simp [PredictiveMore.regEntropy, loopSum, logPred, targets, regSample, regLogProb, logsumexp, hz]
    ring
  have h2 : ∀ (z : ℕ → Fin 1 → Fin 1 → ℝ),
      regEpistemic 1 (fun _ => ((fun _ => 0, fun _ => 0) : Out 1)) z = 0 := by
    intro z
    simp [regEpistemic, loopSum, logPred, targets, regSample, regLogProb, logsumexp]
  have h3 := C98_decomposition 1 one_pos (fun _ => ((fun _ => 0, fun _ => 0) : Out 1)) (fun _ (_ : Fin 1) _ => 1)
  rw [h2, add_zero, h1 _ 1 (by simp)] at h3
  rw [h1 _ 0 (by simp), h2, ← h3]
  intro h
  linarith

/-- **C98, aleatoric entropy.** The mean over the posterior samples of the entropy of a Gaussian distribution with the variances of the
sample, `(d log 2πe + Σ log σ²) / 2`, up to the deviation from 1 of the mean squared noise: the means play no role. -/
theorem C98_aleatoric (n : ℕ) (hn : 0 < n) (hT : 0 < T) (o : ℕ → Out d) (z : ℕ → Fin T → Fin d → ℝ) :
    regAleatoric n o z = (∑ i ∈ Finset.range n,
      ((d * Real.log (2 * Real.pi) + ∑ j, (o i).2 j) / 2 + (∑ t, ∑ j, z i t j ^ 2) / (2 * T))) / n := by
  unfold regAleatoric
  rw [loopSum_eq n hn]
  congr 1
  apply Finset.sum_congr rfl
  intro i _
  exact C67_entropy hT (o i).1 (o i).2 (z i)

/-- **C98, temperature.** Scaling the variances by a temperature adds half its logarithm for every component to the aleatoric
entropy. -/
theorem C98_temperature (n : ℕ) (hn : 0 < n) (hT : 0 < T) (logTemp : ℝ) (o : ℕ → Out d)
    (z : ℕ → Fin T → Fin d → ℝ) :
    regAleatoric n (fun i => scaleVar logTemp (o i)) z = regAleatoric n o z + d * logTemp / 2 := by
  have hn' : (n : ℝ) ≠ 0 := by exact_mod_cast hn.ne'
  rw [C98_aleatoric n hn hT, C98_aleatoric n hn hT]
  have : ∀ i, (d * Real.log (2 * Real.pi) + ∑ j, (scaleVar logTemp (o i)).2 j) / 2 +
      (∑ t, ∑ j, z i t j ^ 2) / (2 * T) = ((d * Real.log (2 * Real.pi) + ∑ j, (o i).2 j) / 2 +
      (∑ t, ∑ j, z i t j ^ 2) / (2 * T)) + d * logTemp / 2 := by
    intro i
    simp only [scaleVar, Finset.sum_add_distrib, Finset.sum_const, Finset.card_univ, Fintype.card_fin, nsmul_eq_mul]
    ring
  simp only [this]
  rw [Finset.sum_add_distrib, Finset.sum_const, Finset.card_range, nsmul_eq_mul,
    add_div, mul_div_cancel_left₀ _ hn']

theorem logPred_ge (n : ℕ) (o : ℕ → Out d) (y : Fin d → ℝ) (i : ℕ) (hi : i < n) :
    regLogProb (o i).1 (o i).2 y - Real.log n ≤ logPred n o y := by
  unfold logPred
  have hn : 0 < n := by omega
  have h1 : Real.exp (regLogProb (o i).1 (o i).2 y) ≤
      ∑ s : Fin n, Real.exp (regLogProb (o s).1 (o s).2 y) :=
    Finset.single_le_sum (f := fun s : Fin n => Real.exp (regLogProb (o s).1 (o s).2 y))
      (fun s _ => (Real.exp_pos _).le) (Finset.mem_univ (⟨i, hi⟩ : Fin n))
  have h2 := Real.log_le_log (Real.exp_pos _) h1
  rw [Real.log_exp] at h2
  unfold logsumexp
  linarith

/-- **C98, upper bound.** The epistemic entropy never exceeds the logarithm of the number of posterior samples, whatever the
targets drawn; so the entropy exceeds the aleatoric one by no more than that. -/
theorem C98_epistemic_le (n : ℕ) (hn : 0 < n) (hT : 0 < T) (o : ℕ → Out d) (z : ℕ → Fin T → Fin d → ℝ) :
    regEpistemic n o z ≤ Real.log n ∧
    PredictiveMore.regEntropy n o z ≤ regAleatoric n o z + Real.log n := by
  have hn' : (0 : ℝ) < n := by exact_mod_cast hn
  have hT' : (0 : ℝ) < T := by exact_mod_cast hT
  have h : regEpistemic n o z ≤ Real.log n := by
    unfold regEpistemic
    rw [loopSum_eq n hn, div_le_iff₀ hn']
    have h1 : ∀ i ∈ Finset.range n, -((∑ t, (logPred n o (targets o z i t) -
        regLogProb (o i).1 (o i).2 (targets o z i t))) / (T : ℝ)) ≤ Real.log n := by
      intro i hi
      rw [← neg_div, div_le_iff₀ hT', ← Finset.sum_neg_distrib]
      have h2 : ∀ t ∈ (Finset.univ : Finset (Fin T)), -(logPred n o (targets o z i t) -
          regLogProb (o i).1 (o i).2 (targets o z i t)) ≤ Real.log n := by
        intro t _
        have := logPred_ge n o (targets o z i t) i (Finset.mem_range.mp hi)
        linarith
      have := Finset.sum_le_sum h2
      simp only [Finset.sum_const, Finset.card_univ, Fintype.card_fin, nsmul_eq_mul] at this
      linarith
    have := Finset.sum_le_sum h1
    simp only [Finset.sum_const, Finset.card_range, nsmul_eq_mul] at this
    linarith
  refine ⟨h, ?_⟩
  rw [C98_decomposition n hn]
  linarith

/-- **C98, agreement.** If all posterior samples give the same outputs, in particular if there is one, the epistemic entropy is
zero. -/
theorem C98_agree (n : ℕ) (hn : 0 < n) (o : ℕ → Out d) (z : ℕ → Fin T → Fin d → ℝ)
    (h : ∀ i < n, o i = o 0) : regEpistemic n o z = 0 := by
  have hn' : (n : ℝ) ≠ 0 := by exact_mod_cast hn.ne'
  have hlp : ∀ y, logPred n o y = regLogProb (o 0).1 (o 0).2 y := by
    intro y
    unfold logPred logsumexp
    have : ∀ s : Fin n, o s = o 0 := fun s => h s s.2
    simp only [this, Finset.sum_const, Finset.card_univ, Fintype.card_fin, nsmul_eq_mul]
    rw [Real.log_mul hn' (Real.exp_pos _).ne', Real.log_exp]
    ring
  unfold regEpistemic
  rw [loopSum_eq n hn, div_eq_zero_iff]
  left
  apply Finset.sum_eq_zero
  intro i hi
  simp [hlp, h i (Finset.mem_range.mp hi)]

/-- **C98, sign.** Unlike the mutual information it estimates, and unlike its counterpart for classification (C46), the epistemic
entropy can be negative: two posterior samples with means 0 and 10, one target drawn from each, the first ten standard deviations away. -/
theorem C98_negative_false : ∃ (o : ℕ → Out 1) (z : ℕ → Fin 1 → Fin 1 → ℝ),
    regEpistemic 2 o z < 0 ∧ PredictiveMore.regEntropy 2 o z < regAleatoric 2 o z := by
  set o : ℕ → Out 1 := fun i => (fun _ => if i = 0 then 0 else 10, fun _ => 0) with ho
  set z : ℕ → Fin 1 → Fin 1 → ℝ := fun i _ _ => if i = 0 then 10 else 0 with hz
  have hy : ∀ i t, targets o z i t = fun _ => 10 := by
    intro i t
    funext j
    by_cases hi : i = 0 <;> simp [targets, regSample, ho, hz, hi]
  have hl0 : regLogProb (o 0).1 (o 0).2 (fun _ => 10) = -50 - Real.log (2 * Real.pi) / 2 := by
    simp [regLogProb, ho]; ring
  have hl1 : regLogProb (o 1).1 (o 1).2 (fun _ => 10) = - Real.log (2 * Real.pi) / 2 := by
    simp [regLogProb, ho]; ring
  have hge := logPred_ge 2 o (fun _ => 10) 1 (by norm_num)
  have hlog : Real.log ((2 : ℕ) : ℝ) ≤ 1 := by
    have := Real.log_le_sub_one_of_pos (show (0 : ℝ) < 2 by norm_num)
    push_cast
    linarith
  rw [hl1] at hge
  replace hge := le_trans (sub_le_sub_left hlog _) hge
  have hneg : regEpistemic 2 o z < 0 := by
    unfold regEpistemic
    rw [loopSum_eq 2 (by norm_num)]
    simp only [Finset.sum_range_succ, Finset.sum_range_zero, hy, Finset.univ_unique, Finset.sum_singleton,
      Nat.cast_one, div_one, zero_add]
    rw [hl0, hl1]
    apply div_neg_of_neg_of_pos _ (by norm_num)
    generalize logPred 2 o (fun _ => 10) = lp at hge ⊢
    generalize Real.log (2 * Real.pi) = c at hge ⊢
    linarith
  refine ⟨o, z, hneg, ?_⟩
  rw [C98_decomposition 2 (by norm_num)]
  linarith

/-- Two samples with unit variance and mean squared noise 1. -/
example : regAleatoric (d := 1) (T := 2) 2 (fun i => (fun _ => i, fun _ => 0)) (fun _ t _ => if t = 0 then 1 else -1) =
    Real.log (2 * Real.pi) / 2 + 1 / 2 := by
  rw [C98_aleatoric 2 (by norm_num) (by norm_num)]
  simp
  ring

end entropies

/-! ## C48 intervals as arrays -/

section intervals
variable {K : Type} [Field K] [LinearOrder K] [IsStrictOrderedRing K] [FloorRing K]

theorem interval_total (l : List K) (hne : l ≠ []) (e : K) (type : String)
    (ht : type ∈ ["two-tailed", "right-tailed", "left-tailed"]) :
    ∃ r, credibleInterval l e type = .ok r ∧ r.length = if type = "two-tailed" then 2 else 1 := by
  simp only [List.mem_cons, List.not_mem_nil, or_false] at ht
  obtain ⟨⟨a, -, ha⟩, ⟨b, -, hb⟩, -⟩ := C48_one_tailed l hne e
  rcases ht with rfl | rfl | rfl
  · obtain ⟨a, b, h, -⟩ := interval_two l e hne
    exact ⟨_, h, by simp⟩
  · exact ⟨_, hb, by simp⟩
  · exact ⟨_, ha, by simp⟩

/-- **C48, all inputs.** For a scalar target and a type that is supported, both `credible_interval` methods return one row for each input, with two
numbers for the two-tailed type and one otherwise, each row being the interval of that input's samples; for more components they raise. -/
theorem C48_rows (cols : List (List (List K))) (hne : ∀ c ∈ cols, c.headD [] ≠ []) (e : K) (type : String)
    (ht : type ∈ ["two-tailed", "right-tailed", "left-tailed"]) :
    (∃ r, credibleIntervals 1 cols e type = .ok r ∧ layerIntervals 1 cols e type = .ok r ∧ r.length = cols.length ∧
      ∀ (i : ℕ) (c : List (List K)), cols[i]? = some c → ∃ row, r[i]? = some row ∧
        credibleInterval (c.headD []) e type = .ok row ∧ row.length = if type = "two-tailed" then 2 else 1) ∧
    ∀ d, d ≠ 1 → credibleIntervals d cols e type = .error "ValueError" ∧ layerIntervals d cols e type = .error "ValueError" := by
  have hc : ¬ ¬ (["two-tailed", "right-tailed", "left-tailed"].contains type = true) := by
    rw [not_not, List.contains_iff_mem]; exact ht
  constructor
  · have key : ∃ r, cols.mapM (fun c => credibleInterval (c.headD []) e type) = .ok r := by
      clear hc
      induction cols with
      | nil => exact ⟨[], rfl⟩
      | cons c cols ih =>
        obtain ⟨r, hr⟩ := ih fun c hc => hne c (by simp [hc])
        obtain ⟨a, ha, -⟩ := interval_total (c.headD []) (hne c (by simp)) e type ht
        exact ⟨a :: r, by rw [List.mapM_cons, ha, hr]; rfl⟩
    obtain ⟨r, hr⟩ := key
    have hf := mapM_ok.mp hr
    refine ⟨r, ?_, ?_, hf.length_eq.symm, ?_⟩
    · unfold credibleIntervals
      rw [if_neg hc, if_neg (by simp), hr]
    · unfold layerIntervals
      rw [if_neg hc, if_neg (by simp), hr]
    · intro i c hi
      obtain ⟨hlt, hci⟩ := List.getElem?_eq_some_iff.mp hi
      have h2 := (List.forall₂_iff_get.mp hf).2 i hlt (by rw [← hf.length_eq]; exact hlt)
      simp only [List.get_eq_getElem, hci] at h2
      obtain ⟨a, ha, hl⟩ := interval_total (c.headD []) (hne c (List.mem_of_getElem? hi)) e type ht
      refine ⟨a, ?_, ha, hl⟩
      rw [ha] at h2
      rw [List.getElem?_eq_getElem (by rw [← hf.length_eq]; exact hlt)]
      injection h2 with h2
      rw [h2]
  · intro d hd
    unfold credibleIntervals layerIntervals
    rw [if_neg hc, if_neg hc, if_pos hd]
    exact ⟨rfl, rfl⟩

/-- **C48, unknown types.** The predictive method raises the `ValueError` it announces; the method of the output layer raises an `IndexError` while it
puts together the message. -/
theorem C48_unknown_type_false (d : ℕ) (cols : List (List (List K))) (e : K) (type : String)
    (ht : type ∉ ["two-tailed", "right-tailed", "left-tailed"]) :
    credibleIntervals d cols e type = .error "ValueError" ∧ layerIntervals d cols e type = .error "IndexError" := by
  have hc : ¬ (["two-tailed", "right-tailed", "left-tailed"].contains type = true) := by
    rw [List.contains_iff_mem]; exact ht
  unfold credibleIntervals layerIntervals
  rw [if_pos hc, if_pos hc]
  exact ⟨rfl, rfl⟩

example : (credibleIntervals 1 [[[(1:ℚ), 2, 3, 4, 5]], [[2, 2, 2, 2, 2]]] (1/2) "two-tailed").toOption = some [[2, 4], [2, 2]] ∧
    "two-sided" ∉ ["two-tailed", "right-tailed", "left-tailed"] := by
  decide +kernel

end intervals

/-! ## C64 from loaders to sets -/

section conformal
variable {K Θ X Z : Type} [Field K] [LinearOrder K] [IsStrictOrderedRing K]

/-- **C64, the ensemble of likelihoods.** Row `s`, column `i`: the likelihood of data point `i` under sample `s`, for every batching and every
number of devices that divides the batches. -/
theorem C64_ensemble (lik : Θ → Z → K) (ths : List Θ) (devices : Option ℕ) (loader : List (List Z)) (hne : loader ≠ [])
    (hd : ∀ n, devices = some n → 0 < n ∧ ∀ b ∈ loader, n ∣ b.length) :
    ensembleLiks lik ths devices loader = .ok (ths.map fun θ => loader.flatten.map (lik θ)) := by
  have h : loopFun (fun z => ths.map fun θ => lik θ z) devices loader =
      .ok (loader.flatten.map fun z => ths.map fun θ => lik θ z) := by
    obtain ⟨h1, h2⟩ := C50_rows (fun z => ths.map fun θ => lik θ z) loader hne
    cases devices with
    | none => exact h1
    | some n => exact (h2 n (hd n rfl).1).1 (hd n rfl).2
  unfold ensembleLiks
  rw [h]
  simp only [bind, Except.bind]
  congr 1
  unfold transpose
  apply List.ext_getElem
  · simp
  · intro s h1 h2
    simp only [List.length_map, List.length_range] at h1
    simp [h1, List.filterMap_map, Function.comp_def]

theorem concat_grid (trainLoader : List (List (X × ℕ))) (testLoader : List (List X)) (n : ℕ) :
    (concatLoaders [trainLoader, gridBatches testLoader n]).flatten =
      gridData trainLoader.flatten testLoader.flatten n := by
  unfold concatLoaders gridBatches gridData
  simp only [List.flatMap_cons, List.flatMap_nil, id, List.append_nil, List.flatten_append]
  congr 1
  induction List.range n with
  | nil => rfl
  | cons c cs ih =>
    rw [List.flatMap_cons, List.flatten_append, ih, List.flatMap_cons]
    congr 1
    rw [List.map_flatten]

/-- **C64, end to end.** For every batching of the training and test data, with any number of devices that divides the batches: `conformal_set` returns
one set for each test input, without repetitions, and label `c` is in the set of test input `x` exactly if it is below the number of distinct
training labels and the rank of `(x, c)`, with the likelihoods of the training points and of `(x, c)` under the posterior samples, exceeds the level. -/
theorem C64_end_to_end (lik : Θ → X × ℕ → K) (ths : List Θ) (devices : Option ℕ) (order : List Bool → List ℕ)
    (horder : ∀ r, (order r).Perm (List.range r.length) ∧ ((order r).map (r.getD · false)).Pairwise (· ≤ ·))
    (trainLoader : List (List (X × ℕ))) (testLoader : List (List X)) (error : K)
    (hne : trainLoader ≠ [])
    (hd : ∀ n, devices = some n → 0 < n ∧ (∀ b ∈ trainLoader, n ∣ b.length) ∧ ∀ b ∈ testLoader, n ∣ b.length) :
    ∃ sets, conformalSets lik ths devices order trainLoader testLoader error = .ok sets ∧
      sets.length = testLoader.flatten.length ∧
      ∀ (t : ℕ) (x : X), testLoader.flatten[t]? = some x → ∃ set, sets[t]? = some set ∧ set.Nodup ∧
        ∀ c, c ∈ set ↔ c < (trainLoader.flatten.map (·.2)).dedup.length ∧
          inRegion (trainLoader.flatten.map fun z => ths.map (lik · z)) (ths.map (lik · (x, c))) error = true := by
  set m := (trainLoader.flatten.map (·.2)).dedup.length with hm
  have hens := C64_ensemble lik ths devices (concatLoaders [trainLoader, gridBatches testLoader m])
    (by simp [concatLoaders, hne]) (by
    intro n hn
    obtain ⟨h0, h1, h2⟩ := hd n hn
    refine ⟨h0, fun b hb => ?_⟩
    simp only [concatLoaders, gridBatches, List.flatMap_cons, List.flatMap_nil, id, List.append_nil, List.mem_append,
      List.mem_flatMap, List.mem_map] at hb
    rcases hb with hb | ⟨c, -, b', hb', rfl⟩
    · exact h1 b hb
    · rw [List.length_map]; exact h2 b' hb')
  rw [concat_grid] at hens
  have hl1 : (trainLoader.map List.length).sum = trainLoader.flatten.length := by rw [List.length_flatten]
  have hl2 : (testLoader.map List.length).sum = testLoader.flatten.length := by rw [List.length_flatten]
  have htrain : (List.range trainLoader.flatten.length).map (fun i =>
      (ths.map fun θ => (gridData trainLoader.flatten testLoader.flatten m).map (lik θ)).filterMap fun row => row[i]?) =
      trainLoader.flatten.map fun z => ths.map (lik · z) := by
    generalize trainLoader.flatten = train
    apply List.ext_getElem
    · simp
    · intro i h1 h2
      have hi : i < train.length := by simpa using h1
      rw [List.getElem_map, List.getElem_range, List.getElem_map, List.filterMap_map, ← List.filterMap_eq_map]
      apply List.filterMap_congr
      intro θ _
      simp only [Function.comp_apply, gridData, List.map_append]
      rw [List.getElem?_append_left (by simpa using hi), List.getElem?_map, List.getElem?_eq_getElem hi]
      rfl
  refine ⟨(List.range testLoader.flatten.length).map fun t =>
      regionToSet ((List.range m).map fun c => inRegion (trainLoader.flatten.map fun z => ths.map (lik · z))
          ((ths.map fun θ => (gridData trainLoader.flatten testLoader.flatten m).map (lik θ)).filterMap fun row =>
            gridEntry trainLoader.flatten.length testLoader.flatten.length row t c) error)
        (order ((List.range m).map fun c => inRegion (trainLoader.flatten.map fun z => ths.map (lik · z))
          ((ths.map fun θ => (gridData trainLoader.flatten testLoader.flatten m).map (lik θ)).filterMap fun row =>
            gridEntry trainLoader.flatten.length testLoader.flatten.length row t c) error)), ?_, ?_, ?_⟩
  · unfold conformalSets
    simp only [← hm, hens, bind, Except.bind, hl1, hl2, htrain]
  · simp
  · intro t x hx
    obtain ⟨ht, hxt⟩ := List.getElem?_eq_some_iff.mp hx
    refine ⟨_, by rw [List.getElem?_map, List.getElem?_range ht]; rfl, ?_, ?_⟩
    · exact (C64_set _ _ (horder _).1 (horder _).2).1
    · intro c
      rw [(C64_set _ _ (horder _).1 (horder _).2).2 c]
      by_cases hc : c < m
      · rw [List.getElem?_map, List.getElem?_range hc]
        have : (ths.map fun θ => (gridData trainLoader.flatten testLoader.flatten m).map (lik θ)).filterMap (fun row =>
            gridEntry trainLoader.flatten.length testLoader.flatten.length row t c) = ths.map (lik · (x, c)) := by
          rw [List.filterMap_map, ← List.filterMap_eq_map]
          apply List.filterMap_congr
          intro θ _
          simp only [Function.comp_apply]
          rw [C64_grid _ _ _ _ _ _ ht hc, hxt]
        simp only [Option.map_some, this, Option.some.injEq, hc, true_and]
      · rw [List.getElem?_map, List.getElem?_eq_none (by simpa using hc)]
        simp [hc]

/-- Two training points with labels 0 and 1, one test input, two posterior samples; `argsort` by a stable sort. -/
example : (conformalSets (K := ℚ) (fun θ (z : ℚ × ℕ) => if z.2 = 0 then θ * z.1 else 1 - θ * z.1) [1 / 2, 1] (some 1)
    (fun r => (List.range r.length).filter (fun i => !r.getD i false) ++ (List.range r.length).filter (fun i => r.getD i false))
    [[(1 / 2, 0)], [(1 / 4, 1)]] [[1 / 8]] (1 / 2)).toOption = some [[1]] := by
  decide +kernel

/-- **C64, labels.** The candidate labels are the numbers below the number of distinct training labels: a label at or above it is in no set, whatever
the error level, even if all training points bear it; labels should be numbered from 0 without gaps. -/
theorem C64_labels_false (lik : Θ → X × ℕ → K) (ths : List Θ) (devices : Option ℕ) (order : List Bool → List ℕ)
    (horder : ∀ r, (order r).Perm (List.range r.length) ∧ ((order r).map (r.getD · false)).Pairwise (· ≤ ·))
    (y : ℕ) (hy : 0 < y) (trainLoader : List (List (X × ℕ))) (hne : trainLoader.flatten ≠ [])
    (hall : ∀ z ∈ trainLoader.flatten, z.2 = y) (testLoader : List (List X)) (error : K)
    (hd : ∀ n, devices = some n → 0 < n ∧ (∀ b ∈ trainLoader, n ∣ b.length) ∧ ∀ b ∈ testLoader, n ∣ b.length) :
    ∃ sets, conformalSets lik ths devices order trainLoader testLoader error = .ok sets ∧
      ∀ set ∈ sets, y ∉ set := by
  obtain ⟨sets, hs, hlen, hmem⟩ := C64_end_to_end lik ths devices order horder trainLoader testLoader error
    (by rintro rfl; exact hne rfl) hd
  refine ⟨sets, hs, fun set hset hyin => ?_⟩
  obtain ⟨t, ht⟩ := List.mem_iff_getElem?.mp hset
  obtain ⟨hlt, -⟩ := List.getElem?_eq_some_iff.mp ht
  rw [hlen] at hlt
  obtain ⟨set', h1, -, h2⟩ := hmem t _ (List.getElem?_eq_getElem hlt)
  rw [ht] at h1
  injection h1 with h1
  subst h1
  have h3 := ((h2 y).mp hyin).1
  have h4 : trainLoader.flatten.map (·.2) = List.replicate trainLoader.flatten.length y := by
    rw [List.eq_replicate_iff]
    refine ⟨List.length_map _, fun b hb => ?_⟩
    obtain ⟨z, hz, rfl⟩ := List.mem_map.mp hb
    exact hall z hz
  rw [h4, List.replicate_dedup (by rw [ne_eq, List.length_eq_zero_iff]; exact hne)] at h3
  simp at h3
  omega

end conformal

/-! ### Concrete cases that meet the hypotheses of the theorems above -/

example := C98_decomposition (d := 1) (T := 2) 2 (by decide) (fun i => (fun _ => i, fun _ => 0)) (fun _ t _ => if t = 0 then 1 else -1)
example := C98_temperature (d := 1) (T := 2) 2 (by decide) (by decide) 3 (fun i => (fun _ => i, fun _ => 0)) (fun _ t _ => if t = 0 then 1 else -1)
example := C98_epistemic_le (d := 1) (T := 2) 2 (by decide) (by decide) (fun i => (fun _ => i, fun _ => 0)) (fun _ t _ => if t = 0 then 1 else -1)
example := C98_agree (d := 1) (T := 2) 2 (by decide) (fun _ => (fun _ => 4, fun _ => 0)) (fun _ t _ => if t = 0 then 1 else -1) (fun _ _ => rfl)
example := C48_rows (K := ℚ) [[[1, 2, 3, 4, 5]], [[2, 2, 2, 2, 2]]] (by decide) (1 / 2) "two-tailed" (by simp)
example := C64_ensemble (K := ℚ) (Θ := ℚ) (Z := ℚ) (fun θ z => θ * z) [1 / 2, 1] (some 2) [[1, 2], [3, 4]] (by simp)
  (by intro n h; cases h; decide)

/-- The order in which the indices of the false entries come first. -/
def falseFirst (r : List Bool) : List ℕ :=
  (List.range r.length).filter (fun i => !r.getD i false) ++ (List.range r.length).filter (fun i => r.getD i false)

theorem falseFirst_sorts (r : List Bool) :
    (falseFirst r).Perm (List.range r.length) ∧ ((falseFirst r).map (r.getD · false)).Pairwise (· ≤ ·) := by
  unfold falseFirst
  refine ⟨?_, ?_⟩
  · have := List.filter_append_perm (fun i => !r.getD i false) (List.range r.length)
    simpa using this
  · rw [List.map_append, List.pairwise_append]
    refine ⟨?_, ?_, ?_⟩
    · rw [List.pairwise_map]
      refine List.Pairwise.imp_of_mem (R := fun _ _ => True) ?_ (List.pairwise_of_forall fun _ _ => trivial)
      intro a b ha _ _
      have := (List.mem_filter.1 ha).2
      simp only [Bool.not_eq_true'] at this
      rw [this]; exact Bool.false_le _
    · rw [List.pairwise_map]
      refine List.Pairwise.imp_of_mem (R := fun _ _ => True) ?_ (List.pairwise_of_forall fun _ _ => trivial)
      intro a b _ hb _
      rw [(List.mem_filter.1 hb).2]; exact Bool.le_true _
    · intro a ha b _
      obtain ⟨i, hi, rfl⟩ := List.mem_map.1 ha
      have := (List.mem_filter.1 hi).2
      simp only [Bool.not_eq_true'] at this
      rw [this]; exact Bool.false_le _

example := C64_labels_false (K := ℚ) (Θ := ℚ) (X := ℚ) (fun θ z => θ * z.1 + z.2) [1 / 2, 1] (some 1) falseFirst falseFirst_sorts 3 (by decide)
  [[(1, 3)], [(2, 3)]] (by simp) (by decide +kernel) [[5]] (1 / 2) (by intro n h; cases h; simp)

end Verif.Props
