import Verif.Model.LikelihoodApi
import Verif.Props.Loader
import Verif.Props.OutputLayer

/-!
C146: the public methods of a likelihood.
-/
set_option linter.unusedSectionVars false
namespace Verif.Props
open Verif.Likelihood Verif.Loader Verif.OutputLayer Verif.LikApi ProbabilityTheory MeasureTheory

/-! ## Specification -/

section
variable {X O P CM R T : Type}

/-- The output calibration succeeds and treats every row in the same way `r`. -/
def ActsByRow (l : Lik X O P CM) (cp : Option P) (cm : Option (CalibVal CM)) (r : O → O) : Prop :=
  ∀ os, calibrated l cp cm os = .ok (os.map r)

/-- There is a batch, and the devices (if computation is distributed) divide all batches. -/
structure Fits {Y : Type} (devices : Option ℕ) (loader : List (List Y)) : Prop where
  nonempty : loader ≠ []
  divides : ∀ d, devices = some d → 0 < d ∧ ∀ b ∈ loader, d ∣ b.length

/-! ## Lemmas -/

theorem mapM_okFun {A B : Type} (f : A → Except String B) (g : A → B) (l : List A) (h : ∀ a ∈ l, f a = .ok (g a)) :
    l.mapM f = .ok (l.map g) := by
  induction l with
  | nil => rfl
  | cons a l ih =>
    rw [List.mapM_cons, h a (by simp), ih fun b hb => h b (by simp [hb])]
    rfl

theorem loop_rows {f : List X → Except String (List R)} {h : X → R} (hf : ∀ b, f b = .ok (b.map h)) {devices : Option ℕ}
    {loader : List (List X)} (hl : Fits devices loader) : loop f devices loader = .ok (loader.flatten.map h) := by
  have hemp : ¬ loader.isEmpty = true := by simpa using hl.nonempty
  unfold loop
  rw [if_neg hemp, mapM_okFun _ (fun b => b.map h)]
  · simp [Except.map, List.map_flatten]
  · intro b hb
    cases devices with
    | none => exact hf b
    | some d =>
      obtain ⟨hd, hdiv⟩ := hl.divides d rfl
      obtain ⟨s, hs⟩ := (C26_shard d hd b).1.2 (hdiv b hb)
      show (shard d b >>= fun shares => shares.mapM f >>= fun rs => Except.ok (unshard rs)) = _
      rw [hs]
      show (s.mapM f >>= fun rs => Except.ok (unshard rs)) = _
      rw [mapM_okFun f (fun x => x.map h) s fun a _ => hf a]
      exact congrArg Except.ok (C26_map d hd b h s hs).1

/-! ## C146 -/

/-- **C146, without calibrator.** The model outputs are used as they are, whatever calibration parameters are passed. -/
theorem C146_uncalibrated (net : X → O) (m : Option (Option (P → Bool → Option CM → List O → List O × CM)))
    (hm : m = none ∨ m = some none) (cp : Option P) (cm : Option (CalibVal CM)) :
    ActsByRow { net := net, manager := m } cp cm id := by
  intro os
  rcases hm with rfl | rfl <;> simp [calibrated]

/-- **C146, with a calibrator.** A calibrator that acts row by row, with its parameters and state as they are stored. -/
theorem C146_calibrated (net : X → O) (f : P → Bool → Option CM → List O → List O × CM) (p : P) (m : Option CM) (r : O → O)
    (hf : ∀ os, (f p false m os).1 = os.map r) :
    ActsByRow { net := net, manager := some (some f) } (some p) (m.map CalibVal.frozen) r := by
  intro os
  cases m <;> simp [calibrated, calibApply, hf]

/-- **C146, without parameters.** With a calibrator, but no calibration parameters, every method raises on data it could handle. -/
theorem C146_missing_params (net : X → O) (f : P → Bool → Option CM → List O → List O × CM) (cm : Option (CalibVal CM))
    (stat : O → R) (loader : List (List X)) (hl : loader ≠ []) :
    statistic stat { net := net, manager := some (some f) } none cm none loader = .error "AttributeError" ∧
    calibratedOutputs { net := net, manager := some (some f) } none cm none loader = .error "AttributeError" := by
  obtain ⟨b, l, rfl⟩ := List.exists_cons_of_ne_nil hl
  constructor
  · unfold statistic loop
    rw [List.isEmpty_cons, List.mapM_cons]
    rfl
  · unfold calibratedOutputs outputs
    rw [loop_rows (h := net) (fun _ => rfl) ⟨hl, by simp⟩]
    rfl

/-- **C146, statistics.** `mean`, `mode`, `variance` and `log_prob` return one value per input, in the order of the loader: the
statistic of the output layer at the calibrated output of that input, whatever the batches and the devices. -/
theorem C146_statistics (l : Lik X O P CM) (cp : Option P) (cm : Option (CalibVal CM)) (r : O → O) (hr : ActsByRow l cp cm r)
    (stat : O → R) (devices : Option ℕ) (loader : List (List X)) (hl : Fits devices loader) :
    statistic stat l cp cm devices loader = .ok (loader.flatten.map fun x => stat (r (l.net x))) ∧
    calibratedOutputs l cp cm devices loader = .ok (loader.flatten.map fun x => r (l.net x)) ∧
    outputs l devices loader = .ok (loader.flatten.map l.net) := by
  have ho : outputs l devices loader = .ok (loader.flatten.map l.net) := loop_rows (fun _ => rfl) hl
  refine ⟨loop_rows (h := fun x => stat (r (l.net x))) (fun b => ?_) hl, ?_, ho⟩
  · unfold batchOutputs
    rw [hr]
    simp [Except.map]
  · unfold calibratedOutputs
    rw [ho]
    show calibrated l cp cm _ = _
    rw [hr, List.map_map]
    rfl

/-- **C146, log-likelihood.** -/
theorem C146_log_prob (l : Lik X O P CM) (cp : Option P) (cm : Option (CalibVal CM)) (r : O → O) (hr : ActsByRow l cp cm r)
    (lp : O → T → ℝ) (devices : Option ℕ) (loader : List (List (X × T))) (hl : Fits devices loader) :
    logProb lp l cp cm devices loader = .ok (loader.flatten.map fun xy => lp (r (l.net xy.1)) xy.2) := by
  refine loop_rows (h := fun xy : X × T => lp (r (l.net xy.1)) xy.2) (fun b => ?_) hl
  unfold batchOutputs
  rw [hr]
  simp only [Except.map]
  congr 1
  induction b with
  | nil => rfl
  | cons x b ih => simp only [List.map_cons, List.zipWith_cons_cons, ih]

/-- **C146, refusals.** Without any batch every method raises, and so does a distributed one if some batch cannot be split
evenly. -/
theorem C146_refused (l : Lik X O P CM) (cp : Option P) (cm : Option (CalibVal CM)) (stat : O → R) (devices : Option ℕ)
    (loader : List (List X)) (h : loader = [] ∨ ∃ d, devices = some d ∧ 0 < d ∧ ∃ b ∈ loader, ¬ d ∣ b.length) :
    (∃ e, statistic stat l cp cm devices loader = .error e) ∧ (outputs l devices loader = .error "ValueError") ∧
    calibratedOutputs l cp cm devices loader = .error "ValueError" := by
  have hloop : ∀ {R : Type} (f : List X → Except String (List R)), ∃ e, loop f devices loader = .error e ∧
      ((∃ g : X → R, ∀ b, f b = .ok (b.map g)) → e = "ValueError") := by
    intro R f
    rcases h with rfl | ⟨d, rfl, hd, b, hb, hnd⟩
    · exact ⟨_, rfl, fun _ => rfl⟩
    · unfold loop
      rw [if_neg (by simpa using List.ne_nil_of_mem hb)]
      induction loader with
      | nil => simp at hb
      | cons a loader ih =>
        rw [List.mapM_cons]
        by_cases ha : d ∣ a.length
        · obtain ⟨s, hs⟩ := (C26_shard d hd a).1.2 ha
          have hb' : b ∈ loader := by
            rcases List.mem_cons.1 hb with rfl | hb
            · exact absurd ha hnd
            · exact hb
          obtain ⟨e, he, hee⟩ := ih hb'
          cases hm : s.mapM f with
          | error e' =>
            refine ⟨e', ?_, ?_⟩
            · simp only [hs]
              show Except.map _ ((s.mapM f >>= fun rs => Except.ok (unshard rs)) >>= _) = _
              rw [hm]; rfl
            · rintro ⟨g, hg⟩
              rw [mapM_okFun f (fun x => x.map g) s fun x _ => hg x] at hm
              cases hm
          | ok rs =>
            refine ⟨e, ?_, hee⟩
            simp only [hs]
            show Except.map _ ((s.mapM f >>= fun rs => Except.ok (unshard rs)) >>= _) = _
            rw [hm]
            show Except.map _ (loader.mapM _ >>= fun rest => Except.ok (unshard rs :: rest)) = _
            revert he
            generalize (loader.mapM _ : Except String (List (List R))) = z
            intro he
            cases z with
            | error e' => exact he
            | ok z => cases he
        · refine ⟨"ValueError", ?_, fun _ => rfl⟩
          have hs : shard d a = .error "ValueError" := by
            unfold shard
            rw [if_pos fun h => ha (Nat.dvd_of_mod_eq_zero h)]
          simp only [hs]
          rfl
  obtain ⟨e, he, -⟩ := hloop fun b => (batchOutputs l cp cm b).map (List.map stat)
  obtain ⟨e', he', h'⟩ := hloop fun b => .ok (b.map l.net)
  rw [h' ⟨l.net, fun _ => rfl⟩] at he'
  refine ⟨⟨e, he⟩, he', ?_⟩
  unfold calibratedOutputs outputs
  rw [he']
  rfl

/-- **C146, samples.** `sample` returns `n` rows with one value per input in the order of the loader. Draw `s` for input `j` of
the whole loader uses its own random numbers `(s, j)`, whatever the batches and the devices (unlike `Predictive.sample`, C65); the
calibrated outputs come with them exactly if they are asked for; other names are refused. -/
theorem C146_sample (l : Lik X O P CM) (cp : Option P) (cm : Option (CalibVal CM)) (r : O → O) (hr : ActsByRow l cp cm r)
    (draw : ℕ → ℕ → O → R) (n : ℕ) (aux : List String) (devices : Option ℕ) (loader : List (List X)) (hl : Fits devices loader) :
    ((∀ a ∈ aux, a = "outputs") → ∃ (rows : List (List R)) (os : Option (List O)), LikApi.sample draw l n cp cm aux devices loader = .ok (rows, os) ∧ rows.length = n ∧
      (∀ (s : ℕ), s < n → ∃ row, rows[s]? = some row ∧ row.length = loader.flatten.length ∧
        ∀ (j : ℕ) x, loader.flatten[j]? = some x → row[j]? = some (draw s j (r (l.net x)))) ∧
      (os = if aux = [] then none else some (loader.flatten.map fun x => r (l.net x)))) ∧
    ((∃ a ∈ aux, a ≠ "outputs") → LikApi.sample draw l n cp cm aux devices loader = .error "TypeError") := by
  constructor
  · intro ha
    have h1 : ¬ (aux.any (fun a => decide (a ≠ "outputs"))) = true := by
      rw [List.any_eq_true]
      rintro ⟨a, hm, h⟩
      exact (of_decide_eq_true h) (ha a hm)
    refine ⟨(List.range n).map fun s => (loader.flatten.map fun x => r (l.net x)).mapIdx fun j o => draw s j o, _, ?_, ?_, ?_,
      rfl⟩
    · unfold LikApi.sample
      rw [if_neg h1, (C146_statistics l cp cm r hr id devices loader hl).2.1]
      simp only [Except.map]
      congr 2
      by_cases h : aux = []
      · subst h; rfl
      · rw [if_neg h, if_pos (List.length_pos_of_ne_nil h)]
    · simp
    · intro s hs
      refine ⟨(loader.flatten.map fun x => r (l.net x)).mapIdx fun j o => draw s j o, ?_, by rw [List.length_mapIdx, List.length_map], fun j x hx => ?_⟩
      · rw [List.getElem?_map, List.getElem?_range hs]; rfl
      · rw [List.getElem?_mapIdx, List.getElem?_map, hx]; rfl
  · rintro ⟨a, hm, h⟩
    unfold LikApi.sample
    rw [if_pos]
    rw [List.any_eq_true]
    exact ⟨a, hm, by simpa using h⟩

end

section classification
variable {X P CM : Type} {c : ℕ}

/-- **C146, classification.** For every input the exponentials `q y` of what `log_prob` returns for the labels are a probability
distribution on them; `mean` and `variance` are the mean and the variance of the one-hot encoded label, `mode` is its first most
likely value, and `entropy` is its Shannon entropy. -/
theorem C146_categorical (hc : 0 < c) (l : Lik X (Fin c → ℝ) P CM) (cp : Option P) (cm : Option (CalibVal CM))
    (r : (Fin c → ℝ) → Fin c → ℝ) (hr : ActsByRow l cp cm r) (devices : Option ℕ) (loader : List (List X))
    (hl : Fits devices loader) :
    ∃ q : X → Fin c → ℝ,
      (∀ x y, 0 < q x y) ∧ (∀ x, ∑ y, q x y = 1) ∧
      (∀ (labelled : List (List (X × Fin c))), Fits devices labelled →
        logProb (fun o (y : Fin c) => classLogProb o (y : ℕ)) l cp cm devices labelled =
          .ok (labelled.flatten.map fun xy => Real.log (q xy.1 xy.2))) ∧
      (∃ ms, classMean l cp cm devices loader = .ok ms ∧
        ms = loader.flatten.map fun x => fun i => ∑ y, q x y * (if y = i then 1 else 0)) ∧
      (∃ vs, classVar l cp cm devices loader = .ok vs ∧
        vs = loader.flatten.map fun x => fun i => ∑ y, q x y * ((if y = i then 1 else 0) - q x i) ^ 2) ∧
      (∃ es, classEnt classLogProb l cp cm devices loader = .ok es ∧
        es = loader.flatten.map fun x => -∑ y, q x y * Real.log (q x y)) ∧
      (∃ ks : List ℕ, classMode l cp cm devices loader = .ok ks ∧ ks.length = loader.flatten.length ∧
        ∀ (j : ℕ) x, loader.flatten[j]? = some x → ∃ k : Fin c, ks[j]? = some (k : ℕ) ∧
          (∀ y, q x y ≤ q x k) ∧ ∀ y, y < k → q x y < q x k) := by
  have hexp : ∀ (o : Fin c → ℝ) (y : Fin c), Real.exp (classLogProb o (y : ℕ)) = softmax o y := fun o y =>
    ((C66_distribution hc o).1 y).1
  have hlog : ∀ (o : Fin c → ℝ) (y : Fin c), Real.log (softmax o y) = classLogProb o (y : ℕ) := fun o y => by
    rw [← hexp, Real.log_exp]
  refine ⟨fun x => softmax (r (l.net x)), fun x y => ((C66_distribution hc _).1 y).2.1, fun x => ?_, fun labelled hf => ?_,
    ?_, ?_, ?_, ?_⟩
  · have := (C66_distribution hc (r (l.net x))).2
    simpa only [hexp] using this
  · rw [C146_log_prob l cp cm r hr _ devices labelled hf]
    simp only [hlog]
  · refine ⟨_, (C146_statistics l cp cm r hr _ devices loader hl).1, ?_⟩
    apply List.map_congr_left
    intro x _
    funext i
    simp
  · refine ⟨_, (C146_statistics l cp cm r hr _ devices loader hl).1, ?_⟩
    apply List.map_congr_left
    intro x _
    funext i
    have h := (C66_variance hc (r (l.net x)) i).1
    have h2 : ∀ y : Fin c, oneHot c (y : ℕ) i = if y = i then 1 else 0 := fun y => by
      unfold oneHot; simp [Fin.ext_iff, eq_comm]
    simp only [hexp, h2] at h
    unfold classVariance at h
    rw [h]
    simp
  · unfold classEnt
    rw [(C146_statistics l cp cm r hr id devices loader hl).2.1]
    refine ⟨_, rfl, ?_⟩
    dsimp only
    rw [List.map_map]
    apply List.map_congr_left
    intro x _
    simp only [Function.comp, hexp, hlog]
  · refine ⟨_, (C146_statistics l cp cm r hr _ devices loader hl).1, by rw [List.length_map], fun j x hx => ?_⟩
    obtain ⟨hk, h1, h2⟩ := C66_predict hc (r (l.net x))
    refine ⟨⟨classPredict (r (l.net x)), hk⟩, ?_, fun y => ?_, fun y hy => ?_⟩
    · rw [List.getElem?_map, hx]; rfl
    · dsimp only; rw [← hexp, ← hexp]; exact Real.exp_le_exp.2 (h1 y)
    · dsimp only; rw [← hexp, ← hexp]; exact Real.exp_lt_exp.2 (h2 y hy)

end classification

section regression
variable {X P CM : Type} {d : ℕ}

/-- **C146, regression.** For every input the exponential of `log_prob` is the density of independent normal variables whose means
and variances are what `mean` (and `mode`) and `variance` return. -/
theorem C146_normal (l : Lik X ((Fin d → ℝ) × (Fin d → ℝ)) P CM) (cp : Option P) (cm : Option (CalibVal CM))
    (r : (Fin d → ℝ) × (Fin d → ℝ) → (Fin d → ℝ) × (Fin d → ℝ)) (hr : ActsByRow l cp cm r) (devices : Option ℕ)
    (loader : List (List X)) (hl : Fits devices loader) :
    ∃ (μ : X → Fin d → ℝ) (v : X → Fin d → NNReal), (∀ x i, v x i ≠ 0) ∧
      (∀ (labelled : List (List (X × (Fin d → ℝ)))), Fits devices labelled →
        ∃ ls, logProb (fun o t => regLogProb o.1 o.2 t) l cp cm devices labelled = .ok ls ∧
          ls.map Real.exp = labelled.flatten.map fun xt => ∏ i, gaussianPDFReal (μ xt.1 i) (v xt.1 i) (xt.2 i)) ∧
      regMean l cp cm devices loader = .ok (loader.flatten.map μ) ∧
      regVar l cp cm devices loader = .ok (loader.flatten.map fun x i => (v x i : ℝ)) := by
  refine ⟨fun x => (r (l.net x)).1, fun x i => nnVar ((r (l.net x)).2 i), fun x i => nnVar_ne _, fun labelled hf => ?_,
    (C146_statistics l cp cm r hr _ devices loader hl).1, (C146_statistics l cp cm r hr _ devices loader hl).1⟩
  refine ⟨_, C146_log_prob l cp cm r hr _ devices labelled hf, ?_⟩
  rw [List.map_map]
  apply List.map_congr_left
  intro x _
  exact C67_density _ _ _

/-- **C146, entropy of a regression.** From `n` draws with standard normal numbers `z s j` the entropy of input `j` is estimated by
the entropy of the normal distribution with the returned variances, up to the sampling error of the squares of the numbers used
for that input: half their mean sum minus half the number of components. -/
theorem C146_normal_entropy (l : Lik X ((Fin d → ℝ) × (Fin d → ℝ)) P CM) (cp : Option P) (cm : Option (CalibVal CM))
    (r : (Fin d → ℝ) × (Fin d → ℝ) → (Fin d → ℝ) × (Fin d → ℝ)) (hr : ActsByRow l cp cm r) (devices : Option ℕ)
    (loader : List (List X)) (hl : Fits devices loader) (z : ℕ → ℕ → Fin d → ℝ) (n : ℕ) (hn : 0 < n) :
    ∃ vs es, regVar l cp cm devices loader = .ok vs ∧ regEnt z l n cp cm devices loader = .ok es ∧
      es.length = loader.flatten.length ∧
      ∀ (j : ℕ) (v : Fin d → ℝ), vs[j]? = some v → es[j]? = some (
        (∑ i, 1 / 2 * Real.log (2 * Real.pi * Real.exp 1 * v i)) +
          ((∑ s : Fin n, ∑ i, z s j i ^ 2) / n - d) / 2) := by
  obtain ⟨h1, h2, -⟩ := C146_statistics l cp cm r hr (fun (o : (Fin d → ℝ) × (Fin d → ℝ)) (i : Fin d) => Real.exp (o.2 i))
    devices loader hl
  have hs : LikApi.sample (fun s j (o : (Fin d → ℝ) × (Fin d → ℝ)) => regSample o.1 o.2 (z s j)) l n cp cm ["outputs"] devices loader =
      .ok ((List.range n).map fun s => (loader.flatten.map fun x => r (l.net x)).mapIdx fun j o => regSample o.1 o.2 (z s j),
        some (loader.flatten.map fun x => r (l.net x))) := by
    unfold LikApi.sample
    rw [h2]
    rfl
  refine ⟨_, (loader.flatten.map fun x => r (l.net x)).mapIdx fun j o =>
      -((((List.range n).map fun s => (loader.flatten.map fun x => r (l.net x)).mapIdx fun j o => regSample o.1 o.2 (z s j)).map
        fun row => regLogProb o.1 o.2 (row.getD j (fun _ => 0))).sum /
        (((List.range n).map fun s => (loader.flatten.map fun x => r (l.net x)).mapIdx
          fun j o => regSample o.1 o.2 (z s j)).length : ℝ)), h1, ?_, ?_, ?_⟩
  · unfold regEnt
    rw [hs]
    rfl
  · rw [List.length_mapIdx, List.length_map]
  · intro j v hv
    rw [List.getElem?_map] at hv
    obtain ⟨x, hx, rfl⟩ := Option.map_eq_some_iff.1 hv
    have hx' : (loader.flatten.map fun x => r (l.net x))[j]? = some (r (l.net x)) := by rw [List.getElem?_map, hx]; rfl
    rw [List.getElem?_mapIdx, hx']
    simp only [Option.map_some, Option.some.injEq, List.map_map, List.length_map, List.length_range]
    set o := r (l.net x) with ho
    have hrow : ∀ s, ((fun row : List (Fin d → ℝ) => regLogProb o.1 o.2 (row.getD j fun _ => 0)) ∘ fun s =>
        (loader.flatten.map fun x => r (l.net x)).mapIdx fun j o => regSample o.1 o.2 (z s j)) s =
        regLogProb o.1 o.2 (regSample o.1 o.2 (z s j)) := by
      intro s
      simp only [Function.comp]
      rw [List.getD_eq_getElem?_getD, List.getElem?_mapIdx, hx']
      rfl
    rw [List.map_congr_left fun s _ => hrow s]
    have hsum : ((List.range n).map fun s => regLogProb o.1 o.2 (regSample o.1 o.2 (z s j))).sum =
        ∑ s : Fin n, regLogProb o.1 o.2 (regSample o.1 o.2 (z s j)) := by
      rw [Fin.sum_univ_eq_sum_range (fun s => regLogProb o.1 o.2 (regSample o.1 o.2 (z s j)))]; rfl
    have h := C67_entropy hn o.1 o.2 fun (s : Fin n) => z s j
    unfold regEntropy at h
    rw [hsum, h]
    have hlogs : ∀ i : Fin d, 1 / 2 * Real.log (2 * Real.pi * Real.exp 1 * Real.exp (o.2 i)) =
        Real.log (2 * Real.pi) / 2 + 1 / 2 + o.2 i / 2 := by
      intro i
      rw [Real.log_mul (by positivity) (Real.exp_pos _).ne', Real.log_mul (by positivity) (Real.exp_pos _).ne', Real.log_exp,
        Real.log_exp]
      ring
    simp only [hlogs, Finset.sum_add_distrib, Finset.sum_const, Finset.card_univ, Fintype.card_fin, nsmul_eq_mul,
      ← Finset.sum_div]
    have hn' : (n : ℝ) ≠ 0 := by positivity
    field_simp
    ring

end regression

/-- **C146, standard deviation.** The square root of the variance, also of one that is passed (unlike the output layer's, C66). -/
theorem C146_std (v : ℝ) (hv : 0 ≤ v) (given : Option ℝ) (hg : ∀ w ∈ given, w = v) :
    0 ≤ LikApi.std v given ∧ LikApi.std v given ^ 2 = v := by
  unfold LikApi.std
  have : given.getD v = v := by
    cases given with
    | none => rfl
    | some w => exact hg w rfl
  rw [this]
  exact ⟨Real.sqrt_nonneg _, Real.sq_sqrt hv⟩

/-- **C146 is false for calibrators that mix rows.** A calibrator that subtracts the average over the rows it is given: the
outputs 1 and 3 in two batches give calibrated outputs 0 and 0 in `mean` (and `log_prob`, `mode`, `variance`), but -1 and 1 in
`get_calibrated_outputs` (hence in `sample` and `entropy`), as they do in one batch; on two devices `mean` of one batch is
different again. -/
theorem C146_mixing_rows_false :
    let l : Lik ℚ ℚ Unit Unit := { net := id, manager := some (some fun _ _ _ os => (os.map fun o => o - os.sum / os.length, ())) }
    statistic id l (some ()) none none [[1], [3]] = .ok [0, 0] ∧
    calibratedOutputs l (some ()) none none [[1], [3]] = .ok [-1, 1] ∧
    statistic id l (some ()) none none [[1, 3]] = .ok [-1, 1] ∧
    statistic id l (some ()) none (some 2) [[1, 3]] = .ok [0, 0] := by
  decide +kernel

/-! ### Concrete cases that meet the hypotheses of the theorems above -/

/-- A binary classifier with temperature scaling. -/
noncomputable def exTempLik : Lik ℝ (Fin 2 → ℝ) ℝ Unit :=
  { net := fun x => ![x, 0], manager := some (some fun p _ _ os => (os.map (scaleLogits p), ())) }

theorem exTempLik_rows : ActsByRow exTempLik (some (Real.log 2)) none (scaleLogits (Real.log 2)) :=
  C146_calibrated _ _ (Real.log 2) none (scaleLogits (Real.log 2)) fun _ => rfl

/-- A regression without calibrator. -/
noncomputable def exRegLik : Lik ℝ ((Fin 1 → ℝ) × (Fin 1 → ℝ)) ℝ Unit :=
  { net := fun x => (fun _ => 3 * x, fun _ => x), manager := some none }

theorem exRegLik_rows : ActsByRow exRegLik none none id := C146_uncalibrated _ _ (Or.inr rfl) none none

theorem exFits {Y : Type} (a b c d : Y) : Fits (some 2) [[a, b], [c, d]] :=
  ⟨by simp, fun e h => by cases h; simp⟩

example := C146_missing_params (fun x : ℝ => ![x, 0]) (fun (p : ℝ) _ _ os => (os.map (scaleLogits p), ())) none
  (fun o : Fin 2 → ℝ => o 0) [[1]] (by simp)
example := C146_statistics exTempLik _ none _ exTempLik_rows (fun o => o 0) (some 2) [[0, 1], [2, 3]] (exFits ..)
example := C146_log_prob exTempLik _ none _ exTempLik_rows (fun o y => classLogProb o y) (some 2) [[(0, 1), (1, 0)], [(2, 1), (3, 0)]]
  (exFits ..)
example := C146_refused exTempLik (some 0) none (fun o => o 0) (some 2) [[0, 1], [2]] (Or.inr ⟨2, rfl, by norm_num, [2], by simp, by simp⟩)
example := C146_sample exTempLik _ none _ exTempLik_rows (fun s j o => s + j + o 0) 5 ["outputs"] (some 2) [[0, 1], [2, 3]] (exFits ..)
example := C146_categorical (by norm_num) exTempLik _ none _ exTempLik_rows (some 2) [[0, 1], [2, 3]] (exFits ..)
example := C146_normal exRegLik none none _ exRegLik_rows (some 2) [[0, 1], [2, 3]] (exFits ..)
example := C146_normal_entropy exRegLik none none _ exRegLik_rows (some 2) [[0, 1], [2, 3]] (exFits ..) (fun s j _ => s - j) 30
  (by norm_num)
example := C146_std 4 (by norm_num) (some 4) (by simp)

end Verif.Props
