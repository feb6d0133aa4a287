import Verif.Model.SwagRun
import Verif.Props.AdviRun
import Verif.Props.SGMCMC
import Verif.Props.GaussLaw
import Mathlib.Probability.ProductMeasure

/-!
Property C118: the end of a SWAG fit, its checkpoint, and samples from its state, on CPU and on devices.
-/
set_option linter.unusedSectionVars false

namespace Verif.Props.SwagRun

open Verif.Nested Verif.Nested.Obj Verif.GaussPost Verif.SGMCMC Verif.Utils Verif.SwagRun Verif.Props Verif.Props.AdviRun MeasureTheory

variable {d : ℕ}

/-- **C118, no step.** A fit that collected nothing ends with a TypeError, on whatever devices. -/
theorem C118_no_step (t : TrainerCls) (F : Option (Obj String (List ℝ))) (T : Obj String (List ℝ)) (which : Option (List (List String))) :
    trainEnd (d := d) t F T none which = .error "TypeError" ∧ checkpoint (d := d) t F T none which = .error "TypeError" := ⟨rfl, rfl⟩

/-- **C118, the checkpoint.** The checkpoint at the end is the same for all trainers: all parameters, frozen ones included, and statistics without additional
axes. It is what a fit on the CPU returns. -/
theorem C118_checkpoint (t : TrainerCls) (F : Option (Obj String (List ℝ))) (T : Obj String (List ℝ)) (s : Swag (Fin d))
    (which : Option (List (List String))) :
    checkpoint t F T (some s) which = .ok ⟨allParams F T, none, d, s, 0, which⟩ ∧
    (t ≠ .multi → trainEnd t F T (some s) which = checkpoint t F T (some s) which) := by
  refine ⟨?_, fun ht => ?_⟩
  · cases t <;> rfl
  · cases t
    · rfl
    · rfl
    · exact absurd rfl ht

theorem cpu_trainer (devices : ℤ) (platforms : List String) (disableJit : Bool) (t : TrainerCls)
    (h : selectTrainer devices platforms disableJit = .ok t) (hg : "gpu" ∉ platforms ∨ devices = 0) : t ≠ .multi := by
  unfold selectTrainer at h
  by_cases h1 : devices ≠ 0 ∧ devices ≠ -1
  · rw [if_pos h1] at h; cases h
  · rw [if_neg h1] at h
    by_cases h2 : devices = -1
    · rw [if_pos h2] at h
      have hgp : "gpu" ∉ platforms := hg.resolve_right (by omega)
      have : ¬0 < (platforms.filter fun p => p == "gpu").length := by
        rw [List.length_pos_iff]
        intro hne
        obtain ⟨p, hp⟩ := List.exists_mem_of_ne_nil _ hne
        rw [List.mem_filter] at hp
        have : p = "gpu" := by simpa using hp.2
        exact hgp (this ▸ hp.1)
      rw [if_neg this] at h
      cases h; decide
    · rw [if_neg h2] at h
      by_cases h3 : devices = 0 ∧ disableJit
      · rw [if_pos h3] at h; cases h; decide
      · rw [if_neg h3] at h; cases h; decide

/-- The vector of a sample without additional axes: one normal number per parameter. -/
theorem draw_cpu (p : Obj String (List ℝ)) (F : Option (Obj String (List ℝ))) (s : Swag (Fin d)) (which : Option (List (List String))) (z1 z2 : ℕ → ℝ) :
    draw ⟨p, F, d, s, 0, which⟩ z1 z2 = List.ofFn fun i : Fin d => s.mean i + 1 / Real.sqrt 2 * swagStd s i * z1 i +
      1 / Real.sqrt 2 / Real.sqrt s.dev.length * ∑ j : Fin s.dev.length, s.dev.get j i * z2 j := rfl

/-- **C118, CPU without freezing.** Sampling after a fit without GPU gives parameters of the same structure, whose vector is mean + std * noise / √2 + deviations *
noise / √(2 rank), with one normal number of its own for every parameter. -/
theorem C118_cpu (devices : ℤ) (platforms : List String) (disableJit : Bool) (hg : "gpu" ∉ platforms ∨ devices = 0)
    (T : Obj String (List ℝ)) (hw : WF T) (hd : (ravelTree T).length = d) (s : Swag (Fin d)) (st : SwagState)
    (h : fitEnd devices platforms disableJit none T (some s) none = .ok st) (mutable inputs : Bool) (hm : mutable = true → inputs = true) (z1 z2 : ℕ → ℝ) :
    ∃ vf : List String → List ℝ, sample st mutable inputs z1 z2 = .ok (mapLeaves (fun p _ => vf p) [] T) ∧
      (∀ pv ∈ Nested.flatten T, (vf pv.1).length = pv.2.length) ∧
      ravelTree (mapLeaves (fun p _ => vf p) [] T) = List.ofFn fun i : Fin d => s.mean i + 1 / Real.sqrt 2 * swagStd s i * z1 i +
        1 / Real.sqrt 2 / Real.sqrt s.dev.length * ∑ j : Fin s.dev.length, s.dev.get j i * z2 j := by
  unfold fitEnd at h
  obtain ⟨t, ht, h⟩ := Verif.bind_ok.1 h
  have hcpu := cpu_trainer devices platforms disableJit t ht hg
  rw [(C118_checkpoint t none T s none).2 hcpu, (C118_checkpoint t none T s none).1] at h
  cases h
  obtain ⟨vf, h1, h2, h3⟩ := unravel_spec T hw (draw ⟨T, none, d, s, 0, none⟩ z1 z2) (by
    rw [hd]; simp [draw])
  refine ⟨vf, ?_, h2, ?_⟩
  · unfold sample
    rw [if_neg (by
      cases mutable
      · simp
      · simp [hm rfl])]
    show (if (0 = 0 ∨ _) then unravelTree T (draw ⟨T, none, d, s, 0, none⟩ z1 z2) else _) = _
    rw [if_pos (Or.inl rfl), h1]
  · rw [ravelTree_mapLeaves, h3, draw_cpu]

/-- **C118, CPU with freezing.** With frozen parameters and paths `ps` of the trained arrays, a sample holds the consecutive pieces of the vector at these paths,
in their order, and everything else, frozen parameters included, as in the trained model. -/
theorem C118_cpu_frozen (devices : ℤ) (platforms : List String) (disableJit : Bool) (hg : "gpu" ∉ platforms ∨ devices = 0)
    (F T : Obj String (List ℝ)) (ps : List (List String)) (mf : List String → List ℝ) (hp : ps.Pairwise Apart)
    (hget : ∀ p ∈ ps, nestedGet (nestedUpdate F T) p = .ok (leaf (mf p))) (hd : ((ps.map mf).flatten).length = d) (s : Swag (Fin d)) (st : SwagState)
    (h : fitEnd devices platforms disableJit (some F) T (some s) (some ps) = .ok st) (mutable inputs : Bool) (hm : mutable = true → inputs = true)
    (z1 z2 : ℕ → ℝ) :
    ∃ (d' : Obj String (List ℝ)) (vf : List String → List ℝ), sample st mutable inputs z1 z2 = .ok d' ∧
      ((ps.map vf).flatten = List.ofFn fun i : Fin d => s.mean i + 1 / Real.sqrt 2 * swagStd s i * z1 i +
        1 / Real.sqrt 2 / Real.sqrt s.dev.length * ∑ j : Fin s.dev.length, s.dev.get j i * z2 j) ∧
      (∀ p ∈ ps, (vf p).length = (mf p).length ∧ nestedGet d' p = .ok (leaf (vf p))) ∧
      (∀ q, (∀ p ∈ ps, Apart q p) → ∀ r, nestedGet d' q = .ok r ↔ nestedGet (nestedUpdate F T) q = .ok r) := by
  unfold fitEnd at h
  obtain ⟨t, ht, h⟩ := Verif.bind_ok.1 h
  have hcpu := cpu_trainer devices platforms disableJit t ht hg
  rw [(C118_checkpoint t (some F) T s (some ps)).2 hcpu, (C118_checkpoint t (some F) T s (some ps)).1] at h
  cases h
  obtain ⟨d', vf, h1, h2, h3, h4, h5⟩ := unravelInto_spec (nestedUpdate F T) ps mf hp hget
    (draw ⟨nestedUpdate F T, none, d, s, 0, some ps⟩ z1 z2) (by rw [hd]; simp [draw])
  refine ⟨d', vf, ?_, by rw [h2, draw_cpu], fun p hps => ⟨h3 p hps, h4 p hps⟩, h5⟩
  unfold sample
  rw [if_neg (by
    cases mutable
    · simp
    · simp [hm rfl])]
  show (if (0 ≠ 0 ∧ _) then _ else unravelInto (nestedUpdate F T) ps (draw ⟨nestedUpdate F T, none, d, s, 0, some ps⟩ z1 z2)) = _
  rw [if_neg (by simp), h1]

/-- **C118, mutable state.** A posterior state with network state cannot be sampled without inputs. -/
theorem C118_inputs (st : SwagState) (z1 z2 : ℕ → ℝ) : sample st true false z1 z2 = .error "ValueError" := rfl

theorem gpu_trainer (platforms : List String) (disableJit : Bool) (hg : "gpu" ∈ platforms) : selectTrainer (-1) platforms disableJit = .ok .multi := by
  unfold selectTrainer
  rw [if_neg (by simp), if_pos rfl, if_pos]
  rw [List.length_pos_iff]
  intro hne
  have : "gpu" ∈ platforms.filter fun p => p == "gpu" := List.mem_filter.2 ⟨hg, by simp⟩
  rw [hne] at this
  cases this

/-- **C118, refuted: a GPU.** With a GPU, even only one, and the default of using all devices, the state that a fit returns cannot be sampled if the
parameters have two or more arrays, or if any were frozen; with frozen parameters the state does not contain them among its parameters. -/
theorem C118_gpu_false (platforms : List String) (disableJit : Bool) (hg : "gpu" ∈ platforms) (F T : Obj String (List ℝ))
    (s : Swag (Fin d)) (ps : List (List String)) (mutable : Bool) (z1 z2 : ℕ → ℝ) :
    (2 ≤ (Nested.flatten T).length → ∃ st, fitEnd (-1) platforms disableJit none T (some s) none = .ok st ∧
      sample st mutable true z1 z2 = .error "TypeError") ∧
    ((∃ p ∈ ps, p ≠ []) → ∃ st, fitEnd (-1) platforms disableJit (some F) T (some s) (some ps) = .ok st ∧
      sample st mutable true z1 z2 = .error "TypeError") ∧
    (∃ st, fitEnd (-1) platforms disableJit (some F) T (some s) (some ps) = .ok st ∧ st.params = T) := by
  have e := gpu_trainer platforms disableJit hg
  refine ⟨fun h2 => ?_, fun ⟨p, hp, hne⟩ => ?_, ?_⟩
  · refine ⟨⟨T, none, d, s, 1, none⟩, by unfold fitEnd; rw [e]; rfl, ?_⟩
    unfold sample
    rw [if_neg (by simp)]
    show (if (1 = 0 ∨ (Nested.flatten T).length ≤ 1) then _ else _) = _
    rw [if_neg (by omega)]
  · refine ⟨⟨T, some F, d, s, 1, some ps⟩, by unfold fitEnd; rw [e]; rfl, ?_⟩
    unfold sample
    rw [if_neg (by simp)]
    show (if (1 ≠ 0 ∧ (ps.any fun p => decide (p ≠ [])) = true) then _ else _) = _
    rw [if_pos ⟨one_ne_zero, List.any_eq_true.2 ⟨p, hp, decide_eq_true hne⟩⟩]
  · exact ⟨⟨T, some F, d, s, 1, some ps⟩, by unfold fitEnd; rw [e]; rfl, rfl⟩

/-- **C118, refuted: a GPU and one array.** With one array the state can be sampled, but one normal number is shared by all entries. Whatever the law of
the noise, if it has mean zero and identity covariance, the covariance of the entries `i` and `j` has `std i * std j / 2` in place of the diagonal. -/
theorem C118_gpu_single_false (platforms : List String) (disableJit : Bool) (hg : "gpu" ∈ platforms) (T : Obj String (List ℝ)) (hw : WF T)
    (h1 : (Nested.flatten T).length = 1) (hd : (ravelTree T).length = d) (s : Swag (Fin d)) :
    ∃ st, fitEnd (-1) platforms disableJit none T (some s) none = .ok st ∧
      (∀ z1 z2 : ℕ → ℝ, ∃ x, sample st false false z1 z2 = .ok x ∧ ravelTree x = draw st z1 z2) ∧
      st.d = d ∧ ∀ {Ω : Type} [MeasurableSpace Ω] (μ : Measure Ω) [IsProbabilityMeasure μ] (z : ℕ ⊕ ℕ → Ω → ℝ) (_ : ∀ k l, Integrable (fun ω => z k ω * z l ω) μ)
        (_ : ∀ k l, ∫ ω, z k ω * z l ω ∂μ = if k = l then 1 else 0) (_ : 0 < s.dev.length) (i j : Fin d),
        ∫ ω, (((draw st (fun k => z (.inl k) ω) (fun k => z (.inr k) ω)).getD i 0 - s.mean i) *
          ((draw st (fun k => z (.inl k) ω) (fun k => z (.inr k) ω)).getD j 0 - s.mean j)) ∂μ =
        swagStd s i * swagStd s j / 2 + (∑ k : Fin s.dev.length, s.dev.get k i * s.dev.get k j) / (2 * s.dev.length) := by
  refine ⟨⟨T, none, d, s, 1, none⟩, by unfold fitEnd; rw [gpu_trainer platforms disableJit hg]; rfl, fun z1 z2 => ?_, rfl, ?_⟩
  · obtain ⟨vf, e1, e2, e3⟩ := unravel_spec T hw (draw ⟨T, none, d, s, 1, none⟩ z1 z2) (by rw [hd]; simp [draw])
    refine ⟨_, ?_, by rw [ravelTree_mapLeaves, e3]⟩
    unfold sample
    rw [if_neg (by simp)]
    show (if (1 = 0 ∨ (Nested.flatten T).length ≤ 1) then unravelTree T (draw ⟨T, none, d, s, 1, none⟩ z1 z2) else _) = _
    rw [if_pos (Or.inr h1.le), e1]
  · intro Ω _ μ _ z hii hcov hr i j
    set r := s.dev.length with hrdef
    have hent : ∀ ω (i : Fin d), (draw (⟨T, none, d, s, 1, none⟩ : SwagState) (fun k => z (.inl k) ω) (fun k => z (.inr k) ω)).getD i 0 - s.mean i =
        ∑ k : Unit ⊕ Fin r, (match k with
          | .inl _ => 1 / Real.sqrt 2 * swagStd s i
          | .inr b => 1 / Real.sqrt 2 / Real.sqrt r * s.dev.get b i) * z (match k with | .inl _ => .inl 0 | .inr b => .inr b) ω := by
      intro ω i
      unfold draw
      rw [List.getD_eq_getElem?_getD, List.getElem?_ofFn, dif_pos i.2, Option.getD_some, Fintype.sum_sum_type]
      simp only [Finset.univ_unique, Finset.sum_singleton, swagSample, one_ne_zero, if_false, Finset.mul_sum]
      have : ∀ a b c : ℝ, a + b + c - a = b + c := fun a b c => by ring
      rw [Fin.eta]
      rw [this]
      congr 1
      exact Finset.sum_congr rfl fun x _ => by ring
    let A : Fin d → Unit ⊕ Fin r → ℝ := fun i k => match k with
      | .inl _ => 1 / Real.sqrt 2 * swagStd s i
      | .inr b => 1 / Real.sqrt 2 / Real.sqrt r * s.dev.get b i
    let f : Unit ⊕ Fin r → ℕ ⊕ ℕ := fun k => match k with | .inl _ => .inl 0 | .inr b => .inr b
    have hf : ∀ k l, f k = f l ↔ k = l := by
      intro k l
      rcases k with _ | k <;> rcases l with _ | l <;> simp [f, Fin.val_inj]
    have hent' : ∀ ω (i : Fin d), (draw (⟨T, none, d, s, 1, none⟩ : SwagState) (fun k => z (.inl k) ω) (fun k => z (.inr k) ω)).getD i 0 - s.mean i =
        ∑ k, A i k * z (f k) ω := fun ω i => hent ω i
    have hprod : ∀ ω, ((draw (⟨T, none, d, s, 1, none⟩ : SwagState) (fun k => z (.inl k) ω) (fun k => z (.inr k) ω)).getD i 0 - s.mean i) *
        ((draw (⟨T, none, d, s, 1, none⟩ : SwagState) (fun k => z (.inl k) ω) (fun k => z (.inr k) ω)).getD j 0 - s.mean j) =
        ∑ k, ∑ l, A i k * A j l * (z (f k) ω * z (f l) ω) := by
      intro ω
      rw [hent', hent', Finset.sum_mul_sum]
      exact Finset.sum_congr rfl fun k _ => Finset.sum_congr rfl fun l _ => by ring
    simp only [hprod]
    rw [integral_finsetSum _ fun k _ => integrable_finsetSum _ fun l _ => (hii _ _).const_mul _]
    have : ∀ k, ∫ ω, ∑ l, A i k * A j l * (z (f k) ω * z (f l) ω) ∂μ = A i k * A j k := by
      intro k
      rw [integral_finsetSum _ fun l _ => (hii _ _).const_mul _]
      simp [integral_const_mul, hcov, hf]
    simp only [this]
    rw [Fintype.sum_sum_type]
    have hs2 : Real.sqrt 2 * Real.sqrt 2 = 2 := Real.mul_self_sqrt (by norm_num)
    have hr' : (0 : ℝ) < r := by exact_mod_cast hr
    have hsr : Real.sqrt r * Real.sqrt r = r := Real.mul_self_sqrt hr'.le
    have h2 : (1 / Real.sqrt 2) * (1 / Real.sqrt 2) = 1 / 2 := by rw [div_mul_div_comm, hs2]; norm_num
    have h3 : (1 / Real.sqrt 2 / Real.sqrt r) * (1 / Real.sqrt 2 / Real.sqrt r) = 1 / (2 * r) := by
      rw [div_mul_div_comm, h2, hsr, div_div]
    simp only [Finset.univ_unique, Finset.sum_singleton, A]
    congr 1
    · calc _ = (1 / Real.sqrt 2) * (1 / Real.sqrt 2) * (swagStd s i * swagStd s j) := by ring
        _ = _ := by rw [h2]; ring
    · rw [Finset.sum_div]
      refine Finset.sum_congr rfl fun k _ => ?_
      calc _ = (1 / Real.sqrt 2 / Real.sqrt r) * (1 / Real.sqrt 2 / Real.sqrt r) * (s.dev.get k i * s.dev.get k j) := by ring
        _ = _ := by rw [h3]; ring

/-! ## Examples -/

/-- Three steps on the parameters of a kernel of two weights and a bias: the hypotheses of the theorems hold, and on a GPU the state cannot be sampled. -/
example : ∃ s st, swagRun 2 [(0, fun _ : Fin 3 => 1), (1, fun _ => 3), (2, fun _ => 8)] = some s ∧
    fitEnd 0 ["gpu"] false none exParams (some s) none = .ok st ∧ (∀ z1 z2, ∃ x, sample st false false z1 z2 = .ok x) ∧
    ∃ st', fitEnd (-1) ["gpu"] false none exParams (some s) none = .ok st' ∧ ∀ z1 z2, sample st' false true z1 z2 = .error "TypeError" := by
  obtain ⟨s, hs⟩ := swagRun_isSome 2 [(0, fun _ : Fin 3 => (1 : ℝ)), (1, fun _ => 3), (2, fun _ => 8)] (by simp)
  have e : fitEnd 0 ["gpu"] false none exParams (some s) none = .ok ⟨exParams, none, 3, s, 0, none⟩ := rfl
  have e' : fitEnd (-1) ["gpu"] false none exParams (some s) none = .ok ⟨exParams, none, 3, s, 1, none⟩ := rfl
  refine ⟨s, _, hs, e, fun z1 z2 => ?_, _, e', fun z1 z2 => ?_⟩
  · obtain ⟨vf, h, -⟩ := C118_cpu 0 ["gpu"] false (Or.inr rfl) exParams ex_wf.1 ex_wf.2.2 s _ e false false (by simp) z1 z2
    exact ⟨_, h⟩
  · obtain ⟨st, h1, h2⟩ := (C118_gpu_false ["gpu"] false (by simp) nil exParams s [] false z1 z2).1 (by simp [exParams, Nested.flatten])
    rw [e'] at h1
    cases h1
    exact h2

/-- One array of two entries on a GPU, collected at 0 and 2: the two entries of a sample have covariance 3/4 where it should be 1/4. -/
example : ∃ st s, swagRun 2 [(0, fun _ : Fin 2 => (0 : ℝ)), (1, fun _ => 2)] = some s ∧
    fitEnd (-1) ["gpu"] false none (cons "w" (leaf [0, 0]) nil) (some s) none = .ok st ∧
    ∫ ω, (((draw st (fun k => ω (.inl k)) (fun k => ω (.inr k))).getD 0 0 - 1) * ((draw st (fun k => ω (.inl k)) (fun k => ω (.inr k))).getD 1 0 - 1))
      ∂(Measure.infinitePi fun _ : ℕ ⊕ ℕ => ProbabilityTheory.gaussianReal 0 1) = 1 / 2 + 1 / 4 := by
  let s : Swag (Fin 2) := ⟨fun _ => 1, fun _ => 2, [fun _ => 0, fun _ => 1]⟩
  have hs : swagRun 2 [(0, fun _ : Fin 2 => (0 : ℝ)), (1, fun _ => 2)] = some s := by
    simp only [swagRun, List.foldl_cons, List.foldl_nil, swagStep, s]
    norm_num
  have hstd : ∀ i, swagStd s i = 1 := by
    intro i
    simp only [swagStd, s]
    norm_num
  obtain ⟨st, h1, -, h2, h3⟩ := C118_gpu_single_false (d := 2) ["gpu"] false (by simp) (cons "w" (leaf [0, 0]) nil) (by simp [WF, lookup, isDict])
    (by simp [Nested.flatten]) (by simp [length_ravelTree, Nested.flatten]) s
  refine ⟨st, s, hs, h1, ?_⟩
  have hm := GaussLaw.gauss_moments (Measure.infinitePi fun _ : ℕ ⊕ ℕ => ProbabilityTheory.gaussianReal 0 1) (fun k ω => ω k) (fun k => measurable_pi_apply k)
    (ProbabilityTheory.iIndepFun_infinitePi (X := fun _ x => x) fun _ => measurable_id) fun k => Measure.infinitePi_map_eval _ k
  have := h3 (Measure.infinitePi fun _ : ℕ ⊕ ℕ => ProbabilityTheory.gaussianReal 0 1) (fun k ω => ω k) (fun k l => (hm k l).2.2.1) (fun k l => (hm k l).2.2.2)
    (by simp [s]) 0 1
  rw [hstd, hstd] at this
  refine this.trans ?_
  have e : (∑ k : Fin s.dev.length, s.dev.get k 0 * s.dev.get k 1) = 1 := by
    show (∑ k : Fin 2, s.dev.get k 0 * s.dev.get k 1) = 1
    rw [Fin.sum_univ_two]
    simp [s]
  rw [e]
  simp only [s, List.length_cons, List.length_nil]
  norm_num

end Verif.Props.SwagRun
