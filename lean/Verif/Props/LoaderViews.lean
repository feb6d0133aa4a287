import Verif.Model.LoaderViews
import Verif.Props.Loader

/-!
C92: the loaders of inputs alone and of targets alone show the inputs and the targets of the data loader, whichever way
they are obtained.  The specification only uses rows: `flatten`, `take`, `drop`, and the projections of a pair.
-/
set_option linter.unusedSectionVars false
set_option linter.unusedVariables false
namespace Verif.Props.LoaderViews
open Verif.Loader Verif.LoaderViews Verif.Props

universe u v
variable {α : Type u} {β : Type v}

/-! ## Chop -/

/-- **C92.** Chopping the targets loader of a data loader gives the targets of the chopped data loader. -/
theorem C92_chop_targets (d : ℕ) (l : List (Batch α β)) :
    chopTargets d (l.map Prod.snd) = (chop d l).map fun l' => l'.map Prod.snd := by
  unfold chopTargets chop
  by_cases hd : d = 0
  · rw [if_pos hd, if_pos hd]
    cases l <;> simp [Except.map]
  · rw [if_neg hd, if_neg hd]
    simp only [Except.map]
    congr 1
    rw [List.filterMap_map, List.map_filterMap]
    apply List.filterMap_congr
    intro b _
    simp only [Function.comp_apply]
    split_ifs <;> rfl

example : chopTargets 2 ([([1, 2, 3], [10, 20, 30]), ([4], [40]), ([5, 6], [50, 60])].map Prod.snd) =
    .ok [[10, 20], [50, 60]] := by rfl

/-! ## Split -/

theorem split1_inputs (n : ℕ) (l : List (Batch α β)) (c : ℕ) :
    LoaderViews.split1 n c (l.map Prod.fst) = (Loader.split1 n c l).map Prod.fst := by
  induction l generalizing c with
  | nil => rfl
  | cons b l ih =>
    simp only [List.map_cons, LoaderViews.split1, Loader.split1]
    split_ifs <;> simp [ih]

theorem split2_inputs (n : ℕ) (l : List (Batch α β)) (c : ℕ) :
    LoaderViews.split2 n c (l.map Prod.fst) = (Loader.split2 n c l).map Prod.fst := by
  induction l generalizing c with
  | nil => rfl
  | cons b l ih =>
    simp only [List.map_cons, LoaderViews.split2, Loader.split2]
    split_ifs <;> simp [ih]

theorem split1_targets (n : ℕ) (l : List (Batch α β)) (ha : Aligned l) (c : ℕ) :
    LoaderViews.split1 n c (l.map Prod.snd) = (Loader.split1 n c l).map Prod.snd := by
  induction l generalizing c with
  | nil => rfl
  | cons b l ih =>
    have hb : b.1.length = b.2.length := ha b (by simp)
    have ih' := ih fun x hx => ha x (by simp [hx])
    simp only [List.map_cons, LoaderViews.split1, Loader.split1, hb]
    split_ifs <;> simp [ih']

theorem split2_targets (n : ℕ) (l : List (Batch α β)) (ha : Aligned l) (c : ℕ) :
    LoaderViews.split2 n c (l.map Prod.snd) = (Loader.split2 n c l).map Prod.snd := by
  induction l generalizing c with
  | nil => rfl
  | cons b l ih =>
    have hb : b.1.length = b.2.length := ha b (by simp)
    have ih' := ih fun x hx => ha x (by simp [hx])
    simp only [List.map_cons, LoaderViews.split2, Loader.split2, hb]
    split_ifs <;> simp [ih']

/-- **C92.** Splitting the loader of the inputs (or of the targets) of a data loader gives, batch by batch, the inputs
(the targets) of the two loaders obtained by splitting the data loader. -/
theorem C92_split_projects (n : ℕ) (l : List (Batch α β)) :
    LoaderViews.split n (l.map Prod.fst) =
      ((Loader.split n l).1.map Prod.fst, (Loader.split n l).2.map Prod.fst) ∧
    (Aligned l → LoaderViews.split n (l.map Prod.snd) =
      ((Loader.split n l).1.map Prod.snd, (Loader.split n l).2.map Prod.snd)) := by
  unfold LoaderViews.split Loader.split
  refine ⟨?_, fun ha => ?_⟩
  · rw [split1_inputs, split2_inputs]
  · rw [split1_targets n l ha, split2_targets n l ha]

/-- **C92.** `split(n)` of a loader of inputs or targets cuts the sequence of its rows after `n` rows. -/
theorem C92_split_rows (n : ℕ) (l : List (List α)) :
    (LoaderViews.split n l).1.flatten = l.flatten.take n ∧ (LoaderViews.split n l).2.flatten = l.flatten.drop n := by
  have ha : Aligned (l.map fun b => (b, b)) := by
    intro b hb
    obtain ⟨x, -, rfl⟩ := List.mem_map.1 hb
    rfl
  have hl : (l.map fun b => (b, b)).map Prod.fst = l := by
    rw [List.map_map]; exact List.map_id l
  have key : ∀ (m : List (Batch α α)), Aligned m → (m.map Prod.fst).flatten = (pairs m).map Prod.fst := by
    intro m hm
    induction m with
    | nil => rfl
    | cons b m ih =>
      have hb : b.1.length = b.2.length := hm b (by simp)
      have := ih fun x hx => hm x (by simp [hx])
      simp only [List.map_cons, List.flatten_cons, this, pairs, List.flatMap_cons, List.map_append]
      rw [List.map_fst_zip (le_of_eq hb)]
  obtain ⟨h1, h2, h3, h4⟩ := C23_split n (l.map fun b => (b, b)) ha
  have hs := (C92_split_projects n (l.map fun b => (b, b))).1
  rw [hl] at hs
  rw [hs]
  dsimp only
  rw [key _ h3, key _ h4, h1, h2, List.map_take, List.map_drop, ← key _ ha, hl]
  exact ⟨rfl, rfl⟩

example : LoaderViews.split 3 [[1, 2], [3, 4, 5], [6]] = ([[1, 2], [3]], [[4, 5], [6]]) := by decide +kernel

/-! ## Sample -/

theorem samplePass_inputs (n : ℕ) (draws : ℕ → List Bool) (l : List (Batch α β)) (k c : ℕ) :
    LoaderViews.samplePass n draws k c (l.map Prod.fst) =
      ((Loader.samplePass n draws k c l).1.map Prod.fst, (Loader.samplePass n draws k c l).2) := by
  induction l generalizing k c with
  | nil => rfl
  | cons b l ih =>
    simp only [List.map_cons, LoaderViews.samplePass, Loader.samplePass]
    by_cases h : c = n
    · rw [if_pos h, if_pos h]; rfl
    · rw [if_neg h, if_neg h]
      by_cases h2 : c + (maskRows (draws k) b.1).length > n
      · simp only [if_pos h2]
        rw [ih]
        split_ifs <;> rfl
      · simp only [if_neg h2]
        rw [ih]
        split_ifs <;> rfl

theorem samplePass_targets (n : ℕ) (draws : ℕ → List Bool) (l : List (Batch α β)) (ha : Aligned l) (k c : ℕ) :
    LoaderViews.samplePass n draws k c (l.map Prod.snd) =
      ((Loader.samplePass n draws k c l).1.map Prod.snd, (Loader.samplePass n draws k c l).2) := by
  induction l generalizing k c with
  | nil => rfl
  | cons b l ih =>
    have hb : b.1.length = b.2.length := ha b (by simp)
    have hm := (maskRows_zip_subset (draws k) b.1 b.2 hb).2
    have ih' := ih fun x hx => ha x (by simp [hx])
    simp only [List.map_cons, LoaderViews.samplePass, Loader.samplePass]
    by_cases h : c = n
    · rw [if_pos h, if_pos h]; rfl
    · rw [if_neg h, if_neg h]
      by_cases h2 : c + (maskRows (draws k) b.1).length > n
      · have h2' : c + (maskRows (draws k) b.2).length > n := by omega
        simp only [if_pos h2, if_pos h2', List.length_take, hm]
        rw [ih']
        split_ifs <;> rfl
      · have h2' : ¬ c + (maskRows (draws k) b.2).length > n := by omega
        simp only [if_neg h2, if_neg h2', hm]
        rw [ih']
        split_ifs <;> rfl

theorem sampleLoop_inputs (n : ℕ) (draws : ℕ → List Bool) (l : List (Batch α β)) (fuel k c : ℕ) :
    LoaderViews.sampleLoop n draws (l.map Prod.fst) fuel k c =
      (Loader.sampleLoop n draws l fuel k c).map fun o => o.map Prod.fst := by
  induction fuel generalizing k c with
  | zero => rfl
  | succ fuel ih =>
    simp only [LoaderViews.sampleLoop, Loader.sampleLoop, samplePass_inputs]
    split_ifs
    · rfl
    · rw [ih, Option.map_map, Option.map_map]
      congr 1
      funext o
      simp

theorem sampleLoop_targets (n : ℕ) (draws : ℕ → List Bool) (l : List (Batch α β)) (ha : Aligned l) (fuel k c : ℕ) :
    LoaderViews.sampleLoop n draws (l.map Prod.snd) fuel k c =
      (Loader.sampleLoop n draws l fuel k c).map fun o => o.map Prod.snd := by
  induction fuel generalizing k c with
  | zero => rfl
  | succ fuel ih =>
    simp only [LoaderViews.sampleLoop, Loader.sampleLoop, samplePass_targets n draws l ha]
    split_ifs
    · rfl
    · rw [ih, Option.map_map, Option.map_map]
      congr 1
      funext o
      simp

/-- **C92.** Sampling with the same seed (the same sequence of masks): the sampled inputs loader and the sampled targets
loader are the inputs and the targets of the sampled data loader, so that rows sampled separately still correspond; and
each finishes exactly when the data loader's sampling does. -/
theorem C92_sample_projects (n : ℕ) (draws : ℕ → List Bool) (l : List (Batch α β)) (fuel : ℕ) :
    LoaderViews.sample n draws (l.map Prod.fst) fuel = (Loader.sample n draws l fuel).map (fun o => o.map Prod.fst) ∧
    (Aligned l → LoaderViews.sample n draws (l.map Prod.snd) fuel =
      (Loader.sample n draws l fuel).map (fun o => o.map Prod.snd)) :=
  ⟨sampleLoop_inputs n draws l fuel 0 0, fun ha => sampleLoop_targets n draws l ha fuel 0 0⟩

/-- **C92.** Sampled inputs and sampled targets, drawn separately with the same seed, are matched rows of the data: there
are `n` of each, and the `i`-th input and the `i`-th target come from one pair of the data. -/
theorem C92_sample_matched (n : ℕ) (draws : ℕ → List Bool) (l : List (Batch α β)) (ha : Aligned l) (fuel : ℕ)
    (xs : List (List α)) (ys : List (List β))
    (hx : LoaderViews.sample n draws (toInputs l) fuel = some xs)
    (hy : LoaderViews.sample n draws (toTargets l) fuel = some ys) :
    xs.flatten.length = n ∧ ys.flatten.length = n ∧ ∀ p ∈ xs.flatten.zip ys.flatten, p ∈ pairs l := by
  obtain ⟨h1, h2⟩ := C92_sample_projects n draws l fuel
  have h2 := h2 ha
  unfold toInputs at hx
  unfold toTargets at hy
  rw [h1, Option.map_eq_some_iff] at hx
  rw [h2, Option.map_eq_some_iff] at hy
  obtain ⟨o, ho, rfl⟩ := hx
  obtain ⟨o', ho', rfl⟩ := hy
  obtain rfl : o = o' := by rw [ho] at ho'; exact Option.some.inj ho'
  obtain ⟨c1, c2, c3, -⟩ := C24_sample n draws l ha fuel o ho
  have hz : ∀ m : List (Batch α β), Aligned m →
      (m.map Prod.fst).flatten.length = (pairs m).length ∧ (m.map Prod.snd).flatten.length = (pairs m).length ∧
      (m.map Prod.fst).flatten.zip (m.map Prod.snd).flatten = pairs m := by
    intro m hm
    induction m with
    | nil => exact ⟨rfl, rfl, rfl⟩
    | cons b m ih =>
      have hb : b.1.length = b.2.length := hm b (by simp)
      obtain ⟨i1, i2, i3⟩ := ih fun x hx => hm x (by simp [hx])
      simp only [List.map_cons, List.flatten_cons, pairs, List.flatMap_cons, List.length_append, List.length_zip]
      unfold pairs at i1 i2 i3
      refine ⟨by omega, by omega, ?_⟩
      rw [List.zip_append hb, i3]
  obtain ⟨z1, z2, z3⟩ := hz o c2
  exact ⟨z1.trans c1, z2.trans c1, by rw [z3]; exact c3⟩

example : LoaderViews.sample 3 (fun k => if k % 2 = 0 then [true, false] else [true, true])
      ([([1, 2], [10, 20]), ([3, 4], [30, 40])].map Prod.snd) 2 = some [[10], [30, 40]] := by decide +kernel

/-! ## Arrays, sizes, transformations -/

theorem size_eq (l : List (List α)) : LoaderViews.size l = l.flatten.length := by
  have : ∀ (c : ℕ) (l : List (List α)), l.foldl (fun c b => c + b.length) c = c + l.flatten.length := by
    intro c l
    induction l generalizing c with
    | nil => simp
    | cons b l ih =>
      rw [List.foldl_cons, ih, List.flatten_cons, List.length_append]
      omega
  have := this 0 l
  rw [Nat.zero_add] at this
  exact this

/-- **C92.** The arrays of the inputs and of the targets are the same whether read from the data loader or from the derived
loaders, and are the two halves of `to_array_data`; all of them refuse a loader without batches. -/
theorem C92_to_array (l : List (Batch α β)) :
    toArray (toInputs l) = toArrayInputs l ∧ toArray (toTargets l) = toArrayTargets l ∧
    toArrayInputs l = (toArrayData l).map Prod.fst ∧ toArrayTargets l = (toArrayData l).map Prod.snd ∧
    (l ≠ [] → toArray (toInputs l) = .ok (l.flatMap Prod.fst) ∧ toArray (toTargets l) = .ok (l.flatMap Prod.snd)) := by
  unfold toArray toArrayInputs toArrayTargets toArrayData toInputs toTargets
  cases l with
  | nil => simp [Except.map]
  | cons b l => simp [Except.map, List.flatMap_def]

/-- **C92.** The size of a loader of inputs or targets is its number of rows; the inputs loader and, when every batch
holds as many inputs as targets, the targets loader of a data loader have the size of the data loader. -/
theorem C92_size (l : List (Batch α β)) :
    LoaderViews.size (toInputs l) = Loader.size l ∧ (Aligned l → LoaderViews.size (toTargets l) = Loader.size l) ∧
    ∀ m : List (List α), LoaderViews.size m = m.flatten.length := by
  have hs : ∀ (c : ℕ) (l : List (Batch α β)), (l.map Prod.fst).foldl (fun c b => c + b.length) c =
      l.foldl (fun c b => c + b.1.length) c := by
    intro c l
    rw [List.foldl_map]
  refine ⟨hs 0 l, fun ha => ?_, size_eq⟩
  have h0 : LoaderViews.size (toInputs l) = Loader.size l := hs 0 l
  rw [← h0]
  have : (toInputs l).map List.length = (toTargets l).map List.length := by
    unfold toInputs toTargets
    rw [List.map_map, List.map_map]
    exact List.map_congr_left ha
  have h1 : LoaderViews.size (toInputs l) = LoaderViews.size (toTargets l) := by
    rw [size_eq, size_eq, List.length_flatten, List.length_flatten, this]
  exact h1.symm

example : toArray (toTargets [([1, 2], [10, 20]), ([3], [30])]) = .ok [10, 20, 30] ∧
    LoaderViews.size (toTargets [([1, 2], [10, 20]), ([3], [30])]) = 3 := ⟨rfl, rfl⟩

/-- The statuses met by a transformation, one per batch. -/
def statuses {γ σ : Type*} (f : List α → σ → Option (List γ) × σ) (s : σ) (l : List (List α)) : List σ :=
  (List.range l.length).map fun i => (l.take i).foldl (fun s b => (f b s).2) s

/-- **C92.** A transformed loader: batch `i` is transformed with the status left by the batches before it, and exactly the
results that are neither `None` nor empty are yielded, in order. -/
theorem C92_transform {γ σ : Type*} (f : List α → σ → Option (List γ) × σ) (s : σ) (l : List (List α)) :
    LoaderViews.transform f s l =
      (l.zip (statuses f s l)).filterMap fun t => (f t.1 t.2).1.filter fun x => !x.isEmpty := by
  induction l generalizing s with
  | nil => rfl
  | cons b l ih =>
    have hst : statuses f s (b :: l) = s :: statuses f (f b s).2 l := by
      unfold statuses
      rw [List.length_cons, List.range_succ_eq_map, List.map_cons, List.map_map]
      rfl
    have hstep : LoaderViews.transform f s (b :: l) = match f b s with
        | (some x, s') => if x ≠ [] then x :: LoaderViews.transform f s' l else LoaderViews.transform f s' l
        | (none, s') => LoaderViews.transform f s' l := by
      rw [LoaderViews.transform]
      rcases f b s with ⟨_ | _, _⟩ <;> rfl
    rw [hst, List.zip_cons_cons, List.filterMap_cons, ← ih, hstep]
    rcases hf : f b s with ⟨o, s'⟩
    cases o with
    | none => rfl
    | some x => cases x <;> simp [Option.filter]

/-- A transformation that numbers the batches and drops the second one. -/
def numbering : List ℕ → ℕ → Option (List (ℕ × ℕ)) × ℕ :=
  fun b s => (if s = 1 then none else some (b.map fun x => (s, x)), s + 1)

example : LoaderViews.transform numbering 0 [[7, 8], [9], [], [5]] = [[(0, 7), (0, 8)], [(3, 5)]] := by decide +kernel

/-! ## from_data_loader -/

/-- **C92.** `InputsLoader.from_data_loader` is the loader of the inputs: it can be iterated, counted and measured. -/
theorem C92_from_data_loader_inputs (l : List (Batch α β)) :
    (inputsFromDataLoader l).iter = l.map Prod.fst ∧ (inputsFromDataLoader l).size = .ok (l.map fun b => b.1.length).sum ∧
    (inputsFromDataLoader l).len = .ok l.length := by
  refine ⟨rfl, ?_, ?_⟩
  · show Except.ok (LoaderViews.size (toInputs l)) = _
    rw [size_eq, List.length_flatten]
    unfold toInputs
    rw [List.map_map]; rfl
  · have : ∀ (c : ℕ) (m : List (List α)), m.foldl (fun c _ => c + 1) c = c + m.length := by
      intro c m
      induction m generalizing c with
      | nil => rfl
      | cons b m ih => rw [List.foldl_cons, ih, List.length_cons]; omega
    show Except.ok ((toInputs l).foldl (fun c _ => c + 1) 0) = _
    rw [this]
    simp [toInputs]

/-- **C92.** `TargetsLoader.from_data_loader` yields the targets when iterated, but what it returns is not a targets
loader: it has neither a size nor a length, for every data loader (and neither `chop`, `split` nor `sample`). -/
theorem C92_from_data_loader_targets_false (l : List (Batch α β)) :
    (targetsFromDataLoader l).iter = l.map Prod.snd ∧ (targetsFromDataLoader l).size = .error "AttributeError" ∧
    (targetsFromDataLoader l).len = .error "TypeError" := ⟨rfl, rfl, rfl⟩

/-! ## Passes -/

/-- **C92.** A loader made from something that can be iterated again shows the same batches in every pass. -/
theorem C92_passes {γ : Type*} (l : List γ) (k : ℕ) : Source.passes k (.again l) = List.replicate k l := by
  induction k with
  | zero => rfl
  | succ k ih => exact congrArg (l :: ·) ih

/-- **C92.** A loader made by `from_iterable` from an iterator is empty from its second pass on: for instance after
reading its size, its array cannot be built any more. -/
theorem C92_one_shot_false {γ : Type*} (l : List (List γ)) (k : ℕ) :
    Source.passes (k + 1) (.once l) = l :: List.replicate k [] ∧
    toArray ((Source.once l).pass.2.pass.1) = .error "ValueError" := by
  refine ⟨?_, rfl⟩
  show l :: Source.passes k (.once []) = _
  congr 1
  induction k with
  | zero => rfl
  | succ k ih => exact congrArg ([] :: ·) ih

example : Source.passes 3 (.once [[1, 2], [3]]) = [[[1, 2], [3]], [], []] := by decide +kernel

end Verif.Props.LoaderViews
