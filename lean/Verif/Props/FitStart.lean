import Verif.Model.FitStart
import Verif.Props.SubsetRepo

/-!
# C75: where a fit starts from; saving and loading posterior states
-/

set_option linter.unusedSectionVars false

namespace Verif.Props
open Verif.StateRepo Verif.Nested Verif.Nested.Obj Verif.FitStart

/-- **C75.** A checkpoint path given by the user is always the starting point, whatever else is configured; without one, the
current state is, if asked for; both only if the state found is of a class the method accepts, and otherwise nothing is
run. -/
theorem C75_precedence (m : Method) (c : Conf) (kind : Start → Kind) (hd : c.dump = true → c.saveDir = true) :
    (c.restorePath = true → fitStart m c kind =
      if allowed m (kind .restored) then .ok .restored else .error "ValueError") ∧
    (c.restorePath = false → c.startCurrent = true → fitStart m c kind =
      if allowed m (kind .current) then .ok .current else .error "ValueError") := by
  have h0 : (c.dump && !c.saveDir) = false := by
    cases h : c.dump
    · rfl
    · simp [hd h]
  constructor
  · intro h
    simp [fitStart, h0, available, restoreSource, h]
  · intro h1 h2
    simp [fitStart, h0, available, restoreSource, h1, h2]

/-- **C75.** The states a method accepts: those of MAP; ADVI, SWAG and Laplace also their own; the samplers any. So a MAP fit
or a deep ensemble never starts from the state of another method. -/
theorem C75_accepts (m : Method) (k : Kind) : allowed m k = true ↔
    k = .mapState ∨ (m = .advi ∧ k = .adviState) ∨ (m = .swag ∧ k = .swagState) ∨ (m = .laplace ∧ k = .laplaceState) ∨
      m = .sghmc ∨ m = .cyclicalSGLD := by
  cases m <;> cases k <;> simp [allowed]

example : fitStart .map ⟨true, false, false, false, false, false⟩ (fun _ => .adviState) = .error "ValueError" ∧
    fitStart .advi ⟨true, false, false, false, false, false⟩ (fun _ => .adviState) = .ok .restored := by decide

/-- **C75.** Without a checkpoint path and without starting from the current state nothing stored is ever read: the start is
random, a preliminary MAP run, or a mixture of both; and a preliminary MAP run happens only if configured. -/
theorem C75_fresh (m : Method) (c : Conf) (kind : Start → Kind) (h1 : c.restorePath = false) (h2 : c.startCurrent = false)
    (s : Start) (h : fitStart m c kind = .ok s) :
    (s = .random ∨ s = .prelimMap ∨ s = .mixed) ∧ (s = .prelimMap ∨ s = .mixed → c.mapConf = true) ∧
    (s = .mixed → c.freeze = true) := by
  unfold fitStart available shouldRunMap available at h
  rw [h1, h2] at h
  obtain ⟨rp, sc, fr, mc, du, sd⟩ := c
  simp only at h1 h2 h ⊢
  cases m <;> cases fr <;> cases mc <;> cases du <;> cases sd <;> simp at h <;> subst h <;> simp

/-- **C75.** SWAG and the Laplace approximation never start from a random initialisation: without stored state and without a
MAP configuration they refuse to run. -/
theorem C75_needs_map (m : Method) (hm : m = .swag ∨ m = .laplace) (c : Conf) (kind : Start → Kind) :
    (fitStart m c kind ≠ .ok .random) ∧
    (c.restorePath = false → c.startCurrent = false → c.mapConf = false → ∃ e, fitStart m c kind = .error e) := by
  obtain ⟨rp, sc, fr, mc, du, sd⟩ := c
  rcases hm with rfl | rfl
  all_goals
    constructor
    · unfold fitStart available shouldRunMap restoreSource available
      simp only
      split_ifs <;> simp
    · rintro h1 h2 h3
      simp only at h1 h2 h3
      subst h1 h2 h3
      unfold fitStart available shouldRunMap available
      cases du <;> cases sd <;> simp

/-- **C75.** The ensemble and the samplers use a MAP run exactly when some parameters are frozen, and then only for the frozen
ones; without a freeze function a MAP configuration is ignored. -/
theorem C75_map_ignored (m : Method) (hm : m = .deepEnsemble ∨ m = .sghmc ∨ m = .cyclicalSGLD) (c : Conf)
    (kind : Start → Kind) (h1 : c.restorePath = false) (h2 : c.startCurrent = false)
    (hd : c.dump = true → c.saveDir = true) :
    fitStart m c kind = .ok (if c.mapConf = true ∧ c.freeze = true then .mixed else .random) := by
  obtain ⟨rp, sc, fr, mc, du, sd⟩ := c
  simp only at h1 h2 hd
  subst h1 h2
  rcases hm with rfl | rfl | rfl <;>
    (unfold fitStart available shouldRunMap available
     cases fr <;> cases mc <;> cases du <;> cases sd <;> simp_all)

/-- **C75.** Asking to dump the state without a directory is refused before anything is run, by every method. -/
theorem C75_dump (m : Method) (c : Conf) (kind : Start → Kind) (h1 : c.dump = true) (h2 : c.saveDir = false) :
    fitStart m c kind = .error "ValueError" := by
  simp [fitStart, h1, h2]

/-- **C75.** SWAG runs exactly when the start is accepted, the rank is at least 2 and there are more epochs than its rank. -/
theorem C75_swag (rank epochs : ℕ) (c : Conf) (kind : Start → Kind) (s : Start) :
    swagStart rank epochs c kind = .ok s ↔ 2 ≤ rank ∧ rank < epochs ∧ fitStart .swag c kind = .ok s := by
  unfold swagStart
  constructor
  · intro h
    split_ifs at h with h1 h2 h3
    exact ⟨by omega, by omega, h⟩
  · rintro ⟨h1, h2, h3⟩
    by_cases hd : (c.dump && !c.saveDir) = true
    · simp [fitStart, hd] at h3
    · rw [if_neg hd, if_neg (by omega), if_neg (by omega)]
      exact h3

/-- **C75.** What SWAG refuses for its rank or number of epochs is a `ValueError`. -/
theorem C75_swag_refuses (rank epochs : ℕ) (c : Conf) (kind : Start → Kind) (h : rank < 2 ∨ epochs ≤ rank) :
    swagStart rank epochs c kind = .error "ValueError" := by
  unfold swagStart
  split_ifs with h1 h2 h3
  · rfl
  · rfl
  · rfl
  · omega

example : swagStart 5 20 ⟨false, false, false, true, false, false⟩ (fun _ => .mapState) = .ok .prelimMap := by decide

/-- **C75, refused start.** A MAP fit refuses a state of another class, for instance a SWAG state. -/
example : fitStart .map ⟨true, false, false, false, false, false⟩ (fun _ => .swagState) = .error "ValueError" ∧
    fitStart .swag ⟨true, true, false, true, false, false⟩ (fun _ => .swagState) = .ok .restored ∧
    fitStart .sghmc ⟨false, false, true, true, true, true⟩ (fun _ => .mapState) = .ok .mixed := by decide

section
variable {A K W : Type} [DecidableEq A] [DecidableEq K]

/-- **C75, mixed start.** When frozen parameters come from a MAP run, the starting parameters are: at every trainable leaf
the random initialisation, at every frozen leaf the MAP value, and nothing else. -/
theorem C75_mixed (mapParams random : Obj K W) (f : List K → W → String) (hd : mapParams.isDict = true)
    (hw : WF mapParams) (hf : ValidLabels mapParams f)
    (hr : ∀ p v, nestedGet mapParams p = .ok (leaf v) → ∃ w, nestedGet random p = .ok (leaf w)) :
    ∃ d, mixParams mapParams random f = .ok d ∧
      (∀ p v, nestedGet mapParams p = .ok (leaf v) → f p v = "trainable" → nestedGet d p = nestedGet random p) ∧
      (∀ p v, nestedGet mapParams p = .ok (leaf v) → f p v = "frozen" → nestedGet d p = .ok (leaf v)) ∧
      (∀ p, (∃ v, nestedGet d p = .ok (leaf v)) ↔ ∃ v, nestedGet mapParams p = .ok (leaf v)) := by
  have hne : ∀ p v, at? p mapParams = some (leaf v) → p ≠ [] := by
    rintro p v h rfl
    cases h; simp [isDict] at hd
  have hgl : ∀ p v, (p, v) ∈ flatten mapParams ↔ nestedGet mapParams p = .ok (leaf v) := by
    intro p v
    rw [mem_flatten _ hw, nestedGet_eq]
    exact ⟨fun h => ⟨hne p v h, h⟩, fun h => h.2⟩
  have hany : ((flatten mapParams).map fun pv => f pv.1 pv.2).any (fun c => !(["frozen", "trainable"] : List String).contains c) = false := by
    rw [List.any_eq_false]
    intro c hc
    obtain ⟨pv, hpv, rfl⟩ := List.mem_map.1 hc
    rcases hf pv.1 pv.2 ((hgl _ _).1 hpv) with h | h <;> simp [h]
  let ps := ((flatten mapParams).filter fun pv => f pv.1 pv.2 == "trainable").map (·.1)
  have hps : pathsWithLabel mapParams f "trainable" ["frozen", "trainable"] = .ok ps := by
    unfold pathsWithLabel
    rw [if_neg (by rw [hany]; simp)]
  have hmem : ∀ p, p ∈ ps ↔ ∃ v, nestedGet mapParams p = .ok (leaf v) ∧ f p v = "trainable" := by
    intro p
    simp only [ps, List.mem_map, List.mem_filter, beq_iff_eq]
    constructor
    · rintro ⟨pv, ⟨h1, h2⟩, rfl⟩; exact ⟨pv.2, (hgl _ _).1 h1, h2⟩
    · rintro ⟨v, h1, h2⟩; exact ⟨(p, v), ⟨(hgl _ _).2 h1, h2⟩, rfl⟩
  have hnd : ps.Nodup := (nodup_flatten mapParams hw).sublist (List.Sublist.map _ List.filter_sublist)
  have hap : ps.Pairwise Apart := by
    refine List.Pairwise.imp_of_mem ?_ hnd
    intro p q hp hq hpq
    obtain ⟨v, h1, -⟩ := (hmem p).1 hp
    obtain ⟨w, h2, -⟩ := (hmem q).1 hq
    exact leaves_apart ((nestedGet_eq _ _ _).1 h1).2 ((nestedGet_eq _ _ _).1 h2).2 hpq
  obtain ⟨objs, o1, o2, o3⟩ := mapM_get_ok random ps (fun p hp => by
    obtain ⟨v, h1, -⟩ := (hmem p).1 hp
    obtain ⟨w, hw'⟩ := hr p v h1
    exact ⟨leaf w, hw'⟩)
  obtain ⟨d, hset0⟩ := setMany_existing_ok (ps.zip objs) (zip_pairwise_apart o2 hap) mapParams (fun po hpo => by
    obtain ⟨v, h1, -⟩ := (hmem po.1).1 (List.of_mem_zip hpo).1
    exact ⟨leaf v, h1⟩)
  have hset : nestedSet mapParams ps objs false = .ok d := by
    unfold nestedSet; rw [if_neg (by simpa using o2)]; exact hset0
  obtain ⟨-, g1, g2⟩ := C27_set_many false mapParams d ps objs hap hset
  have hA : ∀ p ∈ ps, nestedGet d p = nestedGet random p := by
    intro p hp
    obtain ⟨i, hi, rfl⟩ := List.getElem_of_mem hp
    have hz : (ps[i], objs[i]'(by omega)) ∈ ps.zip objs := by
      rw [List.mem_iff_getElem]
      exact ⟨i, by simp; omega, by simp⟩
    rw [g1 _ hz, o3 _ hz]
  have hB : ∀ p v, nestedGet mapParams p = .ok (leaf v) → p ∉ ps → ∀ q ∈ ps, Apart p q := by
    intro p v hp hnot q hq
    obtain ⟨w, h2, -⟩ := (hmem q).1 hq
    exact leaves_apart ((nestedGet_eq _ _ _).1 hp).2 ((nestedGet_eq _ _ _).1 h2).2 (by rintro rfl; exact hnot hq)
  refine ⟨d, ?_, ?_, ?_, ?_⟩
  · unfold mixParams
    rw [hps]
    show (ps.mapM (nestedGet random) >>= _) = _
    rw [o1]
    exact hset
  · intro p v hp hft
    exact hA p ((hmem p).2 ⟨v, hp, hft⟩)
  · intro p v hp hff
    refine (g2 p (hB p v hp ?_) _).2 hp
    intro hin
    obtain ⟨w, h1, h2⟩ := (hmem p).1 hin
    rw [hp] at h1; cases h1
    rw [hff] at h2; simp at h2
  · intro p
    constructor
    · rintro ⟨v, hv⟩
      by_cases hap' : ∀ q ∈ ps, Apart p q
      · exact ⟨v, (g2 p hap' _).1 hv⟩
      · push Not at hap'
        obtain ⟨q, hq, hna⟩ := hap'
        obtain ⟨w, h1, -⟩ := (hmem q).1 hq
        obtain ⟨u, hu⟩ := hr q w h1
        have hdq : nestedGet d q = .ok (leaf u) := (hA q hq).trans hu
        by_cases hpq : p = q
        · exact ⟨w, hpq ▸ h1⟩
        · exact absurd (leaves_apart ((nestedGet_eq _ _ _).1 hv).2 ((nestedGet_eq _ _ _).1 hdq).2 hpq) hna
    · rintro ⟨v, hv⟩
      by_cases hin : p ∈ ps
      · obtain ⟨w, hw'⟩ := hr p v hv
        exact ⟨w, (hA p hin).trans hw'⟩
      · exact ⟨v, (g2 p (hB p v hv hin) _).2 hv⟩

example : mixParams (cons "m" (cons "w" (leaf 1) (cons "b" (leaf 2) nil)) nil)
    (cons "m" (cons "b" (leaf 20) (cons "w" (leaf 10) nil)) nil)
    (fun p _ => if p = ["m", "w"] then "trainable" else "frozen") =
    .ok (cons "m" (cons "w" (leaf 10) (cons "b" (leaf 2) nil)) nil : Obj String ℕ) := by decide +kernel

/-! ## Saving and loading -/

/-- What is saved at a location is what is restored from it, whatever was there, provided it is not a file. -/
theorem save_restore (l l' : Loc (TS A W)) (s : TS A W) (keep : ℕ) (hk : 1 ≤ keep) (h : save l s keep = .ok l') :
    restore l' = .ok s.strip := by
  have key : ∀ d : Verif.Training.Dir (TS A W),
      restore (.dir ((Verif.Training.saveCkpt d s.strip.step s.strip keep true).getD [])) = .ok s.strip := by
    intro d
    unfold Verif.Training.saveCkpt restore Verif.Training.restoreCkpt
    simp only [Bool.not_true, Bool.false_and, Bool.false_eq_true, if_false, Option.getD_some]
    have : (List.drop ((d.filter (fun p => decide (p.1 < s.strip.step)) ++ [(s.strip.step, s.strip)]).length - keep)
        (d.filter (fun p => decide (p.1 < s.strip.step)) ++ [(s.strip.step, s.strip)])).getLast? =
        some (s.strip.step, s.strip) := by
      rw [List.getLast?_drop, if_neg (by simp; omega), List.getLast?_append]
      rfl
    rw [this]
    rfl
  cases l with
  | file x => cases h
  | absent => cases h; exact key []
  | dir d => cases h; exact key d

/-- **C75, saving and loading.** A posterior state saved to a directory and loaded from it is the state the posterior had
(without accumulated gradients), wherever the posterior kept it, whatever the directory held before, and loading it again or
saving on from there keeps it; before any fit, saving is refused. -/
theorem C75_save_load (r : Repo (TS A W)) (s : TS A W) (keep : ℕ) (hk : 1 ≤ keep) (hs : getState r false = .ok s)
    (ho : ∀ x, r.other ≠ .file x) :
    (∃ r', saveState (some r) keep = .ok r' ∧ getState r' false = .ok s ∧
      ∃ r'', loadState r'.other = .ok r'' ∧ getState r'' false = .ok { s with acc := none } ∧
        ∃ r3, saveState (some r'') keep = .ok r3 ∧ restore r3.other = .ok { s with acc := none }) ∧
    saveState (none : Option (Repo (TS A W))) keep = .error .noState := by
  have hsv : ∀ (l : Loc (TS A W)) (x : TS A W), (∀ y, l ≠ .file y) → ∃ l', save l x keep = .ok l' := by
    intro l x hl
    cases l with
    | file y => exact absurd rfl (hl y)
    | absent => exact ⟨_, rfl⟩
    | dir d => exact ⟨_, rfl⟩
  obtain ⟨l', hl'⟩ := hsv r.other s ho
  have hres := save_restore r.other l' s keep hk hl'
  refine ⟨⟨{ r with other := l' }, ?_, ?_, { dirSet := true, ckpt := l', other := .absent, mem := none }, ?_, ?_, ?_⟩, rfl⟩
  · show (getState r false >>= fun s => put r s true keep) = _
    rw [hs]
    show put r s true keep = _
    simp [put, hl', Except.map]
  · simpa [getState] using hs
  · simp only [loadState, hres]
  · simp [getState, hres, TS.strip]
  · obtain ⟨l3, hl3⟩ := hsv (.absent : Loc (TS A W)) s.strip (by simp)
    refine ⟨{ dirSet := true, ckpt := l', other := l3, mem := none }, ?_, ?_⟩
    · show (getState { dirSet := true, ckpt := l', other := .absent, mem := none } false >>= fun s => put _ s true keep) = _
      simp only [getState, Bool.false_eq_true, if_false, if_true, hres]
      show put { dirSet := true, ckpt := l', other := .absent, mem := none } s.strip true keep = _
      simp only [put, if_true, hl3]
      rfl
    · have := save_restore _ l3 s.strip keep hk hl3
      rw [this]; rfl

/-- A location without a checkpoint cannot be loaded. -/
theorem C75_load_empty (l : Loc (TS A W)) (e : Err) (h : restore l = .error e) : loadState l = .error .noCheckpoint := by
  simp only [loadState, h]

/-- **C75, ensembles: failure.** `save_state` of an ensemble does not write to the directory it is given: loading the ensemble
from that (empty) directory fails although the saving succeeded. -/
theorem C75_ensemble_save_false (m : List (Repo (TS A W))) (hm : ∀ r ∈ m, r.dirSet = false ∧ r.mem.isSome) (keep size : ℕ) :
    ensembleSave m keep = .ok m ∧ ∀ dirs : ℕ → Loc (TS A W), dirs 0 = .absent → ensembleLoad dirs size = .error .noCheckpoint := by
  constructor
  · unfold ensembleSave
    have key : ∀ n, n ≤ m.length → (List.range n).foldlM (fun m i => do
        let s ← multiGet m i
        multiPut m s i keep) m = .ok m := by
      intro n
      induction n with
      | zero => intro _; rfl
      | succ n ih =>
        intro hn
        rw [List.range_succ, List.foldlM_append, ih (by omega)]
        have hi : n < m.length := by omega
        obtain ⟨h1, h2⟩ := hm m[n] (List.getElem_mem hi)
        obtain ⟨s, hs⟩ := Option.isSome_iff_exists.1 h2
        have hg : multiGet m n = .ok s := by
          simp [multiGet, List.getElem?_eq_getElem hi, getState, h1, hs]
        show ((multiGet m n >>= fun s => multiPut m s n keep) >>= fun m => pure m) = _
        have hp : multiPut m s n keep = .ok m := by
          simp only [multiPut, List.getElem?_eq_getElem hi, put, Bool.false_eq_true, if_false, h1, Except.map]
          congr 1
          rw [show ({ dirSet := false, ckpt := m[n].ckpt, other := m[n].other, mem := some s } : Repo (TS A W)) = m[n] by
            rw [← h1, ← hs]]
          exact List.set_getElem_self hi
        rw [hg]
        show ((multiPut m s n keep) >>= fun m => pure m) = _
        rw [hp]; rfl
    exact key m.length le_rfl
  · intro dirs h0
    simp [ensembleLoad, h0, restore]

/-- **C75, ensembles.** Loading an ensemble from a directory in which every member was saved gives every member back. -/
theorem C75_ensemble_load (dirs : ℕ → Loc (TS A W)) (size : ℕ) (ss : ℕ → TS A W) (hsize : 0 < size)
    (h : ∀ i < size, restore (dirs i) = .ok (ss i)) :
    ∃ m, ensembleLoad dirs size = .ok m ∧ m.length = size ∧ ∀ i < size, multiGet m i = .ok (ss i) := by
  refine ⟨(List.range size).map fun i => { dirSet := true, ckpt := dirs i, other := .absent, mem := none }, ?_, by simp, ?_⟩
  · simp only [ensembleLoad, h 0 hsize]
  · intro i hi
    simp [multiGet, List.getElem?_map, List.getElem?_range hi, getState, h i hi]

/-- **C75, ensembles: failure.** Only the first member is looked at when loading: a directory in which any other member is
missing is accepted, and reading that member fails later. -/
theorem C75_ensemble_load_incomplete_false (dirs : ℕ → Loc (TS A W)) (size i : ℕ) (hi : i < size) (s : TS A W)
    (h0 : restore (dirs 0) = .ok s) (hmiss : dirs i = .absent) :
    ∃ m, ensembleLoad dirs size = .ok m ∧ multiGet m i = .error .notFound := by
  refine ⟨(List.range size).map fun i => { dirSet := true, ckpt := dirs i, other := .absent, mem := none }, ?_, ?_⟩
  · simp only [ensembleLoad, h0]
  · simp [multiGet, List.getElem?_map, List.getElem?_range hi, getState, hmiss, restore]

/-- **C75, going on with an ensemble.** A further fit starting from the current states reads, for every member, that member's
own current state, when it keeps its states in the same place as the previous fit. -/
theorem C75_ensemble_current (m : List (Repo (TS A W))) (i : ℕ) (dirs : ℕ → Loc (TS A W)) :
    ((∀ r ∈ m, r.dirSet = false) → ensembleCurrent m none i = multiGet m i) ∧
    ((∀ k, (h : k < m.length) → m[k].dirSet = true ∧ m[k].ckpt = dirs k) → ensembleCurrent m (some dirs) i = multiGet m i) := by
  constructor
  · intro h
    unfold ensembleCurrent redirect multiGet
    rw [List.getElem?_mapIdx]
    cases hm : m[i]? with
    | none => rfl
    | some r =>
      have := h r (List.mem_of_getElem? hm)
      simp [getState, this]
  · intro h
    unfold ensembleCurrent redirect multiGet
    rw [List.getElem?_mapIdx]
    cases hm : m[i]? with
    | none => rfl
    | some r =>
      obtain ⟨hi, rfl⟩ := List.getElem?_eq_some_iff.1 hm
      obtain ⟨h1, h2⟩ := h i hi
      simp [getState, h1, h2]

/-- **C75, going on with an ensemble: failure.** If the further fit keeps its states elsewhere than the previous one (in a new
directory after memory, or in memory after a directory), the current states cannot be read although they are there. -/
theorem C75_ensemble_moved_false (m : List (Repo (TS A W))) (i : ℕ) (s : TS A W) (h : multiGet m i = .ok s) :
    ((∀ r ∈ m, r.dirSet = false) → ∃ e, ensembleCurrent m (some fun _ => .absent) i = .error e) ∧
    ((∀ r ∈ m, r.dirSet = true ∧ r.mem = none) → ∃ e, ensembleCurrent m none i = .error e) := by
  unfold multiGet at h
  cases hm : m[i]? with
  | none => rw [hm] at h; cases h
  | some r =>
    constructor
    · intro _
      refine ⟨.notFound, ?_⟩
      simp [ensembleCurrent, redirect, multiGet, List.getElem?_mapIdx, hm, getState, restore]
    · intro hall
      refine ⟨.noState, ?_⟩
      simp [ensembleCurrent, redirect, multiGet, List.getElem?_mapIdx, hm, getState, (hall r (List.mem_of_getElem? hm)).2]

/-- A state saved from memory to a directory that already holds a later checkpoint, and loaded. -/
example : ((saveState (some (⟨false, .absent, .dir [(1, ⟨1, none, fun _ => 5⟩), (9, ⟨9, none, fun _ => 6⟩)],
      some ⟨3, some 4, fun _ => 7⟩⟩ : Repo (TS (Fin 1) ℕ))) 2).bind (fun r => loadState r.other)).bind
      (fun r => extract r [0] false) = .ok [(0, 7)] := by decide +kernel

end

/-! ### Concrete cases that meet the hypotheses of the theorems above -/

example := C75_precedence .advi ⟨true, false, false, false, true, true⟩ (fun _ => .adviState) (by decide)
example := C75_fresh .sghmc ⟨false, false, true, true, true, true⟩ (fun _ => .mapState) rfl rfl .mixed (by decide)
example := C75_needs_map .swag (.inl rfl) ⟨false, false, false, false, false, false⟩ (fun _ => .mapState)
example := C75_map_ignored .sghmc (.inr (.inl rfl)) ⟨false, false, false, true, false, false⟩ (fun _ => .mapState) rfl rfl (by decide)
example := C75_dump .map ⟨false, false, false, false, true, false⟩ (fun _ => .mapState) rfl rfl

/-- A repository that keeps its state in memory and whose other directory holds two checkpoints. -/
def exRepo : Repo (TS (Fin 1) ℕ) :=
  ⟨false, .absent, .dir [(1, ⟨1, none, fun _ => 5⟩), (9, ⟨9, none, fun _ => 6⟩)], some ⟨3, some 4, fun _ => 7⟩⟩

example := C75_save_load exRepo ⟨3, some 4, fun _ => 7⟩ 2 (by norm_num) rfl (by simp [exRepo])
example := C75_load_empty (.absent : Loc (TS (Fin 1) ℕ)) .notFound (by rfl)
example := C75_ensemble_save_false [exRepo, exRepo] (by simp [exRepo]) 1 2
example := C75_ensemble_load (fun i => .file (⟨i, none, fun _ => 5⟩ : TS (Fin 1) ℕ)) 3 (fun i => ⟨i, none, fun _ => 5⟩) (by norm_num)
  (fun _ _ => rfl)
example := C75_ensemble_load_incomplete_false (fun i => if i = 1 then .absent else .file (⟨i, none, fun _ => 5⟩ : TS (Fin 1) ℕ)) 3 1
  (by norm_num) ⟨0, none, fun _ => 5⟩ rfl rfl
example := (C75_ensemble_current [exRepo, exRepo] 1 fun _ => .absent).1 (by simp [exRepo])

end Verif.Props
