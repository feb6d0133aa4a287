import Verif.Model.Detector
import Verif.Props.Hallucination
import Verif.Props.MultivalidEntry
import Verif.Lemmas.ConformalRegression

/-! Property C99: the hallucination detector from `fit` to `predict_proba`. -/
set_option linter.unusedSectionVars false

namespace Verif.Props.Detector
open Verif.Detector Verif.Hallucination Verif.MultivalidEntry Verif.Multivalid Verif.Props

variable {T C K R M : Type} [Field K] [LinearOrder K] [IsStrictOrderedRing K]

/-- Specification: what language model, reduction and clustering models keep: a row for every row. -/
structure RowsKept (env : Env T C K R M) : Prop where
  run : ∀ ts cs s e, env.run ts cs = .ok (s, e) → s.length = ts.length ∧ e.length = ts.length
  reduceFit : ∀ e, (env.reduceFit e).2.length = e.length
  reduceOn : ∀ r e, (env.reduceOn r e).length = e.length
  proba : ∀ m z, (env.proba m z).length = z.length

/-- Specification: the squared error of predictions on the rows `idx`. -/
def sqErrOn (idx : List ℕ) (p : List K) (y : List ℤ) : K :=
  (idx.map fun i : ℕ => (p.getD i 0 - ((y.getD i 0 : ℤ) : K)) ^ 2).sum

theorem batches_fst (texts : List T) (contexts : List C) (size : ℕ) (hs : 0 < size) (bs : List (List T × List C))
    (h : batches texts contexts size = .ok bs) : (bs.map (·.1)).flatten = texts := by
  unfold batches at h
  rw [if_neg (by omega)] at h
  cases h
  have hcover : texts.length ≤ (texts.length + size - 1) / size * size := by
    have := Nat.div_add_mod (texts.length + size - 1) size
    have h2 := Nat.mod_lt (texts.length + size - 1) hs
    rw [Nat.mul_comm] at this
    omega
  rw [List.map_map]
  have := textChunks_flatten texts size ((texts.length + size - 1) / size)
  rw [List.take_of_length_le hcover] at this
  exact this

theorem scoresEmb_length (env : Env T C K R M) (hk : RowsKept env) (texts : List T) (contexts : List C) (size : ℕ)
    (s : List K) (e : List (List K)) (h : scoresEmb env texts contexts size = .ok (s, e)) :
    s.length = texts.length ∧ e.length = texts.length := by
  unfold scoresEmb at h
  by_cases h0 : size = 0
  · rw [if_pos h0] at h; cases h
  rw [if_neg h0] at h
  obtain ⟨bs, h1, h⟩ := bind_ok.mp h
  obtain ⟨out, h2, h⟩ := bind_ok.mp h
  by_cases h3 : out = []
  · rw [if_pos h3] at h; cases h
  rw [if_neg h3] at h
  cases h
  have hb := batches_fst texts contexts size (by omega) bs h1
  replace h2 := mapM_ok.mp h2
  have key : ((out.map Prod.fst).flatten).length = ((bs.map (·.1)).flatten).length ∧
      ((out.map Prod.snd).flatten).length = ((bs.map (·.1)).flatten).length := by
    clear * - h2 hk
    induction h2 with
    | nil => exact ⟨rfl, rfl⟩
    | cons hab _ ih =>
      have := hk.run _ _ _ _ hab
      obtain ⟨i1, i2⟩ := ih
      simp only [List.map_cons, List.flatten_cons, List.length_append]
      omega
  rw [hb] at key
  exact key

theorem withScores_length (e : List (List K)) (s : List K) (h : e.length = s.length) :
    (withScores e s).length = s.length := by
  unfold withScores
  rw [List.length_zipWith, h, min_self]

theorem groupProba_length (env : Env T C K R M) (hk : RowsKept env) (g : Grouping K M) (rows probs : List (List K))
    (h : groupProba env g rows = .ok probs) : probs.length = rows.length := by
  unfold groupProba at h
  obtain ⟨z, h1, h⟩ := bind_ok.mp h
  cases h
  rw [hk.proba]
  unfold Verif.Detector.normalize at h1
  split at h1
  · cases h1
  · cases h1; simp

/-! ### Values of one column -/

theorem replay_row_length (cfg : Config K) (groups : List (List Bool)) (values : List (List K)) (ps : List (Patch K)) (w : ℕ)
    (h : ∀ r ∈ values, r.length = w) : ∀ r ∈ replay cfg groups values ps, r.length = w := by
  unfold replay
  induction ps generalizing values with
  | nil => exact h
  | cons p ps ih =>
    rw [List.foldl_cons]
    apply ih
    intro r hr
    unfold applyPatch patchValues at hr
    rw [List.mem_iff_getElem] at hr
    obtain ⟨i, hi, rfl⟩ := hr
    rw [List.getElem_zipWith]
    unfold patchRow
    have hm : ∀ (hj : i < values.length), values[i].length = w := fun hj => h _ (List.getElem_mem hj)
    split
    · rw [List.length_set]; exact hm _
    · exact hm _

theorem heads (l : List (List K)) (h : ∀ r ∈ l, r.length = 1) : (l.map fun r => r.headD 0).map (fun x => [x]) = l := by
  induction l with
  | nil => rfl
  | cons r l ih =>
    obtain ⟨a, rfl⟩ := List.length_eq_one_iff.mp (h r List.mem_cons_self)
    simp only [List.map_cons, List.headD_cons]
    rw [ih fun r hr => h r (List.mem_cons_of_mem _ hr)]

theorem sqErr_pick (p : List K) (y : List ℤ) (hl : p.length = y.length) (idx : List ℕ) (hi : ∀ i ∈ idx, i < p.length) :
    sqErr (pick (p.map fun x => [x]) idx) (pick (y.map fun t : ℤ => [(t : K)]) idx) = sqErrOn idx p y := by
  induction idx with
  | nil => simp [sqErr, pick, sqErrOn]
  | cons i idx ih =>
    have ih := ih fun j hj => hi j (List.mem_cons_of_mem _ hj)
    have h1 := hi i List.mem_cons_self
    have h2 : i < y.length := hl ▸ h1
    have e1 : (p.map fun x => [x])[i]? = some [p[i]] := by simp [h1]
    have e2 : (y.map fun t : ℤ => [(t : K)])[i]? = some [(y[i] : K)] := by simp [h2]
    unfold pick at ih ⊢
    rw [List.filterMap_cons_some e1, List.filterMap_cons_some e2]
    unfold sqErr at ih ⊢
    rw [List.zipWith_cons_cons, List.sum_cons, ih]
    unfold sqErrOn
    simp [h1, h2]

theorem loss_le (c : Call K) (hc : c.kind = .binary) (n : ℕ) (d val : Data K) (st : Status K) (ps : List (Patch K))
    (h : calibrateSplit c.method c.params n d val = (st, ps)) (D : Data K) (hD : D = d ∨ D = val) :
    sqErr (replay c.params.cfg D.groups D.values ps) D.scores ≤ sqErr D.values D.scores := by
  have key : ∀ i ≤ ps.length,
      sqErr (replay c.params.cfg D.groups D.values (ps.take i)) D.scores ≤ sqErr D.values D.scores := by
    intro i
    induction i with
    | zero => intro _; exact le_refl _
    | succ i ih =>
      intro hi
      refine le_trans ?_ (ih (by omega))
      refine C17_losses_nonincreasing c.method c.params n d val st ps h D hD i (by omega) _ _ ?_ ?_
      · unfold Call.method; rw [hc]; rfl
      · unfold Call.method; rw [hc]; rfl
  have := key ps.length le_rfl
  rwa [List.take_length] at this

theorem apply_binary (cfg : Config K) (ps : List (Patch K)) (z : ℕ → ℕ → K) (groups : List (List Bool)) (rows : List (List K))
    (hl : groups.length = rows.length) (hp : ps = [] ∨ AllProb rows) :
    applyCall .binary cfg ps z (some ⟨2, true, groups⟩) (some ⟨1, rows⟩) = .ok (some (replay cfg groups rows ps)) := by
  unfold applyCall
  rw [if_neg (by simp)]
  by_cases h0 : ps = []
  · rw [if_pos h0, h0]; rfl
  rw [if_neg h0]
  have hv : valuesOk rows = true := (valuesOk_iff _).2 (hp.resolve_left h0)
  have e1 : checkValues .binary (some (⟨1, rows⟩ : Arr K)) none = .ok () := by
    simp [checkValues, goodArr, hv]
  have e2 : checkGroups (some ⟨2, true, groups⟩) none = .ok () := by simp [checkGroups]
  have e3 : applyPatches cfg ps groups rows = .ok (replay cfg groups rows ps) := by
    unfold applyPatches
    rw [if_neg h0, hv]
    simp [hl]
  simp only [initValues, initGroups, bind, Except.bind, e1, e2, e3]

variable [FloorRing K]

theorem fitOn_ok (env : Env T C K R M) (o : Obj K R M) (texts : List T) (contexts : List C) (targets : List ℤ) (size : ℕ)
    (threshold : K) (perm : List ℕ) (o' : Obj K R M) (st : Status K)
    (h : fitOn env o texts contexts targets size threshold perm = (o', .ok st)) :
    ∃ s e g probs qs ps x, scoresEmb env texts contexts size = .ok (s, e) ∧
      fitGrouping env (withScores (env.reduceFit e).2 s) = .ok g ∧
      groupProba env g (withScores (env.reduceFit e).2 s) = .ok probs ∧ quantilesOf probs threshold = .ok qs ∧
      calibrateCall (calibCall s targets (probs.map (groupsOf qs))) perm (fun _ _ => 0) (fun _ _ => 0) = .ok (st, ps, x) ∧
      o' = ⟨(env.reduceFit e).1, some g, some qs, some (some ps)⟩ := by
  unfold fitOn at h
  split at h
  · cases h
  next s e h1 =>
  dsimp only at h
  split at h
  · cases h
  next g h2 =>
  split at h
  · cases h
  next probs h3 =>
  split at h
  · cases h
  next qs h4 =>
  split at h
  · cases h
  next st' ps x h5 =>
  cases h
  exact ⟨s, e, g, probs, qs, ps, x, h1, h2, h3, h4, h5, rfl⟩

/-- **C99.** After a successful `fit`, `predict_proba` on the examples of `fit` (after balancing), with the same batch size,
gives a probability per text. If the reduction maps the data it was fitted on as `fit_transform` did, the squared error of these
probabilities is at most that of the uncalibrated scores, on the calibration part and on the validation part of the examples. -/
theorem C99_fit_predict (env : Env T C K R M) (hk : RowsKept env)
    (hred : ∀ e, env.reduceOn (env.reduceFit e).1 e = (env.reduceFit e).2) (o o' : Obj K R M) (texts t : List T)
    (contexts c : List C) (targets y : List ℤ) (size : ℕ) (threshold : K) (bal : Bool) (draw : ℕ → ℕ) (perm : List ℕ)
    (st : Status K) (h : fit env o texts contexts targets size threshold bal draw perm = (o', .ok st, (t, c, y)))
    (hy : y.length = t.length) (hperm : perm.Perm (List.range t.length)) :
    ∃ s p, predictProba env o' t c size false = .ok s ∧ predictProba env o' t c size true = .ok p ∧
      s.length = t.length ∧ p.length = t.length ∧ (∀ x ∈ p, 0 ≤ x ∧ x ≤ 1) ∧
      sqErrOn (perm.take (⌈(4 / 5 : K) * (t.length : K)⌉).toNat) p y ≤
        sqErrOn (perm.take (⌈(4 / 5 : K) * (t.length : K)⌉).toNat) s y ∧
      sqErrOn (perm.drop (⌈(4 / 5 : K) * (t.length : K)⌉).toNat) p y ≤
        sqErrOn (perm.drop (⌈(4 / 5 : K) * (t.length : K)⌉).toNat) s y := by
  unfold fit at h
  split at h
  · cases h
  next t' c' y' hb =>
  dsimp only at h
  simp only [Prod.mk.injEq] at h
  obtain ⟨ho, hst, rfl, rfl, rfl⟩ := h
  obtain ⟨s, e, g, probs, qs, ps, x, h1, h2, h3, h4, h5, h6⟩ := fitOn_ok env _ _ _ _ _ _ _ _ _ (Prod.ext ho hst)
  have hlen := scoresEmb_length env hk _ _ _ _ _ h1
  have hpl : probs.length = s.length := by
    rw [groupProba_length env hk _ _ _ h3]
    exact withScores_length _ _ (by rw [hk.reduceFit]; omega)
  obtain ⟨⟨hacc, -⟩, h7⟩ := (MultivalidEntry.C91_accepts _ perm _ _ rfl rfl _).1 h5
  have hprob : AllProb (s.map fun x => [x]) := hacc.values.1
  simp only [Prod.mk.injEq] at h7
  obtain ⟨h7, h8, -⟩ := h7
  generalize hgr : probs.map (groupsOf qs) = groups at h5 hacc h7 h8
  have hgl : groups.length = (s.map fun x => [x]).length := by rw [← hgr]; simp [hpl]
  generalize hrep : replay calibConfig groups (s.map fun x => [x]) ps = out
  have hol : out.length = s.length := by rw [← hrep, replay_length _ _ _ _ hgl]; simp
  have hrow : ∀ r ∈ out, r.length = 1 := by
    rw [← hrep]
    apply replay_row_length
    intro r hr
    obtain ⟨a, -, rfl⟩ := List.mem_map.mp hr
    rfl
  have hres : calibrateSplit (calibCall s y' groups).method (calibCall s y' groups).params (calibCall s y' groups).nRounds _ _ =
    (st, ps) := (Prod.ext h7.symm h8.symm : MultivalidEntry.loopResult (calibCall s y' groups) perm _ = (st, ps))
  have hn : (((calibCall s y' groups).scores.vals.length : ℕ) : K) = (t'.length : K) := by
    simp [calibCall, hy]
  have hlt : ∀ i ∈ perm, i < s.length := by
    intro i hi
    rw [hlen.1]
    exact List.mem_range.mp (hperm.mem_iff.mp hi)
  have hcfg : (calibCall s y' groups).params.cfg = calibConfig := rfl
  have hscores : (calibCall s y' groups).data (fun _ _ => 0) =
      ⟨groups, s.map fun x => [x], y'.map fun t : ℤ => [(t : K)]⟩ := by
    simp [Call.data, calibCall, initGroups, initValues, scoreRows]
  have part : ∀ idx : List ℕ, (∀ i ∈ idx, i ∈ perm) →
      sqErr (replay calibConfig (pick groups idx) (pick (s.map fun x => [x]) idx) ps)
        (pick (y'.map fun t : ℤ => [(t : K)]) idx) ≤
      sqErr (pick (s.map fun x => [x]) idx) (pick (y'.map fun t : ℤ => [(t : K)]) idx) →
      sqErrOn idx (out.map fun r => r.headD 0) y' ≤ sqErrOn idx s y' := by
    intro idx hidx hle
    rw [C18_select calibConfig ps groups _ hgl idx, hrep, sqErr_pick s y' (by omega) idx fun i hi => hlt i (hidx i hi)] at hle
    rw [← heads out hrow, sqErr_pick _ y' (by simp; omega) idx fun i hi => by simpa [hol] using hlt i (hidx i hi)] at hle
    exact hle
  refine ⟨s, out.map fun r => r.headD 0, ?_, ?_, hlen.1, by simp [hol, hlen.1], ?_, ?_, ?_⟩
  · unfold predictProba
    rw [h6]
    simp [h1, bind, Except.bind]
  · have hg : groupsFor env o' s e = .ok groups := by
      rw [h6]
      simp only [groupsFor, hred, h3, bind, Except.bind, hgr]
    have ha := apply_binary calibConfig ps (fun _ _ => 0) groups (s.map fun x => [x]) hgl (Or.inr hprob)
    have hc : o'.calibrator = some (some ps) := by rw [h6]
    unfold predictProba
    rw [hc]
    simp only [h1, bind, Except.bind, hg, ha, hrep]
    rfl
  · intro x hx
    obtain ⟨r, hr, rfl⟩ := List.mem_map.mp hx
    obtain ⟨a, rfl⟩ := List.length_eq_one_iff.mp (hrow r hr)
    have := allProb_replay calibConfig groups _ ps hprob
    rw [hrep] at this
    exact this _ hr a (by simp)
  · have := loss_le (calibCall s y' groups) rfl _ _ _ st ps hres _ (Or.inl rfl)
    rw [hn, hscores, hcfg] at this
    exact part _ (fun i hi => List.mem_of_mem_take hi) this
  · have := loss_le (calibCall s y' groups) rfl _ _ _ st ps hres _ (Or.inr rfl)
    rw [hn, hscores, hcfg] at this
    exact part _ (fun i hi => List.mem_of_mem_drop hi) this

/-- **C99.** When texts are scored and grouped, `fit` succeeds exactly if all targets are 0 or 1, both occur, and all scores are
probabilities. -/
theorem C99_fit_accepts (env : Env T C K R M) (o : Obj K R M) (texts : List T) (contexts : List C) (targets : List ℤ)
    (size : ℕ) (threshold : K) (draw : ℕ → ℕ) (perm : List ℕ) (s : List K) (e : List (List K)) (g : Grouping K M)
    (probs : List (List K)) (h1 : scoresEmb env texts contexts size = .ok (s, e))
    (h2 : fitGrouping env (withScores (env.reduceFit e).2 s) = .ok g)
    (h3 : groupProba env g (withScores (env.reduceFit e).2 s) = .ok probs) (ht0 : 0 ≤ threshold) (ht1 : threshold ≤ 1) :
    (∃ o' st l, fit env o texts contexts targets size threshold false draw perm = (o', .ok st, l)) ↔
      (∀ y ∈ targets, y = 0 ∨ y = 1) ∧ 0 ∈ targets ∧ 1 ∈ targets ∧ ∀ x ∈ s, 0 ≤ x ∧ x ≤ 1 := by
  have h4 : quantilesOf probs threshold =
      .ok ((columns probs).map fun c => (Quantile.quantile c threshold).getD 0) := by
    unfold quantilesOf
    rw [if_neg (by rintro (h | h) <;> linarith)]
  generalize hq : (columns probs).map (fun c => (Quantile.quantile c threshold).getD 0) = qs at h4
  have hcast : ∀ y : ℤ, ((y : K) = 0 ↔ y = 0) ∧ ((y : K) = 1 ↔ y = 1) := fun y => ⟨Int.cast_eq_zero, Int.cast_eq_one⟩
  have key : (∃ r, calibrateCall (calibCall s targets (probs.map (groupsOf qs))) perm (fun _ _ => 0) (fun _ _ => 0) = .ok r) ↔
      (∀ y ∈ targets, y = 0 ∨ y = 1) ∧ 0 ∈ targets ∧ 1 ∈ targets ∧ ∀ x ∈ s, 0 ≤ x ∧ x ≤ 1 := by
    constructor
    · rintro ⟨r, hr⟩
      obtain ⟨⟨hacc, -⟩, -⟩ := (MultivalidEntry.C91_accepts _ perm _ _ rfl rfl _).1 hr
      obtain ⟨-, -, a1, a2, a3⟩ := hacc.scores
      refine ⟨?_, ?_, ?_, ?_⟩
      · intro y hy
        have := a1 (y : K) (List.mem_map.mpr ⟨y, hy, rfl⟩)
        rwa [(hcast y).1, (hcast y).2] at this
      · obtain ⟨y, hy, h⟩ := List.mem_map.mp a2
        rwa [← (hcast y).1.mp h]
      · obtain ⟨y, hy, h⟩ := List.mem_map.mp a3
        rwa [← (hcast y).2.mp h]
      · intro x hx
        exact hacc.values.1 [x] (List.mem_map.mpr ⟨x, hx, rfl⟩) x (by simp)
    · rintro ⟨a1, a2, a3, a4⟩
      refine ⟨_, (MultivalidEntry.C91_accepts _ perm _ _ rfl rfl _).2 ⟨⟨?_, ?_⟩, rfl⟩⟩
      · constructor
        · intro h; cases h
        · show 1 ≤ 1000
          norm_num
        · simp only [calibCall]; norm_num
        · simp only [calibCall]; norm_num
        · intro m hm; cases hm
        · show (100 : ℕ) ≠ 0
          norm_num
        · exact Or.inl rfl
        · intro t ht
          simp only [calibCall, List.mem_cons, List.not_mem_nil, or_false] at ht
          rcases ht with rfl | rfl
          · exact Or.inr (Or.inr rfl)
          · exact Or.inr (Or.inl rfl)
        · refine ⟨rfl, rfl, ?_, ?_, ?_⟩
          · intro x hx
            obtain ⟨y, hy, rfl⟩ := List.mem_map.mp hx
            rw [(hcast y).1, (hcast y).2]
            exact a1 y hy
          · exact List.mem_map.mpr ⟨0, a2, Int.cast_zero⟩
          · exact List.mem_map.mpr ⟨1, a3, Int.cast_one⟩
        · intro g hg
          cases hg
          exact ⟨rfl, rfl⟩
        · refine ⟨?_, rfl⟩
          intro r hr x hx
          obtain ⟨a, ha, rfl⟩ := List.mem_map.mp hr
          rw [List.mem_singleton.mp hx]
          exact a4 a ha
      · rintro ⟨h, -⟩; cases h
  rw [← key]
  unfold fit balanced fitOn
  simp only [Bool.false_eq_true, if_false, h1, h2, h3, h4]
  cases hc : calibrateCall (calibCall s targets (probs.map (groupsOf qs))) perm (fun _ _ => 0) (fun _ _ => 0) with
  | error er => simp
  | ok r => simp

/-- **C99.** Before any `fit` there are no probabilities, calibrated or not. -/
theorem C99_before_fit (env : Env T C K R M) (o : Obj K R M) (h : o.calibrator = none) (texts : List T) (contexts : List C)
    (size : ℕ) (calibrate : Bool) : predictProba env o texts contexts size calibrate = .error "ValueError" := by
  unfold predictProba
  rw [h]

/-- **C99.** `predict` marks exactly the texts of probability at least 1/2, whether probabilities are given or computed. -/
theorem C99_labels (env : Env T C K R M) (o : Obj K R M) (texts : List T) (contexts : List C) (size : ℕ) (calibrate : Bool)
    (probs : Option (List K)) (p : List K)
    (h : probs = some p ∨ probs = none ∧ predictProba env o texts contexts size calibrate = .ok p) :
    ∃ l, predictLabels env o texts contexts size calibrate probs = .ok l ∧ l.length = p.length ∧
      ∀ (i : ℕ) (x : K), p[i]? = some x → l[i]? = some (if 1 / 2 ≤ x then 1 else 0) := by
  refine ⟨p.map Hallucination.predict, ?_, by simp, ?_⟩
  · unfold predictLabels
    rcases h with rfl | ⟨rfl, h⟩
    · rfl
    · simp [h, Except.map]
  · intro i x hx
    simp [hx, Hallucination.predict]

/-- **C99.** A detector that loads what another one saved predicts the same, whatever it was before. -/
theorem C99_save_load (env : Env T C K R M) (o o' : Obj K R M) (texts : List T) (contexts : List C) (size : ℕ)
    (calibrate : Bool) :
    predictProba env (load o' (save o)) texts contexts size calibrate = predictProba env o texts contexts size calibrate := rfl

/-! ### Rows -/

/-- Specification: every row is treated on its own: by the language model (with its score `f` and embedding `e`), by the
reduction and by the clustering models. Rows of different numbers of texts and contexts are refused. -/
structure RowWise (env : Env T C K R M) (f : T → C → K) (e : T → C → List K) (red : R → List K → List K)
    (q : M → List K → List K) : Prop where
  run : ∀ ts cs, ts.length = cs.length → env.run ts cs = .ok (List.zipWith f ts cs, List.zipWith e ts cs)
  reduceOn : ∀ r l, env.reduceOn r l = l.map (red r)
  proba : ∀ m z, env.proba m z = z.map (q m)

theorem scoresEmb_rows (env : Env T C K R M) (f : T → C → K) (e : T → C → List K)
    (hrun : ∀ ts cs, ts.length = cs.length → env.run ts cs = .ok (List.zipWith f ts cs, List.zipWith e ts cs))
    (texts : List T) (contexts : List C) (size : ℕ) (hs : 0 < size) (hl : texts.length = contexts.length) (hne : texts ≠ []) :
    scoresEmb env texts contexts size = .ok (List.zipWith f texts contexts, List.zipWith e texts contexts) := by
  obtain ⟨bs, hb, h1, h2, h3, h4⟩ := C55_batches texts contexts size hs hl
  have hm : bs.mapM (fun b => env.run b.1 b.2) = .ok (bs.map fun b => (List.zipWith f b.1 b.2, List.zipWith e b.1 b.2)) := by
    rw [mapM_ok, List.forall₂_map_right_iff, List.forall₂_same]
    intro b hb
    exact hrun _ _ (h4 b hb).1
  unfold scoresEmb
  rw [if_neg (by omega)]
  simp only [bind, Except.bind, hb, hm]
  rw [if_neg]
  · have z : ∀ {β : Type} (F : T → C → β), ((bs.map fun b => List.zipWith F b.1 b.2).flatten) = List.zipWith F texts contexts := by
      intro β F
      have : ∀ (a : List T) (b : List C), List.zipWith F a b = (a.zip b).map fun x => F x.1 x.2 := by
        intro a b
        rw [List.zip, List.map_zipWith]
      rw [this, ← h3, List.map_flatMap, List.flatMap_def]
      simp only [this]
    simp only [List.map_map, Function.comp_def, z]
  · intro h
    apply hne
    rw [← h1, List.map_eq_nil_iff.mp h]
    rfl

theorem groupsFor_rows (env : Env T C K R M) (red : R → List K → List K) (q : M → List K → List K)
    (h1 : ∀ r l, env.reduceOn r l = l.map (red r)) (h2 : ∀ m z, env.proba m z = z.map (q m)) (o : Obj K R M)
    (g : Grouping K M) (qs : List K) (hg : o.grouping = some g) (hq : o.quantiles = some qs)
    (hz : ¬g.std.contains 0 = true) (s : List K) (E : List (List K)) :
    groupsFor env o s E = .ok (List.zipWith (fun em s => groupsOf qs (q g.model (List.zipWith
      (fun (x : K) (ms : K × K) => (x - ms.1) / ms.2) (red o.reduction em ++ [s]) (g.mean.zip g.std)))) E s) := by
  simp only [groupsFor, hg, hq, groupProba, Verif.Detector.normalize, if_neg hz, bind, Except.bind, h1, h2, withScores]
  simp only [List.map_map, List.zipWith_map_left, List.map_zipWith, Function.comp_def]

/-- **C99.** If language model, reduction and clustering treat every row on its own, the probability of a text does not depend
on the other texts, nor on the batch size. -/
theorem C99_rowwise (env : Env T C K R M) (f : T → C → K) (e : T → C → List K) (red : R → List K → List K)
    (q : M → List K → List K) (hr : RowWise env f e red q) (o : Obj K R M) (texts : List T) (contexts : List C)
    (size size' : ℕ) (hs : 0 < size) (hs' : 0 < size') (hl : texts.length = contexts.length) (calibrate : Bool) (p : List K)
    (h : predictProba env o texts contexts size calibrate = .ok p) (hne : texts ≠ []) :
    p.length = texts.length ∧ ∀ (i : ℕ) (t : T) (c : C), texts[i]? = some t → contexts[i]? = some c →
      ∃ x, p[i]? = some x ∧ predictProba env o [t] [c] size' calibrate = .ok [x] := by
  unfold predictProba at h
  cases hc : o.calibrator with
  | none => rw [hc] at h; cases h
  | some patches =>
    rw [hc] at h
    dsimp only at h
    rw [scoresEmb_rows env f e hr.run texts contexts size hs hl hne] at h
    simp only [bind, Except.bind] at h
    have one : ∀ t c, scoresEmb env [t] [c] size' = .ok ([f t c], [e t c]) := fun t c =>
      scoresEmb_rows env f e hr.run [t] [c] size' hs' rfl (by simp)
    cases calibrate with
    | false =>
      cases h
      refine ⟨by rw [List.length_zipWith, ← hl, min_self], ?_⟩
      intro i t c ht hcx
      refine ⟨f t c, by rw [List.getElem?_zipWith, ht, hcx], ?_⟩
      unfold predictProba
      rw [hc]
      simp [one, bind, Except.bind]
    | true =>
      rw [if_neg (by simp)] at h
      cases hg : o.grouping with
      | none => simp [groupsFor, hg] at h
      | some g =>
        cases hq : o.quantiles with
        | none => simp [groupsFor, hg, hq] at h
        | some qs =>
          by_cases hz : g.std.contains 0 = true
          · simp only [groupsFor, hg, hq, groupProba, Verif.Detector.normalize, if_pos hz, bind, Except.bind] at h
            cases h
          · have hgr := fun s E => groupsFor_rows env red q hr.reduceOn hr.proba o g qs hg hq hz s E
            rw [hgr] at h
            dsimp only at h
            cases hp : patches with
            | none => rw [hp] at h; cases h
            | some ps =>
              rw [hp] at h
              dsimp only at h
              split at h
              · cases h
              next out ha =>
              cases h
              generalize hG : (fun em s => groupsOf qs (q g.model (List.zipWith (fun (x : K) (ms : K × K) => (x - ms.1) / ms.2)
                (red o.reduction em ++ [s]) (g.mean.zip g.std)))) = G at hgr ha
              have hlen : (List.zipWith G (List.zipWith e texts contexts) (List.zipWith f texts contexts)).length =
                  ((List.zipWith f texts contexts).map fun s => [s]).length := by simp
              have hpr : ps = [] ∨ AllProb ((List.zipWith f texts contexts).map fun s => [s]) := by
                by_cases h0 : ps = []
                · exact Or.inl h0
                · obtain ⟨v, hv, -, ha, -⟩ := MultivalidEntry.C91_apply _ _ _ h0 _ _ _ _ ha
                  rw [hv] at ha
                  exact Or.inr ha
              rw [apply_binary calibConfig ps _ _ _ hlen hpr] at ha
              cases ha
              dsimp only [Option.getD_some]
              have hrl := replay_length calibConfig _ _ ps hlen
              refine ⟨by rw [List.length_map, hrl]; simp [← hl], ?_⟩
              intro i t c ht hcx
              have e1 : ((List.zipWith f texts contexts).map fun s => [s])[i]? = some [f t c] := by
                rw [List.getElem?_map, List.getElem?_zipWith, ht, hcx]; rfl
              have e2 : (List.zipWith G (List.zipWith e texts contexts) (List.zipWith f texts contexts))[i]? =
                  some (G (e t c) (f t c)) := by
                rw [List.getElem?_zipWith, List.getElem?_zipWith, List.getElem?_zipWith, ht, hcx]
              have hrow := C18_rowwise calibConfig ps _ _ i _ _ e2 e1
              have hl1 := replay_length calibConfig [G (e t c) (f t c)] [[f t c]] ps rfl
              obtain ⟨r, hr1⟩ := List.length_eq_one_iff.mp hl1
              refine ⟨r.headD 0, ?_, ?_⟩
              · rw [List.getElem?_map, hrow, hr1]; rfl
              · have hpr1 : ps = [] ∨ AllProb [[f t c]] := by
                  refine hpr.imp_right fun h r hr x hx => ?_
                  rw [List.mem_singleton.mp hr] at hx
                  exact h _ (List.mem_of_getElem? e1) x hx
                have ha1 := apply_binary calibConfig ps (fun _ _ => 0) [G (e t c) (f t c)] [[f t c]] rfl hpr1
                unfold predictProba
                rw [hc, hp]
                simp only [one, bind, Except.bind, hgr, List.zipWith_cons_cons, List.zipWith_nil_left, List.map_cons, List.map_nil,
                  ha1, hr1]
                rfl

/-! ### Numbers of texts and contexts -/

theorem scoresEmb_batch (env : Env T C K R M) (hrun : ∀ ts cs r, ts.length ≠ cs.length → env.run ts cs ≠ .ok r)
    (texts : List T) (contexts : List C) (size : ℕ) (r : List K × List (List K))
    (h : scoresEmb env texts contexts size = .ok r) (k : ℕ) (hk : k * size < texts.length) :
    min size (texts.length - k * size) = min size (contexts.length - k * size) := by
  unfold scoresEmb at h
  by_cases h0 : size = 0
  · rw [if_pos h0] at h; cases h
  rw [if_neg h0] at h
  obtain ⟨bs, h1, h⟩ := bind_ok.mp h
  obtain ⟨out, h2, h⟩ := bind_ok.mp h
  unfold batches at h1
  rw [if_neg h0] at h1
  cases h1
  have hb : ((texts.drop (k * size)).take size, (contexts.drop (k * size)).take size) ∈
      (List.range ((texts.length + size - 1) / size)).map fun k =>
        ((texts.drop (k * size)).take size, (contexts.drop (k * size)).take size) := by
    refine List.mem_map.mpr ⟨k, List.mem_range.mpr ?_, rfl⟩
    have : k + 1 ≤ (texts.length + size - 1) / size := by
      rw [Nat.le_div_iff_mul_le (by omega), Nat.add_mul]
      omega
    omega
  obtain ⟨i, hi, hbi⟩ := List.mem_iff_getElem.mp hb
  have hf := mapM_ok.mp h2
  have hio : i < out.length := hf.length_eq ▸ hi
  have := (List.forall₂_iff_get.mp hf).2 i hi hio
  simp only [List.get_eq_getElem] at this
  rw [hbi] at this
  by_contra hne
  exact hrun _ _ _ (by simpa using hne) this

/-- **C99.** If a batch with different numbers of texts and contexts is refused: too few contexts are always refused; too many
are refused unless the batch size divides the number of texts. -/
theorem C99_contexts (env : Env T C K R M) (hrun : ∀ ts cs r, ts.length ≠ cs.length → env.run ts cs ≠ .ok r)
    (texts : List T) (contexts : List C) (size : ℕ) (hs : 0 < size) (hl : texts.length ≠ contexts.length)
    (hd : texts.length < contexts.length → ¬size ∣ texts.length) (r : List K × List (List K)) :
    scoresEmb env texts contexts size ≠ .ok r := by
  intro h
  rcases Nat.lt_or_gt_of_ne hl with hlt | hgt
  · have hm : texts.length % size ≠ 0 := fun h => hd hlt (Nat.dvd_of_mod_eq_zero h)
    have e := Nat.div_add_mod texts.length size
    rw [Nat.mul_comm] at e
    have hk := Nat.mod_lt texts.length hs
    have := scoresEmb_batch env hrun texts contexts size r h (texts.length / size) (by omega)
    omega
  · have e := Nat.div_add_mod contexts.length size
    rw [Nat.mul_comm] at e
    have hk := Nat.mod_lt contexts.length hs
    have := scoresEmb_batch env hrun texts contexts size r h (contexts.length / size) (by omega)
    omega

/-- **C99, failure.** If the batch size divides the number of texts, contexts in excess are ignored without notice. -/
theorem C99_contexts_false (env : Env T C K R M) (texts : List T) (contexts : List C) (size : ℕ)
    (hl : texts.length ≤ contexts.length) (hd : size ∣ texts.length) :
    scoresEmb env texts contexts size = scoresEmb env texts (contexts.take texts.length) size := by
  have hb : batches texts contexts size = batches texts (contexts.take texts.length) size := by
    unfold batches
    by_cases h0 : size = 0
    · rw [if_pos h0, if_pos h0]
    rw [if_neg h0, if_neg h0]
    congr 1
    apply List.map_congr_left
    intro k hk
    rw [List.mem_range] at hk
    obtain ⟨m, hm⟩ := hd
    have hkm : k < m := by
      have : (texts.length + size - 1) / size = m := by
        rw [hm, Nat.mul_comm, Nat.add_sub_assoc (by omega), Nat.add_comm, Nat.add_mul_div_right _ _ (by omega),
          Nat.div_eq_of_lt (by omega), Nat.zero_add]
      omega
    have hle : k * size + size ≤ texts.length := by
      calc k * size + size = (k + 1) * size := by ring
        _ ≤ m * size := Nat.mul_le_mul_right _ hkm
        _ = texts.length := by rw [hm, Nat.mul_comm]
    have : ((contexts.take texts.length).drop (k * size)).take size = (contexts.drop (k * size)).take size := by
      rw [List.drop_take, List.take_take, min_eq_left (by omega)]
    rw [this]
  unfold scoresEmb
  rw [hb]

/-! ### The caller's lists and failed fits -/

/-- **C99.** `fit` with balancing appends to the lists of the caller; a second `fit` on these lists appends nothing, whatever is
drawn. -/
theorem C99_balance_twice (env : Env T C K R M) (o o2 : Obj K R M) (texts t : List T) (contexts c : List C)
    (targets y : List ℤ) (size size2 : ℕ) (threshold threshold2 : K) (draw draw2 : ℕ → ℕ) (perm perm2 : List ℕ)
    (h1 : texts.length = targets.length) (h2 : contexts.length = targets.length)
    (hne : targets.count 0 = targets.count 1 ∨ (0 < targets.count 0 ∧ 0 < targets.count 1))
    (h : (fit env o texts contexts targets size threshold true draw perm).2.2 = (t, c, y)) :
    IsBalanced texts contexts targets (t, c, y) ∧
    (fit env o2 t c y size2 threshold2 true draw2 perm2).2.2 = (t, c, y) := by
  obtain ⟨out, hb, hbal⟩ := C55_balance texts contexts targets draw h1 h2 hne
  unfold fit balanced at h
  simp only [if_true, hb] at h
  obtain rfl : out = (t, c, y) := h
  refine ⟨hbal, ?_⟩
  have hcount : y.count 0 = y.count 1 := by
    obtain ⟨_, _, _, _, _, _, _, _, h⟩ := hbal
    exact h
  have hb2 : balance t c y draw2 = .ok (t, c, y) := by
    unfold balance
    have l0 := length_indicesOf y 0
    have l1 := length_indicesOf y 1
    have hn : (indicesOf y 1).length - (indicesOf y 0).length + ((indicesOf y 0).length - (indicesOf y 1).length) = 0 := by omega
    simp only [hn]
    simp
    rfl
  unfold fit balanced
  simp only [if_true, hb2]

/-- **C99, failure.** A `fit` that fails leaves the detector worse than before: if scores, groups and quantiles are computed but
the targets are refused, the patches of an earlier `fit` are lost, and `predict_proba` fails too (with a `TypeError`). -/
theorem C99_failed_fit_false (env : Env T C K R M) (o : Obj K R M) (texts : List T) (contexts : List C) (y : ℤ) (n size : ℕ)
    (threshold : K) (draw : ℕ → ℕ) (perm : List ℕ) (s : List K) (e : List (List K)) (g : Grouping K M)
    (probs : List (List K)) (h1 : scoresEmb env texts contexts size = .ok (s, e))
    (h2 : fitGrouping env (withScores (env.reduceFit e).2 s) = .ok g)
    (h3 : groupProba env g (withScores (env.reduceFit e).2 s) = .ok probs) (ht0 : 0 ≤ threshold) (ht1 : threshold ≤ 1) :
    (∀ st, (fit env o texts contexts (List.replicate n y) size threshold false draw perm).2.1 ≠ .ok st) ∧
    ∀ t c size' p,
      predictProba env (fit env o texts contexts (List.replicate n y) size threshold false draw perm).1 t c size' true ≠ .ok p := by
  have h4 : quantilesOf probs threshold =
      .ok ((columns probs).map fun c => (Quantile.quantile c threshold).getD 0) := by
    unfold quantilesOf
    rw [if_neg (by rintro (h | h) <;> linarith)]
  generalize hq : (columns probs).map (fun c => (Quantile.quantile c threshold).getD 0) = qs at h4
  have hc := (MultivalidEntry.C91_single_class (calibCall s (List.replicate n y) (probs.map (groupsOf qs))) rfl (y : K)
    (by intro x hx; obtain ⟨a, ha, rfl⟩ := List.mem_map.mp hx; rw [List.eq_of_mem_replicate ha]) perm
    (fun _ _ => 0) (fun _ _ => 0) .additive none).1
  cases hcc : calibrateCall (calibCall s (List.replicate n y) (probs.map (groupsOf qs))) perm (fun _ _ => 0) (fun _ _ => 0) with
  | ok r => exact absurd hcc (hc r)
  | error er =>
    constructor
    · intro st
      unfold fit balanced fitOn
      simp [h1, h2, h3, h4, hcc]
    · intro t c size' p
      unfold fit balanced fitOn
      simp only [Bool.false_eq_true, if_false, h1, h2, h3, h4, hcc]
      unfold predictProba
      dsimp only
      intro h
      obtain ⟨a, -, h⟩ := bind_ok.mp h
      rw [if_neg (by simp)] at h
      obtain ⟨b, -, h⟩ := bind_ok.mp h
      cases h

/-- **C99, failure.** A `fit` whose grouping fails (for instance because a feature is constant) destroys an earlier one: from then
on calibrated predictions raise `AttributeError`, while scores are still returned. -/
theorem C99_failed_grouping_false (env : Env T C K R M) (o : Obj K R M) (ps : Option (List (Patch K))) (hc : o.calibrator = some ps)
    (texts : List T) (contexts : List C) (targets : List ℤ) (size : ℕ) (threshold : K) (draw : ℕ → ℕ) (perm : List ℕ) (s : List K)
    (e : List (List K)) (er : String) (h1 : scoresEmb env texts contexts size = .ok (s, e))
    (h2 : fitGrouping env (withScores (env.reduceFit e).2 s) = .error er) :
    (fit env o texts contexts targets size threshold false draw perm).2.1 = .error er ∧
    ∀ t c size' s' e', scoresEmb env t c size' = .ok (s', e') →
      predictProba env (fit env o texts contexts targets size threshold false draw perm).1 t c size' true = .error "AttributeError" ∧
      predictProba env (fit env o texts contexts targets size threshold false draw perm).1 t c size' false = .ok s' := by
  have hf : fit env o texts contexts targets size threshold false draw perm =
      ({ o with reduction := (env.reduceFit e).1, grouping := none }, .error er, (texts, contexts, targets)) := by
    unfold fit balanced fitOn
    simp only [Bool.false_eq_true, if_false, h1, h2]
  rw [hf]
  refine ⟨rfl, fun t c size' s' e' h => ⟨?_, ?_⟩⟩
  · unfold predictProba
    simp [hc, h, bind, Except.bind, groupsFor]
  · unfold predictProba
    simp [hc, h, bind, Except.bind]

/-- **C99.** A detector with groups but without quantiles raises `TypeError` on calibrated predictions. -/
theorem C99_no_quantiles (env : Env T C K R M) (o : Obj K R M) (ps : Option (List (Patch K))) (hc : o.calibrator = some ps)
    (hg : o.grouping.isSome) (hq : o.quantiles = none) (t : List T) (c : List C) (size : ℕ) (s : List K) (e : List (List K))
    (h : scoresEmb env t c size = .ok (s, e)) : predictProba env o t c size true = .error "TypeError" := by
  obtain ⟨g, hg⟩ := Option.isSome_iff_exists.1 hg
  unfold predictProba
  simp [hc, h, bind, Except.bind, groupsFor, hg, hq]

/-- **C99, the status.** `fit` runs at most 1000 rounds; if it reports convergence, the last loss it records is at most 1/10000,
or less than a millionth below the one before it. -/
theorem C99_fit_status (env : Env T C K R M) (o o' : Obj K R M) (texts t : List T) (contexts c : List C) (targets y : List ℤ)
    (size : ℕ) (threshold : K) (bal : Bool) (draw : ℕ → ℕ) (perm : List ℕ) (st : Status K)
    (h : fit env o texts contexts targets size threshold bal draw perm = (o', .ok st, (t, c, y))) :
    ∃ ps, o'.calibrator = some (some ps) ∧ ps.length ≤ 1000 ∧ (st.converged = true → ∃ prev last, st.losses[ps.length]? = some prev ∧
      st.losses[ps.length + 1]? = some last ∧ st.losses.length = ps.length + 2 ∧
      ((∃ x, last = some x ∧ x ≤ 1 / 10000) ∨ ∃ x z, prev = some x ∧ last = some z ∧ (x - z) / x ≤ 1 / 1000000)) := by
  unfold fit at h
  split at h
  · cases h
  next t' c' y' hb =>
  dsimp only at h
  simp only [Prod.mk.injEq] at h
  obtain ⟨ho, hst, rfl, rfl, rfl⟩ := h
  obtain ⟨s, e, g, probs, qs, ps, x, h1, h2, h3, h4, h5, h6⟩ := fitOn_ok env _ _ _ _ _ _ _ _ _ (Prod.ext ho hst)
  obtain ⟨-, h7⟩ := (MultivalidEntry.C91_accepts _ perm _ _ rfl rfl _).1 h5
  simp only [Prod.mk.injEq] at h7
  obtain ⟨h7, h8, -⟩ := h7
  have hres : calibrateSplit (calibCall s y' (probs.map (groupsOf qs))).method (calibCall s y' (probs.map (groupsOf qs))).params
      (calibCall s y' (probs.map (groupsOf qs))).nRounds _ _ = (st, ps) :=
    (Prod.ext h7.symm h8.symm : MultivalidEntry.loopResult (calibCall s y' (probs.map (groupsOf qs))) perm _ = (st, ps))
  refine ⟨ps, by rw [h6], ?_, fun hc => C17_converged_meaning _ _ _ _ _ st ps hres hc⟩
  unfold calibrateSplit at hres
  obtain ⟨s0, -, hp, hlen, -⟩ := loop_spec (calibCall s y' (probs.map (groupsOf qs))).method
    (calibCall s y' (probs.map (groupsOf qs))).params _ _ 1000 _ (inv_init _ _ _ _)
  have h9 := congrArg Prod.snd hres
  dsimp only at h9
  rw [← h9]
  exact (congrArg List.length hp).trans_le (hlen.trans (by simp [initState]))

/-! ### Examples -/

/-- A language model that scores a text by a number, one cluster model with two clusters. -/
def exEnv : Env ℚ Unit ℚ Unit Unit where
  run ts cs := if ts.length = cs.length then .ok (ts, ts.map fun s => [s]) else .error "RuntimeError"
  reduceFit e := ((), e)
  reduceOn _ e := e
  std _ := 1
  fitModels := [fun _ => ()]
  bic _ _ := some 0
  proba _ z := z.map fun r => [r.headD 0, 1 - r.headD 0]

/-- A detector that is not fitted. -/
def exObj : Obj ℚ Unit Unit := ⟨(), none, none, none⟩

theorem exEnv_rowsKept : RowsKept exEnv where
  run := by
    intro ts cs s e h
    simp only [exEnv] at h
    split at h
    · cases h; simp
    · cases h
  reduceFit _ := rfl
  reduceOn _ _ := rfl
  proba _ _ := by simp [exEnv]

theorem exEnv_rowWise : RowWise exEnv (fun t _ => t) (fun t _ => [t]) (fun _ e => e) (fun _ r => [r.headD 0, 1 - r.headD 0]) where
  run := by
    intro ts cs h
    simp only [exEnv, if_pos h]
    congr 2
    · induction ts generalizing cs with
      | nil => rfl
      | cons t ts ih =>
        cases cs with
        | nil => cases h
        | cons c cs => rw [List.zipWith_cons_cons, ← ih cs (by simpa using h)]
    · induction ts generalizing cs with
      | nil => rfl
      | cons t ts ih =>
        cases cs with
        | nil => cases h
        | cons c cs => rw [List.zipWith_cons_cons, ← ih cs (by simpa using h)]; rfl
  reduceOn _ _ := by simp [exEnv]
  proba _ _ := rfl

example : ∃ o' st l, fit exEnv exObj [1 / 4, 3 / 4, 1 / 2] [(), (), ()] [0, 1, 1] 2 (4 / 5) false id [2, 0, 1] = (o', .ok st, l) :=
  (C99_fit_accepts exEnv exObj _ _ _ 2 (4 / 5) id [2, 0, 1] [1 / 4, 3 / 4, 1 / 2] [[1 / 4], [3 / 4], [1 / 2]]
    ⟨[1 / 2, 1 / 2], [1, 1], ()⟩ [[-1 / 4, 5 / 4], [1 / 4, 3 / 4], [0, 1]] (by decide +kernel) (by decide +kernel)
    (by decide +kernel) (by norm_num) (by norm_num)).2
    ⟨by decide, by decide, by decide, by intro x hx; simp at hx; rcases hx with rfl | rfl | rfl <;> norm_num⟩

example : predictProba exEnv { exObj with
      grouping := some ⟨[1 / 2, 1 / 2], [1, 1], ()⟩
      quantiles := some [1 / 5, 1]
      calibrator := some (some [⟨1, 2, 0, 0, 1⟩]) } [1 / 4, 3 / 4, 1 / 2] [(), (), ()] 2 true =
    .ok [7 / 20, 17 / 20, 3 / 5] := by decide +kernel

/-! ### What the grouping model is fitted on -/

theorem normalize_entry (rows : List (List K)) (d : ℕ) (hd : ∀ r ∈ rows, r.length = d) (m s : ℕ → K) (r : List K) (hr : r ∈ rows) (j : ℕ)
    (hj : j < d) :
    (List.zipWith (fun (x : K) (ms : K × K) => (x - ms.1) / ms.2) r (((List.range d).map m).zip ((List.range d).map s))).getD j 0 =
      (r.getD j 0 - m j) / s j := by
  have hl := hd r hr
  have h1 : r[j]? = some (r.getD j 0) := by
    rw [List.getD_eq_getElem?_getD, List.getElem?_eq_getElem (by omega)]
    rfl
  have h2 : (((List.range d).map m).zip ((List.range d).map s))[j]? = some (m j, s j) := by
    rw [List.getElem?_eq_getElem (by simpa using hj)]
    simp
  rw [List.getD_eq_getElem?_getD, List.getElem?_zipWith, h1, h2]
  rfl

/-- **C99, grouping.** The clustering models are fitted on the rows after shifting and scaling every column to mean zero and mean square
one; the model kept is the first of those with the least BIC on these rows, and the rows given later are shifted and scaled alike. -/
theorem C99_grouping (env : Env T C K R M) (rows : List (List K)) (d : ℕ) (hne : rows ≠ []) (hd : ∀ r ∈ rows, r.length = d)
    (hstd : ∀ l : List K, l ≠ [] → env.std l ^ 2 = (l.map fun x => (x - l.sum / (l.length : K)) ^ 2).sum / (l.length : K))
    (g : Grouping K M) (h : fitGrouping env rows = .ok g) :
    ∃ (m s : ℕ → K) (z : List (List K)), z.length = rows.length ∧ (∀ j, j < d → (z.map fun r => r.getD j 0).sum = 0 ∧
        (z.map fun r => r.getD j 0 ^ 2).sum = (rows.length : K)) ∧
      (∃ (i : ℕ) (f : List (List K) → M) (v : K), env.fitModels[i]? = some f ∧ g.model = f z ∧ env.bic (f z) z = some v ∧
        (∀ (j : ℕ) (f' : List (List K) → M) (w : K), env.fitModels[j]? = some f' → env.bic (f' z) z = some w → v ≤ w ∧ (j < i → v < w))) ∧
      (∀ new : List (List K), (∀ r ∈ new, r.length = d) → ∃ zn : List (List K), groupProba env g new = .ok (env.proba g.model zn) ∧
        zn.length = new.length ∧ ∀ i j, i < new.length → j < d → (zn.getD i []).getD j 0 = ((new.getD i []).getD j 0 - m j) / s j) ∧
      ∀ i j, i < rows.length → j < d → (z.getD i []).getD j 0 = ((rows.getD i []).getD j 0 - m j) / s j := by
  unfold fitGrouping at h
  obtain ⟨z, h1, h⟩ := bind_ok.mp h
  obtain ⟨i, h2, h⟩ := bind_ok.mp h
  set m : ℕ → K := fun j => ArrayOps.mean (Multivalid.col rows j) with hm
  set s : ℕ → K := fun j => env.std (Multivalid.col rows j) with hs
  have hhead : (rows.headD []).length = d := by
    cases rows with
    | nil => exact absurd rfl hne
    | cons r _ => exact hd r (by simp)
  have hmean : (columns rows).map ArrayOps.mean = (List.range d).map m := by
    unfold columns
    rw [hhead, List.map_map]
    rfl
  have hsd : (columns rows).map env.std = (List.range d).map s := by
    unfold columns
    rw [hhead, List.map_map]
    rfl
  rw [hmean, hsd] at h1
  have hnz : ((List.range d).map s).contains 0 = false := by
    by_contra hc
    rw [Verif.Detector.normalize, if_pos (by simpa using hc)] at h1
    cases h1
  have hsj : ∀ j, j < d → s j ≠ 0 := by
    intro j hj h0
    rw [← Bool.not_eq_true, List.contains_iff_mem] at hnz
    exact hnz (List.mem_map.2 ⟨j, List.mem_range.2 hj, h0⟩)
  have hz : ∀ new : List (List K), Verif.Detector.normalize ((List.range d).map m, (List.range d).map s) new = .ok (new.map fun r =>
      List.zipWith (fun (x : K) (ms : K × K) => (x - ms.1) / ms.2) r (((List.range d).map m).zip ((List.range d).map s))) := by
    intro new
    rw [Verif.Detector.normalize, if_neg (by simp only [hnz]; simp)]
  have hzr := h1
  rw [hz] at hzr
  replace hzr := Except.ok.inj hzr
  have hn : (rows.length : K) ≠ 0 := by
    have : rows.length ≠ 0 := by simpa using hne
    exact_mod_cast this
  have hentry : ∀ new : List (List K), (∀ r ∈ new, r.length = d) → ∀ i j, i < new.length → j < d →
      ((new.map fun r => List.zipWith (fun (x : K) (ms : K × K) => (x - ms.1) / ms.2) r
        (((List.range d).map m).zip ((List.range d).map s))).getD i []).getD j 0 = ((new.getD i []).getD j 0 - m j) / s j := by
    intro new hnew i j hi hj
    have e1 : (new.getD i []) = new[i] := by
      rw [List.getD_eq_getElem?_getD, List.getElem?_eq_getElem hi]
      rfl
    have e2 : (new.map fun r => List.zipWith (fun (x : K) (ms : K × K) => (x - ms.1) / ms.2) r
        (((List.range d).map m).zip ((List.range d).map s))).getD i [] = List.zipWith (fun (x : K) (ms : K × K) => (x - ms.1) / ms.2) new[i]
        (((List.range d).map m).zip ((List.range d).map s)) := by
      rw [List.getD_eq_getElem?_getD, List.getElem?_map, List.getElem?_eq_getElem hi]
      rfl
    rw [e1, e2, normalize_entry new d hnew m s _ (List.getElem_mem hi) j hj]
  refine ⟨m, s, z, by rw [← hzr, List.length_map], ?_, ?_, ?_, ?_⟩
  · intro j hj
    have hcol : ∀ F : K → K, (z.map fun r => F (r.getD j 0)) = rows.map fun r => F ((r.getD j 0 - m j) / s j) := by
      intro F
      rw [← hzr, List.map_map]
      refine List.map_congr_left fun r hr => ?_
      simp only [Function.comp]
      rw [normalize_entry rows d hd m s r hr j hj]
    have hc0 : Multivalid.col rows j ≠ [] := by simpa [Multivalid.col] using hne
    have hcl : ((Multivalid.col rows j).length : K) = rows.length := by simp [Multivalid.col]
    have hmj : m j = (Multivalid.col rows j).sum / (rows.length : K) := by
      simp only [hm, ArrayOps.mean, hcl]
    have hsub : ∀ (l : List (List K)) (c q : K), (l.map fun r => (r.getD j 0 - c) / q).sum = ((l.map fun r => r.getD j 0).sum - l.length * c) / q := by
      intro l c q
      induction l with
      | nil => simp
      | cons a l ih =>
        simp only [List.map_cons, List.sum_cons, List.length_cons, ih]
        push_cast
        ring
    have hsq : ∀ (l : List (List K)) (c q : K), (l.map fun r => ((r.getD j 0 - c) / q) ^ 2).sum = (l.map fun r => (r.getD j 0 - c) ^ 2).sum / q ^ 2 := by
      intro l c q
      induction l with
      | nil => simp
      | cons a l ih =>
        rw [List.map_cons, List.sum_cons, ih, List.map_cons, List.sum_cons, div_pow, add_div]
    constructor
    · have := hcol fun x => x
      rw [this, hsub, hmj]
      have : (rows.map fun r => r.getD j 0).sum = (Multivalid.col rows j).sum := rfl
      rw [this]
      field_simp
      simp
    · have := hcol fun x => x ^ 2
      rw [this, hsq]
      have hv := hstd _ hc0
      rw [hcl, ← hmj] at hv
      have hmap : ((Multivalid.col rows j).map fun x => (x - m j) ^ 2) = rows.map fun r => (r.getD j 0 - m j) ^ 2 := by
        unfold Multivalid.col
        rw [List.map_map]
        rfl
      rw [hmap] at hv
      have hv' : s j ^ 2 = (rows.map fun r => (r.getD j 0 - m j) ^ 2).sum / (rows.length : K) := hv
      have hs2 : s j ^ 2 ≠ 0 := pow_ne_zero _ (hsj j hj)
      rw [div_eq_iff hs2, hv']
      field_simp
  · obtain ⟨v, hv, hmin, hfirst⟩ := (C55_best_model _).1 i h2
    rw [List.map_map] at hv hmin hfirst
    cases hf : env.fitModels[i]? with
    | none => simp [List.getElem?_map, hf] at hv
    | some f =>
      have hg : g.model = f z := by
        rw [List.getElem?_map, hf] at h
        simp only [Option.map_some] at h
        cases h
        rfl
      refine ⟨i, f, v, hf, hg, by simpa [List.getElem?_map, hf] using hv, ?_⟩
      intro j f' w hj hw
      have : (env.fitModels.map ((fun m => env.bic m z) ∘ fun f => f z))[j]? = some (some w) := by
        rw [List.getElem?_map, hj]
        simp [hw]
      exact ⟨hmin j w this, fun hlt => hfirst j w hlt this⟩
  · intro new hnew
    have hgm : g.mean = (List.range d).map m ∧ g.std = (List.range d).map s := by
      rw [← hmean, ← hsd]
      split at h
      · cases h
        exact ⟨rfl, rfl⟩
      · cases h
    refine ⟨_, by rw [groupProba, hgm.1, hgm.2, hz]; rfl, by rw [List.length_map], hentry new hnew⟩
  · rw [← hzr]
    exact hentry rows hd

/-- Two models of which the second has the smaller BIC, rows of one column with mean 2 and deviation 1. -/
example : ∃ (env : Env Unit Unit ℚ Unit ℕ) (g : Grouping ℚ ℕ), fitGrouping env [[1], [3]] = .ok g ∧ g.model = 5 ∧ g.mean = [2] ∧ g.std = [1] ∧
    env.std [1, 3] ^ 2 = (([1, 3] : List ℚ).map fun x => (x - ([1, 3] : List ℚ).sum / 2) ^ 2).sum / 2 :=
  ⟨⟨fun _ _ => .ok ([], []), fun e => ((), e), fun _ e => e, fun _ => 1, [fun _ => 7, fun _ => 5], fun m _ => some (m : ℚ), fun _ z => z⟩,
    ⟨[2], [1], 5⟩, by decide +kernel, rfl, rfl, rfl, by norm_num⟩

/-! ### Concrete cases that meet the hypotheses of the theorems above -/

example : (∀ r, scoresEmb exEnv [1 / 4, 3 / 4, 1 / 2] [(), ()] 2 ≠ .ok r) ∧
    predictProba exEnv exObj [1 / 4] [()] 2 true = .error "ValueError" :=
  ⟨C99_contexts exEnv (fun ts cs r h => by simp [exEnv, h]) _ _ 2 (by norm_num) (by simp) (by simp), C99_before_fit exEnv exObj rfl _ _ _ _⟩

/-- The fit of the example above, with the data it stores. -/
example (o' : Obj ℚ Unit Unit) (st : Status ℚ)
    (h : fit exEnv exObj [1 / 4, 3 / 4, 1 / 2] [(), (), ()] [0, 1, 1] 2 (4 / 5) false id [2, 0, 1] =
      (o', .ok st, ([1 / 4, 3 / 4, 1 / 2], [(), (), ()], [0, 1, 1]))) :=
  C99_fit_predict exEnv exEnv_rowsKept (fun _ => rfl) exObj o' _ _ _ _ _ _ 2 (4 / 5) false id [2, 0, 1] st h rfl (by decide)

example : ∃ o' st, fit exEnv exObj [1 / 4, 3 / 4, 1 / 2] [(), (), ()] [0, 1, 1] 2 (4 / 5) false id [2, 0, 1] =
    (o', .ok st, ([1 / 4, 3 / 4, 1 / 2], [(), (), ()], [0, 1, 1])) := by
  obtain ⟨o', st, l, h⟩ := (C99_fit_accepts exEnv exObj [1 / 4, 3 / 4, 1 / 2] [(), (), ()] [0, 1, 1] 2 (4 / 5) id [2, 0, 1]
    [1 / 4, 3 / 4, 1 / 2] [[1 / 4], [3 / 4], [1 / 2]] ⟨[1 / 2, 1 / 2], [1, 1], ()⟩ [[-1 / 4, 5 / 4], [1 / 4, 3 / 4], [0, 1]]
    (by decide +kernel) (by decide +kernel) (by decide +kernel) (by norm_num) (by norm_num)).2
    ⟨by decide, by decide, by decide, by intro x hx; simp at hx; rcases hx with rfl | rfl | rfl <;> norm_num⟩
  have : (fit exEnv exObj [1 / 4, 3 / 4, 1 / 2] [(), (), ()] [0, 1, 1] 2 (4 / 5) false id [2, 0, 1]).2.2 =
      ([1 / 4, 3 / 4, 1 / 2], [(), (), ()], [0, 1, 1]) := by decide +kernel
  exact ⟨o', st, by rw [h] at this; rw [h, ← this]⟩

/-- A fitted detector. -/
def exFitted : Obj ℚ Unit Unit :=
  { exObj with
    grouping := some ⟨[1 / 2, 1 / 2], [1, 1], ()⟩
    quantiles := some [1 / 5, 1]
    calibrator := some (some [⟨1, 2, 0, 0, 1⟩]) }

example := C99_labels exEnv exFitted [1 / 4, 3 / 4, 1 / 2] [(), (), ()] 2 true none [7 / 20, 17 / 20, 3 / 5] (.inr ⟨rfl, by decide +kernel⟩)
example := C99_rowwise exEnv _ _ _ _ exEnv_rowWise exFitted [1 / 4, 3 / 4, 1 / 2] [(), (), ()] 2 1 (by norm_num) (by norm_num) rfl true
  [7 / 20, 17 / 20, 3 / 5] (by decide +kernel) (by simp)
example := C99_contexts_false exEnv [1 / 4, 3 / 4] [(), (), ()] 2 (by simp) (by simp)
example := C99_balance_twice exEnv exObj exFitted [1 / 4, 3 / 4, 1 / 2] _ [(), (), ()] _ [0, 1, 1] _ 2 1 (4 / 5) (3 / 4) id id [2, 0, 1] [0, 1]
  rfl rfl (.inr (by decide)) rfl
example := C99_failed_fit_false exEnv exObj [1 / 4, 3 / 4, 1 / 2] [(), (), ()] 1 3 2 (4 / 5) id [2, 0, 1]
  [1 / 4, 3 / 4, 1 / 2] [[1 / 4], [3 / 4], [1 / 2]] ⟨[1 / 2, 1 / 2], [1, 1], ()⟩ [[-1 / 4, 5 / 4], [1 / 4, 3 / 4], [0, 1]]
  (by decide +kernel) (by decide +kernel) (by decide +kernel) (by norm_num) (by norm_num)
example := C99_failed_grouping_false { exEnv with fitModels := [] } exFitted (some [⟨1, 2, 0, 0, 1⟩]) rfl [1 / 4, 3 / 4] [(), ()] [0, 1] 2
  (4 / 5) id [0, 1] [1 / 4, 3 / 4] [[1 / 4], [3 / 4]] "UnboundLocalError" (by decide +kernel) (by decide +kernel)
example := C99_no_quantiles exEnv { exFitted with quantiles := none } (some [⟨1, 2, 0, 0, 1⟩]) rfl rfl rfl [1 / 4] [()] 2 [1 / 4] [[1 / 4]]
  (by decide +kernel)

end Verif.Props.Detector
