import Verif.Props.Training
import Verif.Props.MetricLaw
import Verif.Props.OutputCalib

/-!
Property C157: what early stopping on validation data says about new data.
-/
set_option linter.unusedSectionVars false

namespace Verif.Props.EarlyStopLaw

open Verif.Props Verif.Training Verif.Props.MonteCarlo Verif.Props.MetricLaw MeasureTheory

section path
variable {S B K : Type} [Field K] [LinearOrder K] [IsStrictOrderedRing K]

/-- Specification: the state after the batches `bs`, with nothing but training steps. The key argument is the step count at the last
completed group of `gas` batches. -/
def epochState (j : Job S B K) : ℕ → ℕ → List B → S → S
  | _, _, [], s => s
  | i, key, b :: bs, s =>
    epochState j (i + 1) (if j.gas > 0 ∧ (i + 1) % j.gas ≠ 0 then key else j.stepOf (j.train key s b)) bs (j.train key s b)

/-- Specification: the state after `t` epochs of training on the training data alone. -/
def path (j : Job S B K) (data : ℕ → List B) (s : S) : ℕ → S
  | 0 => s
  | t + 1 => epochState j 0 (j.stepOf (path j data s t)) (data t) (path j data s t)

theorem epochState_metric (j : Job S B K) (m : Option (S → K)) (bs : List B) (i key : ℕ) (s : S) :
    epochState { j with metric := m } i key bs s = epochState j i key bs s := by
  induction bs generalizing i key s with
  | nil => rfl
  | cons b bs ih => unfold epochState; exact ih _ _ _

/-- The path does not depend on the monitored metric. -/
theorem path_metric (j : Job S B K) (m : Option (S → K)) (data : ℕ → List B) (s : S) (t : ℕ) :
    path { j with metric := m } data s t = path j data s t := by
  induction t with
  | zero => rfl
  | succ t ih => unfold path; rw [ih]; exact epochState_metric j m _ _ _ _

theorem epochFrom_path (j : Job S B K) (bs : List B) (i key : ℕ) (a b : Loop S K) (h : epochFrom j i key bs a = some b) :
    b.state = epochState j i key bs a.state ∧ b.vals = a.vals ∧ b.trained = a.trained := by
  induction bs generalizing i key a with
  | nil => simp only [epochFrom, Option.some.injEq] at h; subst h; exact ⟨rfl, rfl, rfl⟩
  | cons c bs ih =>
    unfold epochFrom at h
    simp only at h
    unfold epochState
    by_cases hc : j.gas > 0 ∧ (i + 1) % j.gas ≠ 0
    · rw [if_pos hc] at h ⊢
      exact ih _ _ _ h
    · rw [if_neg hc] at h ⊢
      split at h
      · cases h
      · rename_i l2 hl2
        obtain ⟨a1, _, _, _, _, a6, a7⟩ := stepEnd_frame j _ l2 hl2
        obtain ⟨i1, i2, i3⟩ := ih _ _ _ h
        rw [a1] at i1
        exact ⟨i1, i2.trans a7, i3.trans a6⟩

/-- **C157, trajectory.** With validation after every epoch, the state a fit ends with is the one that training alone reaches after as many epochs,
and the recorded values are the metric at the states on the way: validation decides when to stop and nothing else. -/
theorem C157_path (j : Job S B K) (f : S → K) (hm : j.metric = some f) (hev : j.evalEvery = 1) (data : ℕ → List B) (n : ℕ) (s : S) (dir : Dir S)
    (l : Loop S K) (h : train j data n s dir = some l) :
    l.state = path j data s l.trained ∧ l.vals = (List.range l.trained).map fun t => f (path j data s (t + 1)) := by
  unfold train at h
  obtain ⟨l1, h1, h2⟩ := Option.bind_eq_some_iff.mp h
  have hfin : l.vals = l1.vals ∧ l.trained = l1.trained ∧ l.state = l1.state := by
    unfold trainEnd at h2
    split_ifs at h2
    · obtain ⟨d, -, rfl⟩ := Option.map_eq_some_iff.mp h2; exact ⟨rfl, rfl, rfl⟩
    · simp at h2; subst h2; exact ⟨rfl, rfl, rfl⟩
  rw [hfin.1, hfin.2.1, hfin.2.2]
  have hval : ∀ e, shouldValidate j e = true := by
    intro e; simp [shouldValidate, hm, hev]
  have key : ∀ (n e : ℕ) (l0 : Loop S K), l0.trained = e → l0.state = path j data s e →
      l0.vals = (List.range e).map (fun t => f (path j data s (t + 1))) → epochs j data n e l0 = some l1 →
      l1.state = path j data s l1.trained ∧ l1.vals = (List.range l1.trained).map fun t => f (path j data s (t + 1)) := by
    intro n
    induction n with
    | zero => intro e l0 ht hs hv h0; simp only [epochs, Option.some.injEq] at h0; subst h0; rw [ht]; exact ⟨hs, hv⟩
    | succ n ih =>
      intro e l0 ht hs hv h0
      unfold epochs at h0
      split at h0
      · cases h0
      · rename_i la hla
        obtain ⟨lb, hlb, rfl⟩ := trainEpoch_some hla
        obtain ⟨b1, b2, b3⟩ := epochFrom_path j _ _ _ _ _ hlb
        have hb : lb.state = path j data s (e + 1) := by rw [b1, hs]; rfl
        rw [if_pos (hval e)] at h0
        split at h0
        · cases h0
        · rename_i lv hlv
          obtain ⟨v1, v2, v3, v4⟩ := validate_frame j _ _ hlv
          obtain ⟨w1, w2⟩ := v4 f hm
          have t1 : lv.trained = e + 1 := by rw [v3]; simp [b3, ht]
          have t2 : lv.state = path j data s (e + 1) := by rw [v1]; exact hb
          have t3 : lv.vals = (List.range (e + 1)).map fun t => f (path j data s (t + 1)) := by
            rw [w2, List.range_succ, List.map_append]
            simp only [b2, hv, hb, List.map_cons, List.map_nil]
          split_ifs at h0
          · simp only [Option.some.injEq] at h0; subst h0
            rw [t1]; exact ⟨t2, t3⟩
          · exact ih (e + 1) lv t1 t2 t3 h0
  exact key n 0 _ rfl rfl rfl h1

theorem bestOf_near (d : K) (hd : 0 ≤ d) (ms : List K) (b : K) (h : bestOf d ms = some b) : b ∈ ms ∧ ∀ m ∈ ms, b ≤ m + d := by
  induction ms using List.reverseRecOn generalizing b with
  | nil => cases h
  | append_singleton ms m ih =>
    rw [bestOf_concat] at h
    simp only [Option.some.injEq] at h
    cases hb : bestOf d ms with
    | none =>
      have h0 : ms = [] := by
        cases ms with
        | nil => rfl
        | cons _ _ => cases hb
      rw [hb] at h
      simp only at h
      subst h h0
      simp [hd]
    | some c =>
      rw [hb] at h
      simp only at h
      obtain ⟨i1, i2⟩ := ih c hb
      split_ifs at h with hc
      · subst h
        refine ⟨by simp, fun x hx => ?_⟩
        rcases List.mem_append.1 hx with hx | hx
        · linarith [i2 x hx]
        · rw [List.mem_singleton.1 hx]; linarith
      · subst h
        refine ⟨by simp [i1], fun x hx => ?_⟩
        rcases List.mem_append.1 hx with hx | hx
        · exact i2 x hx
        · rw [List.mem_singleton.1 hx]; linarith

/-- The run with its recorded values negated. -/
def negVals (l : Loop S K) : Loop S K := { l with vals := l.vals.map fun v => -v }

/-- The job that minimises the negated metric. -/
def negJob (j : Job S B K) (f : S → K) : Job S B K := { j with es := { j.es with mode := some "min" }, metric := some fun s => -f s }

theorem stepEnd_neg (j : Job S B K) (f : S → K) (l : Loop S K) : stepEnd (negJob j f) (negVals l) = (stepEnd j l).map negVals := by
  have key : ∀ b : Bool, (if b = true then (saveCkpt l.dir (j.stepOf (j.strip l.state)) (j.strip l.state) j.keep false).map
        (fun d => negVals { l with ends := l.ends ++ [j.stepOf l.state], dir := d }) else some (negVals { l with ends := l.ends ++ [j.stepOf l.state] })) =
      Option.map negVals (if b = true then (saveCkpt l.dir (j.stepOf (j.strip l.state)) (j.strip l.state) j.keep false).map
        (fun d => { l with ends := l.ends ++ [j.stepOf l.state], dir := d }) else some { l with ends := l.ends ++ [j.stepOf l.state] }) := by
    intro b
    cases b
    · rfl
    · rw [if_pos rfl, if_pos rfl, Option.map_map]; rfl
  unfold stepEnd
  exact key _

theorem epochFrom_neg (j : Job S B K) (f : S → K) (bs : List B) (i key : ℕ) (l : Loop S K) :
    epochFrom (negJob j f) i key bs (negVals l) = (epochFrom j i key bs l).map negVals := by
  induction bs generalizing i key l with
  | nil => rfl
  | cons b bs ih =>
    unfold epochFrom
    simp only
    have e : stepEnd (negJob j f) { negVals l with state := (negJob j f).train key (negVals l).state b, global := (negVals l).global + 1, keys := (negVals l).keys ++ [key] } =
        (stepEnd j { l with state := j.train key l.state b, global := l.global + 1, keys := l.keys ++ [key] }).map negVals :=
      stepEnd_neg j f { l with state := j.train key l.state b, global := l.global + 1, keys := l.keys ++ [key] }
    by_cases hc : j.gas > 0 ∧ (i + 1) % j.gas ≠ 0
    · rw [if_pos hc, if_pos (show (negJob j f).gas > 0 ∧ (i + 1) % (negJob j f).gas ≠ 0 from hc)]
      exact ih (i + 1) key { l with state := j.train key l.state b, global := l.global + 1, keys := l.keys ++ [key] }
    · rw [if_neg hc, if_neg (show ¬ ((negJob j f).gas > 0 ∧ (i + 1) % (negJob j f).gas ≠ 0) from hc), e]
      cases stepEnd j { l with state := j.train key l.state b, global := l.global + 1, keys := l.keys ++ [key] } with
      | none => rfl
      | some l2 => exact ih _ _ l2

theorem trainEpoch_neg (j : Job S B K) (f : S → K) (bs : List B) (l : Loop S K) :
    trainEpoch (negJob j f) bs (negVals l) = (trainEpoch j bs l).map negVals := by
  unfold trainEpoch
  have e : epochFrom (negJob j f) 0 ((negJob j f).stepOf (negVals l).state) bs (negVals l) = (epochFrom j 0 (j.stepOf l.state) bs l).map negVals :=
    epochFrom_neg j f bs 0 _ l
  rw [e]
  cases epochFrom j 0 (j.stepOf l.state) bs l with
  | none => rfl
  | some l1 =>
    simp only [Option.map_some, Option.bind_some]
    have : (negVals l1).ends = l1.ends ∧ (negVals l).ends = l.ends := ⟨rfl, rfl⟩
    rw [this.1, this.2]
    split_ifs <;> rfl

theorem active_neg (j : Job S B K) (f : S → K) (hmax : j.es.mode = some "max") : (negJob j f).es.active = j.es.active := by
  unfold ESConfig.active negJob
  rw [hmax]
  simp

theorem esUpdate_neg (j : Job S B K) (f : S → K) (hmax : j.es.mode = some "max") (e : ES K) (v : K) : esUpdate (negJob j f).es e (-v) = esUpdate j.es e v := by
  unfold esUpdate
  rw [active_neg j f hmax, hmax]
  have : (negJob j f).es.mode = some "min" := rfl
  rw [this]
  simp

theorem validate_neg (j : Job S B K) (f : S → K) (hm : j.metric = some f) (hmax : j.es.mode = some "max") (l : Loop S K) :
    validate (negJob j f) (negVals l) = (validate j l).map negVals := by
  unfold validate
  rw [hm]
  have e := esUpdate_neg j f hmax l.es (f l.state)
  have e0 : (negJob j f).metric = some fun s => -f s := rfl
  have e1 : (negVals l).es = l.es ∧ (negVals l).state = l.state ∧ (negVals l).dir = l.dir := ⟨rfl, rfl, rfl⟩
  have e2 : (negJob j f).hasDir = j.hasDir := rfl
  rw [e0]
  simp only [e1.1, e1.2.1, e1.2.2, e, e2]
  split_ifs
  · rw [Option.map_map]
    congr 1
    funext d
    simp [negVals]
  · simp [negVals]

theorem epochs_neg (j : Job S B K) (f : S → K) (hm : j.metric = some f) (hmax : j.es.mode = some "max") (data : ℕ → List B) (n e : ℕ) (l : Loop S K) :
    epochs (negJob j f) data n e (negVals l) = (epochs j data n e l).map negVals := by
  induction n generalizing e l with
  | zero => rfl
  | succ n ih =>
    unfold epochs
    rw [trainEpoch_neg]
    cases trainEpoch j (data e) l with
    | none => rfl
    | some l1 =>
      have hs : shouldValidate (negJob j f) e = shouldValidate j e := by simp [shouldValidate, negJob, hm]
      simp only [Option.map_some, hs]
      split_ifs
      · rw [validate_neg j f hm hmax]
        cases validate j l1 with
        | none => rfl
        | some l2 =>
          simp only [Option.map_some, active_neg j f hmax]
          have : (negVals l2).es = l2.es := rfl
          rw [this]
          split_ifs
          · rfl
          · exact ih _ _
      · exact ih _ _

/-- **C157, maximising.** Early stopping on a metric to be maximised runs exactly as on the negated metric to be minimised. -/
theorem C157_max (j : Job S B K) (f : S → K) (hm : j.metric = some f) (hmax : j.es.mode = some "max") (data : ℕ → List B) (n : ℕ) (s : S) (dir : Dir S) :
    train (negJob j f) data n s dir = (train j data n s dir).map negVals := by
  unfold train
  have e : epochs (negJob j f) data n 0 { state := s, global := 0, dir := dir, es := (negJob j f).es.init, keys := [], ends := [], trained := 0, vals := [] } =
      (epochs j data n 0 { state := s, global := 0, dir := dir, es := j.es.init, keys := [], ends := [], trained := 0, vals := [] }).map negVals :=
    epochs_neg j f hm hmax data n 0 { state := s, global := 0, dir := dir, es := j.es.init, keys := [], ends := [], trained := 0, vals := [] }
  rw [e]
  cases epochs j data n 0 { state := s, global := 0, dir := dir, es := j.es.init, keys := [], ends := [], trained := 0, vals := [] } with
  | none => rfl
  | some l =>
    simp only [Option.map_some, Option.bind_some]
    unfold trainEnd
    have e1 : (negJob j f).hasDir = j.hasDir ∧ (negVals l).dir = l.dir ∧ (negVals l).state = l.state := ⟨rfl, rfl, rfl⟩
    rw [e1.1, e1.2.1, e1.2.2]
    split_ifs
    · rw [Option.map_map]; rfl
    · rfl

end path

section law
variable {S B : Type}

/-- Specification: what a run of `trained` of at most `n` epochs with recorded values `vals` says about the values `g` on new data of the states
`st 1`, `st 2`, … after its epochs, up to `ε`. Reported values are right up to `ε`; the state whose value is on record as the best is at most
`d + 2 ε` worse than any other; and a run that stopped early did so with `p + 1` epochs at its end each of which improves on one and the same
earlier state by at most `d + 2 ε`. -/
def Guarantee (st : ℕ → S) (g : S → ℝ) (d ε : ℝ) (p n trained : ℕ) (vals : List ℝ) : Prop :=
  (vals.length = trained ∧ ∀ t (ht : t < vals.length), |vals[t] - g (st (t + 1))| ≤ ε) ∧
  (∀ b, bestOf d vals = some b → ∃ t₀, ∃ ht : t₀ < vals.length, vals[t₀] = b ∧ ∀ t < trained, g (st (t₀ + 1)) ≤ g (st (t + 1)) + d + 2 * ε) ∧
  (trained < n → ∃ t₀, t₀ + (p + 1) < trained ∧ ∀ t, trained ≤ t + (p + 1) → t < trained → g (st (t₀ + 1)) ≤ g (st (t + 1)) + d + 2 * ε)

theorem guarantee_of (st : ℕ → S) (f g : S → ℝ) (d ε : ℝ) (hd : 0 ≤ d) (p n trained : ℕ) (vals : List ℝ)
    (hv : vals = (List.range trained).map fun t => f (st (t + 1))) (hle : trained ≤ n) (hno : ∀ t < trained, ¬ Exhausted d p (vals.take t))
    (hex : trained < n → Exhausted d p vals) (hε : ∀ t < n, |f (st (t + 1)) - g (st (t + 1))| ≤ ε) : Guarantee st g d ε p n trained vals := by
  have hlen : vals.length = trained := by rw [hv]; simp
  have hat : ∀ t (ht : t < vals.length), vals[t] = f (st (t + 1)) := by
    intro t ht
    simp only [hv, List.getElem_map, List.getElem_range]
  have hb : ∀ t < trained, ∀ u < trained, f (st (t + 1)) ≤ f (st (u + 1)) + d → g (st (t + 1)) ≤ g (st (u + 1)) + d + 2 * ε := by
    intro t ht u hu htu
    have h1 := abs_le.1 (hε t (by omega))
    have h2 := abs_le.1 (hε u (by omega))
    linarith [h1.1, h1.2, h2.1, h2.2]
  refine ⟨⟨hlen, fun t ht => ?_⟩, fun b hbest => ?_, fun hlt => ?_⟩
  · rw [hat t ht]; exact hε t (by omega)
  · obtain ⟨b1, b2⟩ := bestOf_near _ hd _ _ hbest
    obtain ⟨t₀, ht₀, e⟩ := List.getElem_of_mem b1
    refine ⟨t₀, ht₀, e, fun t ht => hb t₀ (by omega) t ht ?_⟩
    rw [← hat t₀ ht₀, e, ← hat t (by omega)]
    exact b2 _ (List.getElem_mem _)
  · obtain ⟨pre, mid, suf, e, hmid, him⟩ := hex hlt
    have hsuf : suf = [] := by
      by_contra hne
      have hpos := List.length_pos_of_ne_nil hne
      have hl2 : vals.length = pre.length + mid.length + suf.length := by rw [e, List.length_append, List.length_append]
      refine hno (pre.length + mid.length) (by omega) ⟨pre, mid, [], ?_, hmid, him⟩
      rw [e, List.append_nil, ← List.length_append, List.take_left]
    subst hsuf
    rw [List.append_nil] at e
    have hl2 : vals.length = pre.length + (p + 1) := by rw [e, List.length_append, hmid]
    have hbo : ∃ b, bestOf d pre = some b := by
      cases mid with
      | nil => simp at hmid
      | cons m _ => exact (him m (by simp)).imp fun b hb => hb.1
    obtain ⟨b, hbp⟩ := hbo
    obtain ⟨b1, -⟩ := bestOf_near _ hd _ _ hbp
    obtain ⟨t₀, ht₀, eb⟩ := List.getElem_of_mem b1
    refine ⟨t₀, by omega, fun t ht1 ht2 => hb t₀ (by omega) t ht2 ?_⟩
    rw [← hat t₀ (by omega), ← hat t (by omega)]
    have e1 : vals[t₀]'(by omega) = b := by
      simp only [e]
      rw [List.getElem_append_left ht₀, eb]
    have e2 : vals[t]'(by omega) ∈ mid := by
      simp only [e]
      rw [List.getElem_append_right (by omega)]
      exact List.getElem_mem _
    obtain ⟨b', hb', hle'⟩ := him _ e2
    rw [hbp] at hb'
    cases hb'
    rw [e1]
    linarith

/-- **C157, on one set of validation data.** If on the states of the first `n` epochs the metric on the validation data is within `ε` of its value
on new data, the run is a guarantee. -/
theorem C157_near (j : Job S B ℝ) (f : S → ℝ) (hm : j.metric = some f) (hev : j.evalEvery = 1) (p : ℕ) (hp : 0 < p) (hpat : j.es.patience = some (p : ℤ))
    (hmin : j.es.mode = some "min") (hd : 0 ≤ j.es.minDelta) (data : ℕ → List B) (n : ℕ) (s : S) (dir : Dir S) (l : Loop S ℝ)
    (h : train j data n s dir = some l) (g : S → ℝ) (ε : ℝ) (hε : ∀ t < n, |f (path j data s (t + 1)) - g (path j data s (t + 1))| ≤ ε) :
    Guarantee (path j data s) g j.es.minDelta ε p n l.trained l.vals := by
  obtain ⟨-, hv⟩ := C157_path j f hm hev data n s dir l h
  obtain ⟨-, hle, hno, hex⟩ := C31_epochs_run j f hm hev p hp hpat hmin data n s dir l h
  exact guarantee_of _ f g _ ε hd p n _ _ hv hle hno hex hε

/-- **C157, calibration, on one set of validation data.** The same holds of a calibration with early stopping. -/
theorem C157_calibration_near {D O : Type} (j : OutputCalib.Job S (D × O) ℝ) (f : S → ℝ) (hf : j.val = some f) (hev : j.evalEvery = 1) (p : ℕ) (hp : 0 < p)
    (hpat : j.es.patience = some (p : ℤ)) (hmin : j.es.mode = some "min") (hd : 0 ≤ j.es.minDelta) (data : ℕ → List D) (outs : List O) (n : ℕ) (s : S)
    (dir : Dir S) (l : OutputCalib.Loop S ℝ) (h : OutputCalib.run j data outs n s dir = some l) (g : S → ℝ) (ε : ℝ)
    (hε : ∀ t < n, |f (Props.OutputCalib.after j data outs s (t + 1)) - g (Props.OutputCalib.after j data outs s (t + 1))| ≤ ε) :
    Guarantee (Props.OutputCalib.after j data outs s) g j.es.minDelta ε p n l.trained l.vals := by
  have hva : ∀ E, Props.OutputCalib.validated j E = List.range E := fun E => by
    unfold Props.OutputCalib.validated
    rw [hev]
    simp
  obtain ⟨hle, -, -, -, hv, -, -⟩ := Props.OutputCalib.C85_run j data outs n s dir l h
  obtain ⟨hex, hno⟩ := Props.OutputCalib.C85_early_stopping j p hp hpat hmin f hf data outs n s dir l h
  have hv := hv f hf
  rw [hva] at hv
  refine guarantee_of _ f g _ ε hd p n _ _ hv hle (fun t ht => ?_) hex hε
  have := hno t ht
  rw [hva] at this
  rwa [hv, ← List.map_take, List.take_range, min_eq_left ht.le]

variable {Ω 𝒳 : Type} [MeasurableSpace Ω] [MeasurableSpace 𝒳] {m : ℕ} {X : Fin m → Ω → 𝒳} {Q : Measure 𝒳} {μ : Measure Ω} [IsProbabilityMeasure μ]

theorem near_prob (D : Draws X Q μ) (hm : 0 < m) (st : ℕ → S) (ℓ : S → 𝒳 → ℝ) (hℓ : ∀ st, Measurable (ℓ st)) (a b : ℝ) (hab : a < b)
    (hb : ∀ st x, ℓ st x ∈ Set.Icc a b) (n : ℕ) (ε : ℝ) (hε : 0 ≤ ε) (P : Ω → Prop)
    (h : ∀ ω, (∀ t < n, |avg X (ℓ (st (t + 1))) id ω - ∫ x, ℓ (st (t + 1)) x ∂Q| ≤ ε) → P ω) :
    μ.real {ω | ¬ P ω} ≤ n * (2 * Real.exp (-2 * m * ε ^ 2 / (b - a) ^ 2)) := by
  have h1 := (measureReal_biUnion_finset_le (μ := μ) (Finset.range n) fun t => {ω | ε ≤ |avg X (ℓ (st (t + 1))) id ω - ∫ x, ℓ (st (t + 1)) x ∂Q|}).trans
    (Finset.sum_le_sum fun t _ => hoeffding D hm (ℓ (st (t + 1))) (hℓ _) a b hab (hb _) ε hε)
  rw [Finset.sum_const, Finset.card_range, nsmul_eq_mul] at h1
  refine (measureReal_mono ?_ (measure_ne_top _ _)).trans h1
  intro ω hω
  by_contra hcon
  refine hω (h ω fun t ht => ?_)
  by_contra hc
  exact hcon (Set.mem_biUnion (Finset.mem_coe.2 (Finset.mem_range.2 ht)) (not_le.1 hc).le)

/-- **C157, new data.** The metric is the average over `m` validation rows of a value in `[a, b]`, the rows are independent draws. Then except with
probability `2 n exp (-2 m ε² / (b - a)²)` a run of at most `n` epochs is a guarantee for the expected value on a new row, whenever it stops. -/
theorem C157_new_data (D : Draws X Q μ) (hm : 0 < m) (j : Job S B ℝ) (ℓ : S → 𝒳 → ℝ) (hℓ : ∀ st, Measurable (ℓ st)) (a b : ℝ) (hab : a < b)
    (hb : ∀ st x, ℓ st x ∈ Set.Icc a b) (hev : j.evalEvery = 1) (p : ℕ) (hp : 0 < p) (hpat : j.es.patience = some (p : ℤ))
    (hmin : j.es.mode = some "min") (hd : 0 ≤ j.es.minDelta) (data : ℕ → List B) (n : ℕ) (s : S) (dir : Dir S) (ε : ℝ) (hε : 0 ≤ ε) :
    μ.real {ω | ¬ ∀ l, train { j with metric := some fun st => avg X (ℓ st) id ω } data n s dir = some l →
      Guarantee (path j data s) (fun st => ∫ x, ℓ st x ∂Q) j.es.minDelta ε p n l.trained l.vals} ≤ n * (2 * Real.exp (-2 * m * ε ^ 2 / (b - a) ^ 2)) := by
  refine near_prob D hm (path j data s) ℓ hℓ a b hab hb n ε hε _ fun ω hnear l hl => ?_
  have := C157_near { j with metric := some fun st => avg X (ℓ st) id ω } _ rfl hev p hp hpat hmin hd data n s dir l hl
    (fun st => ∫ x, ℓ st x ∂Q) ε (fun t ht => by simp only [path_metric]; exact hnear t ht)
  simpa only [Guarantee, path_metric] using this

theorem epochState_neg {K : Type} [Field K] [LinearOrder K] [IsStrictOrderedRing K] (j : Job S B K) (f : S → K) (bs : List B) (i key : ℕ) (s : S) :
    epochState (negJob j f) i key bs s = epochState j i key bs s := by
  induction bs generalizing i key s with
  | nil => rfl
  | cons b bs ih => unfold epochState; exact ih _ _ _

theorem path_neg {K : Type} [Field K] [LinearOrder K] [IsStrictOrderedRing K] (j : Job S B K) (f : S → K) (data : ℕ → List B) (s : S) (t : ℕ) :
    path (negJob j f) data s t = path j data s t := by
  induction t with
  | zero => rfl
  | succ t ih => unfold path; rw [ih]; exact epochState_neg j f _ _ _ _

/-- **C157, new data, maximising.** With a metric to be maximised, such as the accuracy, the same holds of the negated values. -/
theorem C157_new_data_max (D : Draws X Q μ) (hm : 0 < m) (j : Job S B ℝ) (ℓ : S → 𝒳 → ℝ) (hℓ : ∀ st, Measurable (ℓ st)) (a b : ℝ) (hab : a < b)
    (hb : ∀ st x, ℓ st x ∈ Set.Icc a b) (hev : j.evalEvery = 1) (p : ℕ) (hp : 0 < p) (hpat : j.es.patience = some (p : ℤ))
    (hmax : j.es.mode = some "max") (hd : 0 ≤ j.es.minDelta) (data : ℕ → List B) (n : ℕ) (s : S) (dir : Dir S) (ε : ℝ) (hε : 0 ≤ ε) :
    μ.real {ω | ¬ ∀ l, train { j with metric := some fun st => avg X (ℓ st) id ω } data n s dir = some l →
      Guarantee (path j data s) (fun st => -∫ x, ℓ st x ∂Q) j.es.minDelta ε p n l.trained (l.vals.map fun v => -v)} ≤
      n * (2 * Real.exp (-2 * m * ε ^ 2 / (b - a) ^ 2)) := by
  refine near_prob D hm (path j data s) ℓ hℓ a b hab hb n ε hε _ fun ω hnear l hl => ?_
  have h1 := C157_max { j with metric := some fun st => avg X (ℓ st) id ω } _ rfl hmax data n s dir
  rw [hl, Option.map_some] at h1
  have := C157_near (negJob { j with metric := some fun st => avg X (ℓ st) id ω } fun st => avg X (ℓ st) id ω) _ rfl hev p hp hpat rfl hd data n s dir _ h1
    (fun st => -∫ x, ℓ st x ∂Q) ε (fun t ht => by
      simp only [path_neg, path_metric]
      rw [neg_sub_neg, abs_sub_comm]
      exact hnear t ht)
  rw [show path (negJob { j with metric := some fun st => avg X (ℓ st) id ω } fun st => avg X (ℓ st) id ω) data s = path j data s from
    funext fun t => (path_neg _ _ _ _ t).trans (path_metric _ _ _ _ t)] at this
  exact this

theorem after_val {D O : Type} (j : OutputCalib.Job S (D × O) ℝ) (v : Option (S → ℝ)) (data : ℕ → List D) (outs : List O) (s : S) (t : ℕ) :
    Props.OutputCalib.after { j with val := v } data outs s t = Props.OutputCalib.after j data outs s t := by
  induction t with
  | zero => rfl
  | succ t ih => unfold Props.OutputCalib.after; rw [ih]; rfl

/-- **C157, calibration, new data.** The same of a calibration that monitors an average over validation rows. -/
theorem C157_calibration {D' O : Type} (D : Draws X Q μ) (hm : 0 < m) (j : OutputCalib.Job S (D' × O) ℝ) (ℓ : S → 𝒳 → ℝ) (hℓ : ∀ st, Measurable (ℓ st))
    (a b : ℝ) (hab : a < b) (hb : ∀ st x, ℓ st x ∈ Set.Icc a b) (hev : j.evalEvery = 1) (p : ℕ) (hp : 0 < p) (hpat : j.es.patience = some (p : ℤ))
    (hmin : j.es.mode = some "min") (hd : 0 ≤ j.es.minDelta) (data : ℕ → List D') (outs : List O) (n : ℕ) (s : S) (dir : Dir S) (ε : ℝ) (hε : 0 ≤ ε) :
    μ.real {ω | ¬ ∀ l, OutputCalib.run { j with val := some fun st => avg X (ℓ st) id ω } data outs n s dir = some l →
      Guarantee (Props.OutputCalib.after j data outs s) (fun st => ∫ x, ℓ st x ∂Q) j.es.minDelta ε p n l.trained l.vals} ≤
      n * (2 * Real.exp (-2 * m * ε ^ 2 / (b - a) ^ 2)) := by
  refine near_prob D hm (Props.OutputCalib.after j data outs s) ℓ hℓ a b hab hb n ε hε _ fun ω hnear l hl => ?_
  have := C157_calibration_near { j with val := some fun st => avg X (ℓ st) id ω } _ rfl hev p hp hpat hmin hd data outs n s dir l hl
    (fun st => ∫ x, ℓ st x ∂Q) ε (fun t ht => by simp only [after_val]; exact hnear t ht)
  simpa only [Guarantee, after_val] using this

end law

/-- **C157: the fit does not return the best state.** Even with a metric that is exact, early stopping ends with the last state: here the loss
with values in `[0, 1]` is 0 after the first epoch and 1 for the state that the run returns and leaves as its only checkpoint. -/
theorem C157_best_false : ∃ (j : Job ℕ Unit ℚ) (f : ℕ → ℚ), j.metric = some f ∧ j.evalEvery = 1 ∧ j.es.patience = some 1 ∧ j.es.mode = some "min" ∧
    (∀ st, 0 ≤ f st ∧ f st ≤ 1) ∧
    (train j (fun _ => [()]) 10 0 []).map (fun l => (l.trained, l.vals, l.dir.map Prod.snd, f l.state)) = some (3, [0, 1, 1], [3], 1) := by
  refine ⟨countJob 0 1 none (some fun s => if s = 1 then 0 else 1), fun s => if s = 1 then 0 else 1, rfl, rfl, rfl, rfl, ?_, ?_⟩
  · intro st; dsimp only; split_ifs <;> norm_num
  · decide +kernel

/-! ### Concrete cases that meet the hypotheses -/

/-- Training counts the epochs; the metric of state `s` is to be minimised, patience 2. -/
noncomputable def exJob (metric : Option (ℕ → ℝ)) : Job ℕ Unit ℝ where
  stepOf := id
  strip := id
  train := fun _ s _ => s + 1
  gas := 0
  hasDir := false
  saveEvery := none
  keep := 1
  es := ⟨1 / 100, some 2, some "min"⟩
  evalEvery := 1
  metric := metric

theorem exJob_path (t : ℕ) : path (exJob none) (fun _ => [()]) 0 t = t := by
  induction t with
  | zero => rfl
  | succ t ih => rw [path, ih]; rfl

/-- A run of three epochs on a metric that is `1/10` off succeeds, so that `C157_path` and `C157_near` apply to it. -/
example : ∃ l, train (exJob (some fun s => 1 / (s + 1) + 1 / 10)) (fun _ => [()]) 3 0 [] = some l ∧
    Guarantee (path (exJob (some fun s => 1 / (s + 1) + 1 / 10)) (fun _ => [()]) 0) (fun s => 1 / (s + 1)) (1 / 100) (1 / 10) 2 3 l.trained l.vals ∧
    l.state = path (exJob (some fun s => 1 / (s + 1) + 1 / 10)) (fun _ => [()]) 0 l.trained := by
  obtain ⟨l, hl, -⟩ := C62_runs (exJob (some fun s => 1 / (s + 1) + 1 / 10)) rfl (fun _ => [()]) (fun _ => ⟨le_refl 1, Nat.zero_le 1⟩) 3 0 []
  refine ⟨l, hl, C157_near _ _ rfl rfl 2 (by decide) rfl rfl (by norm_num [exJob]) _ 3 0 [] l hl _ _ fun t _ => ?_,
    (C157_path _ _ rfl rfl _ 3 0 [] l hl).1⟩
  rw [add_sub_cancel_left, abs_of_pos (by norm_num)]

/-- Fair coin tosses as validation rows; the loss of state `s` on a head is `1 / (s + 1)`. -/
example : (Measure.infinitePi fun _ : Fin 3 => coin).real {ω | ¬ ∀ l,
    train { exJob none with metric := some fun st => avg (fun (i : Fin 3) (ω : Fin 3 → Bool) => ω i) (fun x => if x then 1 / ((st : ℝ) + 1) else 0) id ω }
      (fun _ => [()]) 5 0 [] = some l →
      Guarantee (path (exJob none) (fun _ => [()]) 0) (fun st => ∫ x, (if x then 1 / ((st : ℝ) + 1) else 0) ∂coin) (1 / 100) 1 2 5 l.trained l.vals} ≤
    (5 : ℕ) * (2 * Real.exp (-2 * (3 : ℕ) * 1 ^ 2 / (1 - 0) ^ 2)) := by
  refine C157_new_data (m := 3) exTosses (by decide) (exJob none) (fun st x => if x then 1 / ((st : ℝ) + 1) else 0) (fun _ => measurable_of_finite _) 0 1
    (by norm_num) (fun st x => ?_) rfl 2 (by decide) rfl rfl (by norm_num [exJob]) _ 5 0 [] 1 (by norm_num)
  have h : (0 : ℝ) < st + 1 := by positivity
  split_ifs
  · exact ⟨by positivity, by rw [div_le_one h]; linarith [(Nat.cast_nonneg st : (0 : ℝ) ≤ st)]⟩
  · simp

/-- The accuracy-like value `s / (s + 1)` of state `s`, to be maximised. -/
example : (train { exJob (some fun s => (s : ℝ) / (s + 1)) with es := ⟨1 / 100, some 2, some "max"⟩ } (fun _ => [()]) 3 0 []).map negVals =
    train (negJob { exJob (some fun s => (s : ℝ) / (s + 1)) with es := ⟨1 / 100, some 2, some "max"⟩ } fun s => (s : ℝ) / (s + 1)) (fun _ => [()]) 3 0 [] :=
  (C157_max { exJob (some fun s => (s : ℝ) / (s + 1)) with es := ⟨1 / 100, some 2, some "max"⟩ } (fun s => (s : ℝ) / (s + 1)) rfl rfl _ 3 0 []).symm

/-- A value to be maximised, validated on coin tosses. -/
example : (Measure.infinitePi fun _ : Fin 3 => coin).real {ω | ¬ ∀ l,
    train { exJob none with es := ⟨1 / 100, some 2, some "max"⟩,
                            metric := some fun st => avg (fun (i : Fin 3) (ω : Fin 3 → Bool) => ω i) (fun x => if x then 1 / ((st : ℝ) + 1) else 0) id ω }
      (fun _ => [()]) 5 0 [] = some l →
      Guarantee (path { exJob none with es := ⟨1 / 100, some 2, some "max"⟩ } (fun _ => [()]) 0) (fun st => -∫ x, (if x then 1 / ((st : ℝ) + 1) else 0) ∂coin)
        (1 / 100) 1 2 5 l.trained (l.vals.map fun v => -v)} ≤
    (5 : ℕ) * (2 * Real.exp (-2 * (3 : ℕ) * 1 ^ 2 / (1 - 0) ^ 2)) := by
  refine C157_new_data_max (m := 3) exTosses (by decide) { exJob none with es := ⟨1 / 100, some 2, some "max"⟩ }
    (fun st x => if x then 1 / ((st : ℝ) + 1) else 0) (fun _ => measurable_of_finite _) 0 1
    (by norm_num) (fun st x => ?_) rfl 2 (by decide) rfl rfl (by norm_num) _ 5 0 [] 1 (by norm_num)
  have h : (0 : ℝ) < st + 1 := by positivity
  split_ifs
  · exact ⟨by positivity, by rw [div_le_one h]; linarith [(Nat.cast_nonneg st : (0 : ℝ) ≤ st)]⟩
  · simp

/-- A calibration whose state counts its steps. -/
noncomputable def exCalib (val : Option (ℕ → ℝ)) : OutputCalib.Job ℕ (Unit × Unit) ℝ where
  stepOf := id
  train := fun _ s _ => s + 1
  loss := fun _ _ _ => 0
  hasDir := false
  saveEvery := none
  keep := 1
  es := ⟨1 / 100, some 2, some "min"⟩
  evalEvery := 1
  val := val

/-- A calibration that is validated on three epochs succeeds, so that `C157_calibration_near` applies to it. -/
example : ∃ l, OutputCalib.run (exCalib (some fun s => 1 / (s + 1) + 1 / 10)) (fun _ => [()]) [()] 3 0 [] = some l ∧
    Guarantee (Props.OutputCalib.after (exCalib (some fun s => 1 / (s + 1) + 1 / 10)) (fun _ => [()]) [()] 0) (fun s => 1 / (s + 1)) (1 / 100) (1 / 10) 2 3
      l.trained l.vals := by
  obtain ⟨l, hl, -⟩ := Props.OutputCalib.C85_no_directory (exCalib (some fun s => 1 / (s + 1) + 1 / 10)) rfl (fun _ => [()]) [()] 3 0 []
    (fun _ _ => by simp) (by simp)
  refine ⟨l, hl, C157_calibration_near _ _ rfl rfl 2 (by decide) rfl rfl (by norm_num [exCalib]) _ _ 3 0 [] l hl _ _ fun t _ => ?_⟩
  rw [add_sub_cancel_left, abs_of_pos (by norm_num)]

/-- A calibration validated on coin tosses. -/
example : (Measure.infinitePi fun _ : Fin 3 => coin).real {ω | ¬ ∀ l,
    OutputCalib.run { exCalib none with val := some fun st => avg (fun (i : Fin 3) (ω : Fin 3 → Bool) => ω i) (fun x => if x then 1 / ((st : ℝ) + 1) else 0) id ω }
      (fun _ => [()]) [()] 5 0 [] = some l →
      Guarantee (Props.OutputCalib.after (exCalib none) (fun _ => [()]) [()] 0) (fun st => ∫ x, (if x then 1 / ((st : ℝ) + 1) else 0) ∂coin) (1 / 100) 1 2 5
        l.trained l.vals} ≤
    (5 : ℕ) * (2 * Real.exp (-2 * (3 : ℕ) * 1 ^ 2 / (1 - 0) ^ 2)) := by
  refine C157_calibration (m := 3) exTosses (by decide) (exCalib none) (fun st x => if x then 1 / ((st : ℝ) + 1) else 0) (fun _ => measurable_of_finite _) 0 1
    (by norm_num) (fun st x => ?_) rfl 2 (by decide) rfl rfl (by norm_num [exCalib]) _ _ 5 0 [] 1 (by norm_num)
  have h : (0 : ℝ) < st + 1 := by positivity
  split_ifs
  · exact ⟨by positivity, by rw [div_le_one h]; linarith [(Nat.cast_nonneg st : (0 : ℝ) ≤ st)]⟩
  · simp

end Verif.Props.EarlyStopLaw
