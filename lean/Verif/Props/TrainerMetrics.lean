import Verif.Model.TrainerMetrics
import Mathlib.Algebra.BigOperators.Group.List.Basic
import Mathlib.Algebra.BigOperators.Ring.List
import Mathlib.Algebra.BigOperators.Field
import Mathlib.Algebra.CharZero.Defs
import Mathlib.Data.Rat.Defs
import Mathlib.Data.Nat.Cast.Basic
import Mathlib.Algebra.Order.Field.Rat
import Mathlib.Tactic.FieldSimp
import Mathlib.Tactic.Ring
import Mathlib.Tactic.Linarith
import Mathlib.Tactic.NormNum

/-!
C94: what the training status reports. Dictionaries are read through look-up only.
-/
set_option linter.unusedSectionVars false
set_option linter.unusedVariables false
namespace Verif.Props.TrainerMetrics
open Verif.TrainerMetrics

/-! ## Dictionaries -/

theorem look_cons {β : Type} (e : String × β) (d : List (String × β)) (k : String) :
    look (e :: d) k = if e.1 = k then some e.2 else look d k := by
  unfold look
  rw [List.find?_cons]
  by_cases h : e.1 = k
  · simp [h]
  · have : (e.1 == k) = false := by simpa using h
    simp [h, this]

theorem look_append {β : Type} (d d' : List (String × β)) (k : String) :
    look (d ++ d') k = (look d k).or (look d' k) := by
  induction d with
  | nil => simp [look]
  | cons e d ih =>
    rw [List.cons_append, look_cons, look_cons, ih]
    split_ifs <;> simp

theorem look_none {β : Type} (d : List (String × β)) (k : String) (h : d.any (fun e => e.1 == k) = false) :
    look d k = none := by
  induction d with
  | nil => rfl
  | cons e d ih =>
    rw [List.any_cons, Bool.or_eq_false_iff] at h
    rw [look_cons, if_neg (by simpa using h.1), ih h.2]

theorem look_setKey {β : Type} (d : List (String × β)) (k k' : String) (v : β) :
    look (setKey d k v) k' = if k' = k then some v else look d k' := by
  unfold setKey
  by_cases h : d.any (fun e => e.1 == k) = true
  · rw [if_pos h]
    have : ∀ d : List (String × β), look (d.map fun e => if e.1 = k then (k, v) else e) k' =
        if k' = k then (if d.any (fun e => e.1 == k) then some v else none) else look d k' := by
      intro d
      induction d with
      | nil => simp [look]
      | cons e d ih =>
        rw [List.map_cons, look_cons, ih, look_cons]
        by_cases he : e.1 = k
        · by_cases hk : k' = k
          · subst hk; simp [he]
          · rw [if_pos he, if_neg hk, if_neg hk]
            simp only
            rw [if_neg (fun h => hk h.symm), if_neg (by rw [he]; exact fun h => hk h.symm)]
        · by_cases hk : k' = k
          · subst hk
            have : (e.1 == k') = false := by simpa using he
            rw [List.any_cons, this, Bool.false_or]
            simp [he]
          · simp [he, hk]
    rw [this, h]; simp
  · rw [if_neg h]
    have h' : d.any (fun e => e.1 == k) = false := Bool.eq_false_iff.2 h
    rw [look_append]
    by_cases hk : k' = k
    · subst hk
      rw [look_none d k' h', look_cons]; simp
    · rw [if_neg hk, look_cons, if_neg (fun h => hk h.symm)]
      simp [look]

/-- The value of the last item with a key. -/
def lastOf {β : Type} (l : List (String × β)) (k : String) : Option β := ((l.filter fun e => e.1 == k).getLast?).map (·.2)

theorem look_foldl {β γ : Type} (key : γ → String) (val : γ → β) (l : List γ) (d : List (String × β)) (k : String) :
    look (l.foldl (fun d e => setKey d (key e) (val e)) d) k =
      (lastOf (l.map fun e => (key e, val e)) k).or (look d k) := by
  induction l generalizing d with
  | nil => simp [lastOf]
  | cons e l ih =>
    rw [List.foldl_cons, ih, look_setKey, List.map_cons]
    unfold lastOf
    by_cases he : key e = k
    · rw [List.filter_cons_of_pos (by simpa using he), if_pos he.symm]
      rw [List.getLast?_cons]
      cases h : (List.filter (fun e => e.1 == k) (l.map fun e => (key e, val e))).getLast? with
      | none => simp
      | some x => simp
    · rw [List.filter_cons_of_neg (by simpa using he), if_neg (fun h => he h.symm)]

section
variable {P T K : Type} [Field K]

/-! ## One step -/

/-- **C94.** The dictionary of metrics has, under every name, the value of the last metric with that name. -/
theorem C94_metric_lookup (ms : List (Metric P T K)) (p : P) (t : T) (k : String) :
    look (computeMetrics ms p t) k = ((ms.filter fun m => m.name == k).getLast?).map fun m => m.fn p t := by
  unfold computeMetrics
  rw [look_foldl (fun m : Metric P T K => m.name) (fun m => m.fn p t)]
  unfold lastOf
  rw [List.filter_map, List.getLast?_map]
  have : look ([] : List (String × K)) k = none := rfl
  rw [this, Option.or_none, Option.map_map]
  rfl

/-- **C94.** With pairwise different names every metric is reported with its value, and nothing else is. -/
theorem C94_metrics_reported (ms : List (Metric P T K)) (hn : (ms.map fun m => m.name).Nodup) (p : P) (t : T) :
    (∀ m ∈ ms, look (computeMetrics ms p t) m.name = some (m.fn p t)) ∧
    (∀ k, (∀ m ∈ ms, m.name ≠ k) → look (computeMetrics ms p t) k = none) := by
  constructor
  · intro m hm
    rw [C94_metric_lookup]
    have : ms.filter (fun x => x.name == m.name) = [m] := by
      induction ms with
      | nil => simp at hm
      | cons a ms ih =>
        rw [List.map_cons, List.nodup_cons] at hn
        rcases List.mem_cons.1 hm with rfl | hm'
        · rw [List.filter_cons_of_pos (by simp)]
          congr 1
          rw [List.filter_eq_nil_iff]
          intro x hx he
          exact hn.1 (List.mem_map.2 ⟨x, hx, by simpa using he⟩)
        · rw [List.filter_cons_of_neg, ih hn.2 hm']
          intro he
          exact hn.1 (List.mem_map.2 ⟨m, hm', by simpa using (Eq.symm (by simpa using he : a.name = m.name))⟩)
    rw [this]; rfl
  · intro k hk
    rw [C94_metric_lookup]
    have : ms.filter (fun x => x.name == k) = [] := by
      rw [List.filter_eq_nil_iff]
      intro x hx he
      exact hk x hx (by simpa using he)
    rw [this]; rfl

/-- **C94, failure.** Two metrics with one name (two lambdas, say) are reported as one, with the value of the last. -/
theorem C94_same_name_false (f g : P → T → K) (name : String) (p : P) (t : T) :
    computeMetrics [⟨name, f⟩, ⟨name, g⟩] p t = [(name, g p t)] := by
  simp [computeMetrics, setKey]

/-- The last of the items under a key, if any. -/
theorem lastOf_none {β : Type} (l : List (String × β)) (k : String) (h : ∀ e ∈ l, e.1 ≠ k) : lastOf l k = none := by
  unfold lastOf
  have : l.filter (fun e => e.1 == k) = [] := by
    rw [List.filter_eq_nil_iff]
    intro x hx he
    exact h x hx (by simpa using he)
  rw [this]; rfl

theorem mem_of_look {β : Type} (d : List (String × β)) (k : String) (v : β) (h : look d k = some v) : ∃ e ∈ d, e.1 = k := by
  induction d with
  | nil => simp [look] at h
  | cons e d ih =>
    rw [look_cons] at h
    split_ifs at h with he
    · exact ⟨e, by simp, he⟩
    · obtain ⟨x, hx, hk⟩ := ih h
      exact ⟨x, by simp [hx], hk⟩

theorem keys_setKey {β : Type} (d : List (String × β)) (k : String) (v : β) (e : String × β) (h : e ∈ setKey d k v) :
    e.1 = k ∨ e ∈ d := by
  unfold setKey at h
  split_ifs at h with hc
  · obtain ⟨x, hx, rfl⟩ := List.mem_map.1 h
    split_ifs with hk
    · exact Or.inl rfl
    · exact Or.inr hx
  · rcases List.mem_append.1 h with h | h
    · exact Or.inr h
    · rw [List.mem_singleton] at h
      exact Or.inl (by rw [h])

theorem keys_computeMetrics (ms : List (Metric P T K)) (p : P) (t : T) (e : String × K) (h : e ∈ computeMetrics ms p t) :
    ∃ m ∈ ms, m.name = e.1 := by
  have : ∀ (ms : List (Metric P T K)) (d : List (String × K)),
      e ∈ ms.foldl (fun d m => setKey d m.name (m.fn p t)) d → e ∈ d ∨ ∃ m ∈ ms, m.name = e.1 := by
    intro ms
    induction ms with
    | nil => exact fun d h => Or.inl h
    | cons m ms ih =>
      intro d h
      rw [List.foldl_cons] at h
      rcases ih _ h with h | ⟨x, hx, hk⟩
      · rcases keys_setKey d _ _ e h with h | h
        · exact Or.inr ⟨m, by simp, h.symm⟩
        · exact Or.inl h
      · exact Or.inr ⟨x, by simp [hx], hk⟩
  rcases this ms [] h with h | h
  · simp at h
  · exact h

/-- **C94.** The loss is reported under `loss` in training and under `val_loss` in validation, if neither a metric nor a
logged value is called `loss`. -/
theorem C94_loss_reported (disabled : Bool) (loss : K) (logging : Option (List (String × K)))
    (metrics : Option (List (Metric P T K))) (p : P) (t : T)
    (hl : ∀ e ∈ logging.getD [], e.1 ≠ "loss") (hm : ∀ m ∈ metrics.getD [], m.name ≠ "loss") :
    look (trainingDict disabled loss logging metrics p t) "loss" = some loss ∧
    look (validationDict loss metrics p t) "val_loss" = some loss := by
  have hbase : look ((logging.getD []).foldl (fun d e => setKey d e.1 e.2) [("loss", loss)]) "loss" = some loss := by
    rw [look_foldl (fun e : String × K => e.1) (fun e => e.2), lastOf_none]
    · simp [look]
    · intro e he
      obtain ⟨x, hx, rfl⟩ := List.mem_map.1 he
      exact hl x hx
  constructor
  · unfold trainingDict
    dsimp only
    cases disabled with
    | true => exact hbase
    | false =>
      cases metrics with
      | none => exact hbase
      | some ms =>
        dsimp only
        rw [look_foldl (fun e : String × K => e.1) (fun e => e.2), lastOf_none, hbase]
        · rfl
        · intro e he
          obtain ⟨x, hx, rfl⟩ := List.mem_map.1 he
          obtain ⟨m, hmm, hk⟩ := keys_computeMetrics ms p t x hx
          exact fun h => hm m hmm (hk.trans h)
  · unfold validationDict
    cases metrics with
    | none => simp [look]
    | some ms =>
      dsimp only
      rw [look_foldl (fun e : String × K => "val_" ++ e.1) (fun e => e.2), lastOf_none]
      · simp [look]
      · intro e he
        obtain ⟨x, hx, rfl⟩ := List.mem_map.1 he
        obtain ⟨m, hmm, hk⟩ := keys_computeMetrics ms p t x hx
        intro h
        have h2 : "val_" ++ x.1 = "val_" ++ "loss" := h
        have : x.1 = "loss" := by
          have := congrArg String.toList h2
          rw [String.toList_append, String.toList_append] at this
          exact String.toList_inj.1 (List.append_cancel_left this)
        exact hm m hmm (hk.trans this)

/-- **C94, failure.** A metric called `loss` takes the place of the loss, in training and in validation (so that early stopping
on `val_loss` follows the metric). -/
theorem C94_loss_named_false (loss : K) (f : P → T → K) (p : P) (t : T) :
    look (trainingDict false loss none (some [⟨"loss", f⟩]) p t) "loss" = some (f p t) ∧
    look (validationDict loss (some [⟨"loss", f⟩]) p t) "val_loss" = some (f p t) := by
  constructor
  · simp [trainingDict, computeMetrics, setKey, look]
  · simp [validationDict, computeMetrics, setKey, look]

example : validationDict (7 : ℚ) (some [⟨"accuracy", fun (p t : ℚ) => if p = t then 1 else 0⟩, ⟨"error", fun p t => p - t⟩]) 3 1 =
    [("val_loss", 7), ("val_accuracy", 0), ("val_error", 2)] := by decide +kernel

/-! ## One epoch -/

/-- **C94.** What an epoch reports under a key is the mean of what its steps reported; without steps (an empty loader), or if
the steps report different keys, there is an exception. -/
theorem C94_epoch_mean (ds : List (List (String × K))) :
    (∀ r, epochMean ds = .ok r → ∀ d ∈ ds, ∀ e ∈ d,
      (values ds e.1).length = ds.length ∧ look r e.1 = some ((values ds e.1).sum / (ds.length : K))) ∧
    (epochMean ds = .error "TypeError" ↔ ds = []) := by
  constructor
  · intro r hr d hd e he
    unfold epochMean at hr
    cases ds with
    | nil => simp at hd
    | cons d0 ds =>
      dsimp only at hr
      by_cases hall : ((d0 :: ds).all fun d' => (d'.all fun e => (look d0 e.1).isSome) && (d0.all fun e => (look d' e.1).isSome)) = true
      · rw [if_pos hall] at hr
        simp only [Except.ok.injEq] at hr
        rw [List.all_eq_true] at hall
        have h0 : (look d0 e.1).isSome := by
          have := hall d hd
          rw [Bool.and_eq_true, List.all_eq_true] at this
          exact this.1 e he
        obtain ⟨v0, hv0⟩ := Option.isSome_iff_exists.1 h0
        obtain ⟨e0, he0, hk0⟩ := mem_of_look d0 e.1 v0 hv0
        have hlen : (values (d0 :: ds) e.1).length = (d0 :: ds).length := by
          unfold values
          have : ∀ l : List (List (String × K)), (∀ d' ∈ l, (look d' e.1).isSome) →
              (l.filterMap fun d => look d e.1).length = l.length := by
            intro l hl
            induction l with
            | nil => rfl
            | cons a l ih =>
              obtain ⟨v, hv⟩ := Option.isSome_iff_exists.1 (hl a (by simp))
              rw [List.filterMap_cons_some (f := fun d : List (String × K) => look d e.1) hv, List.length_cons, List.length_cons, ih fun d' hd' => hl d' (by simp [hd'])]
          apply this
          intro d' hd'
          have := hall d' hd'
          rw [Bool.and_eq_true, List.all_eq_true, List.all_eq_true] at this
          have := this.2 e0 he0
          rwa [hk0] at this
        refine ⟨hlen, ?_⟩
        have hr' : ∀ l : List (String × K), (∃ x ∈ l, x.1 = e.1) →
            look (l.map fun x => (x.1, meanList (values (d0 :: ds) x.1))) e.1 = some (meanList (values (d0 :: ds) e.1)) := by
          intro l
          induction l with
          | nil => simp
          | cons a l ih =>
            rintro ⟨x, hx, hxk⟩
            rw [List.map_cons, look_cons]
            by_cases ha : a.1 = e.1
            · simp only [ha, if_true]
            · dsimp only
              rw [if_neg ha]
              apply ih
              rcases List.mem_cons.1 hx with rfl | hx
              · exact absurd hxk ha
              · exact ⟨x, hx, hxk⟩
        rw [← hr, hr' d0 ⟨e0, he0, hk0⟩]
        unfold meanList
        rw [hlen]
      · rw [if_neg hall] at hr
        simp at hr
  · unfold epochMean
    cases ds with
    | nil => simp
    | cons d ds =>
      dsimp only
      split_ifs <;> simp

example : epochMean [[("loss", (1 : ℚ)), ("acc", 1)], [("loss", 2), ("acc", 1/2)]] = .ok [("loss", 3/2), ("acc", 3/4)] := by
  decide +kernel

theorem sum_meanList [CharZero K] (bs : List (List K)) (n : ℕ) (hn : 0 < n) (h : ∀ b ∈ bs, b.length = n) :
    (bs.map meanList).sum = bs.flatten.sum / (n : K) ∧ bs.flatten.length = bs.length * n := by
  induction bs with
  | nil => simp
  | cons b bs ih =>
    obtain ⟨i1, i2⟩ := ih fun x hx => h x (by simp [hx])
    have hb := h b (by simp)
    rw [List.map_cons, List.sum_cons, i1, List.flatten_cons, List.sum_append, List.length_append, i2, hb, List.length_cons]
    unfold meanList
    rw [hb]
    refine ⟨by ring, by ring⟩

/-- **C94.** For a metric that averages over rows, and batches of equal size, the value reported for an epoch is the value on
the whole data set. -/
theorem C94_epoch_rows [CharZero K] (bs : List (List K)) (n : ℕ) (hn : 0 < n) (hb : bs ≠ []) (h : ∀ b ∈ bs, b.length = n) :
    meanList (bs.map meanList) = meanList bs.flatten := by
  obtain ⟨h1, h2⟩ := sum_meanList bs n hn h
  unfold meanList at h1 ⊢
  rw [List.length_map, h1, h2]
  have hn' : (n : K) ≠ 0 := Nat.cast_ne_zero.2 (by omega)
  have hb' : (bs.length : K) ≠ 0 := Nat.cast_ne_zero.2 (by simpa using hb)
  push_cast
  field_simp

/-- **C94, failure.** With a smaller last batch it is not: its rows count more than the others. -/
theorem C94_epoch_ragged_false :
    meanList ([[1, 1, 1], [0]].map meanList) = (1 / 2 : ℚ) ∧ meanList ([[1, 1, 1], [0]] : List (List ℚ)).flatten = 3 / 4 := by
  decide +kernel

/-! ## Flow trainers -/

/-- The predictions of every sample for all rows: sample `i` on device 0, device 1, and so on. -/
def arranged {α : Type} (s : ℕ) (preds : List (List (List α))) : List (List α) :=
  (List.range s).map fun i => preds.flatMap fun dev => dev.getD i []

/-- **C94.** On one device a flow trainer reports, for a metric that averages a loss over rows, the average over samples and
rows. -/
theorem C94_flow_metric [CharZero K] {α β : Type} (loss : α → β → K) (preds : List (List α)) (targets : List β)
    (ht : targets ≠ []) (hp : preds ≠ []) (h : ∀ p ∈ preds, p.length = targets.length) :
    flowMetric (fun p t => meanList (List.zipWith loss p t)) preds targets =
      meanList (preds.map fun p => List.zipWith loss p targets).flatten := by
  unfold flowMetric
  have := C94_epoch_rows (preds.map fun p => List.zipWith loss p targets) targets.length (List.length_pos_iff.2 ht)
    (by simpa using hp) (by
      intro b hb
      obtain ⟨p, hp', rfl⟩ := List.mem_map.1 hb
      simp [h p hp'])
  rw [List.map_map] at this
  exact this

/-- **C94.** On several devices the training metrics of a flow trainer are those of one device, if only one sample is drawn or
there is only one device. -/
theorem C94_flow_devices {α β : Type} (metric : List α → List β → K) (d s r : ℕ) (preds : List (List (List α)))
    (targets : List (List β)) (hd : preds.length = d) (hs : ∀ dev ∈ preds, dev.length = s)
    (hr : ∀ dev ∈ preds, ∀ p ∈ dev, p.length = r) (h1 : d = 1 ∨ s = 1) :
    flowMetricDevices metric s (d * r) preds targets = flowMetric metric (arranged s preds) targets.flatten := by
  unfold flowMetricDevices flowMetric
  congr 2
  unfold regroup arranged
  rcases h1 with rfl | rfl
  · obtain ⟨dev, rfl⟩ := List.length_eq_one_iff.1 hd
    have hdl : dev.length = s := hs dev (by simp)
    have hrl : ∀ p ∈ dev, p.length = r := hr dev (by simp)
    apply List.map_congr_left
    intro i hi
    rw [List.mem_range] at hi
    simp only [List.flatten_cons, List.flatten_nil, List.append_nil, List.flatMap_cons, List.flatMap_nil, one_mul]
    have : ∀ (dev : List (List α)) (i : ℕ), i < dev.length → (∀ p ∈ dev, p.length = r) →
        (dev.flatten.drop (i * r)).take r = dev.getD i [] := by
      intro dev
      induction dev with
      | nil => intro i hi; simp at hi
      | cons p dev ih =>
        intro i hi hl
        have hp := hl p (by simp)
        cases i with
        | zero => simp [hp]
        | succ i =>
          rw [List.flatten_cons, List.drop_append, hp,
            List.drop_of_length_le (l := p) (by rw [hp]; nlinarith), List.nil_append]
          have : (i + 1) * r - r = i * r := by rw [Nat.succ_mul]; omega
          rw [this, ih i (by simpa using hi) fun x hx => hl x (by simp [hx])]
          rfl
    exact this dev i (by omega) hrl
  · simp only [List.range_one, List.map_cons, List.map_nil, Nat.zero_mul, List.drop_zero]
    congr 1
    have hflat : preds.flatten.flatten = preds.flatMap fun dev => dev.getD 0 [] := by
      clear hd
      induction preds with
      | nil => rfl
      | cons dev preds ih =>
        rw [List.flatten_cons, List.flatten_append, List.flatMap_cons,
          ih (fun x hx => hr x (by simp [hx])) fun x hx => hs x (by simp [hx])]
        obtain ⟨p, rfl⟩ := List.length_eq_one_iff.1 (hs dev (by simp))
        simp
    have hlen : preds.flatten.flatten.length = d * r := by
      clear hflat
      induction preds generalizing d with
      | nil => simp at hd; subst hd; simp
      | cons dev preds ih =>
        obtain ⟨p, rfl⟩ := List.length_eq_one_iff.1 (hs dev (by simp))
        have := ih preds.length rfl (fun x hx => hr x (by simp [hx])) fun x hx => hs x (by simp [hx])
        rw [List.flatten_cons, List.flatten_append, List.length_append, this, ← hd, List.length_cons, Nat.succ_mul]
        have hp := hr [p] (by simp) p (by simp)
        simp [hp]; omega
    rw [List.take_of_length_le (by omega), hflat]

/-- **C94, failure.** With at least two devices and two samples the predictions are compared with other rows' targets: in the
first group of predictions, at the place of the first row of the second device, there is the second sample for the first row
of the first device. -/
theorem C94_flow_devices_false {α : Type} (d s r : ℕ) (hd2 : 2 ≤ d) (hr1 : 1 ≤ r) (p0 p1 : List α) (dev : List (List α))
    (preds : List (List (List α))) (h0 : p0.length = r) (h1 : p1.length = r) :
    ((regroup (s + 2) (d * r) (((p0 :: p1 :: dev) :: preds).flatten.flatten))[0]?.bind fun g => g[r]?) = p1[0]? := by
  unfold regroup
  rw [List.getElem?_map, List.getElem?_range (by omega)]
  simp only [Option.map_some, Option.bind_some, Nat.zero_mul, List.drop_zero, List.flatten_cons, List.flatten_append]
  rw [List.getElem?_take, if_pos (by nlinarith), List.append_assoc, List.getElem?_append_right (by omega),
    h0, Nat.sub_self, List.append_assoc, List.getElem?_append_left (by omega)]

/-- Two devices with one row each, two samples, all predictions right: the accuracy reported is 1/2. -/
theorem C94_flow_accuracy_false :
    flowMetricDevices (fun (p t : List ℕ) => meanList (List.zipWith (fun a b => if a = b then (1 : ℚ) else 0) p t)) 2 (2 * 1)
      [[[5], [5]], [[7], [7]]] [[5], [7]] = 1 / 2 ∧
    flowMetric (fun (p t : List ℕ) => meanList (List.zipWith (fun a b => if a = b then (1 : ℚ) else 0) p t))
      (arranged 2 [[[5], [5]], [[7], [7]]]) [[5], [7]].flatten = 1 := by decide +kernel

end

/-! ## ADVI on several devices -/

/-- **C94.** The pieces cut off share out all the rows, and an array with as many rows as there are parameters is cut into pieces
of the sizes of the parameter arrays. -/
theorem C94_pieces (n : ℕ) (sizes : List ℕ) (hne : sizes ≠ []) :
    (pieceRows n 0 sizes).sum = n ∧ (n = sizes.sum → pieceRows n 0 sizes = sizes) := by
  have k1 : ∀ (sizes : List ℕ) (done : ℕ), sizes ≠ [] → (pieceRows n done sizes).sum = n - min n done := by
    intro sizes
    induction sizes with
    | nil => intro _ h; exact absurd rfl h
    | cons s l ih =>
      intro done _
      match l, ih with
      | [], _ => simp [pieceRows]
      | s' :: l, ih =>
        rw [pieceRows, List.sum_cons, ih _ (by simp)]
        omega
  have k2 : ∀ (sizes : List ℕ) (done : ℕ), n = done + sizes.sum → pieceRows n done sizes = sizes := by
    intro sizes
    induction sizes with
    | nil => intro _ _; rfl
    | cons s l ih =>
      intro done h
      rw [List.sum_cons] at h
      match l, ih, h with
      | [], _, h =>
        simp only [List.sum_nil, pieceRows, List.cons.injEq, and_true] at h ⊢
        omega
      | s' :: l, ih, h =>
        rw [pieceRows, ih (done + s) (by omega)]
        simp only [List.cons.injEq, and_true]
        omega
  exact ⟨by rw [k1 sizes 0 hne]; simp, fun h => k2 sizes 0 (by omega)⟩

example : pieceRows 2 0 [6, 3] = [2, 0] ∧ pieceRows 9 0 [6, 3] = [6, 3] := by decide

/-- **C94, failure.** At the end of ADVI training with the multi-device trainer the replicated means can be turned into
parameters only if there is exactly one device and exactly one parameter array; otherwise the training ends with an
exception, whether or not checkpoints are written. -/
theorem C94_advi_devices_false (devices : ℕ) (hd : 1 ≤ devices) (sizes : List ℕ) (hne : sizes ≠ [])
    (hpos : ∀ s ∈ sizes, 1 ≤ s) :
    (adviDevicesTrainEnd devices sizes = .ok () ↔ devices = 1 ∧ sizes.length = 1) ∧
    (¬ (devices = 1 ∧ sizes.length = 1) → adviDevicesTrainEnd devices sizes = .error "TypeError") := by
  unfold adviDevicesTrainEnd
  have key : unravelRows devices sizes = true ↔ devices = 1 ∧ sizes.length = 1 := by
    unfold unravelRows
    match sizes, hne with
    | [s], _ =>
      have hs := hpos s (by simp)
      simp only [pieceRows, List.zip_cons_cons, List.zip_nil_left, List.all_cons, List.all_nil, Bool.and_true,
        List.sum_cons, List.sum_nil, Nat.add_zero, List.length_singleton, and_true]
      simp only [Nat.min_zero, Nat.sub_zero]
      constructor
      · intro h
        have h' : devices * s = s := by simpa using h
        exact Nat.eq_of_mul_eq_mul_right (by omega : 0 < s) (by omega)
      · rintro rfl; simp
    | s :: s' :: l, _ =>
      have hs := hpos s (by simp)
      have hs' := hpos s' (by simp)
      simp only [pieceRows, List.zip_cons_cons, List.all_cons, Bool.and_eq_true, decide_eq_true_eq, List.length_cons]
      constructor
      · rintro ⟨h, -⟩
        exfalso
        have h1 : 1 ≤ min devices (0 + s) - min devices 0 := by
          rw [Nat.min_zero, Nat.zero_add, Nat.sub_zero]
          exact Nat.le_min.2 ⟨hd, hs⟩
        have h2 : s < (s :: s' :: l).sum := by simp only [List.sum_cons]; omega
        nlinarith
      · rintro ⟨-, h⟩; omega
  by_cases h : unravelRows devices sizes = true
  · rw [if_pos h]; exact ⟨⟨fun _ => key.1 h, fun _ => rfl⟩, fun h' => absurd (key.1 h) h'⟩
  · rw [if_neg h]
    refine ⟨⟨?_, ?_⟩, fun _ => rfl⟩
    · intro h'; cases h'
    · intro h'; exact absurd (key.2 h') h

example : adviDevicesTrainEnd 2 [6, 3] = .error "TypeError" ∧ adviDevicesTrainEnd 1 [6, 3] = .error "TypeError" := by
  decide +kernel

/-! ### Concrete cases that meet the hypotheses of the theorems above -/

/-- Two metrics. -/
def exMetrics : List (Metric ℚ ℚ ℚ) := [⟨"accuracy", fun p t => if p = t then 1 else 0⟩, ⟨"error", fun p t => p - t⟩]

example := C94_metrics_reported exMetrics (by decide) 3 1
example := C94_loss_reported false (7 : ℚ) (some [("rate", 1)]) (some exMetrics) 3 1 (by simp) (by simp [exMetrics])
example := C94_epoch_rows (K := ℚ) [[1, 2], [3, 4]] 2 (by decide) (by simp) (by simp)
example := C94_flow_metric (K := ℚ) (fun a b : ℚ => (a - b) ^ 2) [[1, 2], [3, 4]] [5, 6] (by simp) (by simp) (by simp)
example := C94_flow_devices (K := ℚ) (fun p t : List ℚ => p.sum - t.sum) 2 1 2 [[[1, 2]], [[3, 4]]] [[5, 6], [7, 8]] rfl (by simp) (by simp) (.inr rfl)
example := C94_flow_devices_false 2 0 2 (by decide) (by decide) [1, 2] [3, 4] [] [[[5, 6], [7, 8]]] rfl rfl

end Verif.Props.TrainerMetrics
