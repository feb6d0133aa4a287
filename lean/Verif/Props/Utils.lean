import Mathlib.Tactic.Linarith
import Mathlib.Tactic.NormNum
import Mathlib.Tactic.Positivity
import Mathlib.Tactic.FieldSimp
import Mathlib.Tactic.Ring
import Mathlib.Data.List.Sort
import Verif.Model.Utils

/-!
# C83: optimiser utilities; C84: trainer selection, hashing, random loaders
-/

set_option linter.unusedSectionVars false

namespace Verif.Props
open Verif.Utils

/-! ## Stepped schedule -/

theorem steppedTurn_eq (init : ℚ) (count : ℤ) (v : ℚ) (b : ℤ × ℚ) :
    steppedTurn init count v b = if b.1 ≤ count then init * b.2 else v := by
  unfold steppedTurn
  by_cases h : b.1 ≤ count
  · rw [if_pos h]
    have : max (0 : ℚ) ((b.1 - count).sign : ℚ) = 0 := by
      apply max_eq_left
      have : (b.1 - count).sign ≤ 0 := by
        rcases lt_or_eq_of_le h with h | h
        · rw [Int.sign_eq_neg_one_of_neg (by omega)]; norm_num
        · rw [h, sub_self]; simp
      exact_mod_cast this
    rw [this]; ring
  · rw [if_neg h, Int.sign_eq_one_of_pos (by omega)]
    norm_num

/-- **C83.** The stepped schedule before the first boundary is the initial value; from a boundary on, up to the next one, it is
the initial value times the scale of that boundary. -/
theorem C83_stepped (init : ℚ) (l : List (ℤ × ℚ)) (hpos : ∀ b ∈ l, 0 ≤ b.2) :
    ∃ f, stepped init (some l) = .ok f ∧ ∀ count,
      ((∀ b ∈ l, count < b.1) → f count = init) ∧
      ∀ pre b post, l = pre ++ b :: post → b.1 ≤ count → (∀ c ∈ post, count < c.1) → f count = init * b.2 := by
  refine ⟨fun count => l.foldl (steppedTurn init count) init, ?_, fun count => ?_⟩
  · show (if (l.all fun b => decide (0 ≤ b.2)) = true then _ else _) = _
    rw [if_pos]
    rw [List.all_eq_true]
    exact fun b hb => decide_eq_true (hpos b hb)
  · have hskip : ∀ (m : List (ℤ × ℚ)) v, (∀ c ∈ m, count < c.1) → m.foldl (steppedTurn init count) v = v := by
      intro m
      induction m with
      | nil => intro v _; rfl
      | cons c m ih =>
        intro v hm
        rw [List.foldl_cons, steppedTurn_eq, if_neg (not_le.2 (hm c (List.mem_cons_self ..))),
          ih v fun x hx => hm x (List.mem_cons_of_mem _ hx)]
    refine ⟨fun h => hskip l init h, fun pre b post hl hb hpost => ?_⟩
    simp only
    rw [hl, List.foldl_append, List.foldl_cons, steppedTurn_eq, if_pos hb, hskip post _ hpost]

/-- **C83.** Negative scales are refused, and without boundaries the schedule is constant. -/
theorem C83_stepped_refused (init : ℚ) (l : List (ℤ × ℚ)) (b : ℤ × ℚ) (hb : b ∈ l) (hn : b.2 < 0) :
    stepped init (some l) = .error "ValueError" := by
  show (if (l.all fun b => decide (0 ≤ b.2)) = true then _ else _) = _
  rw [if_neg]
  intro h
  have := of_decide_eq_true (List.all_eq_true.1 h b hb)
  linarith

theorem C83_stepped_none (init : ℚ) : ∃ f, stepped init none = .ok f ∧ ∀ count, f count = init := ⟨_, rfl, fun _ => rfl⟩

/-- The ImageNet schedule of the documentation. -/
example : ∃ f, stepped 1 (some [(30, 1 / 10), (60, 1 / 100), (80, 1 / 1000)]) = .ok f ∧
    f 29 = 1 ∧ f 30 = 1 / 10 ∧ f 79 = 1 / 100 ∧ f 80 = 1 / 1000 := by
  obtain ⟨f, hf, h⟩ := C83_stepped 1 [(30, 1 / 10), (60, 1 / 100), (80, 1 / 1000)]
    (by intro b hb; simp at hb; rcases hb with rfl | rfl | rfl <;> norm_num)
  refine ⟨f, hf, (h 29).1 (by decide), ?_, ?_, ?_⟩
  · rw [(h 30).2 [] (30, 1 / 10) [(60, 1 / 100), (80, 1 / 1000)] rfl (by decide) (by decide)]; norm_num
  · rw [(h 79).2 [(30, 1 / 10)] (60, 1 / 100) [(80, 1 / 1000)] rfl (by decide) (by decide)]; norm_num
  · rw [(h 80).2 [(30, 1 / 10), (60, 1 / 100)] (80, 1 / 1000) [] rfl (by decide) (by decide)]; norm_num

/-! ## Warmup and linear decay -/

theorem linear_rising (lr : ℚ) (w : ℤ) (hw : 0 < w) (t : ℤ) (h0 : 0 ≤ t) (h1 : t ≤ w) : linearSchedule 0 lr w t = lr * (t / w) := by
  unfold linearSchedule
  rw [if_neg (not_le.2 hw), min_eq_left h1, max_eq_right h0]
  ring

/-- **C83.** With warmup shorter than training: the rate rises linearly from 0 to `learning_rate` at the end of the warmup, falls
linearly to 0 at `steps_per_epoch * num_train_epochs`, stays 0, and lies between 0 and `learning_rate` everywhere. -/
theorem C83_warmup (lr : ℚ) (hlr : 0 ≤ lr) (n b e w : ℕ) (hT : w < n / b * e) :
    (∀ t : ℕ, t < w → warmup lr n b e w t = lr * (t / w)) ∧
    (∀ t : ℕ, w ≤ t → t ≤ n / b * e → warmup lr n b e w t = lr * (((n / b * e : ℕ) - t) / ((n / b * e : ℕ) - w))) ∧
    (∀ t : ℕ, n / b * e ≤ t → warmup lr n b e w t = 0) ∧
    (∀ t : ℕ, 0 ≤ warmup lr n b e w t ∧ warmup lr n b e w t ≤ lr) := by
  have hTw : (0 : ℤ) < ((n / b * e : ℕ) : ℤ) - w := by
    have : (w : ℤ) < ((n / b * e : ℕ) : ℤ) := by exact_mod_cast hT
    linarith
  have hTw' : (0 : ℚ) < ((n / b * e : ℕ) : ℚ) - w := by exact_mod_cast hTw
  have hrise : ∀ t : ℕ, t < w → warmup lr n b e w t = lr * (t / w) := by
    intro t ht
    unfold warmup
    simp only
    rw [if_pos (by exact_mod_cast ht), linear_rising lr w (by omega) t (by omega) (by exact_mod_cast ht.le)]
    push_cast; rfl
  have hfall : ∀ t : ℕ, w ≤ t → t ≤ n / b * e →
      warmup lr n b e w t = lr * (((n / b * e : ℕ) - t) / ((n / b * e : ℕ) - w)) := by
    intro t h1 h2
    have h1' : (w : ℤ) ≤ t := by exact_mod_cast h1
    have h2' : (t : ℤ) ≤ ((n / b * e : ℕ) : ℤ) := by exact_mod_cast h2
    unfold warmup linearSchedule
    simp only
    rw [if_neg (not_lt.2 h1'), if_neg (not_le.2 hTw), min_eq_left (by linarith), max_eq_right (by linarith)]
    have hc : (((t : ℤ) - (w : ℤ) : ℤ) : ℚ) = (t : ℚ) - w := by push_cast; rfl
    have hd : ((((n / b * e : ℕ) : ℤ) - (w : ℤ) : ℤ) : ℚ) = ((n / b * e : ℕ) : ℚ) - w := by
      rw [Int.cast_sub, Int.cast_natCast, Int.cast_natCast]
    rw [hc, hd]
    field_simp
    ring
  have hzero : ∀ t : ℕ, n / b * e ≤ t → warmup lr n b e w t = 0 := by
    intro t ht
    have ht' : ((n / b * e : ℕ) : ℤ) ≤ t := by exact_mod_cast ht
    unfold warmup linearSchedule
    simp only
    rw [if_neg (not_lt.2 (by linarith)), if_neg (not_le.2 hTw), min_eq_right (by linarith), max_eq_right hTw.le, div_self]
    · ring
    · exact_mod_cast hTw.ne'
  refine ⟨hrise, hfall, hzero, fun t => ?_⟩
  rcases Nat.lt_or_ge t w with h | h
  · rw [hrise t h]
    have hw : (0 : ℚ) < w := by exact_mod_cast (by omega : 0 < w)
    have ht : (t : ℚ) ≤ w := by exact_mod_cast h.le
    exact ⟨by positivity, mul_le_of_le_one_right hlr ((div_le_one hw).2 ht)⟩
  · rcases Nat.le_total t (n / b * e) with h2 | h2
    · rw [hfall t h h2]
      have ht : (t : ℚ) ≤ ((n / b * e : ℕ) : ℚ) := by exact_mod_cast h2
      have hwt : (w : ℚ) ≤ t := by exact_mod_cast h
      exact ⟨mul_nonneg hlr (div_nonneg (by linarith) hTw'.le),
        mul_le_of_le_one_right hlr ((div_le_one hTw').2 (by linarith))⟩
    · rw [hzero t h2]; exact ⟨le_rfl, hlr⟩

/-- **C83, decay with a warmup at least as long as training, is false**: after the warmup the rate stays at `learning_rate` for
ever. A training set smaller than a batch is a case of this for every number of epochs. -/
theorem C83_warmup_false (lr : ℚ) (n b e w : ℕ) (hT : n / b * e ≤ w) (t : ℕ) (ht : w ≤ t) : warmup lr n b e w t = lr := by
  have ht' : (w : ℤ) ≤ t := by exact_mod_cast ht
  have hT' : ((n / b * e : ℕ) : ℤ) ≤ w := by exact_mod_cast hT
  unfold warmup linearSchedule
  simp only
  rw [if_neg (not_lt.2 ht'), if_pos (by linarith)]

/-- **C83, a rate for the whole of training, is false**: the number of steps is rounded down for every epoch, while the loader
gives a last smaller batch. For every training set of more than one batch that the batch size does not divide, and enough epochs,
whole epochs are trained with rate 0. -/
theorem C83_rounding_false (lr : ℚ) (n b w : ℕ) (hb : 0 < b) (hw : w < n / b) (hdiv : ¬ b ∣ n) (k : ℕ) :
    ∃ e, ∀ t : ℕ, ((n + b - 1) / b) * (e - k) ≤ t → warmup lr n b e w t = 0 := by
  have hceil : (n + b - 1) / b = n / b + 1 := by
    have h1 := Nat.div_add_mod n b
    have h2 := Nat.mod_lt n hb
    have h3 : n % b ≠ 0 := fun h => hdiv (Nat.dvd_of_mod_eq_zero h)
    rw [Nat.div_eq_of_lt_le] <;> nlinarith [h1, h2, Nat.pos_of_ne_zero h3, Nat.sub_add_cancel (show 1 ≤ n + b by omega)]
  set q := n / b with hq
  refine ⟨(q + 1) * k + 1, fun t ht => ?_⟩
  rw [hceil] at ht
  have hT : w < q * ((q + 1) * k + 1) := lt_of_lt_of_le hw (Nat.le_mul_of_pos_right _ (by omega))
  unfold warmup linearSchedule
  simp only
  rw [← hq]
  have e1 : (q + 1) * k + 1 - k = q * k + 1 := by
    have : (q + 1) * k = q * k + k := by ring
    omega
  have h2 : q * ((q + 1) * k + 1) ≤ t := by
    refine le_trans ?_ ht
    rw [e1]
    ring_nf
    omega
  have h2' : ((q * ((q + 1) * k + 1) : ℕ) : ℤ) ≤ t := by exact_mod_cast h2
  have hT' : (w : ℤ) < ((q * ((q + 1) * k + 1) : ℕ) : ℤ) := by exact_mod_cast hT
  rw [if_neg (not_lt.2 (by linarith)), if_neg (not_le.2 (by linarith)), min_eq_right (by linarith), max_eq_right (by linarith), div_self]
  · ring
  · have : (((q * ((q + 1) * k + 1) : ℕ) : ℤ) - (w : ℤ)) ≠ 0 := by omega
    exact_mod_cast this

example : warmup 1 100 10 3 6 3 = 1 / 2 ∧ warmup 1 100 10 3 6 6 = 1 ∧ warmup 1 100 10 3 6 18 = 1 / 2 ∧ warmup 1 100 10 3 6 30 = 0 := by
  refine ⟨?_, ?_, ?_, ?_⟩ <;> norm_num [warmup, linearSchedule]

/-! ## Weight decay mask -/

/-- Somewhere in the names of the path, read one after the other, stand the characters of `c`, in whatever case. -/
def Reads (c : String) (path : List String) : Prop :=
  ∃ w : List Char, w <:+: (path.map String.toList).flatten ∧ w.map Char.toLower = c.toList

theorem reads_iff (c : String) (path : List String) : Reads c path ↔ c.toList <:+: joined path := by
  unfold Reads joined
  rw [List.flatMap_def]
  constructor
  · rintro ⟨w, ⟨s, t, h⟩, hw⟩
    exact ⟨s.map Char.toLower, t.map Char.toLower, by rw [← hw, ← h, List.map_append, List.map_append]⟩
  · rintro ⟨s, t, h⟩
    obtain ⟨l, t', hl, h1, h2⟩ := List.map_eq_append_iff.1 h.symm
    obtain ⟨s', w, hs, h3, h4⟩ := List.map_eq_append_iff.1 h1
    exact ⟨w, ⟨s', t', by rw [hl, hs]⟩, h4⟩

/-- The two paths end with the same two names (with the same name, for paths of one name). -/
def SameEnd (p q : List String) : Prop := p.reverse.take 2 = q.reverse.take 2

theorem sameEnd_iff (p q : List String) : SameEnd p q ↔ lastTwo p = lastTwo q := by
  unfold SameEnd lastTwo
  rw [List.take_reverse, List.take_reverse, List.reverse_inj]

theorem named_iff (q : List String) : named q = true ↔ Reads "layernorm" q ∨ Reads "layer_norm" q ∨ Reads "ln" q := by
  unfold named
  simp only [List.any_cons, List.any_nil, Bool.or_false, Bool.or_eq_true, decide_eq_true_eq, reads_iff]

/-- **C83.** A parameter decays exactly if its name is not `bias` and no parameter whose path reads one of the three candidates, in
whatever case, has the same last two names. -/
theorem C83_decay (paths : List (List String)) (path : List String) :
    decayMask paths path = true ↔
      path.getLast? ≠ some "bias" ∧ ∀ q ∈ paths, SameEnd q path →
        ¬(Reads "layernorm" q ∨ Reads "layer_norm" q ∨ Reads "ln" q) := by
  unfold decayMask
  rw [Bool.and_eq_true, decide_eq_true_eq, Bool.not_eq_true', ← Bool.not_eq_true, List.contains_iff_mem]
  refine and_congr_right fun _ => ?_
  simp only [List.mem_map, List.mem_filter, not_exists, not_and, and_imp, sameEnd_iff]
  constructor
  · intro h q hq he hc
    exact h q hq ((named_iff q).2 hc) he
  · intro h q hq hc he
    exact h q hq he ((named_iff q).1 hc)

/-- **C83.** Biases, and the parameters of layers whose name contains a candidate, do not decay. -/
theorem C83_no_decay (paths : List (List String)) (path : List String) (hp : path ∈ paths) :
    (path.getLast? = some "bias" → decayMask paths path = false) ∧
      (Reads "layernorm" path ∨ Reads "layer_norm" path ∨ Reads "ln" path → decayMask paths path = false) := by
  rw [← named_iff]
  constructor
  · intro h
    unfold decayMask
    rw [h]; simp
  · intro h
    unfold decayMask
    rw [Bool.and_eq_false_iff]
    right
    rw [Bool.not_eq_false', List.contains_iff_mem]
    exact List.mem_map.2 ⟨path, List.mem_filter.2 ⟨hp, h⟩, rfl⟩

/-- **C83, decay of parameters outside layer norms, is false**: the names are joined without separator, so that any name ending in
`l` followed by one starting with `n` is taken for a layer norm, as is every parameter of a model named `xlnet`; and a layer norm
parameter takes the decay from every parameter with the same last two names. -/
theorem C83_decay_false :
    decayMask [["model", "net", "kernel"]] ["model", "net", "kernel"] = false ∧
    decayMask [["xlnet", "dense", "kernel"]] ["xlnet", "dense", "kernel"] = false ∧
    decayMask [["layernorm_head", "dense", "kernel"], ["body", "dense", "kernel"]] ["body", "dense", "kernel"] = false := by
  decide +kernel

example : decayMask [["dense", "kernel"], ["dense", "bias"], ["LayerNorm_0", "scale"]] ["dense", "kernel"] = true ∧
    decayMask [["dense", "kernel"], ["dense", "bias"], ["LayerNorm_0", "scale"]] ["dense", "bias"] = false ∧
    decayMask [["dense", "kernel"], ["dense", "bias"], ["LayerNorm_0", "scale"]] ["LayerNorm_0", "scale"] = false := by
  decide +kernel

/-! ## Clipping -/

/-- Euclidean norm over all leaves. -/
noncomputable def treeNorm (g : List (List ℝ)) : ℝ := Real.sqrt ((g.flatten.map fun z => z ^ 2).sum)

theorem gradNorm_eq (g : List (List ℝ)) : gradNorm g = treeNorm g := by
  have : ∀ (g : List (List ℝ)) (x : ℝ), g.foldl (fun x y => x + (y.map fun z => z ^ 2).sum) x = x + (g.flatten.map fun z => z ^ 2).sum := by
    intro g
    induction g with
    | nil => intro x; simp
    | cons l g ih => intro x; rw [List.foldl_cons, ih, List.flatten_cons, List.map_append, List.sum_append]; ring
  unfold gradNorm treeNorm
  rw [this, zero_add]

theorem treeNorm_scale (g : List (List ℝ)) (a : ℝ) (ha : 0 ≤ a) :
    treeNorm (g.map fun l => l.map fun z => a * z) = a * treeNorm g := by
  have h1 : ((g.map fun l => l.map fun z => a * z).flatten.map fun z => z ^ 2).sum = a ^ 2 * (g.flatten.map fun z => z ^ 2).sum := by
    induction g with
    | nil => simp
    | cons l g ih =>
      rw [List.map_cons, List.flatten_cons, List.map_append, List.sum_append, ih, List.flatten_cons, List.map_append, List.sum_append, mul_add]
      congr 1
      clear ih
      induction l with
      | nil => simp
      | cons z l ih => rw [List.map_cons, List.map_cons, List.sum_cons, ih, List.map_cons, List.sum_cons]; ring
  unfold treeNorm
  rw [h1, Real.sqrt_mul (sq_nonneg a), Real.sqrt_sq ha]

/-- **C83.** Clipping by norm multiplies the whole gradient by one factor in `[0, 1]`; the result has norm at most `max_grad_norm`;
a gradient of norm at most `max_grad_norm − 1e-7` is left as it is. -/
theorem C83_clip_norm (m : ℝ) (hm : 0 ≤ m) (g : List (List ℝ)) :
    (∃ a, 0 ≤ a ∧ a ≤ 1 ∧ clipNorm m g = g.map fun l => l.map fun z => a * z) ∧ treeNorm (clipNorm m g) ≤ m ∧
      (treeNorm g + 1 / 10 ^ 7 ≤ m → clipNorm m g = g) := by
  have hN : 0 ≤ treeNorm g := Real.sqrt_nonneg _
  have hpos : (0 : ℝ) < 1 / 10 ^ 7 + treeNorm g := by positivity
  have ha : 0 ≤ min 1 (m / (1 / 10 ^ 7 + treeNorm g)) := le_min zero_le_one (div_nonneg hm hpos.le)
  have hrw : clipNorm m g = g.map fun l => l.map fun z => min 1 (m / (1 / 10 ^ 7 + treeNorm g)) * z := by
    unfold clipNorm
    rw [gradNorm_eq]
  refine ⟨⟨_, ha, min_le_left _ _, hrw⟩, ?_, fun h => ?_⟩
  · rw [hrw, treeNorm_scale g _ ha]
    calc _ ≤ m / (1 / 10 ^ 7 + treeNorm g) * treeNorm g := mul_le_mul_of_nonneg_right (min_le_right _ _) hN
      _ ≤ m / (1 / 10 ^ 7 + treeNorm g) * (1 / 10 ^ 7 + treeNorm g) :=
        mul_le_mul_of_nonneg_left (by linarith [show (0 : ℝ) ≤ 1 / 10 ^ 7 by positivity]) (div_nonneg hm hpos.le)
      _ = m := div_mul_cancel₀ m hpos.ne'
  · rw [hrw, min_eq_left ((one_le_div hpos).2 (by linarith))]
    simp

/-- **C83.** Beyond the bound the norm after clipping is within a relative error of `1e-7 / norm` of the bound, so that the
factor is no smaller than needed. -/
theorem C83_clip_tight (m : ℝ) (hm : 0 ≤ m) (g : List (List ℝ)) (h : m ≤ treeNorm g) :
    m * (treeNorm g / (1 / 10 ^ 7 + treeNorm g)) = treeNorm (clipNorm m g) := by
  have hN : 0 ≤ treeNorm g := Real.sqrt_nonneg _
  have hpos : (0 : ℝ) < 1 / 10 ^ 7 + treeNorm g := by positivity
  have hle : m / (1 / 10 ^ 7 + treeNorm g) ≤ 1 := (div_le_one hpos).2 (by linarith [show (0 : ℝ) ≤ 1 / 10 ^ 7 by positivity])
  have hrw : clipNorm m g = g.map fun l => l.map fun z => m / (1 / 10 ^ 7 + treeNorm g) * z := by
    unfold clipNorm
    rw [gradNorm_eq, min_eq_right hle]
  rw [hrw, treeNorm_scale g _ (div_nonneg hm hpos.le)]
  ring

/-- **C83.** Clipping by value: every entry is in `[-m, m]`, entries inside are unchanged, and entries outside go to the nearer bound. -/
theorem C83_clip_value (m : ℝ) (hm : 0 ≤ m) (g : List (List ℝ)) :
    List.Forall₂ (List.Forall₂ fun z z' => -m ≤ z' ∧ z' ≤ m ∧ (|z| ≤ m → z' = z) ∧ (m < z → z' = m) ∧ (z < -m → z' = -m)) g (clipValue m g) := by
  unfold clipValue
  rw [List.forall₂_map_right_iff, List.forall₂_same]
  intro l _
  rw [List.forall₂_map_right_iff, List.forall₂_same]
  intro z _
  refine ⟨le_min (le_max_right _ _) (by linarith), min_le_right _ _, fun h => ?_, fun h => ?_, fun h => ?_⟩
  · rw [abs_le] at h
    rw [max_eq_left h.1, min_eq_left h.2]
  · rw [max_eq_left (by linarith), min_eq_right h.le]
  · rw [max_eq_right h.le, min_eq_left (by linarith)]

example : treeNorm [[3], [4]] = 5 := by
  unfold treeNorm
  rw [show (([[3], [4]] : List (List ℝ)).flatten.map fun z => z ^ 2).sum = 5 ^ 2 by norm_num, Real.sqrt_sq (by norm_num)]

/-! ## Trainer selection -/

/-- **C84.** Only `devices = -1` and `devices = 0` are accepted; the multi-device trainer is chosen exactly if all devices are asked
for and there is a GPU; the trainer without compilation exactly if the CPU is asked for and compilation is off. -/
theorem C84_trainer (devices : ℤ) (platforms : List String) (disableJit : Bool) :
    ((∃ e, selectTrainer devices platforms disableJit = .error e) ↔ devices ≠ 0 ∧ devices ≠ -1) ∧
    (selectTrainer devices platforms disableJit = .ok .multi ↔ devices = -1 ∧ "gpu" ∈ platforms) ∧
    (selectTrainer devices platforms disableJit = .ok .base ↔ devices = 0 ∧ disableJit = true) := by
  have hg : 0 < (platforms.filter fun p => p == "gpu").length ↔ "gpu" ∈ platforms := by
    rw [List.length_pos_iff_exists_mem]
    simp only [List.mem_filter, beq_iff_eq]
    exact ⟨fun ⟨a, h1, h2⟩ => h2 ▸ h1, fun h => ⟨_, h, rfl⟩⟩
  unfold selectTrainer
  by_cases h : devices ≠ 0 ∧ devices ≠ -1
  · rw [if_pos h]; simp [h.1, h.2]
  · rw [if_neg h]
    by_cases h1 : devices = -1
    · subst h1
      rw [if_pos rfl]
      by_cases h2 : "gpu" ∈ platforms
      · rw [if_pos (hg.2 h2)]; simp [h2]
      · rw [if_neg fun h3 => h2 (hg.1 h3)]; simp [h2]
    · rw [if_neg h1]
      have h0 : devices = 0 := by
        by_contra h0; exact h ⟨h0, h1⟩
      subst h0
      cases disableJit <;> simp

/-- **C84, all available devices, is false**: accelerators that are not GPUs are not used together. -/
theorem C84_tpu_false : selectTrainer (-1) ["tpu", "tpu", "tpu", "tpu"] false = .ok .jitted := by decide +kernel

/-! ## Hashing -/

section hash
variable {V H : Type}

theorem zip_all {A : Type} (f : A → A → Bool) (l m : List A) (hl : l.length = m.length) :
    (List.zipWith f l m).all id = true ↔ List.Forall₂ (fun a b => f a b = true) l m := by
  induction l generalizing m with
  | nil => cases m with
    | nil => simp
    | cons b m => simp at hl
  | cons a l ih => cases m with
    | nil => simp at hl
    | cons b m => simp [ih m (by simpa using hl)]

/-- **C84.** Objects that compare equal have equal hashes, if values that compare equal have. -/
theorem C84_hash (le : String → String → Bool) (hash : V → H) (veq : V → V → Bool) (sub : ℕ → ℕ → Bool)
    (hv : ∀ v w, veq v w = true → hash v = hash w) (a b : Verif.Utils.Obj V) (h : a.eq veq sub b = true) :
    a.hashKey le hash = b.hashKey le hash := by
  unfold Verif.Utils.Obj.eq at h
  simp only at h
  by_cases hc : (decide (a.public.map Prod.fst = b.public.map Prod.fst) && sub b.cls a.cls) = true
  · rw [if_pos hc] at h
    rw [Bool.and_eq_true, decide_eq_true_eq] at hc
    have hl : a.public.length = b.public.length := by
      have := congrArg List.length hc.1
      simpa using this
    rw [zip_all _ _ _ hl] at h
    have hmap : a.public.map (fun e => (e.1, hash e.2)) = b.public.map fun e => (e.1, hash e.2) := by
      have h1 := hc.1
      clear hc hl
      generalize a.public = l at *
      generalize b.public = m at *
      induction h with
      | nil => rfl
      | cons hd _ ih =>
        rw [List.map_cons, List.map_cons, List.cons.injEq] at h1
        rw [List.map_cons, List.map_cons, ih h1.2, h1.1, hv _ _ hd]
    have hs : ∀ o : Verif.Utils.Obj V, o.hashKey le hash =
        ((o.public.map fun e => (e.1, hash e.2)).mergeSort fun a b => le a.1 b.1).map Prod.snd := by
      intro o
      unfold Verif.Utils.Obj.hashKey
      rw [← List.map_mergeSort (r := fun a b => le a.1 b.1) (fun x _ y _ => rfl), List.map_map]
      rfl
    rw [hs, hs, hmap]
  · rw [if_neg hc] at h; cases h

theorem isPrivate_iff (k : String) : isPrivate k = true ↔ ['_'] <+: k.toList := by
  unfold isPrivate
  cases k.toList with
  | nil => simp
  | cons c cs =>
    rw [List.cons_prefix_cons, List.head?_cons, beq_iff_eq, Option.some_inj]
    exact ⟨fun h => ⟨h.symm, List.nil_prefix⟩, fun h => h.1.symm⟩

/-- **C84.** Equality and hash do not see attributes whose name starts with an underscore. -/
theorem C84_private (veq : V → V → Bool) (sub : ℕ → ℕ → Bool) (hr : ∀ v, veq v v = true) (hs : ∀ c, sub c c = true) (c : ℕ)
    (vars vars' : List (String × V)) (h : (vars.filter fun e => ¬['_'] <+: e.1.toList) = vars'.filter fun e => ¬['_'] <+: e.1.toList) :
    Verif.Utils.Obj.eq veq sub ⟨c, vars⟩ ⟨c, vars'⟩ = true := by
  have hp : ∀ e : String × V, decide (¬['_'] <+: e.1.toList) = !isPrivate e.1 := by
    intro e
    rw [Bool.eq_iff_iff]
    simp [← isPrivate_iff]
  simp only [hp] at h
  unfold Verif.Utils.Obj.eq Verif.Utils.Obj.public
  simp only [h, hs, decide_true, Bool.and_self, if_true]
  rw [zip_all _ _ _ rfl, List.forall₂_same]
  exact fun e _ => hr e.2

/-- **C84.** Equal objects agree on every public attribute. -/
theorem C84_eq_values (veq : V → V → Bool) (sub : ℕ → ℕ → Bool) (a b : Verif.Utils.Obj V) (h : a.eq veq sub b = true) :
    sub b.cls a.cls = true ∧ List.Forall₂ (fun x y => x.1 = y.1 ∧ veq x.2 y.2 = true) a.public b.public := by
  unfold Verif.Utils.Obj.eq at h
  simp only at h
  by_cases hc : (decide (a.public.map Prod.fst = b.public.map Prod.fst) && sub b.cls a.cls) = true
  · rw [if_pos hc] at h
    rw [Bool.and_eq_true, decide_eq_true_eq] at hc
    have hl : a.public.length = b.public.length := by
      have := congrArg List.length hc.1
      simpa using this
    rw [zip_all _ _ _ hl] at h
    refine ⟨hc.2, ?_⟩
    have h1 := hc.1
    clear hc hl
    generalize a.public = l at *
    generalize b.public = m at *
    induction h with
    | nil => exact List.Forall₂.nil
    | cons hd _ ih =>
      rw [List.map_cons, List.map_cons, List.cons.injEq] at h1
      exact List.Forall₂.cons ⟨h1.1, hd⟩ (ih h1.2)
  · rw [if_neg hc] at h; cases h

/-- **C84, equality whatever the order of assignment, is false**: the same attributes set in another order make unequal objects (with
equal hashes). -/
theorem C84_order_false :
    Verif.Utils.Obj.eq (fun a b : ℕ => a == b) (fun a b => a == b) ⟨0, [("a", 1), ("b", 2)]⟩ ⟨0, [("b", 2), ("a", 1)]⟩ = false := by
  decide +kernel

example : Verif.Utils.Obj.eq (fun a b : ℕ => a == b) (fun a b => a == b) ⟨0, [("a", 1), ("_c", 3)]⟩ ⟨0, [("_c", 4), ("a", 1)]⟩ = true := by
  decide +kernel

end hash

/-! ## Loaders that must not be random -/

/-- **C84.** The check refuses exactly if one of the first four batches differs between the two passes. -/
theorem C84_not_random {B : Type} (same : B → B → Bool) (first second : List B) :
    (checkNotRandom same 3 first second = .error "ValueError" ↔
      ∃ i a b, i < 4 ∧ first[i]? = some a ∧ second[i]? = some b ∧ same a b = false) ∧
    (checkNotRandom same 3 first second = .ok () ∨ checkNotRandom same 3 first second = .error "ValueError") := by
  have key : (((first.zip second).take (3 + 1)).any fun p => !same p.1 p.2) = true ↔
      ∃ i a b, i < 4 ∧ first[i]? = some a ∧ second[i]? = some b ∧ same a b = false := by
    rw [List.any_eq_true]
    constructor
    · rintro ⟨p, hp, hs⟩
      obtain ⟨i, hi⟩ := List.mem_iff_getElem?.1 hp
      rw [List.getElem?_take] at hi
      by_cases h4 : i < 3 + 1
      · rw [if_pos h4, List.getElem?_zip_eq_some] at hi
        exact ⟨i, p.1, p.2, h4, hi.1, hi.2, by simpa using hs⟩
      · rw [if_neg h4] at hi; cases hi
    · rintro ⟨i, a, b, h4, ha, hb, hs⟩
      refine ⟨(a, b), List.mem_iff_getElem?.2 ⟨i, ?_⟩, by simpa using hs⟩
      rw [List.getElem?_take, if_pos h4, List.getElem?_zip_eq_some]
      exact ⟨ha, hb⟩
  unfold checkNotRandom
  by_cases h : (((first.zip second).take (3 + 1)).any fun p => !same p.1 p.2) = true
  · rw [if_pos h]; exact ⟨⟨fun _ => key.1 h, fun _ => rfl⟩, Or.inr rfl⟩
  · rw [if_neg h]; exact ⟨⟨fun h' => (by cases h'), fun h' => absurd (key.2 h') h⟩, Or.inl rfl⟩

/-- **C84.** A loader that gives the same batches in every pass is never refused. -/
theorem C84_deterministic {B : Type} (same : B → B → Bool) (hs : ∀ b, same b b = true) (bs : List B) :
    checkNotRandom same 3 bs bs = .ok () := by
  rcases (C84_not_random same bs bs).2 with h | h
  · exact h
  · obtain ⟨i, a, b, -, ha, hb, hc⟩ := (C84_not_random same bs bs).1.1 h
    rw [ha] at hb
    cases hb
    rw [hs a] at hc; cases hc

/-- **C84, that every random loader is refused, is false**: differences after the fourth batch are not seen. -/
theorem C84_random_false : checkNotRandom (fun a b : ℕ => a == b) 3 [0, 1, 2, 3, 4, 5] [0, 1, 2, 3, 5, 4] = .ok () := by decide +kernel

/-! ### Concrete cases that meet the hypotheses of the theorems above -/

example := C83_stepped_refused 1 [(0, 1), (5, -1)] (5, -1) (by simp) (by norm_num)
example := C83_warmup (1 / 10) (by norm_num) 100 10 3 5 (by norm_num)
example := C83_warmup_false (1 / 10) 100 10 3 30 (by norm_num) 31 (by norm_num)
example := C83_no_decay [["layer", "bias"], ["layer", "kernel"]] ["layer", "bias"] (by simp)
example := C83_clip_norm 1 (by norm_num) [[3, 4], [5]]
example := C83_clip_tight 1 (by norm_num) [[3], [4]] (by norm_num [treeNorm])
example := C84_hash (fun a b => decide (a ≤ b)) (fun v : ℕ => v % 7) (fun v w => decide (v = w)) (fun c c' => decide (c = c'))
  (by simp) ⟨1, [("a", 3), ("_b", 4)]⟩ ⟨1, [("a", 3), ("_b", 5)]⟩ (by decide +kernel)
example := C84_private (fun v w : ℕ => decide (v = w)) (fun c c' => decide (c = c')) (by simp) (by simp) 1 [("a", 3), ("_b", 4)]
  [("a", 3), ("_c", 5)] (by decide +kernel)
example := C84_eq_values (fun v w : ℕ => decide (v = w)) (fun c c' => decide (c = c')) ⟨1, [("a", 3), ("_b", 4)]⟩ ⟨1, [("a", 3)]⟩ (by decide +kernel)
example := C84_deterministic (fun a b : ℕ => decide (a = b)) (by simp) [1, 2, 3, 4]

end Verif.Props
