import Mathlib.Data.List.Perm.Basic
import Mathlib.Data.List.Dedup
import Mathlib.Tactic.Linarith
import Mathlib.Tactic.NormNum
import Mathlib.Tactic.Ring
import Verif.Model.HuggingFace
import Verif.Lemmas.ConformalRegression

/-!
# C82: datasets and collators for language models
-/

set_option linter.unusedSectionVars false

namespace Verif.Props
open Verif.HuggingFace

section slices
variable {α : Type}

theorem ceil_step (n b : ℕ) (hb : 0 < b) (hn : 0 < n) : (n + b - 1) / b = (n - b + b - 1) / b + 1 := by
  by_cases h : b ≤ n
  · rw [Nat.sub_add_cancel h, show n + b - 1 = n - 1 + b by omega, Nat.add_div_right _ hb]
  · rw [show n - b + b - 1 = b - 1 by omega, Nat.div_eq_of_lt (by omega : b - 1 < b), Nat.div_eq_of_lt_le] <;> omega

theorem slices_nil (b : ℕ) (hb : 0 < b) : slices b ([] : List α) = [] := by
  unfold slices
  rw [List.length_nil, show (0 + b - 1) / b = 0 from Nat.div_eq_of_lt (by omega)]
  rfl

theorem slices_cons (b : ℕ) (hb : 0 < b) (l : List α) (hl : l ≠ []) : slices b l = l.take b :: slices b (l.drop b) := by
  unfold slices
  rw [List.length_drop, ceil_step _ _ hb (List.length_pos_of_ne_nil hl), List.range_succ_eq_map, List.map_cons, List.map_map]
  congr 1
  · simp
  · refine List.map_congr_left fun i _ => ?_
    simp only [Function.comp, List.drop_drop]
    congr 2
    rw [Nat.succ_mul, Nat.add_comm]

/-- Induction along the slices. -/
theorem slices_ind (b : ℕ) (hb : 0 < b) (P : List α → Prop) (h0 : P []) (h1 : ∀ l, l ≠ [] → P (l.drop b) → P l) (l : List α) : P l := by
  induction hn : l.length using Nat.strong_induction_on generalizing l with
  | _ n ih =>
    by_cases hl : l = []
    · exact hl ▸ h0
    · have := List.length_pos_of_ne_nil hl
      exact h1 l hl (ih _ (by rw [List.length_drop]; omega) _ rfl)

theorem slices_flatten (b : ℕ) (hb : 0 < b) (l : List α) : (slices b l).flatten = l := by
  refine slices_ind b hb (fun l => (slices b l).flatten = l) ?_ (fun l hl ih => ?_) l
  · rw [slices_nil b hb]; rfl
  · rw [slices_cons b hb l hl, List.flatten_cons, ih, List.take_append_drop]

theorem slices_count (b : ℕ) (l : List α) : (slices b l).length = (l.length + b - 1) / b := by
  unfold slices; rw [List.length_map, List.length_range]

theorem slices_sizes (b : ℕ) (hb : 0 < b) (l : List α) : ∀ s ∈ slices b l, 0 < s.length ∧ s.length ≤ b := by
  refine slices_ind b hb (fun l => ∀ s ∈ slices b l, 0 < s.length ∧ s.length ≤ b) ?_ (fun l hl ih => ?_) l
  · rw [slices_nil b hb]; simp
  · rw [slices_cons b hb l hl]
    intro s hs
    rcases List.mem_cons.1 hs with rfl | hs
    · have := List.length_pos_of_ne_nil hl
      rw [List.length_take]; omega
    · exact ih s hs

/-- All slices but the last are full. -/
theorem slices_full (b : ℕ) (hb : 0 < b) (l : List α) : ∀ s ∈ (slices b l).dropLast, s.length = b := by
  refine slices_ind b hb (fun l => ∀ s ∈ (slices b l).dropLast, s.length = b) ?_ (fun l hl ih => ?_) l
  · rw [slices_nil b hb]; simp
  · rw [slices_cons b hb l hl]
    intro s hs
    cases hr : slices b (l.drop b) with
    | nil => rw [hr] at hs; simp at hs
    | cons t ts =>
      rw [hr, List.dropLast_cons_of_ne_nil (by simp)] at hs
      rcases List.mem_cons.1 hs with rfl | hs
      · have hne : l.drop b ≠ [] := by
          intro h0; rw [h0, slices_nil b hb] at hr; cases hr
        have := List.length_pos_of_ne_nil hne
        rw [List.length_drop] at this
        rw [List.length_take]; omega
      · rw [hr] at ih; exact ih s hs

/-- Slices of equal blocks are the blocks. -/
theorem slices_blocks (b : ℕ) (hb : 0 < b) (bs : List (List α)) (h : ∀ s ∈ bs, s.length = b) : slices b bs.flatten = bs := by
  induction bs with
  | nil => exact slices_nil b hb
  | cons s bs ih =>
    have hs : s.length = b := h s (List.mem_cons_self ..)
    rw [List.flatten_cons, slices_cons b hb _ (by intro h0; rw [List.append_eq_nil_iff] at h0; rw [h0.1] at hs; simp at hs; omega),
      List.take_left' hs, List.drop_left' hs, ih fun t ht => h t (List.mem_cons_of_mem _ ht)]

theorem slices_exact (b : ℕ) (hb : 0 < b) (l : List α) (k : ℕ) (hl : l.length = k * b) :
    (slices b l).length = k ∧ ∀ s ∈ slices b l, s.length = b := by
  induction k generalizing l with
  | zero =>
    rw [Nat.zero_mul, List.length_eq_zero_iff] at hl
    subst hl
    rw [slices_nil b hb]
    simp
  | succ k ih =>
    have hne : l ≠ [] := by
      rintro rfl
      rw [List.length_nil, Nat.succ_mul] at hl
      omega
    obtain ⟨h1, h2⟩ := ih (l.drop b) (by rw [List.length_drop, hl, Nat.succ_mul]; omega)
    rw [slices_cons b hb l hne]
    refine ⟨by rw [List.length_cons, h1], ?_⟩
    intro s hs
    rcases List.mem_cons.1 hs with rfl | hs
    · rw [List.length_take, hl, Nat.succ_mul]; omega
    · exact h2 s hs

end slices

section batches
variable {α : Type}

theorem rowsAt_range (rows : List α) : (List.range rows.length).filterMap (fun i => rows[i]?) = rows := by
  have h : ∀ n, n ≤ rows.length → (List.range n).filterMap (fun i => rows[i]?) = rows.take n := by
    intro n
    induction n with
    | zero => simp
    | succ n ih =>
      intro hn
      rw [List.range_succ, List.filterMap_append, ih (by omega), List.take_add_one]
      simp [List.getElem?_eq_getElem (show n < rows.length by omega)]
  rw [h _ le_rfl, List.take_length]

theorem rowsAt_flatten (rows : List α) (bs : List (List ℕ)) :
    (bs.map fun idxs => idxs.filterMap fun i => rows[i]?).flatten = bs.flatten.filterMap fun i => rows[i]? := by
  induction bs with
  | nil => rfl
  | cons b bs ih => rw [List.map_cons, List.flatten_cons, ih, List.flatten_cons, List.filterMap_append]

theorem rowsAt_length (rows : List α) (idxs : List ℕ) (h : ∀ i ∈ idxs, i < rows.length) :
    (idxs.filterMap fun i => rows[i]?).length = idxs.length := by
  induction idxs with
  | nil => rfl
  | cons i idxs ih =>
    rw [List.filterMap_cons, List.getElem?_eq_getElem (h i (List.mem_cons_self ..))]
    simp only [List.length_cons]
    rw [ih fun j hj => h j (List.mem_cons_of_mem _ hj)]

/-- **C82.** One epoch without dropping the last batch: every row exactly once, in the order of the dataset if not shuffled; every
batch but the last has `per_device_batch_size` times the number of devices rows, and the last is not empty. -/
theorem C82_epoch (rows : List α) (perm : List ℕ) (hperm : perm.Perm (List.range rows.length)) (pd dev : ℕ) (hb : 0 < pd * dev)
    (shuffle : Bool) :
    ∃ bs, epochRows rows perm pd dev shuffle false = .ok bs ∧ bs.flatten.Perm rows ∧ (shuffle = false → bs.flatten = rows) ∧
      (∀ b ∈ bs, 0 < b.length ∧ b.length ≤ pd * dev) ∧ (∀ b ∈ bs.dropLast, b.length = pd * dev) := by
  set idxs := if shuffle then perm else List.range rows.length with hidx
  have hp : idxs.Perm (List.range rows.length) := by
    rw [hidx]; cases shuffle
    · exact List.Perm.refl _
    · exact hperm
  have hlt : ∀ i ∈ idxs, i < rows.length := fun i hi => List.mem_range.1 ((hp.mem_iff).1 hi)
  have hflat := slices_flatten (pd * dev) hb idxs
  have hlen : ∀ s ∈ slices (pd * dev) idxs, (s.filterMap fun i => rows[i]?).length = s.length := by
    intro s hs
    refine rowsAt_length rows s fun i hi => hlt i ?_
    rw [← hflat]
    exact List.mem_flatten_of_mem hs hi
  refine ⟨(slices (pd * dev) idxs).map fun idxs => idxs.filterMap fun i => rows[i]?, ?_, ?_, ?_, ?_, ?_⟩
  · unfold epochRows batchIdxs
    simp only [Bool.false_eq_true, if_false, if_neg hb.ne', bind, Except.bind]
    rfl
  · rw [rowsAt_flatten, hflat]
    exact (hp.filterMap _).trans (by rw [rowsAt_range])
  · intro hs
    rw [rowsAt_flatten, hflat, hidx, hs]
    exact rowsAt_range rows
  · intro b hb'
    obtain ⟨s, hs, rfl⟩ := List.mem_map.1 hb'
    rw [hlen s hs]
    exact slices_sizes _ hb _ s hs
  · intro b hb'
    rw [← List.map_dropLast] at hb'
    obtain ⟨s, hs, rfl⟩ := List.mem_map.1 hb'
    rw [hlen s (List.mem_of_mem_dropLast hs)]
    exact slices_full _ hb _ s hs

/-- **C82.** With `drop_last` every batch is full, no row appears twice, the first rows are kept if not shuffled, and fewer than
one batch of rows is left out. -/
theorem C82_epoch_drop (rows : List α) (perm : List ℕ) (hperm : perm.Perm (List.range rows.length)) (pd dev : ℕ)
    (hb : 0 < pd * dev) (shuffle : Bool) :
    ∃ bs, epochRows rows perm pd dev shuffle true = .ok bs ∧ bs.length = rows.length / (pd * dev) ∧
      (∀ b ∈ bs, b.length = pd * dev) ∧ (∃ rest, (bs.flatten ++ rest).Perm rows ∧ rest.length < pd * dev) ∧
      (shuffle = false → bs.flatten = rows.take (rows.length / (pd * dev) * (pd * dev))) := by
  set idxs := if shuffle then perm else List.range rows.length with hidx
  have hp : idxs.Perm (List.range rows.length) := by
    rw [hidx]; cases shuffle
    · exact List.Perm.refl _
    · exact hperm
  have hlt : ∀ i ∈ idxs, i < rows.length := fun i hi => List.mem_range.1 ((hp.mem_iff).1 hi)
  have hil : idxs.length = rows.length := by rw [hp.length_eq, List.length_range]
  set m := rows.length / (pd * dev) * (pd * dev) with hm
  have hmle : m ≤ rows.length := Nat.div_mul_le_self _ _
  have hflat := slices_flatten (pd * dev) hb (idxs.take m)
  obtain ⟨hc, hf⟩ := slices_exact (pd * dev) hb (idxs.take m) (rows.length / (pd * dev))
    (by rw [List.length_take, hil, ← hm]; omega)
  refine ⟨(slices (pd * dev) (idxs.take m)).map fun idxs => idxs.filterMap fun i => rows[i]?, ?_, ?_, ?_, ?_, ?_⟩
  · unfold epochRows batchIdxs
    simp only [if_true, if_neg hb.ne', bind, Except.bind]
    rfl
  · rw [List.length_map, hc]
  · intro b hb'
    obtain ⟨s, hs, rfl⟩ := List.mem_map.1 hb'
    rw [rowsAt_length, hf s hs]
    intro i hi
    refine hlt i (List.mem_of_mem_take (i := m) ?_)
    rw [← hflat]
    exact List.mem_flatten_of_mem hs hi
  · refine ⟨(idxs.drop m).filterMap fun i => rows[i]?, ?_, ?_⟩
    · rw [rowsAt_flatten, hflat, ← List.filterMap_append, List.take_append_drop]
      exact (hp.filterMap _).trans (by rw [rowsAt_range])
    · rw [rowsAt_length _ _ fun i hi => hlt i (List.mem_of_mem_drop hi), List.length_drop, hil, hm]
      have := Nat.div_add_mod' rows.length (pd * dev)
      have := Nat.mod_lt rows.length hb
      omega
  · intro hs
    rw [rowsAt_flatten, hflat, hidx, hs]
    simp only [Bool.false_eq_true, if_false]
    rw [List.take_range, Nat.min_eq_left hmle]
    have h := rowsAt_range (rows.take m)
    rw [List.length_take, Nat.min_eq_left hmle] at h
    rw [← h]
    refine List.filterMap_congr fun i hi => ?_
    rw [List.mem_range] at hi
    rw [List.getElem?_take_of_lt hi]

/-- **C82.** A batch size of zero is refused. -/
theorem C82_batch_zero (rows : List α) (perm : List ℕ) (pd dev : ℕ) (hb : pd * dev = 0) (shuffle dropLast : Bool) :
    ∃ e, epochRows rows perm pd dev shuffle dropLast = .error e := by
  unfold epochRows batchIdxs
  cases dropLast <;> simp [hb, bind, Except.bind]

/-- **C82.** Without `drop_last` the size of the loader is the number of rows of an epoch. -/
theorem C82_size (rows : List α) (perm : List ℕ) (hperm : perm.Perm (List.range rows.length)) (pd dev : ℕ)
    (bs : List (List α)) (shuffle : Bool) (h : epochRows rows perm pd dev shuffle false = .ok bs) :
    loaderSize (some rows.length) bs.flatten.length = bs.flatten.length := by
  have hb : 0 < pd * dev := by
    rcases Nat.eq_zero_or_pos (pd * dev) with h0 | h0
    · obtain ⟨e, he⟩ := C82_batch_zero rows perm pd dev h0 shuffle false
      rw [he] at h; cases h
    · exact h0
  obtain ⟨bs', h', hp, -⟩ := C82_epoch rows perm hperm pd dev hb shuffle
  rw [h] at h'
  cases h'
  rw [hp.length_eq]
  unfold loaderSize
  cases rows.length <;> rfl

/-- **C82, the size with `drop_last`, is false**: whenever rows are dropped the loader reports more rows than it gives. -/
theorem C82_size_false (rows : List α) (perm : List ℕ) (hperm : perm.Perm (List.range rows.length)) (pd dev : ℕ)
    (bs : List (List α)) (shuffle : Bool) (h : epochRows rows perm pd dev shuffle true = .ok bs)
    (hdiv : ¬ (pd * dev ∣ rows.length)) : bs.flatten.length < loaderSize (some rows.length) bs.flatten.length := by
  have hb : 0 < pd * dev := by
    rcases Nat.eq_zero_or_pos (pd * dev) with h0 | h0
    · obtain ⟨e, he⟩ := C82_batch_zero rows perm pd dev h0 shuffle true
      rw [he] at h; cases h
    · exact h0
  obtain ⟨bs', h', hc, hf, ⟨rest, hr, hrl⟩, -⟩ := C82_epoch_drop rows perm hperm pd dev hb shuffle
  rw [h] at h'
  cases h'
  have hl := hr.length_eq
  rw [List.length_append] at hl
  have hsum : bs.flatten.length = bs.length * (pd * dev) := by
    clear hc hr hl h hrl
    induction bs with
    | nil => simp
    | cons b bs ih =>
      rw [List.flatten_cons, List.length_append, ih fun x hx => hf x (List.mem_cons_of_mem _ hx), hf b (List.mem_cons_self ..),
        List.length_cons]
      ring
  have hne : rest.length ≠ 0 := by
    intro h0
    exact hdiv ⟨bs.length, by rw [← hl, h0, hsum]; ring⟩
  have : loaderSize (some rows.length) bs.flatten.length = rows.length := by
    unfold loaderSize
    cases hn : rows.length with
    | zero => omega
    | succ n => rfl
  omega

example : epochRows ["a", "b", "c", "d", "e"] [4, 0, 3, 1, 2] 1 2 true false = .ok [["e", "a"], ["d", "b"], ["c"]] := by
  decide +kernel

example : epochRows ["a", "b", "c", "d", "e"] [4, 0, 3, 1, 2] 1 2 true true = .ok [["e", "a"], ["d", "b"]] := by
  decide +kernel

end batches

/-! ## Chunks -/

/-- **C82.** For masked language models the texts of a batch are joined and cut into chunks of exactly `max_length` tokens; only
fewer than `max_length` tokens at the end are lost. -/
theorem C82_chunks {α : Type} (m : ℕ) (hm : 0 < m) (texts : List (List α)) :
    ∃ cs, chunkTexts m texts = .ok cs ∧ (∀ c ∈ cs, c.length = m) ∧
      ∃ rest, cs.flatten ++ rest = texts.flatten ∧ rest.length < m := by
  obtain ⟨hc, hf⟩ := slices_exact m hm (texts.flatten.take (texts.flatten.length / m * m)) (texts.flatten.length / m)
    (by rw [List.length_take]; exact Nat.min_eq_left (Nat.div_mul_le_self _ _))
  refine ⟨_, by unfold chunkTexts; simp only [if_neg hm.ne'], hf, texts.flatten.drop (texts.flatten.length / m * m), ?_, ?_⟩
  · rw [slices_flatten m hm, List.take_append_drop]
  · rw [List.length_drop]
    have := Nat.div_add_mod' texts.flatten.length m
    have := Nat.mod_lt texts.flatten.length hm
    omega

example : chunkTexts 3 [[1, 2], [3, 4, 5], [6, 7]] = .ok [[1, 2, 3], [4, 5, 6]] := by decide +kernel

/-! ## Multiple choice -/

section choices
variable {S T U : Type}

theorem zipWith_flatten (tok : S → S → T) (join : S → S → S) (L : ℕ) (qs : List (Question S))
    (h : ∀ q ∈ qs, q.choices.length = L) :
    List.zipWith tok (qs.map fun q => List.replicate L q.context).flatten (qs.map fun q => q.choices.map (join q.header)).flatten =
      (qs.map fun q => q.choices.map fun c => tok q.context (join q.header c)).flatten := by
  induction qs with
  | nil => rfl
  | cons q qs ih =>
    simp only [List.map_cons, List.flatten_cons]
    rw [List.zipWith_append (by rw [List.length_replicate, List.length_map, h q (List.mem_cons_self ..)]),
      ih fun q' hq' => h q' (List.mem_cons_of_mem _ hq')]
    congr 1
    have hq := h q (List.mem_cons_self ..)
    clear ih h
    generalize q.choices = cs at hq
    induction cs generalizing L with
    | nil => simp
    | cons c cs ihc =>
      cases L with
      | zero => simp at hq
      | succ L =>
        rw [List.replicate_succ, List.map_cons, List.zipWith_cons_cons, List.map_cons, ihc L (by simpa using hq)]

/-- **C82.** If every question has `num_unique_labels` choices, every row becomes the list of its own choices, each joined with the
header of the row and paired with the context of the row, in the order of the choices, with the label of the row. -/
theorem C82_choices (join : S → S → S) (tok : S → S → T) (L : ℕ) (hL : 0 < L) (qs : List (Question S))
    (h : ∀ q ∈ qs, q.choices.length = L) :
    tokenizeChoices join tok L qs =
      .ok (qs.map fun q => (q.choices.map fun c => tok q.context (join q.header c), q.label)) := by
  have hlen : (qs.map fun q => List.replicate L q.context).flatten.length =
      (qs.map fun q => q.choices.map (join q.header)).flatten.length := by
    rw [List.length_flatten, List.length_flatten, List.map_map, List.map_map]
    congr 1
    refine List.map_congr_left fun q hq => ?_
    simp [h q hq]
  have hb := slices_blocks L hL (qs.map fun q => q.choices.map fun c => tok q.context (join q.header c)) (by
    intro s hs
    obtain ⟨q, hq, rfl⟩ := List.mem_map.1 hs
    rw [List.length_map, h q hq])
  unfold tokenizeChoices
  simp only [hlen, ne_eq, not_true_eq_false, if_false, if_neg hL.ne', zipWith_flatten tok join L qs h, hb, List.length_map]
  congr 1
  rw [List.zip_map']

/-- **C82.** A total number of choices other than `num_unique_labels` for each question is refused. -/
theorem C82_choices_total (join : S → S → S) (tok : S → S → T) (L : ℕ) (qs : List (Question S))
    (h : (qs.map fun q => q.choices.length).sum ≠ qs.length * L) :
    tokenizeChoices join tok L qs = .error "ValueError" := by
  unfold tokenizeChoices
  rw [if_pos]
  rw [List.length_flatten, List.length_flatten, List.map_map, List.map_map]
  intro e
  apply h
  have : (qs.map (List.length ∘ fun q => q.choices.map (join q.header))) = qs.map fun q => q.choices.length :=
    List.map_congr_left fun q _ => by simp
  rw [← this, ← e]
  have : (qs.map (List.length ∘ fun q => List.replicate L q.context)) = qs.map fun _ => L :=
    List.map_congr_left fun q _ => by simp
  rw [this]
  simp

/-- **C82.** Without labels, and hence without choices, the rows are refused. -/
theorem C82_choices_none (join : S → S → S) (tok : S → S → T) (qs : List (Question S)) : tokenizeChoices join tok 0 qs = .error "ValueError" := by
  unfold tokenizeChoices
  by_cases h : (qs.map fun q => List.replicate 0 q.context).flatten.length ≠ (qs.map fun q => q.choices.map (join q.header)).flatten.length
  · rw [if_pos h]
  · rw [if_neg h, if_pos rfl]

/-- **C82, questions with different numbers of choices, is false**: they are accepted if the total agrees, and then choices of one
question are filed, with the context of another, under the label of another. -/
theorem C82_choices_false :
    tokenizeChoices (fun h c : String => h ++ " " ++ c) (fun a b => (a, b)) 2
      [⟨"A", "a", ["1"], 0⟩, ⟨"B", "b", ["1", "2", "3"], 2⟩] =
    .ok [([("A", "a 1"), ("A", "b 1")], 0), ([("B", "b 2"), ("B", "b 3")], 2)] := by decide +kernel

theorem pickChoices_self (f : List T) : pickChoices f.length f = .ok f := by
  unfold pickChoices
  rw [mapM_ok]
  have : ∀ n, n ≤ f.length → List.Forall₂ (fun i b => pick f i = .ok b) (List.range n) (f.take n) := by
    intro n
    induction n with
    | zero => intro _; simp
    | succ n ih =>
      intro hn
      rw [List.range_succ, List.take_add_one, List.getElem?_eq_getElem (show n < f.length by omega)]
      refine List.rel_append (ih (by omega)) ?_
      simp [pick, List.getElem?_eq_getElem (show n < f.length by omega)]
  simpa using this f.length le_rfl

/-- **C82.** Collating a batch of questions with the same number of choices: entry `(i, j)` is choice `j` of row `i`, padded, and the
labels are in order. -/
theorem C82_collate (pad : T → U) (L : ℕ) (hL : 0 < L) (fs : List (List T × ℤ)) (hne : fs ≠ [])
    (h : ∀ f ∈ fs, f.1.length = L) :
    collateChoices pad fs = .ok (fs.map fun f => f.1.map pad, fs.map Prod.snd) := by
  cases fs with
  | nil => exact absurd rfl hne
  | cons f rest =>
    have hf : f.1.length = L := h f (List.mem_cons_self ..)
    have hm : (f :: rest).mapM (fun g : List T × ℤ => pickChoices f.1.length g.1) = .ok ((f :: rest).map Prod.fst) := by
      rw [mapM_ok]
      have : ∀ l : List (List T × ℤ), (∀ g ∈ l, g.1.length = L) →
          List.Forall₂ (fun a b => pickChoices f.1.length a.1 = .ok b) l (l.map Prod.fst) := by
        intro l
        induction l with
        | nil => intro _; exact List.Forall₂.nil
        | cons g l ih =>
          intro hl
          refine List.Forall₂.cons ?_ (ih fun x hx => hl x (List.mem_cons_of_mem _ hx))
          rw [hf, ← hl g (List.mem_cons_self ..)]
          exact pickChoices_self _
      exact this _ h
    unfold collateChoices
    rw [hf] at hm
    simp only [hf, hm, bind, Except.bind, if_neg hL.ne']
    rw [List.map_flatten, slices_blocks L hL]
    · simp [List.map_map]
    · intro s hs
      rw [List.map_map] at hs
      obtain ⟨g, hg, rfl⟩ := List.mem_map.1 hs
      simp [h g hg]

theorem pickChoices_take (n : ℕ) (f : List T) (h : n ≤ f.length) : pickChoices n f = .ok (f.take n) := by
  unfold pickChoices
  rw [mapM_ok]
  induction n with
  | zero => simp
  | succ n ih =>
    rw [List.range_succ, List.take_add_one, List.getElem?_eq_getElem (show n < f.length by omega)]
    refine List.rel_append (ih (by omega)) ?_
    simp [pick, List.getElem?_eq_getElem (show n < f.length by omega)]

theorem mapM_append_ok {A B : Type} (g : A → Except String B) :
    ∀ (l r : List A) (b : List B), l.mapM g = .ok b → (l ++ r).mapM g = (r.mapM g).map (b ++ ·) := by
  intro l r b h
  rw [List.mapM_append, h]
  cases r.mapM g <;> rfl

theorem mapM_all_ok {A B : Type} (g : A → Except String B) (k : A → B) :
    ∀ l : List A, (∀ a ∈ l, g a = .ok (k a)) → l.mapM g = .ok (l.map k) := by
  intro l
  induction l with
  | nil => intro _; rfl
  | cons a l ih =>
    intro h
    rw [List.mapM_cons, h a (List.mem_cons_self ..), ih fun b hb => h b (List.mem_cons_of_mem _ hb)]
    rfl

theorem mapM_some_error {A B : Type} (g : A → Except String B) (k : A → B) (e : String) :
    ∀ l : List A, (∀ a ∈ l, g a = .ok (k a) ∨ g a = .error e) → (∃ a ∈ l, g a = .error e) → l.mapM g = .error e := by
  intro l
  induction l with
  | nil => rintro _ ⟨a, ha, _⟩; simp at ha
  | cons a l ih =>
    rintro h ⟨b, hb, hbe⟩
    rw [List.mapM_cons]
    rcases h a (List.mem_cons_self ..) with ha | ha
    · rcases List.mem_cons.1 hb with rfl | hb
      · rw [ha] at hbe; cases hbe
      · rw [ha, ih (fun c hc => h c (List.mem_cons_of_mem _ hc)) ⟨b, hb, hbe⟩]; rfl
    · rw [ha]; rfl

theorem pickChoices_short (n : ℕ) (f : List T) (h : f.length < n) : pickChoices n f = .error "IndexError" := by
  obtain ⟨d, rfl⟩ : ∃ d, n = f.length + 1 + d := ⟨n - (f.length + 1), by omega⟩
  unfold pickChoices
  rw [List.range_add, List.range_succ, List.append_assoc,
    mapM_append_ok _ _ _ f (by simpa [pickChoices] using pickChoices_take f.length f le_rfl), List.singleton_append, List.mapM_cons]
  have : pick f f.length = .error "IndexError" := by simp [pick]
  rw [this]
  rfl

/-- **C82.** Collating questions with any numbers of choices: the number `L` of the first one is used for all. If no question has
fewer, row `i` gets its first `L` choices; if one has fewer the call raises an `IndexError`; so it does if the first has none. -/
theorem C82_collate_any (pad : T → U) (f : List T × ℤ) (rest : List (List T × ℤ)) :
    collateChoices pad (f :: rest) =
      if f.1 = [] ∨ ∃ g ∈ rest, g.1.length < f.1.length then .error "IndexError"
      else .ok ((f :: rest).map fun g => (g.1.take f.1.length).map pad, (f :: rest).map Prod.snd) := by
  unfold collateChoices
  dsimp only
  by_cases h : ∃ g ∈ rest, g.1.length < f.1.length
  · obtain ⟨g, hg, hgl⟩ := id h
    rw [if_pos (Or.inr h), mapM_some_error _ (fun g : List T × ℤ => g.1.take f.1.length) "IndexError" (f :: rest)
      (fun a _ => (le_or_gt f.1.length a.1.length).elim (fun h => Or.inl (pickChoices_take _ _ h)) fun h => Or.inr (pickChoices_short _ _ h))
      ⟨g, List.mem_cons_of_mem _ hg, pickChoices_short _ _ hgl⟩]
    rfl
  push Not at h
  have hle : ∀ g ∈ f :: rest, f.1.length ≤ g.1.length := fun g hg => by
    rcases List.mem_cons.1 hg with rfl | hg
    · exact le_rfl
    · exact h g hg
  rw [mapM_all_ok _ (fun g : List T × ℤ => g.1.take f.1.length) (f :: rest) fun a ha => pickChoices_take _ _ (hle a ha)]
  simp only [bind, Except.bind]
  by_cases h0 : f.1 = []
  · rw [if_pos (by simp [h0]), if_pos (Or.inl h0)]
  · have hL : 0 < f.1.length := List.length_pos_iff.2 h0
    rw [if_neg hL.ne', if_neg (by push Not; exact ⟨h0, h⟩), List.map_flatten, slices_blocks _ hL]
    · simp [List.map_map]
    · intro s hs
      rw [List.map_map] at hs
      obtain ⟨g, hg, rfl⟩ := List.mem_map.1 hs
      simp [hle g hg]

example : collateChoices (id : ℕ → ℕ) [([1, 2], 0), ([3], 0)] = .error "IndexError" := by decide +kernel
example : collateChoices (id : ℕ → ℕ) [([], 0), ([3], 0)] = .error "IndexError" := by decide +kernel

/-- **C82, collating questions with different numbers of choices, is false**: the number of the first question is used for all, and
further choices are lost. -/
theorem C82_collate_false : collateChoices (id : ℕ → ℕ) [([1, 2], 0), ([3, 4, 5], 2)] = .ok ([[1, 2], [3, 4]], [0, 2]) := by
  decide +kernel

example : tokenizeChoices (fun h c : String => h ++ " " ++ c) (fun a b => (a, b)) 2
    [⟨"A", "a", ["1", "2"], 0⟩, ⟨"B", "b", ["3", "4"], 1⟩] =
    .ok [([("A", "a 1"), ("A", "a 2")], 0), ([("B", "b 3"), ("B", "b 4")], 1)] := by decide +kernel

end choices

/-! ## Masking -/

/-- **C82.** At every position: special tokens (and padding, which the tokenizer marks as special) are never changed and never
enter the loss; the label is the original token or −100; only a token with a label can change, and then to the mask token or
a random word. -/
theorem C82_mask_token (p : ℚ) (maskId : ℤ) (special : Bool) (tok : ℤ) (d : Draw) :
    let r := maskToken p maskId special tok d
    (special = true → r = (tok, -100)) ∧ (r.2 = tok ∨ r.2 = -100) ∧ (r.2 = -100 → tok ≠ -100 → r.1 = tok) ∧
      (r.1 = tok ∨ r.1 = maskId ∨ r.1 = d.word) := by
  rcases d with ⟨a, b, c, w⟩
  simp only [maskToken, binom]
  rw [if_neg (by norm_num : ¬(4 / 5 : ℚ) = 0), if_neg (by norm_num : ¬(4 / 5 : ℚ) = 1),
    if_neg (by norm_num : ¬(1 / 2 : ℚ) = 0), if_neg (by norm_num : ¬(1 / 2 : ℚ) = 1)]
  cases special
  · simp only [Bool.false_eq_true, if_false]
    generalize (if p = 0 then false else if p = 1 then true else a) = m
    cases m <;> cases b <;> cases c <;> simp <;> exact fun h h' => absurd h h'
  · simp

/-- **C82.** The rates: with probability 1 every token that is not special has a label; with probability 0 none has. -/
theorem C82_mask_rate (maskId : ℤ) (special : Bool) (tok : ℤ) (d : Draw) :
    maskToken 0 maskId special tok d = (tok, -100) ∧ (special = false → (maskToken 1 maskId special tok d).2 = tok) := by
  rcases d with ⟨a, b, c, w⟩
  constructor
  · cases special <;> simp [maskToken, binom]
  · rintro rfl
    simp [maskToken, binom]

/-- **C82.** All four outcomes at a masked position are possible: mask token, random word, unchanged with label, unchanged without. -/
theorem C82_mask_outcomes (p : ℚ) (h0 : p ≠ 0) (h1 : p ≠ 1) (maskId tok w : ℤ) :
    (∃ d, maskToken p maskId false tok d = (maskId, tok)) ∧ (∃ d, maskToken p maskId false tok d = (tok, tok)) ∧
      (∃ d, d.word = w ∧ maskToken p maskId false tok d = (w, tok)) ∧ (∃ d, maskToken p maskId false tok d = (tok, -100)) := by
  have e1 : ¬(4 / 5 : ℚ) = 0 := by norm_num
  have e2 : ¬(4 / 5 : ℚ) = 1 := by norm_num
  have e3 : ¬(2⁻¹ : ℚ) = 0 := by norm_num
  have e4 : ¬(2⁻¹ : ℚ) = 1 := by norm_num
  refine ⟨⟨⟨true, true, true, w⟩, ?_⟩, ⟨⟨true, false, false, w⟩, ?_⟩, ⟨⟨true, false, true, w⟩, rfl, ?_⟩, ⟨⟨false, true, true, w⟩, ?_⟩⟩ <;>
    simp [maskToken, binom, h0, h1, e1, e2, e3, e4]

/-- **C82.** The original sequence can be read off from what the collator returns: the label where there is one and the input
elsewhere. -/
theorem C82_mask_recover (p : ℚ) (maskId : ℤ) (padId : Option ℤ) (sp : List Bool) (ids : List ℤ) (draws : List Draw)
    (hp : 0 ≤ p ∧ p ≤ 1) (hsp : sp.length = ids.length) (hd : draws.length = ids.length) (hids : ∀ t ∈ ids, t ≠ -100) :
    ∃ inputs labels, collateLM true p maskId padId (some sp) ids draws = .ok (inputs, labels) ∧
      List.zipWith (fun i l => if l = -100 then i else l) inputs labels = ids ∧
      inputs.length = ids.length ∧ labels.length = ids.length ∧
      ∀ k : ℕ, sp[k]? = some true → inputs[k]? = ids[k]? ∧ (k < ids.length → labels[k]? = some (-100)) := by
  refine ⟨_, _, by unfold collateLM; simp only [if_true]; rw [if_neg fun h => h.1.elim (not_lt.2 hp.1) (not_lt.2 hp.2)], ?_, ?_, ?_, ?_⟩
  · rw [List.zipWith_map_left, List.zipWith_map_right, List.zipWith_self]
    clear hp
    induction ids generalizing sp draws with
    | nil => simp
    | cons t ids ih =>
      cases sp with
      | nil => simp at hsp
      | cons s sp =>
        cases draws with
        | nil => simp at hd
        | cons d draws =>
          rw [List.zip_cons_cons, List.zipWith_cons_cons, List.map_cons,
            ih sp draws (by simpa using hsp) (by simpa using hd) fun x hx => hids x (List.mem_cons_of_mem _ hx)]
          congr 1
          obtain ⟨-, h2, h3, -⟩ := C82_mask_token p maskId s t d
          have ht := hids t (List.mem_cons_self ..)
          by_cases h : (maskToken p maskId s t d).2 = -100
          · rw [if_pos h, h3 h ht]
          · rw [if_neg h]
            rcases h2 with h2 | h2
            · exact h2
            · exact absurd h2 h
  · simp [hsp, hd]
  · simp [hsp, hd]
  · intro k hk
    have hk' : k < sp.length := by
      by_contra hc
      rw [List.getElem?_eq_none (by omega)] at hk
      cases hk
    have hki : k < ids.length := by omega
    have hkd : k < draws.length := by omega
    have hz : (ids.zip sp)[k]? = some (ids[k], true) := by
      rw [List.getElem?_zip_eq_some]
      exact ⟨List.getElem?_eq_getElem hki, hk⟩
    have hw : (List.zipWith (fun ts d => maskToken p maskId ts.2 ts.1 d) (ids.zip sp) draws)[k]? = some (ids[k], -100) := by
      rw [List.getElem?_zipWith, hz, List.getElem?_eq_getElem hkd]
      simp only
      rw [(C82_mask_token p maskId true ids[k] draws[k]).1 rfl]
    rw [List.getElem?_map, hw, List.getElem?_map, hw, List.getElem?_eq_getElem hki]
    exact ⟨rfl, fun _ => rfl⟩

/-- **C82.** Without the mask of special tokens, or with a rate that is not a probability and a token that is not special, the
collator raises. -/
theorem C82_mask_refused (p : ℚ) (maskId : ℤ) (padId : Option ℤ) (sp : Option (List Bool)) (ids : List ℤ) (draws : List Draw) :
    (∃ e, collateLM true p maskId padId sp ids draws = .error e) ↔ sp = none ∨ ((p < 0 ∨ 1 < p) ∧ ∃ m, sp = some m ∧ false ∈ m) := by
  unfold collateLM
  cases sp with
  | none => simp
  | some sp =>
    by_cases h : (p < 0 ∨ 1 < p) ∧ false ∈ sp
    · simp [h]
    · simp [h]

/-- **C82.** Without masking the inputs are unchanged and the labels are the inputs, −100 exactly at the padding token. -/
theorem C82_causal (p : ℚ) (maskId pad : ℤ) (sp : Option (List Bool)) (ids : List ℤ) (draws : List Draw) :
    ∃ labels, collateLM false p maskId (some pad) sp ids draws = .ok (ids, labels) ∧ labels.length = ids.length ∧
      (∀ (k : ℕ) t, ids[k]? = some t → t ≠ pad → labels[k]? = some t) ∧ (∀ k : ℕ, ids[k]? = some pad → labels[k]? = some (-100)) := by
  refine ⟨_, rfl, by simp, fun k t hk ht => ?_, fun k hk => ?_⟩
  · rw [List.getElem?_map, hk]; simp [ht]
  · rw [List.getElem?_map, hk]; simp

theorem C82_causal_nopad (p : ℚ) (maskId : ℤ) (sp : Option (List Bool)) (ids : List ℤ) (draws : List Draw) :
    collateLM false p maskId none sp ids draws = .ok (ids, ids) := rfl

/-- **C82, with a token that also serves as padding, is false**: a real end-of-text token loses its label. -/
theorem C82_causal_false : collateLM false (1 / 10) 9 (some 2) none [5, 6, 2] [] = .ok ([5, 6, 2], [5, 6, -100]) := by decide +kernel

example : collateLM true (1 / 10) 9 (some 0) (some [true, false, false, true]) [101, 7, 8, 0]
    [⟨true, true, true, 3⟩, ⟨true, true, false, 4⟩, ⟨true, false, true, 5⟩, ⟨true, true, true, 6⟩] =
    .ok ([101, 9, 5, 0], [-100, 7, 8, -100]) := by decide +kernel

/-- **C82.** The number of classes of a loader is the number given, or else the number of different labels of an epoch. -/
theorem C82_labels (batches : List (List ℤ)) (n : ℕ) :
    numUniqueLabels (some n) batches = n ∧ numUniqueLabels none batches = batches.flatten.toFinset.card := ⟨rfl, rfl⟩

/-! ### Concrete cases that meet the hypotheses of the theorems above -/

example := C82_epoch ["a", "b", "c", "d", "e"] [4, 2, 0, 1, 3] (by decide) 1 2 (by norm_num) true
example := C82_epoch_drop ["a", "b", "c", "d", "e"] [4, 2, 0, 1, 3] (by decide) 1 2 (by norm_num) true
example := C82_batch_zero ["a", "b"] [1, 0] 0 2 (by norm_num) true false
example := C82_size ["a", "b", "c"] [2, 0, 1] (by decide) 1 2 [["c", "a"], ["b"]] true (by decide +kernel)
example := C82_choices (fun a b => a ++ b) (fun a b => a ++ "|" ++ b) 2 (by norm_num) [⟨"q", "h", ["x", "y"], 1⟩, ⟨"r", "k", ["z", "w"], 0⟩]
  (by simp)
example := C82_choices_total (fun a b => a ++ b) (fun a b => a ++ "|" ++ b) 2 [⟨"q", "h", ["x", "y", "z"], 1⟩, ⟨"r", "k", ["z", "w"], 0⟩]
  (by simp)
example := C82_collate String.length 2 (by norm_num) [(["x", "yy"], 1), (["z", "w"], 0)] (by simp) (by simp)
example := C82_mask_outcomes (3 / 20) (by norm_num) (by norm_num) 103 5 8
example := C82_mask_recover (3 / 20) 103 (some 0) [true, false, false] [101, 5, 0] [⟨true, true, true, 9⟩, ⟨true, false, true, 9⟩, ⟨true, true, false, 9⟩]
  (by norm_num) rfl rfl (by simp)

end Verif.Props
