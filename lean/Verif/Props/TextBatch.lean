import Mathlib.Tactic.Ring
import Mathlib.Tactic.Linarith
import Mathlib.Tactic.NormNum
import Verif.Model.TextBatch
import Verif.Props.HuggingFace

/-!
# Property C142: lengths of tokenized rows and padded batches
-/

set_option linter.unusedSectionVars false

namespace Verif.Props.TextBatch

open Verif.TextBatch Verif.HuggingFace

/-- `row` is `tokens` followed by padding, `n` tokens long altogether. -/
def PaddedTo (padId : ℤ) (n : ℕ) (tokens row : List ℤ) : Prop := row.length = n ∧ ∃ k, row = tokens ++ List.replicate k padId

/-- A tokenizer that truncates: never more tokens than asked for, and the full sequence if it fits. -/
def Truncates {S : Type} (tok : Option ℕ → S → List ℤ) : Prop :=
  ∀ n s, (tok (some n) s).length = min n (tok none s).length

theorem padTo_padded (padId : ℤ) (n : ℕ) (row : List ℤ) (h : row.length ≤ n) : PaddedTo padId n row (padTo padId n row) :=
  ⟨by simp [padTo]; omega, _, rfl⟩

theorem le_longest (rows : List (List ℤ)) : ∀ r ∈ rows, r.length ≤ longestRow rows := by
  induction rows with
  | nil => simp
  | cons a rows ih =>
    intro r hr
    simp only [longestRow, List.map_cons, List.foldr_cons]
    rcases List.mem_cons.1 hr with rfl | hr
    · exact le_max_left _ _
    · exact (ih r hr).trans (le_max_right _ _)

theorem longest_mem (rows : List (List ℤ)) (h : rows ≠ []) : ∃ r ∈ rows, r.length = longestRow rows := by
  induction rows with
  | nil => exact absurd rfl h
  | cons a rows ih =>
    simp only [longestRow, List.map_cons, List.foldr_cons]
    by_cases hr : rows = []
    · subst hr; exact ⟨a, by simp, by simp⟩
    · obtain ⟨r, hr, he⟩ := ih hr
      rcases le_total a.length (longestRow rows) with hl | hl
      · exact ⟨r, List.mem_cons_of_mem _ hr, by rw [he]; exact (max_eq_right hl).symm⟩
      · exact ⟨a, List.mem_cons_self .., (max_eq_left hl).symm⟩

theorem le_roundUp (m : Option ℕ) (n : ℕ) (hm : m ≠ some 0) : n ≤ roundUp m n := by
  cases m with
  | none => exact le_rfl
  | some m =>
    have hm : 0 < m := Nat.pos_of_ne_zero fun h => hm (by rw [h])
    unfold roundUp
    dsimp only
    split_ifs with h
    · have := Nat.div_add_mod n m
      have := Nat.mod_lt n hm
      nlinarith
    · exact le_rfl

/-- Rounding up gives the smallest multiple that is not smaller. -/
theorem roundUp_spec (m n : ℕ) (hm : 0 < m) :
    m ∣ roundUp (some m) n ∧ n ≤ roundUp (some m) n ∧ ∀ k, m ∣ k → n ≤ k → roundUp (some m) n ≤ k := by
  refine ⟨?_, le_roundUp _ _ (by simp; omega), ?_⟩
  · unfold roundUp
    dsimp only
    by_cases h : n % m = 0
    · rw [if_neg (not_not.2 h)]; exact Nat.dvd_of_mod_eq_zero h
    · rw [if_pos h]; exact Dvd.intro_left _ rfl
  · rintro k ⟨c, rfl⟩ hk
    unfold roundUp
    dsimp only
    by_cases h : n % m = 0
    · rw [if_neg (not_not.2 h)]; exact hk
    · rw [if_pos h]
      have h1 := Nat.div_add_mod n m
      have h2 : n / m < c := by
        by_contra hc
        push Not at hc
        have : m * c ≤ m * (n / m) := Nat.mul_le_mul_left m hc
        omega
      rw [mul_comm]
      exact Nat.mul_le_mul_left m h2

theorem toArray_equal (rows : List (List ℤ)) (n : ℕ) (h : ∀ r ∈ rows, r.length = n) : toArray rows = .ok rows := by
  unfold toArray
  rw [if_neg]
  rintro ⟨r, hr, s, hs, hne⟩
  exact hne ((h r hr).trans (h s hs).symm)

theorem padTo_all (padId : ℤ) (n : ℕ) (rows : List (List ℤ)) (h : ∀ r ∈ rows, r.length ≤ n) :
    toArray (rows.map (padTo padId n)) = .ok (rows.map (padTo padId n)) := by
  refine toArray_equal _ n fun r hr => ?_
  obtain ⟨s, hs, rfl⟩ := List.mem_map.1 hr
  exact (padTo_padded padId n s (h s hs)).1

section sequence
variable {S : Type}

/-- **C142.** Sequence classification with `padding=True`: one row per text, in order, each the truncated text followed by padding
tokens; all rows of a batch have the length of its longest truncated text, at most `max_length`. -/
theorem C142_sequence (tok : Option ℕ → S → List ℤ) (ht : Truncates tok) (maxLength : ℕ) (multiple : Option ℕ) (padId : ℤ)
    (texts : List S) (hne : texts ≠ []) :
    ∃ rows n, sequenceBatch .longest maxLength multiple tok padId texts = .ok rows ∧
      List.Forall₂ (fun s row => PaddedTo padId n (tok (some maxLength) s) row) texts rows ∧ n ≤ maxLength ∧
      (∃ s ∈ texts, n = min maxLength (tok none s).length) ∧ ∀ s ∈ texts, min maxLength (tok none s).length ≤ n := by
  have hl := le_longest (texts.map (tok (some maxLength)))
  obtain ⟨r, hr, he⟩ := longest_mem (texts.map (tok (some maxLength))) (by simpa using hne)
  obtain ⟨s, hs, rfl⟩ := List.mem_map.1 hr
  rw [ht] at he
  refine ⟨(texts.map (tok (some maxLength))).map (padTo padId (longestRow (texts.map (tok (some maxLength))))), longestRow (texts.map (tok (some maxLength))), ?_, ?_, ?_, ⟨s, hs, he.symm⟩, ?_⟩
  · unfold sequenceBatch
    simp only [padRows, roundUp, bind, Except.bind, if_neg (show ¬ Padding.longest = Padding.maxLength by decide),
      if_pos (show Padding.longest ≠ .off ∧ Padding.longest ≠ .maxLength by decide), reduceCtorEq, if_false]
    exact padTo_all padId _ _ hl
  · rw [List.map_map, List.forall₂_map_right_iff, List.forall₂_same]
    exact fun t ht' => padTo_padded padId _ _ (hl _ (List.mem_map_of_mem ht'))
  · rw [← he]; exact min_le_left _ _
  · intro t ht'
    have := hl _ (List.mem_map_of_mem ht')
    rwa [ht] at this

/-- **C142.** Sequence classification with `padding="max_length"`: every row of every batch has exactly `max_length` tokens. -/
theorem C142_sequence_max (tok : Option ℕ → S → List ℤ) (ht : Truncates tok) (maxLength : ℕ) (multiple : Option ℕ) (padId : ℤ) (texts : List S) :
    ∃ rows, sequenceBatch .maxLength maxLength multiple tok padId texts = .ok rows ∧
      List.Forall₂ (fun s row => PaddedTo padId maxLength (tok (some maxLength) s) row) texts rows := by
  have hl : ∀ r ∈ texts.map (tok (some maxLength)), r.length ≤ maxLength := by
    intro r hr
    obtain ⟨s, _, rfl⟩ := List.mem_map.1 hr
    rw [ht]; exact min_le_left _ _
  refine ⟨(texts.map (tok (some maxLength))).map (padTo padId maxLength), ?_, ?_⟩
  · unfold sequenceBatch
    simp only [padRows, roundUp, bind, Except.bind, if_true, ne_eq, not_true_eq_false, and_false, if_false, reduceCtorEq]
    exact padTo_all padId _ _ hl
  · rw [List.map_map, List.forall₂_map_right_iff, List.forall₂_same]
    exact fun t ht' => padTo_padded padId _ _ (hl _ (List.mem_map_of_mem ht'))

/-- **C142.** Without padding a batch is accepted exactly if all its truncated texts have the same length. -/
theorem C142_sequence_off (tok : Option ℕ → S → List ℤ) (ht : Truncates tok) (padding : Padding) (hp : padding = .off ∨ padding = .doNotPad)
    (maxLength : ℕ) (multiple : Option ℕ) (padId : ℤ) (texts : List S) :
    sequenceBatch padding maxLength multiple tok padId texts =
      if ∀ s ∈ texts, ∀ t ∈ texts, min maxLength (tok none s).length = min maxLength (tok none t).length
      then .ok (texts.map (tok (some maxLength))) else .error "ValueError" := by
  have key : toArray (texts.map (tok (some maxLength))) =
      if ∀ s ∈ texts, ∀ t ∈ texts, min maxLength (tok none s).length = min maxLength (tok none t).length
      then .ok (texts.map (tok (some maxLength))) else .error "ValueError" := by
    unfold toArray
    by_cases h : ∀ s ∈ texts, ∀ t ∈ texts, min maxLength (tok none s).length = min maxLength (tok none t).length
    · rw [if_pos h, if_neg]
      rintro ⟨r, hr, q, hq, hne⟩
      obtain ⟨s, hs, rfl⟩ := List.mem_map.1 hr
      obtain ⟨t, ht', rfl⟩ := List.mem_map.1 hq
      rw [ht, ht] at hne
      exact hne (h s hs t ht')
    · rw [if_neg h, if_pos]
      push Not at h
      obtain ⟨s, hs, t, ht', hne⟩ := h
      exact ⟨_, List.mem_map_of_mem hs, _, List.mem_map_of_mem ht', by rw [ht, ht]; exact hne⟩
  rcases hp with rfl | rfl
  · rw [← key]; rfl
  · rw [← key]; rfl

/-- **C142, `pad_to_multiple_of` in sequence classification, is false**: batches are not padded to a multiple of it. -/
theorem C142_sequence_multiple_false :
    sequenceBatch .longest 512 (some 64) (fun m (s : List ℤ) => match m with | some n => s.take n | none => s) 0 [[5, 6, 7], [8]] =
      .ok [[5, 6, 7], [8, 0, 0]] := by decide +kernel

end sequence

section choices
variable {S : Type}

/-- **C142.** Multiple choice, with `L` choices per question: entry `(i, j)` is choice `j` of question `i`, truncated to what the
tokenizer accepts and followed by padding tokens; all have the length of the longest one of the batch, rounded up to a multiple of
`pad_to_multiple_of`. -/
theorem C142_choices (tok : Option ℕ → S → List ℤ) (padding : Padding) (maxLength : ℕ) (multiple modelMax : Option ℕ) (hm : multiple ≠ some 0)
    (padId : ℤ) (L : ℕ) (hL : 0 < L) (questions : List (List S)) (hne : questions ≠ []) (h : ∀ q ∈ questions, q.length = L) :
    ∃ out n, choiceBatch padding maxLength multiple modelMax tok padId questions = .ok out ∧
      List.Forall₂ (List.Forall₂ fun s row => PaddedTo padId (roundUp multiple n) (tok modelMax s) row) questions out ∧
      (∃ q ∈ questions, ∃ s ∈ q, n = (tok modelMax s).length) ∧ ∀ q ∈ questions, ∀ s ∈ q, (tok modelMax s).length ≤ n := by
  cases questions with
  | nil => exact absurd rfl hne
  | cons q rest =>
    have hq : q.length = L := h q (List.mem_cons_self ..)
    have hm1 : (q :: rest).mapM (fun t => pickChoices q.length (t.map (tok modelMax))) = .ok ((q :: rest).map fun t => t.map (tok modelMax)) := by
      refine mapM_all_ok _ _ _ fun t ht => ?_
      rw [pickChoices_take _ _ (by rw [List.length_map, h t ht, hq]), List.take_of_length_le (by rw [List.length_map, h t ht, hq])]
    set rows := ((q :: rest).map fun t => t.map (tok modelMax)).flatten with hrows
    have hl := le_longest rows
    have hmem : ∀ t ∈ q :: rest, ∀ s ∈ t, tok modelMax s ∈ rows := fun t ht s hs =>
      List.mem_flatten.2 ⟨_, List.mem_map_of_mem ht, List.mem_map_of_mem hs⟩
    have hrne : rows ≠ [] := by
      cases q with
      | nil => simp at hq; omega
      | cons s q => exact List.ne_nil_of_mem (hmem _ (List.mem_cons_self ..) s (List.mem_cons_self ..))
    have hl2 : ∀ r ∈ rows, r.length ≤ roundUp multiple (longestRow rows) := fun r hr => (hl r hr).trans (le_roundUp _ _ hm)
    refine ⟨(q :: rest).map fun t => t.map fun s => padTo padId (roundUp multiple (longestRow rows)) (tok modelMax s), longestRow rows, ?_, ?_, ?_, ?_⟩
    · unfold choiceBatch
      simp only [hm1, bind, Except.bind, padRows, if_neg hm, ← hrows, padTo_all padId _ rows hl2, if_neg (show ¬ q.length = 0 by omega)]
      rw [hrows, List.map_flatten, slices_blocks _ (by omega)]
      · simp only [List.map_map, ← hrows]
        congr 1
        refine List.map_congr_left fun t _ => ?_
        simp only [Function.comp, List.map_map]
        rfl
      · intro s hs
        rw [List.map_map] at hs
        obtain ⟨t, ht, rfl⟩ := List.mem_map.1 hs
        simp [h t ht, hq]
    · rw [List.forall₂_map_right_iff, List.forall₂_same]
      intro t ht
      rw [List.forall₂_map_right_iff, List.forall₂_same]
      exact fun s hs => padTo_padded padId _ _ (hl2 _ (hmem t ht s hs))
    · obtain ⟨r, hr, he⟩ := longest_mem rows hrne
      obtain ⟨l, hlm, hrl⟩ := List.mem_flatten.1 hr
      obtain ⟨t, ht, rfl⟩ := List.mem_map.1 hlm
      obtain ⟨s, hs, rfl⟩ := List.mem_map.1 hrl
      exact ⟨t, ht, s, hs, he.symm⟩
    · exact fun t ht s hs => hl _ (hmem t ht s hs)

/-- **C142, `max_length` and `padding` of multiple choice datasets, is false**: with `max_length=2` and `padding="max_length"` the
rows of this batch have four tokens. -/
theorem C142_choices_max_false :
    choiceBatch .maxLength 2 none (some 512) (fun m (s : List ℤ) => match m with | some n => s.take n | none => s) 0 [[[5, 6, 7], [8, 9, 5, 6]]] =
      .ok [[[5, 6, 7, 0], [8, 9, 5, 6]]] := by decide +kernel

end choices

section lm
variable {S : Type}

/-- **C142.** Masked language models: every chunk of `max_length` tokens of a batch comes back followed by padding tokens up to
`max_length` rounded up to a multiple of `pad_to_multiple_of`. -/
theorem C142_lm (mlm hasMask : Bool) (hmask : mlm = true → hasMask = true) (multiple : Option ℕ) (hm : multiple ≠ some 0) (padId : ℤ)
    (maxLength : ℕ) (chunks : List (List ℤ)) (hne : chunks ≠ []) (h : ∀ c ∈ chunks, c.length = maxLength) :
    ∃ rows, lmBatch mlm hasMask multiple padId chunks = .ok rows ∧
      List.Forall₂ (PaddedTo padId (roundUp multiple maxLength)) chunks rows := by
  have hlong : longestRow chunks = maxLength := by
    obtain ⟨r, hr, he⟩ := longest_mem chunks hne
    rw [← he, h r hr]
  have hl : ∀ r ∈ chunks, r.length ≤ roundUp multiple maxLength := fun r hr => by
    rw [h r hr]; exact le_roundUp _ _ hm
  refine ⟨chunks.map (padTo padId (roundUp multiple maxLength)), ?_, ?_⟩
  · unfold lmBatch
    rw [if_neg (by cases mlm <;> cases hasMask <;> simp_all)]
    simp only [padRows, if_neg hm, bind, Except.bind, hlong]
    exact padTo_all padId _ _ hl
  · rw [List.forall₂_map_right_iff, List.forall₂_same]
    exact fun c hc => padTo_padded padId _ _ (hl c hc)

/-- **C142, `max_length` of masked language models, is false**: unless `pad_to_multiple_of` divides it, rows are longer, for instance
128 tokens instead of 100 with the default of 64. -/
theorem C142_lm_max_false (m maxLength : ℕ) (hm : 0 < m) :
    (roundUp (some m) maxLength ≤ maxLength ↔ m ∣ maxLength) ∧ roundUp (some 64) 100 = 128 := by
  refine ⟨⟨fun h => ?_, fun h => ?_⟩, by decide⟩
  · have := roundUp_spec m maxLength hm
    rw [← le_antisymm h this.2.1]
    exact this.1
  · exact (roundUp_spec m maxLength hm).2.2 _ h le_rfl

/-- **C142.** A model without a mask token cannot be trained with masks; the error comes with the first batch. -/
theorem C142_lm_no_mask (multiple : Option ℕ) (padId : ℤ) (rows : List (List ℤ)) :
    lmBatch true false multiple padId rows = .error "ValueError" := rfl

/-- The number of chunks that come out of one block of texts. -/
theorem chunk_count (m : ℕ) (hm : 0 < m) (texts : List (List ℤ)) :
    ∃ cs, chunkTexts m texts = .ok cs ∧ (∀ c ∈ cs, c.length = m) ∧ cs.length = texts.flatten.length / m ∧
      cs.flatten = texts.flatten.take (texts.flatten.length / m * m) := by
  obtain ⟨hc, hf⟩ := slices_exact m hm (texts.flatten.take (texts.flatten.length / m * m)) (texts.flatten.length / m)
    (by rw [List.length_take]; exact Nat.min_eq_left (Nat.div_mul_le_self _ _))
  exact ⟨_, by unfold chunkTexts; simp only [if_neg hm.ne'], hf, hc, slices_flatten m hm _⟩

/-- **C142.** The rows of a dataset for masked language models: the texts are taken in blocks of 1000, and of the joined tokens of
each block all but fewer than `max_length` at its end are cut into chunks of `max_length` tokens; nothing else is lost. -/
theorem C142_chunks (maxLength : ℕ) (hm : 0 < maxLength) (tok : S → List ℤ) (texts : List S) :
    ∃ parts : List (List (List ℤ)), lmChunks maxLength 1 tok texts = .ok parts.flatten ∧
      List.Forall₂ (fun block cs : List (List ℤ) => (∀ c ∈ cs, c.length = maxLength) ∧
        ∃ rest, cs.flatten ++ rest = block.flatten ∧ rest.length < maxLength) ((slices 1000 texts).map (List.map tok)) parts := by
  have hall : ∀ t : List S, ∃ cs, chunkTexts maxLength (t.map tok) = .ok cs ∧ (∀ c ∈ cs, c.length = maxLength) ∧
      ∃ rest, cs.flatten ++ rest = (t.map tok).flatten ∧ rest.length < maxLength := fun t => C82_chunks maxLength hm (t.map tok)
  choose f hf using hall
  refine ⟨(slices 1000 texts).map f, ?_, ?_⟩
  · unfold lmChunks
    rw [if_neg (by decide), mapM_all_ok _ f _ fun t _ => (hf t).1]
    rfl
  · rw [List.forall₂_map_left_iff, List.forall₂_map_right_iff, List.forall₂_same]
    exact fun t _ => (hf t).2

/-- The number of rows of the dataset. -/
theorem lmChunks_length (maxLength : ℕ) (hm : 0 < maxLength) (tok : S → List ℤ) (texts : List S) :
    ∃ rows, lmChunks maxLength 1 tok texts = .ok rows ∧
      rows.length = ((slices 1000 texts).map fun t => (t.map tok).flatten.length / maxLength).sum := by
  have hall : ∀ t : List S, ∃ cs, chunkTexts maxLength (t.map tok) = .ok cs ∧ cs.length = (t.map tok).flatten.length / maxLength := fun t =>
    let ⟨cs, h1, _, h3, _⟩ := chunk_count maxLength hm (t.map tok)
    ⟨cs, h1, h3⟩
  choose f hf using hall
  refine ⟨((slices 1000 texts).map f).flatten, ?_, ?_⟩
  · unfold lmChunks
    rw [if_neg (by decide), mapM_all_ok _ f _ fun t _ => (hf t).1]
    rfl
  · rw [List.length_flatten, List.map_map]
    congr 1
    exact List.map_congr_left fun t _ => (hf t).2

/-- **C142, losing fewer than `max_length` tokens of a whole dataset, is false**: every block of 1000 texts loses its own end. Of
1999 texts of one token each, with `max_length=600`, two chunks are made instead of three. -/
theorem C142_chunks_false : ∃ rows, lmChunks 600 1 (fun n : ℤ => [n]) (List.replicate 1999 7) = .ok rows ∧ rows.length = 2 ∧ 600 ≤ 1999 - 600 * rows.length := by
  obtain ⟨rows, h1, h2⟩ := lmChunks_length 600 (by norm_num) (fun n : ℤ => [n]) (List.replicate 1999 7)
  refine ⟨rows, h1, ?_⟩
  have : rows.length = 2 := by
    rw [h2]
    have e : (List.replicate 1999 (7 : ℤ)).length = 1999 := List.length_replicate
    unfold slices
    rw [e, show (1999 + 1000 - 1) / 1000 = 2 from rfl, show List.range 2 = [0, 1] from rfl]
    simp only [List.map_cons, List.map_nil, List.drop_replicate, List.take_replicate, List.map_replicate, List.flatten_replicate_singleton,
      List.length_replicate]
    norm_num
  rw [this]
  norm_num

/-- **C142.** More than one text column, or none, is refused. -/
theorem C142_columns (maxLength columns : ℕ) (h : columns ≠ 1) (tok : S → List ℤ) (texts : List S) :
    lmChunks maxLength columns tok texts = .error "AssertionError" := by
  unfold lmChunks
  rw [if_pos h]

end lm

example : Truncates (fun m (s : List ℤ) => match m with | some n => s.take n | none => s) := by
  intro n s
  simp

example : sequenceBatch .longest 3 (some 64) (fun m (s : List ℤ) => match m with | some n => s.take n | none => s) 0 [[5, 6, 7, 8], [9]] =
    .ok [[5, 6, 7], [9, 0, 0]] := by decide +kernel

example : sequenceBatch .off 3 (some 64) (fun m (s : List ℤ) => match m with | some n => s.take n | none => s) 0 [[5, 6, 7, 8], [9]] =
    .error "ValueError" := by decide +kernel

example : lmBatch true true (some 4) 0 [[5, 6, 7], [8, 9, 1]] = .ok [[5, 6, 7, 0], [8, 9, 1, 0]] := by decide +kernel

example : choiceBatch .longest 9 (some 4) none (fun _ (s : List ℤ) => s) 0 [[[5], [6, 7]], [[8, 9, 1], [1]]] =
    .ok [[[5, 0, 0, 0], [6, 7, 0, 0]], [[8, 9, 1, 0], [1, 0, 0, 0]]] := by decide +kernel

/-! ### Concrete cases that meet the hypotheses of the theorems above -/

/-- A tokenizer that cuts at the front. -/
def exTok (m : Option ℕ) (s : List ℤ) : List ℤ := match m with | some n => s.take n | none => s

theorem exTok_truncates : Truncates exTok := by intro n s; simp [exTok]

example := C142_sequence exTok exTok_truncates 3 (some 64) 0 [[5, 6, 7, 8], [9]] (by simp)
example := C142_sequence_max exTok exTok_truncates 3 (some 64) 0 [[5, 6, 7, 8], [9]]
example := C142_sequence_off exTok exTok_truncates .off (.inl rfl) 3 (some 64) 0 [[5, 6, 7, 8], [9]]
example := C142_choices exTok .longest 9 (some 4) none (by decide) 0 2 (by decide) [[[5], [6, 7]], [[8, 9, 1], [1]]] (by simp) (by simp)
example := C142_lm true true (fun _ => rfl) (some 4) (by decide) 0 3 [[5, 6, 7], [8, 9, 1]] (by simp) (by simp)
example := C142_lm_max_false 4 6 (by decide)
example := C142_chunks 3 (by decide) (fun s : List ℤ => s) [[5, 6, 7, 8], [9, 1, 2]]

end Verif.Props.TextBatch
