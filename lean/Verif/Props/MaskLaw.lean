import Verif.Props.HuggingFace
import Mathlib.Algebra.BigOperators.Ring.Finset
import Mathlib.Data.Fintype.BigOperators
import Mathlib.Tactic.FieldSimp

/-!
Property C82, continued: the probabilities with which the collator for masked language models changes tokens.
-/
set_option linter.unusedSectionVars false

namespace Verif.Props.MaskLaw

open Verif.HuggingFace Finset

/-- The probability that a bit with rate `p` is `b`. -/
def bern (p : ℚ) (b : Bool) : ℚ := if b then p else 1 - p

/-- What is drawn at one position: three bits and a word of the vocabulary. -/
abbrev Raw (V : ℕ) := Bool × Bool × Bool × Fin V

def toDraw {V : ℕ} (r : Raw V) : Draw := ⟨r.1, r.2.1, r.2.2.1, (r.2.2.2 : ℕ)⟩

/-- The probability of the draws at one position, data_collator.py L150-174: rate `p` (0 at special tokens), 0.8, 0.5, and a uniform word
below `vocab_size`. -/
def weight (p : ℚ) (special : Bool) {V : ℕ} (r : Raw V) : ℚ :=
  bern (if special then 0 else p) r.1 * bern (4 / 5) r.2.1 * bern (1 / 2) r.2.2.1 * (1 / V)

/-- The probability that the result at one position has property `A`. -/
def prob (p : ℚ) (maskId : ℤ) (V : ℕ) (special : Bool) (tok : ℤ) (A : ℤ × ℤ → Prop) [DecidablePred A] : ℚ :=
  ∑ r : Raw V, weight p special r * if A (maskToken p maskId special tok (toDraw r)) then 1 else 0

theorem sum_raw {V : ℕ} (f : Raw V → ℚ) : ∑ r, f r = ∑ a : Bool, ∑ b : Bool, ∑ c : Bool, ∑ w : Fin V, f (a, b, c, w) := by
  rw [Fintype.sum_prod_type]
  refine Finset.sum_congr rfl fun a _ => ?_
  rw [Fintype.sum_prod_type]
  refine Finset.sum_congr rfl fun b _ => ?_
  rw [Fintype.sum_prod_type]

theorem weight_sum (p : ℚ) (special : Bool) {V : ℕ} (hV : 0 < V) : ∑ r : Raw V, weight p special r = 1 := by
  have hV' : (V : ℚ) ≠ 0 := by positivity
  rw [sum_raw]
  cases special
  · simp [weight, bern]
    field_simp
    ring
  · simp [weight, bern]
    field_simp
    ring

theorem sum_word {V : ℕ} (y : ℤ) : (∑ w : Fin V, if ((w : ℕ) : ℤ) = y then (1 : ℚ) else 0) = if 0 ≤ y ∧ y < V then 1 else 0 := by
  by_cases h : 0 ≤ y ∧ y < V
  · rw [if_pos h, Finset.sum_eq_single (⟨y.toNat, by omega⟩ : Fin V)]
    · rw [if_pos]; simp; omega
    · intro b _ hb
      rw [if_neg]
      intro hc
      apply hb
      ext
      simp; omega
    · simp
  · rw [if_neg h]
    refine Finset.sum_eq_zero fun w _ => if_neg fun hc => h ?_
    have := w.2
    omega

/-- What the documentation says. -/
def intended (maskId tok : ℤ) {V : ℕ} (r : Raw V) : ℤ × ℤ :=
  if r.1 then (if r.2.1 then (maskId, tok) else if r.2.2.1 then (((r.2.2.2 : ℕ) : ℤ), tok) else (tok, tok)) else (tok, -100)

theorem maskToken_intended (p : ℚ) (maskId : ℤ) (special : Bool) (tok : ℤ) {V : ℕ} (r : Raw V) (hw : weight p special r ≠ 0) :
    maskToken p maskId special tok (toDraw r) = intended maskId tok r := by
  have e1 : ¬(4 / 5 : ℚ) = 0 := by norm_num
  have e2 : ¬(4 / 5 : ℚ) = 1 := by norm_num
  have e3 : ¬(1 / 2 : ℚ) = 0 := by norm_num
  have e4 : ¬(1 / 2 : ℚ) = 1 := by norm_num
  obtain ⟨a, b, c, w⟩ := r
  unfold maskToken intended toDraw
  have hm : binom (if special then 0 else p) a = a := by
    unfold binom
    generalize hq : (if special then 0 else p) = q at hw ⊢
    have hb : bern q a ≠ 0 := by
      intro h
      apply hw
      unfold weight
      rw [hq]
      simp [h]
    by_cases h0 : q = 0
    · subst h0
      cases a
      · simp
      · simp [bern] at hb
    · by_cases h1 : q = 1
      · subst h1
        cases a
        · simp [bern] at hb
        · simp
      · simp [h0, h1]
  simp only [hm]
  simp only [binom, if_neg e1, if_neg e2, if_neg e3, if_neg e4]
  cases a <;> cases b <;> cases c <;> simp

theorem sum_intended (p : ℚ) (maskId : ℤ) (special : Bool) (tok : ℤ) {V : ℕ} (F : ℤ × ℤ → ℚ) :
    ∑ r : Raw V, weight p special r * F (maskToken p maskId special tok (toDraw r)) =
      ∑ r : Raw V, weight p special r * F (intended maskId tok r) := by
  refine Finset.sum_congr rfl fun r _ => ?_
  by_cases h : weight p special r = 0
  · rw [h, zero_mul, zero_mul]
  · rw [maskToken_intended p maskId special tok r h]

/-- **C82, the law at one position.** A token that is not special gets its label with probability `p`, and then becomes the mask token with
probability 8/10, stays with probability 1/10 and is replaced by a uniformly drawn word with probability 1/10; without label it stays. -/
theorem C82_mask_law (p : ℚ) (maskId : ℤ) (V : ℕ) (hV : 0 < V) (tok y : ℤ) (ht : tok ≠ -100) :
    prob p maskId V false tok (· = (y, tok)) =
      p * (8 / 10 * (if y = maskId then 1 else 0) + 1 / 10 * (if y = tok then 1 else 0) + 1 / 10 * (if 0 ≤ y ∧ y < V then (1 / V : ℚ) else 0)) ∧
    prob p maskId V false tok (· = (y, -100)) = (1 - p) * (if y = tok then 1 else 0) := by
  have hV' : (V : ℚ) ≠ 0 := by positivity
  have hw := sum_word (V := V) y
  have ht' : ¬(-100 = tok) := fun h => ht h.symm
  unfold prob
  rw [sum_intended p maskId false tok fun z => if z = (y, tok) then 1 else 0,
    sum_intended p maskId false tok fun z => if z = (y, -100) then 1 else 0, sum_raw, sum_raw]
  constructor
  · simp only [Fintype.sum_bool, weight, bern, intended]
    simp only [if_true, Bool.false_eq_true, if_false, Prod.mk.injEq, and_true, ht', and_false, mul_zero, Finset.sum_const_zero, add_zero]
    simp only [← Finset.mul_sum]
    rw [hw]
    simp only [Finset.sum_const, Finset.card_univ, Fintype.card_fin, nsmul_eq_mul, eq_comm (a := maskId), eq_comm (a := tok)]
    split_ifs <;> field_simp <;> ring
  · simp only [Fintype.sum_bool, weight, bern, intended]
    simp only [if_true, Bool.false_eq_true, if_false, Prod.mk.injEq, and_true, ht, and_false, mul_zero, Finset.sum_const_zero, zero_add]
    simp only [Finset.sum_const, Finset.card_univ, Fintype.card_fin, nsmul_eq_mul, eq_comm (a := tok)]
    split_ifs <;> field_simp <;> ring

/-- **C82, who gets a label.** A token that is not special has a label with probability `p`, a special one never. -/
theorem C82_mask_label_law (p : ℚ) (maskId : ℤ) (V : ℕ) (hV : 0 < V) (special : Bool) (tok : ℤ) (ht : tok ≠ -100) :
    prob p maskId V special tok (fun z => z.2 ≠ -100) = if special then 0 else p := by
  have hV' : (V : ℚ) ≠ 0 := by positivity
  unfold prob
  rw [sum_intended p maskId special tok fun z => if z.2 ≠ -100 then 1 else 0, sum_raw]
  simp only [Fintype.sum_bool, weight, bern, intended]
  cases special <;> simp [ht] <;> field_simp <;> ring

/-! ### Whole sequences -/

/-- The expectation of a statistic `F` of what the collator returns, over independent draws at the `L` positions. -/
def seqMean (p : ℚ) (maskId : ℤ) (V : ℕ) {L : ℕ} (special : Fin L → Bool) (tok : Fin L → ℤ) (F : Except String (List ℤ × List ℤ) → ℚ) : ℚ :=
  ∑ r : Fin L → Raw V, (∏ i, weight p (special i) (r i)) *
    F (collateLM true p maskId none (some (List.ofFn special)) (List.ofFn tok) (List.ofFn fun i => toDraw (r i)))

/-- The number of labels. -/
def labels : Except String (List ℤ × List ℤ) → ℕ
  | .ok (_, lab) => lab.countP (· ≠ -100)
  | .error _ => 0

theorem collate_ofFn (p : ℚ) (hp : 0 ≤ p ∧ p ≤ 1) (maskId : ℤ) {L : ℕ} (special : Fin L → Bool) (tok : Fin L → ℤ) (d : Fin L → Draw) :
    collateLM true p maskId none (some (List.ofFn special)) (List.ofFn tok) (List.ofFn d) =
      .ok (List.ofFn fun i => (maskToken p maskId (special i) (tok i) (d i)).1, List.ofFn fun i => (maskToken p maskId (special i) (tok i) (d i)).2) := by
  unfold collateLM
  simp only [if_true]
  rw [if_neg fun h => h.1.elim (not_lt.2 hp.1) (not_lt.2 hp.2)]
  congr 2
  · apply List.ext_getElem <;> simp
  · apply List.ext_getElem <;> simp

theorem product_law (p : ℚ) (V L : ℕ) (special : Fin L → Bool) (h : Fin L → Raw V → ℚ) :
    ∑ r : Fin L → Raw V, (∏ i, weight p (special i) (r i)) * ∏ i, h i (r i) = ∏ i, ∑ r : Raw V, weight p (special i) r * h i r := by
  rw [Finset.prod_univ_sum]
  simp only [Fintype.piFinset_univ, ← Finset.prod_mul_distrib]

theorem prod_indicator {L : ℕ} (B : Fin L → Prop) [DecidablePred B] : (if ∀ i, B i then (1 : ℚ) else 0) = ∏ i, if B i then 1 else 0 := by
  by_cases h : ∀ i, B i
  · rw [if_pos h, Finset.prod_eq_one fun i _ => if_pos (h i)]
  · rw [if_neg h]
    push Not at h
    obtain ⟨i, hi⟩ := h
    rw [Finset.prod_eq_zero (mem_univ i) (if_neg hi)]

/-- **C82, the law of a sequence.** Positions are masked independently: the probability of a result is the product of those of its positions. -/
theorem C82_mask_sequence_law (p : ℚ) (hp : 0 ≤ p ∧ p ≤ 1) (maskId : ℤ) (V : ℕ) {L : ℕ} (special : Fin L → Bool) (tok inp lab : Fin L → ℤ) :
    seqMean p maskId V special tok (fun z => match z with
      | .ok z => if z = (List.ofFn inp, List.ofFn lab) then 1 else 0
      | .error _ => 0) = ∏ i, prob p maskId V (special i) (tok i) (· = (inp i, lab i)) := by
  unfold seqMean prob
  rw [← product_law]
  refine Finset.sum_congr rfl fun r _ => ?_
  rw [collate_ofFn p hp, ← prod_indicator]
  congr 1
  dsimp only
  refine if_congr ?_ rfl rfl
  rw [Prod.mk.injEq, List.ofFn_inj, List.ofFn_inj]
  constructor
  · rintro ⟨h1, h2⟩ i
    exact Prod.ext (congrFun h1 i) (congrFun h2 i)
  · intro h
    exact ⟨funext fun i => congrArg Prod.fst (h i), funext fun i => congrArg Prod.snd (h i)⟩

theorem labels_ofFn {L : ℕ} (inp : List ℤ) (lab : Fin L → ℤ) :
    labels (.ok (inp, List.ofFn lab)) = ∑ i, if lab i ≠ -100 then 1 else 0 := by
  unfold labels
  simp only
  induction L with
  | zero => simp
  | succ L ih =>
    rw [List.ofFn_succ, List.countP_cons, ih, Fin.sum_univ_succ, add_comm]
    simp

/-- **C82, sequences without any label.** With probability `(1 - p) ^ k`, for `k` tokens that are not special, no position has a label. -/
theorem C82_mask_none_law (p : ℚ) (hp : 0 ≤ p ∧ p ≤ 1) (maskId : ℤ) (V : ℕ) (hV : 0 < V) {L : ℕ} (special : Fin L → Bool) (tok : Fin L → ℤ)
    (ht : ∀ i, tok i ≠ -100) :
    seqMean p maskId V special tok (fun z => if labels z = 0 then 1 else 0) =
      (1 - p) ^ (Finset.univ.filter fun i => special i = false).card := by
  have h1 : ∀ i, ∑ r : Raw V, weight p (special i) r *
      (if (maskToken p maskId (special i) (tok i) (toDraw r)).2 = -100 then 1 else 0) = if special i = false then 1 - p else 1 := fun i => by
    have e := C82_mask_label_law p maskId V hV (special i) (tok i) (ht i)
    have e' := weight_sum p (special i) hV
    unfold prob at e
    have : ∀ r : Raw V, weight p (special i) r * (if (maskToken p maskId (special i) (tok i) (toDraw r)).2 = -100 then 1 else 0) =
        weight p (special i) r - weight p (special i) r * (if (maskToken p maskId (special i) (tok i) (toDraw r)).2 ≠ -100 then 1 else 0) := fun r => by
      by_cases h : (maskToken p maskId (special i) (tok i) (toDraw r)).2 = -100 <;> simp [h]
    simp only [this]
    rw [Finset.sum_sub_distrib, e', e]
    cases special i <;> simp
  rw [← Finset.prod_const, Finset.prod_filter, ← Finset.prod_congr rfl fun i _ => h1 i, ← product_law]
  unfold seqMean
  refine Finset.sum_congr rfl fun r _ => ?_
  rw [collate_ofFn p hp, ← prod_indicator]
  dsimp only
  rw [labels_ofFn]
  congr 1
  refine if_congr ?_ rfl rfl
  simp

/-- **C82, the expected number of labels** is `p` times the number of tokens that are not special. -/
theorem C82_mask_count_law (p : ℚ) (hp : 0 ≤ p ∧ p ≤ 1) (maskId : ℤ) (V : ℕ) (hV : 0 < V) {L : ℕ} (special : Fin L → Bool) (tok : Fin L → ℤ)
    (ht : ∀ i, tok i ≠ -100) :
    seqMean p maskId V special tok (fun z => (labels z : ℚ)) = p * (Finset.univ.filter fun i => special i = false).card := by
  unfold seqMean
  have h1 : ∀ r : Fin L → Raw V, (∏ i, weight p (special i) (r i)) *
      (labels (collateLM true p maskId none (some (List.ofFn special)) (List.ofFn tok) (List.ofFn fun i => toDraw (r i))) : ℚ) =
      ∑ j, (∏ i, weight p (special i) (r i)) *
        ∏ i, if i = j then (if (maskToken p maskId (special i) (tok i) (toDraw (r i))).2 ≠ -100 then 1 else 0) else 1 := fun r => by
    rw [collate_ofFn p hp, labels_ofFn, ← Finset.mul_sum]
    congr 1
    push_cast
    refine Finset.sum_congr rfl fun j _ => ?_
    rw [Finset.prod_ite_eq' univ j]
    simp
  simp only [h1]
  rw [Finset.sum_comm]
  have h2 : ∀ j : Fin L, ∑ r : Fin L → Raw V, (∏ i, weight p (special i) (r i)) *
      ∏ i, (if i = j then (if (maskToken p maskId (special i) (tok i) (toDraw (r i))).2 ≠ -100 then 1 else 0) else (1 : ℚ)) =
      if special j = false then p else 0 := fun j => by
    rw [product_law p V L special fun i x => if i = j then (if (maskToken p maskId (special i) (tok i) (toDraw x)).2 ≠ -100 then 1 else 0) else 1]
    rw [Finset.prod_eq_single j]
    · simp only [if_true]
      rw [show (∑ r : Raw V, weight p (special j) r * if (maskToken p maskId (special j) (tok j) (toDraw r)).2 ≠ -100 then 1 else 0) =
        prob p maskId V (special j) (tok j) (fun z => z.2 ≠ -100) from rfl, C82_mask_label_law p maskId V hV _ _ (ht j)]
      cases special j <;> simp
    · intro i _ hij
      simp only [if_neg hij, mul_one]
      exact weight_sum p _ hV
    · simp
  simp only [h2]
  rw [← Finset.sum_filter]
  simp [mul_comm]

/-- With the default rate 0.15 and a vocabulary of 1000 words, a token that is not the mask token stays what it is with probability
0.85 + 0.15 (0.1 + 0.1 / 1000), a little more than documented. -/
example : prob (15 / 100) 103 1000 false 7 (· = (7, 7)) = 15 / 100 * (1 / 10 + 1 / 10 * (1 / 1000)) ∧
    prob (15 / 100) 103 1000 false 7 (· = (103, 7)) = 15 / 100 * (8 / 10 + 1 / 10 * (1 / 1000)) := by
  refine ⟨?_, ?_⟩
  · rw [(C82_mask_law (15 / 100) 103 1000 (by norm_num) 7 7 (by norm_num)).1]
    norm_num
  · rw [(C82_mask_law (15 / 100) 103 1000 (by norm_num) 7 103 (by norm_num)).1]
    norm_num

/-- A text of two words between the two special tokens: with the default rate it has no label with probability 0.7225, and the expected number
of labels is 0.3. -/
example : seqMean (15 / 100) 103 1000 ![true, false, false, true] ![101, 7, 8, 102] (fun z => if labels z = 0 then 1 else 0) = 289 / 400 ∧
    seqMean (15 / 100) 103 1000 ![true, false, false, true] ![101, 7, 8, 102] (fun z => (labels z : ℚ)) = 3 / 10 := by
  have hc : (Finset.univ.filter fun i : Fin 4 => (![true, false, false, true] : Fin 4 → Bool) i = false).card = 2 := by decide
  have ht : ∀ i : Fin 4, (![101, 7, 8, 102] : Fin 4 → ℤ) i ≠ -100 := by decide
  rw [C82_mask_none_law _ (by norm_num) _ _ (by norm_num) _ _ ht, C82_mask_count_law _ (by norm_num) _ _ (by norm_num) _ _ ht, hc]
  norm_num

/-! ### Concrete cases that meet the hypotheses of the theorems above -/

example := C82_mask_label_law (15 / 100) 103 1000 (by norm_num) false 7 (by norm_num)
example := C82_mask_sequence_law (15 / 100) (by norm_num) 103 1000 ![true, false, false, true] ![101, 7, 8, 102] ![101, 103, 8, 102] ![-100, 7, -100, -100]

end Verif.Props.MaskLaw
