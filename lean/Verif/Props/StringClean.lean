import Mathlib.Data.List.Basic
import Mathlib.Tactic.SplitIfs
import Verif.Model.StringClean

/-!
# Property C143: what cleaning a text changes
-/

set_option linter.unusedSectionVars false

namespace Verif.Props.StringClean

open Verif.StringClean

/-! ## Specification -/

/-- The characters of a text that are not spaces. -/
def content (t : List Char) : List Char := t.filter fun c => !isSpace c

/-- Upper case for the first character (if `b`) and after every `m`, lower case elsewhere. -/
def capitalAfter (up low : Char → Char) (m : Char) : Bool → List Char → List Char
  | _, [] => []
  | b, c :: l => (if b then up c else low c) :: capitalAfter up low m (decide (c = m)) l

/-- No space at either end. -/
def Trimmed (t : List Char) : Prop := (∀ c, t.head? = some c → isSpace c = false) ∧ ∀ c, t.getLast? = some c → isSpace c = false

/-- Upper and lower case: only letters change, and one can go back. -/
structure CaseMap (up low : Char → Char) : Prop where
  lowLow : ∀ c, low (low c) = low c
  lowUp : ∀ c, low (up c) = low c
  upLow : ∀ c, up (low c) = up c
  upUp : ∀ c, up (up c) = up c
  space : ∀ c, isSpace (up c) = isSpace c ∧ isSpace (low c) = isSpace c
  mark : ∀ m ∈ ['.', '?', '!', '\''], ∀ c, (up c = m ↔ c = m) ∧ (low c = m ↔ c = m)

/-! ## Steps -/

theorem content_append (a b : List Char) : content (a ++ b) = content a ++ content b := List.filter_append ..

theorem dropSpaces_content (t : List Char) : content (dropSpaces t) = content t := by
  induction t using dropSpaces.induct with
  | case1 s p q rest h ih =>
    rw [dropSpaces, if_pos h]
    simp only [Bool.and_eq_true] at h
    simp only [content, List.filter_cons, h.1.1, h.2, Bool.not_true, Bool.false_eq_true, if_false] at ih ⊢
    rw [ih]
  | case2 s p q rest h ih =>
    rw [dropSpaces, if_neg h]
    simp only [content, List.filter_cons] at ih ⊢
    rw [ih]
  | case3 s p h =>
    rw [dropSpaces, if_pos h]
    simp only [Bool.and_eq_true] at h
    simp [content, List.filter_cons, h.1]
  | case4 s p h => rw [dropSpaces, if_neg h]
  | case5 l h1 h2 =>
    rw [dropSpaces]
    · exact h1
    · exact h2

theorem dropWhile_content (s : List Char) : content (s.dropWhile isSpace) = content s := by
  induction s with
  | nil => rfl
  | cons c s ih =>
    rw [List.dropWhile_cons]
    by_cases h : isSpace c = true
    · rw [if_pos h, ih]; simp [content, h]
    · rw [if_neg h]

theorem content_reverse (s : List Char) : content s.reverse = (content s).reverse := List.filter_reverse ..

theorem strip_content (s : List Char) : content (strip s) = content s := by
  unfold strip
  rw [content_reverse, dropWhile_content, content_reverse, List.reverse_reverse, dropWhile_content]

theorem dropWhile_head (s : List Char) : ∀ c, (s.dropWhile isSpace).head? = some c → isSpace c = false := by
  intro c hc
  induction s with
  | nil => simp at hc
  | cons a s ih =>
    rw [List.dropWhile_cons] at hc
    by_cases h : isSpace a = true
    · rw [if_pos h] at hc; exact ih hc
    · rw [if_neg h] at hc
      simp at hc
      subst hc
      simpa using h

theorem dropWhile_last (s : List Char) (c : Char) (h : (s.dropWhile isSpace).getLast? = some c) : s.getLast? = some c := by
  induction s with
  | nil => simpa using h
  | cons a s ih =>
    rw [List.dropWhile_cons] at h
    by_cases ha : isSpace a = true
    · rw [if_pos ha] at h
      have := ih h
      cases s with
      | nil => simp at this
      | cons b s => simpa using this
    · rw [if_neg ha] at h; exact h

theorem strip_trimmed (s : List Char) : Trimmed (strip s) := by
  unfold strip
  constructor
  · intro c hc
    rw [List.head?_reverse] at hc
    have := dropWhile_last _ _ hc
    rw [List.getLast?_reverse] at this
    exact dropWhile_head s c this
  · intro c hc
    rw [List.getLast?_reverse] at hc
    exact dropWhile_head _ c hc

theorem split_ne (m : Char) (t : List Char) : split m t ≠ [] := by
  cases t with
  | nil => simp [split]
  | cons c t =>
    rw [split]
    split_ifs
    · simp
    · split <;> simp

theorem split_cons_ne {m c : Char} (h : c ≠ m) (t : List Char) : ∃ s r, split m t = s :: r ∧ split m (c :: t) = (c :: s) :: r := by
  rw [split, if_neg h]
  cases hs : split m t with
  | nil => exact absurd hs (split_ne m t)
  | cons s r => exact ⟨s, r, rfl, rfl⟩

theorem split_free (m : Char) (t : List Char) : ∀ s ∈ split m t, m ∉ s := by
  induction t with
  | nil => simp [split]
  | cons c t ih =>
    by_cases h : c = m
    · intro s hs
      rw [split, if_pos h] at hs
      rcases List.mem_cons.1 hs with rfl | hs
      · simp
      · exact ih s hs
    · obtain ⟨s, r, h1, h2⟩ := split_cons_ne h t
      rw [h1] at ih
      rw [h2]
      intro q hq
      rcases List.mem_cons.1 hq with rfl | hq
      · intro hm
        rcases List.mem_cons.1 hm with h' | hm
        · exact h h'.symm
        · exact ih s (List.mem_cons_self ..) hm
      · exact ih q (List.mem_cons_of_mem _ hq)

theorem join_cons (sep s : List Char) (r : List (List Char)) (h : r ≠ []) : join sep (s :: r) = s ++ sep ++ join sep r := by
  cases r with
  | nil => exact absurd rfl h
  | cons a r => rfl

/-- Joining again what was split gives the text back. -/
theorem join_split (m : Char) (t : List Char) : join [m] (split m t) = t := by
  induction t with
  | nil => rfl
  | cons c t ih =>
    by_cases h : c = m
    · rw [split, if_pos h, join_cons _ _ _ (split_ne m t), ih, h]; rfl
    · obtain ⟨s, r, h1, h2⟩ := split_cons_ne h t
      rw [h2]
      rw [h1] at ih
      cases r with
      | nil => simp only [join] at ih ⊢; rw [ih]
      | cons a r =>
        rw [join_cons _ _ _ (by simp)] at ih ⊢
        rw [← ih]; rfl

section cases
variable {up low : Char → Char} (H : CaseMap up low)
include H

theorem content_map_low (s : List Char) : content (s.map low) = (content s).map low := by
  induction s with
  | nil => rfl
  | cons c s ih =>
    simp only [content, List.map_cons, List.filter_cons, (H.space c).2] at ih ⊢
    by_cases h : isSpace c = true
    · simp [h, ih]
    · simp [h, ih]

theorem content_capitalize_strip (s : List Char) : content (capitalize up low (strip s)) = capitalize up low (content s) := by
  rw [← strip_content s]
  have ht := (strip_trimmed s).1
  cases h : strip s with
  | nil => rfl
  | cons c r =>
    have hc := ht c (by rw [h]; rfl)
    have h1 : content (c :: r) = c :: content r := by simp [content, hc]
    rw [h1]
    simp only [capitalize]
    rw [← content_map_low H]
    simp [content, (H.space c).1, hc]

/-- What one of the three steps does to the characters that are not spaces. -/
theorem sentences_content (m : Char) (hm : isSpace m = false) (hup : ∀ c, (up c = m ↔ c = m) ∧ (low c = m ↔ c = m)) (t : List Char) :
    content (sentences up low m t) = capitalAfter up low m true (content t) := by
  have hum : up m = m := (hup m).1.2 rfl
  have hlm : low m = m := (hup m).2.2 rfl
  have hlow : ∀ l : List Char, m ∉ l → capitalAfter up low m false l = l.map low := by
    intro l
    induction l with
    | nil => intro _; rfl
    | cons c l ih =>
      intro h
      have hc : c ≠ m := fun e => h (by rw [e]; exact List.mem_cons_self ..)
      simp [capitalAfter, hc, ih fun h' => h (List.mem_cons_of_mem _ h')]
  have key : ∀ (b : Bool) (s : List Char) (r : List (List Char)), m ∉ s → (∀ q ∈ r, m ∉ q) →
      capitalAfter up low m b (content (join [m] (s :: r))) =
        (if b then capitalize up low (content s) else (content s).map low) ++
          (r.map fun q => m :: capitalize up low (content q)).flatten := by
    intro b s r
    induction r generalizing b s with
    | nil =>
      intro hs _
      simp only [join, List.map_nil, List.flatten_nil, List.append_nil]
      have hs' : m ∉ content s := fun h => hs (List.mem_of_mem_filter h)
      cases hc : content s with
      | nil => cases b <;> rfl
      | cons c l =>
        rw [hc] at hs'
        have hcm : c ≠ m := fun e => hs' (by rw [e]; exact List.mem_cons_self ..)
        have := hlow l fun h => hs' (List.mem_cons_of_mem _ h)
        cases b <;> simp [capitalAfter, capitalize, hcm, this]
    | cons q r ih =>
      intro hs hr
      rw [join_cons _ _ _ (by simp), content_append, content_append]
      have h1 : content [m] = [m] := by simp [content, hm]
      rw [h1]
      have ih' := ih true q (hr q (List.mem_cons_self ..)) fun p hp => hr p (List.mem_cons_of_mem _ hp)
      have hs' : m ∉ content s := fun h => hs (List.mem_of_mem_filter h)
      have step : ∀ (b : Bool) (l : List Char), m ∉ l → ∀ x, capitalAfter up low m b (l ++ [m] ++ x) =
          (if b then capitalize up low l else l.map low) ++ (m :: capitalAfter up low m true x) := by
        intro b l hl x
        have h0 : ∀ (l : List Char), m ∉ l → ∀ x, capitalAfter up low m false (l ++ [m] ++ x) = l.map low ++ (m :: capitalAfter up low m true x) := by
          intro l
          induction l with
          | nil => intro _ x; simp [capitalAfter, hlm]
          | cons c l ihl =>
            intro h x
            have hc : c ≠ m := fun e => h (by rw [e]; exact List.mem_cons_self ..)
            have := ihl (fun h' => h (List.mem_cons_of_mem _ h')) x
            simp only [List.cons_append, capitalAfter, hc, decide_false, Bool.false_eq_true, if_false, List.map_cons]
            rw [this]
        cases b with
        | false => exact h0 l hl x
        | true =>
          cases l with
          | nil => simp [capitalAfter, capitalize, hum]
          | cons c l =>
            have hc : c ≠ m := fun e => hl (by rw [e]; exact List.mem_cons_self ..)
            have := h0 l (fun h' => hl (List.mem_cons_of_mem _ h')) x
            simp only [List.cons_append, capitalAfter, hc, decide_false, if_true, capitalize]
            rw [this]
      rw [step b _ hs', ih']
      simp
  have hjoin : ∀ (s : List Char) (r : List (List Char)), content (join [m, ' '] ((s :: r).map fun s => capitalize up low (strip s))) =
      capitalize up low (content s) ++ (r.map fun q => m :: capitalize up low (content q)).flatten := by
    intro s r
    induction r generalizing s with
    | nil => simp [join, content_capitalize_strip H]
    | cons q r ih =>
      rw [List.map_cons, join_cons _ _ ((q :: r).map _) (by simp), content_append, content_append, ih q, content_capitalize_strip H]
      have hsp : isSpace ' ' = true := by decide
      have : content [m, ' '] = [m] := by simp [content, hm, hsp]
      rw [this]
      simp
  unfold sentences
  cases hsp : split m t with
  | nil => exact absurd hsp (split_ne m t)
  | cons s r =>
    have hf := split_free m t
    rw [hsp] at hf
    rw [hjoin, ← join_split m t, hsp]
    rw [key true s r (hf s (List.mem_cons_self ..)) fun q hq => hf q (List.mem_cons_of_mem _ hq)]
    rfl

theorem capitalAfter_low (m : Char) (b : Bool) (l : List Char) : (capitalAfter up low m b l).map low = l.map low := by
  induction l generalizing b with
  | nil => rfl
  | cons c l ih =>
    simp only [capitalAfter, List.map_cons, ih]
    cases b
    · simp [H.lowLow]
    · simp [H.lowUp]

/-- The case of the text before does not matter. -/
theorem capitalAfter_congr (m : Char) (hup : ∀ c, low c = m ↔ c = m) (b : Bool) (l l' : List Char) (h : l.map low = l'.map low) :
    capitalAfter up low m b l = capitalAfter up low m b l' := by
  induction l generalizing b l' with
  | nil => cases l' with
    | nil => rfl
    | cons c l' => simp at h
  | cons c l ih =>
    cases l' with
    | nil => simp at h
    | cons c' l' =>
      simp only [List.map_cons, List.cons.injEq] at h
      have e1 : up c = up c' := by rw [← H.upLow c, h.1, H.upLow]
      have e2 : (c = m) = (c' = m) := by rw [← hup c, h.1, hup]
      simp only [capitalAfter, h.1, e1, e2]
      rw [ih _ l' h.2]

end cases

theorem closeQuotes_free (s : List Char) (h : '\'' ∉ s) : closeQuotes s = s := by
  induction s using closeQuotes.induct with
  | case1 a b c rest hc ih => exact absurd (by rw [hc.2.1]; simp) h
  | case2 a b c rest hc ih => rw [closeQuotes, if_neg hc, ih fun h' => h (List.mem_cons_of_mem _ h')]
  | case3 l hl => rw [closeQuotes]; exact hl

theorem closeQuotes_seg (s r : List Char) (h : '\'' ∉ s) : closeQuotes (s ++ [' ', '\'', ' '] ++ r) = s ++ ['\''] ++ closeQuotes r := by
  induction s with
  | nil => simp [closeQuotes]
  | cons c s ih =>
    have ih' := ih fun h' => h (List.mem_cons_of_mem _ h')
    cases s with
    | nil =>
      simp only [List.nil_append, List.cons_append] at ih' ⊢
      rw [closeQuotes, if_neg (by simp), ih']
    | cons d s =>
      have hd : d ≠ '\'' := fun e => h (by rw [e]; simp)
      cases s with
      | nil =>
        simp only [List.nil_append, List.cons_append] at ih' ⊢
        rw [closeQuotes, if_neg (fun h => hd h.2.1), ih']
      | cons e s =>
        simp only [List.nil_append, List.cons_append] at ih' ⊢
        rw [closeQuotes, if_neg (fun h => hd h.2.1), ih']

theorem closeQuotes_join (segs : List (List Char)) (h : ∀ s ∈ segs, '\'' ∉ s) : closeQuotes (join [' ', '\'', ' '] segs) = join ['\''] segs := by
  induction segs with
  | nil => rfl
  | cons s segs ih =>
    cases segs with
    | nil => exact closeQuotes_free s (h s (List.mem_cons_self ..))
    | cons q segs =>
      rw [join_cons _ s (q :: segs) (by simp), join_cons _ s (q :: segs) (by simp), closeQuotes_seg _ _ (h s (List.mem_cons_self ..)),
        ih fun s hs => h s (List.mem_cons_of_mem _ hs)]

theorem mem_strip {c : Char} {s : List Char} (h : c ∈ strip s) : c ∈ s := by
  unfold strip at h
  rw [List.mem_reverse] at h
  have h1 := (List.dropWhile_sublist _).subset h
  rw [List.mem_reverse] at h1
  exact (List.dropWhile_sublist _).subset h1

/-- The last two steps: the parts between apostrophes are stripped. -/
theorem quotes_eq (t : List Char) : closeQuotes (join [' ', '\'', ' '] ((split '\'' t).map strip)) = join ['\''] ((split '\'' t).map strip) := by
  refine closeQuotes_join _ fun s hs => ?_
  obtain ⟨q, hq, rfl⟩ := List.mem_map.1 hs
  exact fun h => split_free '\'' t q hq (mem_strip h)

theorem quotes_content (t : List Char) : content (join ['\''] ((split '\'' t).map strip)) = content t := by
  have : ∀ segs : List (List Char), content (join ['\''] (segs.map strip)) = content (join ['\''] segs) := by
    intro segs
    induction segs with
    | nil => rfl
    | cons s segs ih =>
      cases segs with
      | nil => exact strip_content s
      | cons q segs =>
        rw [List.map_cons, join_cons _ _ _ (by simp), join_cons _ _ _ (by simp), content_append, content_append, ih, strip_content,
          content_append, content_append]
  rw [this, join_split]

theorem trimmed_append (a b : List Char) (sep : Char) (hs : isSpace sep = false) (ha : Trimmed a) (hb : Trimmed b) : Trimmed (a ++ [sep] ++ b) := by
  constructor
  · intro c hc
    cases a with
    | nil => simp at hc; rw [← hc]; exact hs
    | cons d a => exact ha.1 c (by simpa using hc)
  · intro c hc
    rcases List.eq_nil_or_concat b with rfl | ⟨b', d, rfl⟩
    · simp at hc; rw [← hc]; exact hs
    · refine hb.2 c ?_
      rw [List.concat_eq_append, ← List.append_assoc, List.getLast?_concat] at hc
      rw [List.concat_eq_append, List.getLast?_concat]
      exact hc

theorem trimmed_join (segs : List (List Char)) (h : ∀ s ∈ segs, Trimmed s) : Trimmed (join ['\''] segs) := by
  induction segs with
  | nil => exact ⟨by simp [join], by simp [join]⟩
  | cons s segs ih =>
    cases segs with
    | nil => exact h s (List.mem_cons_self ..)
    | cons q segs =>
      rw [join_cons _ _ _ (by simp)]
      exact trimmed_append _ _ _ (by decide) (h s (List.mem_cons_self ..)) (ih fun s hs => h s (List.mem_cons_of_mem _ hs))

/-- In a text of stripped parts joined by apostrophes, what is before and after any apostrophe is stripped. -/
theorem apostrophe_join (segs : List (List Char)) (h : ∀ s ∈ segs, Trimmed s ∧ '\'' ∉ s) (a b : List Char) (hab : join ['\''] segs = a ++ ['\''] ++ b) :
    Trimmed a ∧ Trimmed b := by
  induction segs generalizing a with
  | nil => simp [join] at hab
  | cons s segs ih =>
    cases segs with
    | nil =>
      exfalso
      refine (h s (List.mem_cons_self ..)).2 ?_
      simp only [join] at hab
      rw [hab]; simp
    | cons q segs =>
      rw [join_cons _ _ _ (by simp)] at hab
      have hrest : ∀ s ∈ q :: segs, Trimmed s ∧ '\'' ∉ s := fun s hs => h s (List.mem_cons_of_mem _ hs)
      rw [List.append_assoc, List.append_assoc, List.append_eq_append_iff] at hab
      rcases hab with ⟨x, hx1, hx2⟩ | ⟨x, hx1, hx2⟩
      · cases x with
        | nil =>
          simp at hx1 hx2
          subst hx1
          rw [← hx2]
          exact ⟨(h a (List.mem_cons_self ..)).1, trimmed_join _ fun s hs => (hrest s hs).1⟩
        | cons c x =>
          simp only [List.cons_append, List.nil_append, List.cons.injEq] at hx2
          obtain ⟨rfl, hx2⟩ := hx2
          have := ih hrest x (by rw [hx2]; simp)
          refine ⟨?_, this.2⟩
          rw [hx1]
          have := trimmed_append s x '\'' (by decide) (h s (List.mem_cons_self ..)).1 this.1
          simpa using this
      · cases x with
        | nil =>
          simp at hx1 hx2
          subst hx1
          rw [hx2]
          exact ⟨(h s (List.mem_cons_self ..)).1, trimmed_join _ fun s hs => (hrest s hs).1⟩
        | cons c x =>
          exfalso
          simp only [List.cons_append, List.nil_append, List.cons.injEq] at hx2
          refine (h s (List.mem_cons_self ..)).2 ?_
          rw [hx1, ← hx2.1]; simp

/-! ## Properties -/

section properties
variable {up low : Char → Char}

/-- **C143.** Cleaning changes nothing but spaces and case: the characters that are not spaces stay the same in the same order; the first one and those after an exclamation
mark are in upper case and all others in lower case. -/
theorem C143_content (H : CaseMap up low) (t : List Char) : content (clean up low t) = capitalAfter up low '!' true (content t) := by
  have hd := H.mark '.' (by simp)
  have hq := H.mark '?' (by simp)
  have he := H.mark '!' (by simp)
  unfold clean
  dsimp only
  rw [quotes_eq, quotes_content, sentences_content H '!' (by decide) he]
  refine capitalAfter_congr H '!' (fun c => (he c).2) true _ _ ?_
  rw [sentences_content H '?' (by decide) hq, capitalAfter_low H, sentences_content H '.' (by decide) hd, capitalAfter_low H, dropSpaces_content]

/-- **C143.** The result has no spaces at its ends and none next to an apostrophe. -/
theorem C143_trimmed (t : List Char) : Trimmed (clean up low t) ∧
    ∀ a b, clean up low t = a ++ ['\''] ++ b → Trimmed a ∧ Trimmed b := by
  unfold clean
  dsimp only
  rw [quotes_eq]
  refine ⟨trimmed_join _ fun s hs => ?_, fun a b hab => apostrophe_join _ (fun s hs => ?_) a b hab⟩
  · obtain ⟨q, _, rfl⟩ := List.mem_map.1 hs
    exact strip_trimmed q
  · obtain ⟨q, hq, rfl⟩ := List.mem_map.1 hs
    exact ⟨strip_trimmed q, fun h => split_free '\'' _ q hq (mem_strip h)⟩

/-- **C143.** Cleaning a cleaned text does not change the letters again. -/
theorem C143_again (H : CaseMap up low) (t : List Char) : content (clean up low (clean up low t)) = content (clean up low t) := by
  rw [C143_content H, C143_content H]
  exact capitalAfter_congr H '!' (fun c => (H.mark '!' (by simp) c).2) true _ _ (capitalAfter_low H _ _ _)

theorem split_self (m : Char) (t : List Char) (h : m ∉ t) : split m t = [t] := by
  induction t with
  | nil => rfl
  | cons c t ih =>
    have hc : c ≠ m := fun e => h (by rw [e]; simp)
    rw [split, if_neg hc, ih fun h' => h (List.mem_cons_of_mem _ h')]

/-- **C143.** A space before one of `? . , % ! "` that is followed by a space or the end is removed, the first time it occurs. -/
theorem C143_punctuation (u v : List Char) (hu : ∀ c ∈ u, isSpace c = false) (s p q : Char) (hs : isSpace s = true) (hp : isPunct p = true) (hq : isSpace q = true) :
    dropSpaces (u ++ s :: p :: q :: v) = u ++ p :: q :: dropSpaces v ∧ dropSpaces (u ++ [s, p]) = u ++ [p] := by
  induction u with
  | nil => simp [dropSpaces, hs, hp, hq]
  | cons c u ih =>
    have hc : isSpace c = false := hu c (List.mem_cons_self ..)
    obtain ⟨h1, h2⟩ := ih fun c hc => hu c (List.mem_cons_of_mem _ hc)
    constructor
    · cases u with
      | nil => simp only [List.nil_append, List.cons_append] at h1 ⊢; rw [dropSpaces, if_neg (by simp [hc]), h1]
      | cons d u => cases u with
        | nil => simp only [List.nil_append, List.cons_append] at h1 ⊢; rw [dropSpaces, if_neg (by simp [hc]), h1]
        | cons e u => simp only [List.nil_append, List.cons_append] at h1 ⊢; rw [dropSpaces, if_neg (by simp [hc]), h1]
    · cases u with
      | nil => simp only [List.nil_append, List.cons_append] at h2 ⊢; rw [dropSpaces, if_neg (by simp [hc]), h2]
      | cons d u => cases u with
        | nil => simp only [List.nil_append, List.cons_append] at h2 ⊢; rw [dropSpaces, if_neg (by simp [hc]), h2]
        | cons e u => simp only [List.nil_append, List.cons_append] at h2 ⊢; rw [dropSpaces, if_neg (by simp [hc]), h2]

end properties

/-! ## ASCII -/

def lowers : List Char := "abcdefghijklmnopqrstuvwxyz".toList
def uppers : List Char := "ABCDEFGHIJKLMNOPQRSTUVWXYZ".toList

/-- ASCII upper case. -/
def upA (c : Char) : Char := ((lowers.zip uppers).lookup c).getD c

/-- ASCII lower case. -/
def lowA (c : Char) : Char := ((uppers.zip lowers).lookup c).getD c

theorem lookup_none (l r : List Char) (c : Char) (h : c ∉ l) : (l.zip r).lookup c = none := by
  induction l generalizing r with
  | nil => rfl
  | cons a l ih =>
    cases r with
    | nil => rfl
    | cons b r =>
      have hc : c ≠ a := fun e => h (by rw [e]; simp)
      rw [List.zip_cons_cons, List.lookup_cons, show (c == a) = false by simpa using hc]
      exact ih r fun h' => h (List.mem_cons_of_mem _ h')

theorem ascii_or (c : Char) : c ∈ lowers ∨ c ∈ uppers ∨ (upA c = c ∧ lowA c = c) := by
  by_cases h1 : c ∈ lowers
  · exact Or.inl h1
  · by_cases h2 : c ∈ uppers
    · exact Or.inr (Or.inl h2)
    · exact Or.inr (Or.inr ⟨by simp [upA, lookup_none _ _ _ h1], by simp [lowA, lookup_none _ _ _ h2]⟩)

theorem ascii_all (P : Char → Prop) (h1 : ∀ c ∈ lowers, P c) (h2 : ∀ c ∈ uppers, P c) (h3 : ∀ c, upA c = c → lowA c = c → P c) (c : Char) : P c := by
  rcases ascii_or c with h | h | h
  · exact h1 c h
  · exact h2 c h
  · exact h3 c h.1 h.2

/-- ASCII letters are a case map. -/
theorem ascii_case : CaseMap upA lowA where
  lowLow := ascii_all _ (by decide +kernel) (by decide +kernel) fun c _ h => by rw [h, h]
  lowUp := ascii_all _ (by decide +kernel) (by decide +kernel) fun c h _ => by rw [h]
  upLow := ascii_all _ (by decide +kernel) (by decide +kernel) fun c _ h => by rw [h]
  upUp := ascii_all _ (by decide +kernel) (by decide +kernel) fun c h _ => by rw [h, h]
  space := ascii_all _ (by decide +kernel) (by decide +kernel) fun c h h' => by rw [h, h']; exact ⟨rfl, rfl⟩
  mark := by
    intro m hm
    simp only [List.mem_cons, List.not_mem_nil, or_false] at hm
    rcases hm with rfl | rfl | rfl | rfl <;>
      exact ascii_all _ (by decide +kernel) (by decide +kernel) fun c h h' => by rw [h, h']; exact ⟨Iff.rfl, Iff.rfl⟩

/-- Cleaning of an ASCII text. -/
def cleanText (s : String) : String := String.ofList (clean upA lowA s.toList)

/-- **C143, proper capitalization, is false**: sentences after a full stop or a question mark start in lower case, and so do names. -/
theorem C143_capital_false : cleanText "is it? yes. Paris is." = "Is it? yes. paris is." := by decide +kernel

/-- **C143, keeping words and numbers, is false**: a decimal number is broken in two, an ellipsis in three, and an apostrophe at the end of a word glues it to the next. -/
theorem C143_words_false : cleanText "about 3.14" = "About 3. 14" ∧ cleanText "wait..." = "Wait. . ." ∧ cleanText "the dogs' bowl" = "The dogs'bowl" := by
  decide +kernel

/-- **C143, spaces before punctuation, is false**: of two in a row the second is kept. -/
theorem C143_spaces_false : cleanText "a , , b" = "A, , b" := by decide +kernel

example : cleanText "hello , world !  what 's up" = "Hello, world! What's up" := by decide +kernel

/-! ### Concrete cases that meet the hypotheses of the theorems above -/

example := C143_punctuation "hello".toList "world".toList (by decide +kernel) ' ' ',' ' ' (by decide +kernel) (by decide +kernel) (by decide +kernel)

end Verif.Props.StringClean
