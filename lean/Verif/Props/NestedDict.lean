import Verif.Model.NestedDict
import Mathlib.Data.List.Nodup
import Mathlib.Data.List.Infix
import Mathlib.Tactic.Tauto

/-!
C27–C30, C59, C60: nested dictionaries, frozen parameters, encoded key paths.
-/
set_option linter.unusedSectionVars false
namespace Verif.Props
open Verif.Nested Verif.Nested.Obj

variable {K : Type} {V : Type} [DecidableEq K]

/-- Neither path is a prefix of the other. -/
def Apart (p q : List K) : Prop := ¬ p <+: q ∧ ¬ q <+: p

/-- The value at a path (the empty path is the object itself). -/
def at? : List K → Obj K V → Option (Obj K V)
  | [], d => some d
  | k :: ks, d => (lookup k d).bind (at? ks)

/-- What Python guarantees of dictionaries: distinct keys, at every level. -/
def WF : Obj K V → Prop
  | leaf _ => True
  | nil => True
  | cons k o r => lookup k r = none ∧ r.isDict = true ∧ WF o ∧ WF r

theorem Apart.symm {p q : List K} (h : Apart p q) : Apart q p := ⟨h.2, h.1⟩

/-! ## Lemmas on one level -/

theorem lookup_setItem_self (k : K) (o d : Obj K V) : lookup k (setItem k o d) = some o := by
  induction d with
  | leaf v => simp [setItem, lookup]
  | nil => simp [setItem, lookup]
  | cons k' o' r _ ih =>
    unfold setItem
    split_ifs with h
    · simp [lookup, h]
    · simp [lookup, h, ih]

theorem lookup_setItem_ne {k j : K} (h : k ≠ j) (o d : Obj K V) : lookup j (setItem k o d) = lookup j d := by
  induction d with
  | leaf v => simp [setItem, lookup, h]
  | nil => simp [setItem, lookup, h]
  | cons k' o' r _ ih =>
    unfold setItem
    split_ifs with h'
    · subst h'; simp [lookup, h]
    · simp only [lookup, ih]

theorem setItem_same {k : K} {o d : Obj K V} (h : lookup k d = some o) : setItem k o d = d := by
  induction d with
  | leaf v => simp [lookup] at h
  | nil => simp [lookup] at h
  | cons k' o' r _ ih =>
    unfold lookup at h
    unfold setItem
    split_ifs at h ⊢ with h'
    · cases h; rfl
    · rw [ih h]

theorem setItem_setItem (k : K) (o o' d : Obj K V) : setItem k o (setItem k o' d) = setItem k o d := by
  induction d with
  | leaf v => simp [setItem]
  | nil => simp [setItem]
  | cons k' o'' r _ ih =>
    unfold setItem
    split_ifs with h'
    · simp [setItem, h']
    · simp [setItem, h', ih]

theorem setItem_comm {k j : K} (hkj : k ≠ j) (o o' d : Obj K V) (h1 : (lookup k d).isSome) (h2 : (lookup j d).isSome) :
    setItem k o (setItem j o' d) = setItem j o' (setItem k o d) := by
  induction d with
  | leaf v => simp [lookup] at h1
  | nil => simp [lookup] at h1
  | cons k' o'' r _ ih =>
    unfold lookup at h1 h2
    by_cases hk : k' = k
    · subst hk
      simp [setItem, hkj]
    · by_cases hj : k' = j
      · subst hj
        simp [setItem, hk]
      · rw [if_neg hk] at h1
        rw [if_neg hj] at h2
        simp [setItem, hk, hj, ih h1 h2]

theorem isDict_setItem (k : K) (o d : Obj K V) : (setItem k o d).isDict = true := by
  cases d <;> simp only [setItem, isDict]
  split_ifs <;> rfl

theorem isDict_of_lookup {k : K} {o d : Obj K V} (h : lookup k d = some o) : d.isDict = true := by
  cases d <;> simp_all [lookup, isDict]

theorem WF_setItem {k : K} {o d : Obj K V} (hd : WF d) (ho : WF o) (hdict : d.isDict = true) : WF (setItem k o d) := by
  induction d with
  | leaf v => simp [isDict] at hdict
  | nil => simp [setItem, WF, lookup, ho, isDict]
  | cons k' o' r _ ih =>
    obtain ⟨h1, h2, h3, h4⟩ := hd
    unfold setItem
    split_ifs with h
    · exact ⟨h1, h2, ho, h4⟩
    · exact ⟨by rw [lookup_setItem_ne (Ne.symm h)]; exact h1, isDict_setItem _ _ _, h3, ih h4 h2⟩

theorem WF_lookup {k : K} {o d : Obj K V} (hd : WF d) (h : lookup k d = some o) : WF o := by
  induction d with
  | leaf v => simp [lookup] at h
  | nil => simp [lookup] at h
  | cons k' o' r _ ih =>
    obtain ⟨h1, h2, h3, h4⟩ := hd
    unfold lookup at h
    split_ifs at h with h'
    · cases h; exact h3
    · exact ih h4 h

theorem at?_append (p q : List K) (d : Obj K V) : at? (p ++ q) d = (at? p d).bind (at? q) := by
  induction p generalizing d with
  | nil => rfl
  | cons k p ih =>
    simp only [List.cons_append, at?]
    cases lookup k d with
    | none => rfl
    | some x => simpa using ih x

theorem at?_leaf {p : List K} (h : p ≠ []) (v : V) : at? p (leaf v : Obj K V) = none := by
  cases p with
  | nil => exact absurd rfl h
  | cons k p => rfl

theorem at?_nil {p : List K} (h : p ≠ []) : at? p (nil : Obj K V) = none := by
  cases p with
  | nil => exact absurd rfl h
  | cons k p => rfl

theorem item_eq (d : Obj K V) (k : K) (o : Obj K V) : item d k = .ok o ↔ lookup k d = some o := by
  unfold item
  cases hl : lookup k d with
  | none => split_ifs <;> simp
  | some x => rw [if_pos (isDict_of_lookup hl)]; simp

/-- `nested_get` succeeds exactly when there is a value at the (non-empty) path, and returns it. -/
theorem nestedGet_eq (d : Obj K V) (p : List K) (o : Obj K V) :
    nestedGet d p = .ok o ↔ p ≠ [] ∧ at? p d = some o := by
  induction p generalizing d with
  | nil => simp [nestedGet]
  | cons k p ih =>
    cases p with
    | nil =>
      simp only [nestedGet, item_eq, at?, ne_eq, List.cons_ne_nil, not_false_eq_true, true_and]
      cases lookup k d <;> simp [at?]
    | cons k' p =>
      simp only [nestedGet, ne_eq, List.cons_ne_nil, not_false_eq_true, true_and]
      rw [at?]
      cases hl : lookup k d with
      | none =>
        have : ∀ x, item d k ≠ .ok x := fun x hx => by rw [item_eq, hl] at hx; cases hx
        cases hi : item d k with
        | error e => simp [Except.bind]
        | ok x => exact absurd hi (this x)
      | some x =>
        rw [(item_eq d k x).2 hl]
        simp only [Except.bind, Option.bind_some]
        rw [ih x]; simp

/-! ## The walk -/

theorem apart_cons {k : K} {p q : List K} : Apart (k :: p) (k :: q) ↔ Apart p q := by
  simp [Apart, List.cons_prefix_cons]

theorem map_ok {ε α β : Type*} {x : Except ε α} {f : α → β} {y : β} (h : x.map f = .ok y) : ∃ a, x = .ok a ∧ y = f a := by
  cases x with
  | error e => cases h
  | ok a => exact ⟨a, rfl, by cases h; rfl⟩

theorem at?_setItem_ne {k j : K} (h : k ≠ j) (p : List K) (o d : Obj K V) :
    at? (j :: p) (setItem k o d) = at? (j :: p) d := by simp only [at?, lookup_setItem_ne h]

theorem at?_setItem_self (k : K) (p : List K) (o d : Obj K V) : at? (k :: p) (setItem k o d) = at? p o := by
  simp only [at?, lookup_setItem_self, Option.bind_some]

/-- What a successful walk does: `f` is applied to the present value, the result is found at the path, paths apart from it
are untouched and the proper prefixes are dictionaries. -/
theorem updateAt_spec (c : Bool) (f : Option (Obj K V) → Except String (Obj K V)) (keys : List K) (d d' : Obj K V)
    (h : updateAt c f keys d = .ok d') :
    keys ≠ [] ∧ ∃ o, f (at? keys d) = .ok o ∧ (∀ q, at? (keys ++ q) d' = at? q o) ∧
      (∀ p, Apart p keys → at? p d' = at? p d) ∧
      (∀ q, q <+: keys → q ≠ keys → ∃ w, at? q d' = some w ∧ w.isDict = true) := by
  induction keys generalizing d d' with
  | nil => cases h
  | cons k keys ih =>
    refine ⟨by simp, ?_⟩
    have fin : ∀ (o x : Obj K V), d' = setItem k x d → (∀ q, at? (keys ++ q) x = at? q o) →
        (∀ p, Apart p keys → at? p x = (lookup k d).bind (at? p)) →
        (∀ q, q <+: keys → q ≠ keys → ∃ w, at? q x = some w ∧ w.isDict = true) →
        (∀ q, at? ((k :: keys) ++ q) d' = at? q o) ∧ (∀ p, Apart p (k :: keys) → at? p d' = at? p d) ∧
        (∀ q, q <+: (k :: keys) → q ≠ (k :: keys) → ∃ w, at? q d' = some w ∧ w.isDict = true) := by
      rintro o x rfl h1 h2 h3
      refine ⟨fun q => ?_, fun p hp => ?_, fun q hq hne => ?_⟩
      · rw [List.cons_append, at?_setItem_self]; exact h1 q
      · cases p with
        | nil => exact absurd (List.nil_prefix) hp.1
        | cons j p =>
          by_cases hj : k = j
          · subst hj
            rw [at?_setItem_self, h2 p (apart_cons.1 hp)]; rfl
          · exact at?_setItem_ne hj _ _ _
      · cases q with
        | nil => exact ⟨_, rfl, isDict_setItem _ _ _⟩
        | cons j q =>
          obtain ⟨rfl, hq2⟩ := List.cons_prefix_cons.1 hq
          rw [at?_setItem_self]
          exact h3 q hq2 (fun he => hne (by rw [he]))
    cases keys with
    | nil =>
      unfold updateAt at h
      split_ifs at h
      obtain ⟨o, ho, hd'⟩ := map_ok h
      have := fin o o hd' (fun q => rfl) (fun p hp => absurd List.nil_prefix hp.2)
        (fun q hq hne => absurd (List.prefix_nil.1 hq) hne)
      refine ⟨o, ?_, this⟩
      rw [show at? [k] d = lookup k d by simp only [at?]; cases lookup k d <;> rfl]
      exact ho
    | cons k' keys =>
      unfold updateAt at h
      by_cases hdict : d.isDict = true
      swap
      · rw [if_neg hdict] at h; cases h
      rw [if_pos hdict] at h
      cases hl : lookup k d with
      | some x =>
        rw [hl] at h
        obtain ⟨y, hy, hd'⟩ := map_ok h
        obtain ⟨-, o, h1, h2, h3, h4⟩ := ih x y hy
        refine ⟨o, ?_, fin o y hd' h2 (fun p hp => ?_) h4⟩
        · rw [at?, hl]; exact h1
        · rw [h3 p hp, hl]; rfl
      | none =>
        rw [hl] at h
        simp only at h
        split_ifs at h
        obtain ⟨y, hy, hd'⟩ := map_ok h
        obtain ⟨-, o, h1, h2, h3, h4⟩ := ih nil y hy
        refine ⟨o, ?_, fin o y hd' h2 (fun p hp => ?_) h4⟩
        · rw [at?, hl]; rwa [at?_nil (by simp)] at h1
        · rw [h3 p hp, hl]
          cases p with
          | nil => exact absurd (List.nil_prefix) hp.1
          | cons j p => rfl

/-- The walk without creation, as a partial function. -/
def modifyAt (f : Obj K V → Except String (Obj K V)) : List K → Obj K V → Except String (Obj K V)
  | [], x => f x
  | k :: ks, d => match lookup k d with
    | some x => (modifyAt f ks x).map fun o => setItem k o d
    | none => .error "KeyError"

theorem updateAt_false (g : Option (Obj K V) → Except String (Obj K V)) (hg : ∀ o, g none ≠ .ok o)
    (keys : List K) (d d' : Obj K V) :
    updateAt false g keys d = .ok d' ↔ keys ≠ [] ∧ modifyAt (fun x => g (some x)) keys d = .ok d' := by
  induction keys generalizing d d' with
  | nil => simp [updateAt]
  | cons k keys ih =>
    simp only [ne_eq, List.cons_ne_nil, not_false_eq_true, true_and]
    cases keys with
    | nil =>
      unfold updateAt modifyAt
      cases hl : lookup k d with
      | none =>
        split_ifs
        · simp only [reduceCtorEq, iff_false]
          intro h
          obtain ⟨o, ho, -⟩ := map_ok h
          exact hg o ho
        · simp
      | some x =>
        rw [if_pos (isDict_of_lookup hl)]
        simp [modifyAt]
    | cons k' keys =>
      unfold updateAt
      rw [modifyAt]
      cases hl : lookup k d with
      | none => split_ifs <;> simp_all
      | some x =>
        rw [if_pos (isDict_of_lookup hl)]
        have := ih x
        simp only [ne_eq, List.cons_ne_nil, not_false_eq_true, true_and] at this
        constructor
        · intro h
          obtain ⟨o, ho, rfl⟩ := map_ok h
          dsimp only
          rw [(this o).1 ho]; rfl
        · intro h
          obtain ⟨o, ho, rfl⟩ := map_ok h
          dsimp only
          rw [(this o).2 ho]; rfl

theorem modifyAt_isSome {f : Obj K V → Except String (Obj K V)} {keys : List K} {d d' : Obj K V}
    (h : modifyAt f keys d = .ok d') : ∃ x o, at? keys d = some x ∧ f x = .ok o ∧ at? keys d' = some o := by
  induction keys generalizing d d' with
  | nil => exact ⟨d, d', rfl, h, rfl⟩
  | cons k keys ih =>
    unfold modifyAt at h
    cases hl : lookup k d with
    | none => rw [hl] at h; cases h
    | some x =>
      rw [hl] at h
      obtain ⟨o, ho, rfl⟩ := map_ok h
      obtain ⟨y, o', h1, h2, h3⟩ := ih ho
      exact ⟨y, o', by rw [at?, hl]; exact h1, h2, by rw [at?_setItem_self]; exact h3⟩

theorem modifyAt_ok {f : Obj K V → Except String (Obj K V)} {keys : List K} {d x o : Obj K V}
    (h : at? keys d = some x) (hf : f x = .ok o) : ∃ d', modifyAt f keys d = .ok d' := by
  induction keys generalizing d with
  | nil => cases h; exact ⟨o, hf⟩
  | cons k keys ih =>
    rw [at?] at h
    cases hl : lookup k d with
    | none => rw [hl] at h; cases h
    | some y =>
      rw [hl] at h
      obtain ⟨d', hd'⟩ := ih h
      exact ⟨setItem k d' d, by rw [modifyAt, hl]; simp only [hd']; rfl⟩

/-- Modifications at apart paths commute. -/
theorem modifyAt_diamond {f g : Obj K V → Except String (Obj K V)} {p q : List K} (ha : Apart p q) {d d1 d2 : Obj K V}
    (h1 : modifyAt f p d = .ok d1) (h2 : modifyAt g q d = .ok d2) :
    ∃ d3, modifyAt g q d1 = .ok d3 ∧ modifyAt f p d2 = .ok d3 := by
  induction p generalizing q d d1 d2 with
  | nil => exact absurd List.nil_prefix ha.1
  | cons k p ih =>
    cases q with
    | nil => exact absurd List.nil_prefix ha.2
    | cons j q =>
      unfold modifyAt at h1 h2
      cases hk : lookup k d with
      | none => rw [hk] at h1; cases h1
      | some x =>
        cases hj : lookup j d with
        | none => rw [hj] at h2; cases h2
        | some y =>
          rw [hk] at h1
          rw [hj] at h2
          obtain ⟨o1, ho1, rfl⟩ := map_ok h1
          obtain ⟨o2, ho2, rfl⟩ := map_ok h2
          by_cases hkj : k = j
          · subst hkj
            rw [hk] at hj; cases hj
            obtain ⟨o3, h3, h4⟩ := ih (apart_cons.1 ha) ho1 ho2
            refine ⟨setItem k o3 d, ?_, ?_⟩
            · rw [modifyAt, lookup_setItem_self]
              simp only [h3, Except.map, setItem_setItem]
            · rw [modifyAt, lookup_setItem_self]
              simp only [h4, Except.map, setItem_setItem]
          · refine ⟨setItem j o2 (setItem k o1 d), ?_, ?_⟩
            · rw [modifyAt, lookup_setItem_ne hkj, hj]
              simp only [ho2, Except.map]
            · rw [modifyAt, lookup_setItem_ne (Ne.symm hkj), hk]
              simp only [ho1, Except.map]
              rw [setItem_comm hkj _ _ _ (by simp [hk]) (by simp [hj])]

/-- Writing back the old value undoes a modification. -/
theorem modifyAt_undo {f : Obj K V → Except String (Obj K V)} {p : List K} {d d' x : Obj K V}
    (hx : at? p d = some x) (h : modifyAt f p d = .ok d') : modifyAt (fun _ => .ok x) p d' = .ok d := by
  induction p generalizing d d' with
  | nil => cases hx; rfl
  | cons k p ih =>
    rw [at?] at hx
    unfold modifyAt at h
    cases hl : lookup k d with
    | none => rw [hl] at h; cases h
    | some y =>
      rw [hl] at h hx
      obtain ⟨o, ho, rfl⟩ := map_ok h
      rw [modifyAt, lookup_setItem_self]
      simp only [ih hx ho, Except.map, setItem_setItem, setItem_same hl]

/-- Creating walks succeed exactly when no proper prefix of the path is a leaf. -/
theorem updateAt_true_ok (o : Obj K V) (keys : List K) (d : Obj K V) :
    (∃ d', updateAt true (fun _ => .ok o) keys d = .ok d') ↔
      keys ≠ [] ∧ ∀ q, q <+: keys → q ≠ keys → ∀ w, at? q d = some w → w.isDict = true := by
  induction keys generalizing d with
  | nil => simp [updateAt]
  | cons k keys ih =>
    have hsplit : (∀ q, q <+: (k :: keys) → q ≠ (k :: keys) → ∀ w, at? q d = some w → w.isDict = true) ↔
        d.isDict = true ∧ ∀ x, lookup k d = some x → ∀ q, q <+: keys → q ≠ keys → ∀ w, at? q x = some w → w.isDict = true := by
      constructor
      · intro h
        refine ⟨h [] List.nil_prefix (by simp) d rfl, fun x hx q hq hne w hw => ?_⟩
        exact h (k :: q) (List.cons_prefix_cons.2 ⟨rfl, hq⟩) (by simpa using hne) w (by rw [at?, hx]; exact hw)
      · rintro ⟨h1, h2⟩ q hq hne w hw
        cases q with
        | nil => cases hw; exact h1
        | cons j q =>
          obtain ⟨rfl, hq'⟩ := List.cons_prefix_cons.1 hq
          rw [at?] at hw
          cases hl : lookup j d with
          | none => rw [hl] at hw; cases hw
          | some x =>
            rw [hl] at hw
            exact h2 x hl q hq' (by rintro rfl; exact hne rfl) w hw
    rw [hsplit]
    simp only [ne_eq, List.cons_ne_nil, not_false_eq_true, true_and]
    cases keys with
    | nil =>
      unfold updateAt
      constructor
      · rintro ⟨d', h⟩
        split_ifs at h with hd
        exact ⟨hd, fun x _ q hq hne => absurd (List.prefix_nil.1 hq) hne⟩
      · rintro ⟨hd, -⟩
        rw [if_pos hd]; exact ⟨_, rfl⟩
    | cons k' keys =>
      unfold updateAt
      constructor
      · rintro ⟨d', h⟩
        by_cases hd : d.isDict = true
        swap
        · rw [if_neg hd] at h; cases h
        rw [if_pos hd] at h
        refine ⟨hd, fun x hx => ?_⟩
        rw [hx] at h
        obtain ⟨y, hy, -⟩ := map_ok h
        exact ((ih x).1 ⟨y, hy⟩).2
      · rintro ⟨hd, h⟩
        rw [if_pos hd]
        cases hl : lookup k d with
        | some x =>
          obtain ⟨y, hy⟩ := (ih x).2 ⟨by simp, h x hl⟩
          simp only [hy, Except.map]; exact ⟨_, rfl⟩
        | none =>
          obtain ⟨y, hy⟩ := (ih nil).2 ⟨by simp, fun q _ _ w hw => by
            cases q with
            | nil => cases hw; rfl
            | cons j q => cases hw⟩
          simp only [if_true, hy, Except.map]; exact ⟨_, rfl⟩

theorem setPath_true (o : Obj K V) : setPath (K := K) true o = updateAt true (fun _ => .ok o) := by
  unfold setPath; congr 1; funext cur; simp

/-! ## C27 -/

/-- **C27.** After `nested_set`, `nested_get` at the same path returns the object set. -/
theorem C27_get_set (allow : Bool) (o d d' : Obj K V) (keys : List K) (h : setPath allow o keys d = .ok d') :
    nestedGet d' keys = .ok o := by
  obtain ⟨hne, o', ho, h1, -, -⟩ := updateAt_spec _ _ _ _ _ h
  rw [nestedGet_eq]
  refine ⟨hne, ?_⟩
  have := h1 []
  rw [List.append_nil] at this
  rw [this]
  split_ifs at ho
  cases ho; rfl

/-- **C27.** `nested_set` leaves every path that is neither a prefix nor an extension of the written one unchanged, whether
the value exists or not. -/
theorem C27_frame (allow : Bool) (o d d' : Obj K V) (keys : List K) (h : setPath allow o keys d = .ok d') (p : List K)
    (hp : Apart p keys) (r : Obj K V) : nestedGet d' p = .ok r ↔ nestedGet d p = .ok r := by
  obtain ⟨hne, o', ho, h1, h2, -⟩ := updateAt_spec _ _ _ _ _ h
  rw [nestedGet_eq, nestedGet_eq, h2 p hp]

/-- **C27.** Setting what is already there changes nothing, in both modes. -/
theorem C27_set_get (allow : Bool) (o d : Obj K V) (keys : List K) (h : nestedGet d keys = .ok o) :
    setPath allow o keys d = .ok d := by
  induction keys generalizing d with
  | nil => cases h
  | cons k keys ih =>
    cases keys with
    | nil =>
      rw [nestedGet, item_eq] at h
      unfold setPath updateAt
      rw [if_pos (isDict_of_lookup h), h]
      simp [Except.map, setItem_same h]
    | cons k' keys =>
      rw [nestedGet] at h
      cases hi : item d k with
      | error e => rw [hi] at h; cases h
      | ok x =>
        rw [hi] at h
        have hl := (item_eq _ _ _).1 hi
        have := ih x h
        unfold setPath at this ⊢
        unfold updateAt
        rw [if_pos (isDict_of_lookup hl), hl]
        simp only [this, Except.map, setItem_same hl]

/-- **C27.** Without `allow_nonexistent`, setting succeeds exactly on existing paths. -/
theorem C27_missing_raises (o d : Obj K V) (keys : List K) :
    (∃ d', setPath false o keys d = .ok d') ↔ ∃ o', nestedGet d keys = .ok o' := by
  unfold setPath
  constructor
  · rintro ⟨d', h⟩
    rw [updateAt_false _ (by simp)] at h
    obtain ⟨x, o', h1, -⟩ := modifyAt_isSome h.2
    exact ⟨x, (nestedGet_eq _ _ _).2 ⟨h.1, h1⟩⟩
  · rintro ⟨x, h⟩
    rw [nestedGet_eq] at h
    obtain ⟨d', hd'⟩ := modifyAt_ok (f := fun _ => .ok o) (o := o) h.2 rfl
    exact ⟨d', (updateAt_false _ (by simp) _ _ _).2 ⟨h.1, by simpa using hd'⟩⟩

/-- **C27.** With `allow_nonexistent`, it succeeds exactly when no proper prefix of the path holds a non-dictionary. -/
theorem C27_allow (o d : Obj K V) (keys : List K) (hd : d.isDict = true) :
    (∃ d', setPath true o keys d = .ok d') ↔
      keys ≠ [] ∧ ∀ q v, q <+: keys → q ≠ keys → nestedGet d q ≠ .ok (leaf v) := by
  rw [setPath_true, updateAt_true_ok]
  refine and_congr_right fun _ => ⟨fun h q v hq hne hg => ?_, fun h q hq hne w hw => ?_⟩
  · have := h q hq hne _ ((nestedGet_eq _ _ _).1 hg).2
    simp [isDict] at this
  · cases w with
    | leaf v =>
      cases q with
      | nil => cases hw; exact hd
      | cons j q => exact absurd ((nestedGet_eq _ _ _).2 ⟨by simp, hw⟩) (h _ v hq hne)
    | nil => rfl
    | cons k o r => rfl

theorem foldlM_cons_ok {σ α : Type} {f : σ → α → Except String σ} {a : α} {l : List α} {s s' : σ}
    (h : (a :: l).foldlM f s = .ok s') : ∃ s1, f s a = .ok s1 ∧ l.foldlM f s1 = .ok s' := by
  rw [List.foldlM_cons] at h
  cases hf : f s a with
  | error e => rw [hf] at h; cases h
  | ok s1 => rw [hf] at h; exact ⟨s1, rfl, h⟩

theorem setAll_spec (allow : Bool) (L : List (List K × Obj K V)) (hL : L.Pairwise fun a b => Apart a.1 b.1)
    (d d' : Obj K V) (h : L.foldlM (fun d po => setPath allow po.2 po.1 d) d = .ok d') :
    (∀ po ∈ L, po.1 ≠ [] ∧ at? po.1 d' = some po.2) ∧ (∀ p, (∀ po ∈ L, Apart p po.1) → at? p d' = at? p d) := by
  induction L generalizing d with
  | nil => cases h; simp
  | cons a L ih =>
    obtain ⟨d1, h1, h2⟩ := foldlM_cons_ok h
    rw [List.pairwise_cons] at hL
    obtain ⟨ih1, ih2⟩ := ih hL.2 d1 h2
    obtain ⟨hne, o', ho, s1, s2, -⟩ := updateAt_spec _ _ _ _ _ h1
    have ho' : o' = a.2 := by
      split_ifs at ho
      cases ho; rfl
    refine ⟨fun po hpo => ?_, fun p hp => ?_⟩
    · rcases List.mem_cons.1 hpo with rfl | hpo
      · refine ⟨hne, ?_⟩
        rw [ih2 _ fun b hb => hL.1 b hb]
        have := s1 []
        rw [List.append_nil] at this
        rw [this, ho']; rfl
      · exact ih1 po hpo
    · rw [ih2 p fun b hb => hp b (by simp [hb]), s2 p (hp a (by simp))]

/-- **C27.** Setting many pairwise apart paths at once: each holds its object, everything apart from all is unchanged. -/
theorem C27_set_many (allow : Bool) (d d' : Obj K V) (paths : List (List K)) (objs : List (Obj K V))
    (hp : paths.Pairwise Apart) (h : nestedSet d paths objs allow = .ok d') :
    paths.length = objs.length ∧ (∀ po ∈ paths.zip objs, nestedGet d' po.1 = .ok po.2) ∧
    (∀ p, (∀ q ∈ paths, Apart p q) → ∀ r, nestedGet d' p = .ok r ↔ nestedGet d p = .ok r) := by
  unfold nestedSet at h
  split_ifs at h with hl
  rw [not_not] at hl
  have hpw : (paths.zip objs).Pairwise fun a b => Apart a.1 b.1 := by
    have : ((paths.zip objs).map Prod.fst).Pairwise Apart := by
      rw [List.map_fst_zip (by omega)]; exact hp
    exact List.pairwise_map.1 this
  obtain ⟨h1, h2⟩ := setAll_spec allow _ hpw d d' h
  refine ⟨hl, fun po hpo => (nestedGet_eq _ _ _).2 (h1 po hpo), fun p hap r => ?_⟩
  rw [nestedGet_eq, nestedGet_eq, h2 p fun po hpo => hap _ (List.of_mem_zip hpo).1]

example : nestedSet (cons "a" (cons "b" (leaf 1) nil) nil) [["a", "b"], ["c", "d"]] [leaf 5, leaf 6] true =
      .ok (cons "a" (cons "b" (leaf 5) nil) (cons "c" (cons "d" (leaf 6) nil) nil)) ∧
    nestedSet (cons "a" (cons "b" (leaf 1) nil) nil) [["c", "d"]] [leaf 6] false = .error "KeyError" := by decide

/-! ## C28 -/

theorem at?_pairOf (l0 l1 : K) (h : l0 ≠ l1) (a b : Obj K V) :
    lookup l0 (pairOf l0 l1 a b) = some a ∧ lookup l1 (pairOf l0 l1 a b) = some b := by
  unfold pairOf
  exact ⟨by rw [lookup_setItem_ne h.symm, lookup_setItem_self], lookup_setItem_self _ _ _⟩

theorem pairPath_eq (l0 l1 : K) (o : Obj K V) (keys : List K) (d d' : Obj K V) :
    pairPath l0 l1 o keys d = .ok d' ↔ keys ≠ [] ∧ modifyAt (fun x => .ok (pairOf l0 l1 x o)) keys d = .ok d' := by
  unfold pairPath
  rw [updateAt_false _ (by simp)]

theorem pairAll_frame (l0 l1 : K) (L : List (List K × Obj K V)) (p : List K) (hp : ∀ po ∈ L, Apart p po.1) (d d' : Obj K V)
    (h : L.foldlM (fun d po => pairPath l0 l1 po.2 po.1 d) d = .ok d') : at? p d' = at? p d := by
  induction L generalizing d with
  | nil => cases h; rfl
  | cons a L ih =>
    obtain ⟨d1, h1, h2⟩ := foldlM_cons_ok h
    rw [ih (fun b hb => hp b (by simp [hb])) d1 h2]
    obtain ⟨-, o', -, -, s2, -⟩ := updateAt_spec _ _ _ _ _ h1
    exact s2 p (hp a (by simp))

theorem pairAll_diamond (l0 l1 : K) (L : List (List K × Obj K V)) (p : List K) (hp : ∀ po ∈ L, Apart p po.1)
    (f : Obj K V → Except String (Obj K V)) (d d1 dp : Obj K V) (h1 : modifyAt f p d = .ok d1)
    (h : L.foldlM (fun d po => pairPath l0 l1 po.2 po.1 d) d = .ok dp) :
    ∃ dp', L.foldlM (fun d po => pairPath l0 l1 po.2 po.1 d) d1 = .ok dp' ∧ modifyAt f p dp = .ok dp' := by
  induction L generalizing d d1 with
  | nil => cases h; exact ⟨d1, rfl, h1⟩
  | cons a L ih =>
    obtain ⟨d2, h2, h3⟩ := foldlM_cons_ok h
    rw [pairPath_eq] at h2
    obtain ⟨d3, h4, h5⟩ := modifyAt_diamond (hp a (by simp)) h1 h2.2
    obtain ⟨dp', h6, h7⟩ := ih (fun b hb => hp b (by simp [hb])) d2 d3 h5 h3
    refine ⟨dp', ?_, h7⟩
    rw [List.foldlM_cons, (pairPath_eq _ _ _ _ _ _).2 ⟨h2.1, h4⟩]
    exact h6

theorem roundtrip_aux (l0 l1 : K) (hl : l0 ≠ l1) (L : List (List K × Obj K V)) (hL : L.Pairwise fun a b => Apart a.1 b.1)
    (d : Obj K V) (hd : ∀ po ∈ L, po.1 ≠ [] ∧ (at? po.1 d).isSome) (e0 : Obj K V)
    (he : ∀ po ∈ L, ∀ q, q <+: po.1 → q ≠ po.1 → ∀ w, at? q e0 = some w → w.isDict = true) :
    ∃ dp e, L.foldlM (fun d po => pairPath l0 l1 po.2 po.1 d) d = .ok dp ∧
      (L.map Prod.fst).foldlM (unpairPath l0 l1) (dp, e0) = .ok (d, e) ∧
      (∀ po ∈ L, at? po.1 e = some po.2) ∧ (∀ p, (∀ po ∈ L, Apart p po.1) → at? p e = at? p e0) := by
  induction L generalizing d e0 with
  | nil => exact ⟨d, e0, rfl, rfl, by simp, by simp⟩
  | cons a L ih =>
    obtain ⟨p, o⟩ := a
    rw [List.pairwise_cons] at hL
    obtain ⟨hne, hsome⟩ := hd (p, o) (by simp)
    obtain ⟨x, hx⟩ := Option.isSome_iff_exists.1 hsome
    obtain ⟨d1, hd1⟩ := modifyAt_ok (f := fun x => .ok (pairOf l0 l1 x o)) (o := pairOf l0 l1 x o) hx rfl
    obtain ⟨e1, he1⟩ := (updateAt_true_ok o p e0).2 ⟨hne, he (p, o) (by simp)⟩
    obtain ⟨-, o', ho', s1, s2, s3⟩ := updateAt_spec _ _ _ _ _ he1
    cases ho'
    obtain ⟨dp', e, i1, i2, i3, i4⟩ := ih hL.2 d (fun po hpo => hd po (by simp [hpo])) e1 (by
      intro po hpo q hq hqne w hw
      have hap := hL.1 po hpo
      by_cases h1 : q <+: p
      · by_cases h2 : q = p
        · subst h2; exact absurd hq hap.1
        · obtain ⟨w', hw', hwd⟩ := s3 q h1 h2
          rw [hw'] at hw; cases hw; exact hwd
      · by_cases h2 : p <+: q
        · exact absurd (h2.trans hq) hap.1
        · rw [s2 q ⟨h1, h2⟩] at hw
          exact he po (by simp [hpo]) q hq hqne w hw)
    have hundo := modifyAt_undo hx hd1
    have hap : ∀ po ∈ L, Apart p po.1 := fun po hpo => hL.1 po hpo
    obtain ⟨dp, h6, h7⟩ := pairAll_diamond l0 l1 L p hap _ d d1 dp' hd1 i1
    have hdp : at? p dp = some (pairOf l0 l1 x o) := by
      rw [pairAll_frame l0 l1 L p hap d1 dp h6]
      obtain ⟨y, o', h1, h2, h3⟩ := modifyAt_isSome hd1
      rw [hx] at h1; cases h1
      cases h2; exact h3
    have hback : modifyAt (fun _ => .ok x) p dp = .ok dp' := by
      obtain ⟨dp'', h8, h9⟩ := pairAll_diamond l0 l1 L p hap _ d1 d dp hundo h6
      rw [i1] at h8; cases h8; exact h9
    refine ⟨dp, e, ?_, ?_, ?_, ?_⟩
    · rw [List.foldlM_cons, (pairPath_eq _ _ _ _ _ _).2 ⟨hne, hd1⟩]; exact h6
    · rw [List.map_cons, List.foldlM_cons]
      have hstep : unpairPath l0 l1 (dp, e0) p = .ok (dp', e1) := by
        unfold unpairPath
        simp only [if_neg hne, (nestedGet_eq _ _ _).2 ⟨hne, hdp⟩]
        have := at?_pairOf l0 l1 hl x o
        simp only [bind, Except.bind, (item_eq _ _ _).2 this.1, (item_eq _ _ _).2 this.2, he1]
        rw [(updateAt_false _ (by simp) _ _ _).2 ⟨hne, hback⟩]; rfl
      rw [hstep]; exact i2
    · intro po hpo
      rcases List.mem_cons.1 hpo with rfl | hpo
      · rw [i4 _ fun b hb => hap b hb]
        have := s1 []
        rw [List.append_nil] at this
        rw [this]; rfl
      · exact i3 po hpo
    · intro q hq
      rw [i4 q fun b hb => hq b (by simp [hb]), s2 q (hq (p, o) (by simp))]

/-- **C28.** Pairing objects into a nested dictionary at pairwise apart existing paths and unpairing at the same paths returns
the original dictionary, and a second dictionary holding exactly the objects at these paths and nothing elsewhere. -/
theorem C28_round_trip (l0 l1 : K) (hl : l0 ≠ l1) (d : Obj K V) (paths : List (List K)) (objs : List (Obj K V))
    (hlen : paths.length = objs.length) (hp : paths.Pairwise Apart) (hd : ∀ p ∈ paths, ∃ o, nestedGet d p = .ok o) :
    ∃ dp e, nestedPair d paths objs l0 l1 = .ok dp ∧ nestedUnpair dp paths l0 l1 = .ok (d, e) ∧
      (∀ po ∈ paths.zip objs, nestedGet e po.1 = .ok po.2) ∧
      (∀ p, (∀ q ∈ paths, Apart p q) → ∀ o, nestedGet e p ≠ .ok o) := by
  have hmap : (paths.zip objs).map Prod.fst = paths := List.map_fst_zip (by omega)
  have hpw : (paths.zip objs).Pairwise fun a b => Apart a.1 b.1 := by
    apply List.pairwise_map.1
    rw [hmap]; exact hp
  have hd' : ∀ po ∈ paths.zip objs, po.1 ≠ [] ∧ (at? po.1 d).isSome := by
    intro po hpo
    obtain ⟨o, ho⟩ := hd _ (List.of_mem_zip hpo).1
    rw [nestedGet_eq] at ho
    exact ⟨ho.1, by rw [ho.2]; rfl⟩
  obtain ⟨dp, e, h1, h2, h3, h4⟩ := roundtrip_aux l0 l1 hl _ hpw d hd' nil (by
    intro po hpo q hq hne w hw
    cases q with
    | nil => cases hw; rfl
    | cons j q => cases hw)
  rw [hmap] at h2
  refine ⟨dp, e, ?_, h2, fun po hpo => (nestedGet_eq _ _ _).2 ⟨(hd' po hpo).1, h3 po hpo⟩, fun p hap o ho => ?_⟩
  · unfold nestedPair
    rw [if_neg (by simpa using hlen)]; exact h1
  · rw [nestedGet_eq] at ho
    rw [h4 p fun po hpo => hap _ (List.of_mem_zip hpo).1, at?_nil ho.1] at ho
    cases ho.2

example : nestedPair (cons "m" (cons "w" (leaf 1) (cons "b" (leaf 2) nil)) nil) [["m", "w"]] [leaf 7] "mean" "std" =
      .ok (cons "m" (cons "w" (cons "mean" (leaf 1) (cons "std" (leaf 7) nil)) (cons "b" (leaf 2) nil)) nil) ∧
    nestedUnpair (cons "m" (cons "w" (cons "mean" (leaf 1) (cons "std" (leaf 7) nil)) (cons "b" (leaf 2) nil)) nil)
      [["m", "w"]] "mean" "std" =
      .ok (cons "m" (cons "w" (leaf 1) (cons "b" (leaf 2) nil)) nil, cons "m" (cons "w" (leaf 7) nil) nil) := by decide

/-- **C28, negative.** With overlapping paths the round trip is lost (a path and its extension, here through a label). -/
theorem C28_overlapping_false :
    ((nestedPair (cons "a" (leaf 1) nil) [["a"], ["a", "x"]] [leaf 2, leaf 3] "x" "y").bind fun dp =>
      nestedUnpair dp [["a"], ["a", "x"]] "x" "y") = .error "TypeError" := by decide

/-! ## C59: `find_one_path_to_key` -/

theorem occurs_cons {key k : K} {v r : Obj K V} (hw : WF (cons k v r)) :
    (∃ p, (at? (p ++ [key]) (cons k v r)).isSome) ↔
      k = key ∨ (∃ p, (at? (p ++ [key]) v).isSome) ∨ ∃ p, (at? (p ++ [key]) r).isSome := by
  obtain ⟨h1, h2, h3, h4⟩ := hw
  constructor
  · rintro ⟨p, hp⟩
    cases p with
    | nil =>
      by_cases h : k = key
      · exact Or.inl h
      · refine Or.inr (Or.inr ⟨[], ?_⟩)
        simpa [at?, lookup, h] using hp
    | cons j p =>
      by_cases h : k = j
      · refine Or.inr (Or.inl ⟨p, ?_⟩)
        simpa [at?, lookup, h] using hp
      · refine Or.inr (Or.inr ⟨j :: p, ?_⟩)
        simpa [at?, lookup, h] using hp
  · rintro (h | ⟨p, hp⟩ | ⟨p, hp⟩)
    · exact ⟨[], by simp [at?, lookup, h]⟩
    · exact ⟨k :: p, by simpa [at?, lookup] using hp⟩
    · refine ⟨p, ?_⟩
      cases p with
      | nil =>
        have : k ≠ key := by rintro rfl; simp [at?, h1] at hp
        simpa [at?, lookup, this] using hp
      | cons j p =>
        have : k ≠ j := by rintro rfl; simp [at?, h1] at hp
        simpa [at?, lookup, this] using hp

theorem at?_cons_rest {k : K} {v r : Obj K V} (h : lookup k r = none) {p : List K} (hp : (at? p r).isSome) (hne : p ≠ []) :
    at? p (cons k v r) = at? p r := by
  cases p with
  | nil => exact absurd rfl hne
  | cons j p =>
    have : k ≠ j := by rintro rfl; simp [at?, h] at hp
    simp [at?, lookup, this]

theorem findOnePath_spec (key : K) (d : Obj K V) (hw : WF d) (keys : List K) (hk : key ∉ keys) :
    ((∃ p, (at? (p ++ [key]) d).isSome) →
      ∃ p, key ∉ p ∧ findOnePath key d keys = keys ++ (p ++ [key]) ∧ (at? (p ++ [key]) d).isSome) ∧
    ((¬ ∃ p, (at? (p ++ [key]) d).isSome) → findOnePath key d keys = keys) := by
  induction d generalizing keys with
  | leaf v =>
    refine ⟨?_, fun _ => rfl⟩
    rintro ⟨p, hp⟩
    rw [at?_leaf (by simp)] at hp; cases hp
  | nil =>
    refine ⟨?_, fun _ => rfl⟩
    rintro ⟨p, hp⟩
    rw [at?_nil (by simp)] at hp; cases hp
  | cons k v r ihv ihr =>
    have hw' := hw
    obtain ⟨h1, h2, h3, h4⟩ := hw'
    rw [occurs_cons hw]
    unfold findOnePath
    by_cases hkk : k = key
    · rw [if_pos hkk]
      refine ⟨fun _ => ⟨[], by simp, by simp [hkk], by simp [at?, lookup, hkk]⟩, fun h => absurd (Or.inl hkk) h⟩
    · rw [if_neg hkk]
      have hk' : key ∉ keys ++ [k] := by simp [hk, Ne.symm hkk]
      obtain ⟨v1, v2⟩ := ihv h3 (keys ++ [k]) hk'
      obtain ⟨r1, r2⟩ := ihr h4 keys hk
      have hrest : (∃ p, key ∉ p ∧ findOnePath key r keys = keys ++ (p ++ [key]) ∧ (at? (p ++ [key]) r).isSome) →
          ∃ p, key ∉ p ∧ findOnePath key r keys = keys ++ (p ++ [key]) ∧ (at? (p ++ [key]) (cons k v r)).isSome := by
        rintro ⟨p, a, b, c⟩
        exact ⟨p, a, b, by rw [at?_cons_rest h1 c (by simp)]; exact c⟩
      by_cases hov : ∃ p, (at? (p ++ [key]) v).isSome
      · obtain ⟨p, a, b, c⟩ := v1 hov
        have hdict : v.isDict = true := by
          cases v with
          | leaf x => rw [at?_leaf (by simp)] at c; cases c
          | nil => rfl
          | cons _ _ _ => rfl
        have hin : key ∈ findOnePath key v (keys ++ [k]) := by rw [b]; simp
        simp only [hdict, if_true, hin]
        refine ⟨fun _ => ⟨k :: p, by simp [a, Ne.symm hkk], by rw [b]; simp, by simpa [at?, lookup] using c⟩,
          fun h => absurd (Or.inr (Or.inl hov)) h⟩
      · have hnotin : key ∉ findOnePath key v (keys ++ [k]) := by rw [v2 hov]; exact hk'
        simp only [hnotin, if_false, ite_self]
        constructor
        · rintro (h | h | h)
          · exact absurd h hkk
          · exact absurd h hov
          · exact hrest (r1 h)
        · intro h
          exact r2 fun h' => h (Or.inr (Or.inr h'))

/-- **C59.** If the key occurs anywhere in the nested dictionary, `find_one_path_to_key` returns a valid path ending with the
first occurrence of that key on it; otherwise it returns the empty path. -/
theorem C59_find_one_path (key : K) (d : Obj K V) (hw : WF d) :
    ((∃ p o, nestedGet d (p ++ [key]) = .ok o) →
      ∃ p o, key ∉ p ∧ findOnePath key d [] = p ++ [key] ∧ nestedGet d (p ++ [key]) = .ok o) ∧
    ((¬ ∃ p o, nestedGet d (p ++ [key]) = .ok o) → findOnePath key d [] = []) := by
  have e : (∃ p o, nestedGet d (p ++ [key]) = .ok o) ↔ ∃ p, (at? (p ++ [key]) d).isSome := by
    simp only [nestedGet_eq, Option.isSome_iff_exists]
    constructor
    · rintro ⟨p, o, -, h⟩; exact ⟨p, o, h⟩
    · rintro ⟨p, o, h⟩; exact ⟨p, o, by simp, h⟩
  rw [e]
  obtain ⟨h1, h2⟩ := findOnePath_spec key d hw [] (by simp)
  refine ⟨fun h => ?_, h2⟩
  obtain ⟨p, a, b, c⟩ := h1 h
  obtain ⟨o, ho⟩ := Option.isSome_iff_exists.1 c
  exact ⟨p, o, a, b, (nestedGet_eq _ _ _).2 ⟨by simp, ho⟩⟩

example : findOnePath "u" (cons "a" (cons "b" (leaf 1) nil) (cons "c" (cons "u" (leaf 2) nil) nil)) [] = ["c", "u"] ∧
    findOnePath "z" (cons "a" (cons "b" (leaf 1) nil) nil) [] = [] := by decide

/-! ## C60: `nested_update` -/

/-- The value after updating `x` (present value, if any) with `v`. -/
def combine (x : Option (Obj K V)) (v : Obj K V) : Obj K V :=
  match x with
  | some x => if x.isDict && v.isDict then nestedUpdate x v else v
  | none => v

theorem nestedUpdate_cons (d : Obj K V) (k : K) (v r : Obj K V) :
    nestedUpdate d (cons k v r) = nestedUpdate (setItem k (combine (lookup k d) v) d) r := by
  rw [nestedUpdate]
  cases lookup k d with
  | none => rfl
  | some x =>
    simp only [combine]
    split_ifs <;> rfl

theorem lookup_nestedUpdate (j : K) (d u : Obj K V) (hu : WF u) :
    lookup j (nestedUpdate d u) = match lookup j u with
      | none => lookup j d
      | some v => some (combine (lookup j d) v) := by
  induction u generalizing d with
  | leaf v => simp [nestedUpdate, lookup]
  | nil => simp [nestedUpdate, lookup]
  | cons k v r _ ih =>
    obtain ⟨h1, h2, h3, h4⟩ := hu
    rw [nestedUpdate_cons, ih _ h4, show lookup j (cons k v r) = if k = j then some v else lookup j r from rfl]
    by_cases h : k = j
    · subst h
      rw [h1, lookup_setItem_self]; simp
    · rw [lookup_setItem_ne h, if_neg h]

theorem update_leaf (p : List K) (d u : Obj K V) (hu : WF u) (v : V) (h : at? p u = some (leaf v)) (hp : p ≠ []) :
    at? p (nestedUpdate d u) = some (leaf v) := by
  induction p generalizing d u with
  | nil => exact absurd rfl hp
  | cons k p ih =>
    rw [at?] at h ⊢
    rw [lookup_nestedUpdate k d u hu]
    cases hl : lookup k u with
    | none => rw [hl] at h; cases h
    | some w =>
      rw [hl] at h
      simp only [Option.bind_some] at h ⊢
      cases p with
      | nil =>
        cases h
        cases hd : lookup k d with
        | none => rfl
        | some x => simp [combine, isDict, at?]
      | cons j p =>
        cases hd : lookup k d with
        | none => exact h
        | some x =>
          unfold combine
          dsimp only
          split_ifs
          · exact ih x w (WF_lookup hu hl) h (by simp)
          · exact h

theorem update_untouched (p : List K) (d u : Obj K V) (hu : WF u) (h : at? p u = none)
    (hpre : ∀ q v, q <+: p → at? q u ≠ some (leaf v)) : at? p (nestedUpdate d u) = at? p d := by
  induction p generalizing d u with
  | nil => cases h
  | cons k p ih =>
    rw [at?] at h ⊢
    rw [lookup_nestedUpdate k d u hu]
    cases hl : lookup k u with
    | none => rfl
    | some w =>
      rw [hl] at h
      simp only [Option.bind_some] at h ⊢
      have hwleaf : ∀ v, w ≠ leaf v := by
        rintro v rfl
        exact hpre [k] v (by simp) (by simp [at?, hl])
      have hpne : p ≠ [] := by rintro rfl; cases h
      rw [at?]
      cases hd : lookup k d with
      | none => exact h
      | some x =>
        unfold combine
        dsimp only
        split_ifs with hb
        · exact ih x w (WF_lookup hu hl) h fun q v hq hv =>
            hpre (k :: q) v (List.cons_prefix_cons.2 ⟨rfl, hq⟩) (by rw [at?, hl]; exact hv)
        · have hw : w.isDict = true := by
            cases w with
            | leaf v => exact absurd rfl (hwleaf v)
            | nil => rfl
            | cons _ _ _ => rfl
          rw [hw, Bool.and_true] at hb
          cases x with
          | leaf v => rw [h, Option.bind_some, at?_leaf hpne]
          | nil => exact absurd rfl hb
          | cons _ _ _ => exact absurd rfl hb

theorem update_leaf_origin (p : List K) (d u : Obj K V) (hu : WF u) (v : V) (hp : p ≠ [])
    (h : at? p (nestedUpdate d u) = some (leaf v)) : at? p u = some (leaf v) ∨ at? p d = some (leaf v) := by
  induction p generalizing d u with
  | nil => exact absurd rfl hp
  | cons k p ih =>
    rw [at?] at h
    rw [lookup_nestedUpdate k d u hu] at h
    rw [at?, at?]
    cases hl : lookup k u with
    | none => rw [hl] at h; exact Or.inr h
    | some w =>
      rw [hl] at h
      simp only [Option.bind_some] at h ⊢
      cases hd : lookup k d with
      | none => rw [hd] at h; exact Or.inl h
      | some x =>
        rw [hd] at h
        unfold combine at h
        dsimp only at h
        split_ifs at h with hb
        · cases p with
          | nil =>
            cases h' : nestedUpdate x w with
            | leaf v' =>
              have hx : x.isDict = true := (Bool.and_eq_true _ _ ▸ hb).1
              have : ∀ (u d : Obj K V), d.isDict = true → (nestedUpdate d u).isDict = true := by
                intro u
                induction u with
                | leaf v => intro d hd; simpa [nestedUpdate] using hd
                | nil => intro d hd; simpa [nestedUpdate] using hd
                | cons k v r _ ih => intro d _; rw [nestedUpdate_cons]; exact ih _ (isDict_setItem _ _ _)
              have := this w x hx
              rw [h'] at this; simp [isDict] at this
            | nil => rw [h'] at h; cases h
            | cons _ _ _ => rw [h'] at h; cases h
          | cons j p => exact ih x w (WF_lookup hu hl) (by simp) h
        · exact Or.inl h

/-- **C60.** After `nested_update`, every leaf of the updating dictionary is found at its path. -/
theorem C60_update_wins (d u : Obj K V) (hu : WF u) (p : List K) (v : V) (h : nestedGet u p = .ok (leaf v)) :
    nestedGet (nestedUpdate d u) p = .ok (leaf v) := by
  rw [nestedGet_eq] at h ⊢
  exact ⟨h.1, update_leaf p d u hu v h.2 h.1⟩

/-- **C60.** A path which the updating dictionary neither contains nor cuts off with a leaf keeps its value, even deep inside
dictionaries that are updated. -/
theorem C60_update_frame (d u : Obj K V) (hd : u.isDict = true) (hu : WF u) (p : List K) (h : ∀ o, nestedGet u p ≠ .ok o)
    (hpre : ∀ q v, q <+: p → nestedGet u q ≠ .ok (leaf v)) (o : Obj K V) :
    nestedGet (nestedUpdate d u) p = .ok o ↔ nestedGet d p = .ok o := by
  rw [nestedGet_eq, nestedGet_eq]
  refine and_congr_right fun hp => ?_
  rw [update_untouched p d u hu]
  · cases ha : at? p u with
    | none => rfl
    | some o => exact absurd ((nestedGet_eq _ _ _).2 ⟨hp, ha⟩) (h o)
  · intro q v hq hv
    cases q with
    | nil => cases hv; simp [isDict] at hd
    | cons j q => exact hpre _ v hq ((nestedGet_eq _ _ _).2 ⟨by simp, hv⟩)

/-- **C60.** Every leaf of the result comes from one of the two dictionaries. -/
theorem C60_no_invention (d u : Obj K V) (hu : WF u) (p : List K) (v : V)
    (h : nestedGet (nestedUpdate d u) p = .ok (leaf v)) :
    nestedGet u p = .ok (leaf v) ∨ nestedGet d p = .ok (leaf v) := by
  rw [nestedGet_eq] at h
  rw [nestedGet_eq, nestedGet_eq]
  rcases update_leaf_origin p d u hu v h.1 h.2 with h' | h'
  · exact Or.inl ⟨h.1, h'⟩
  · exact Or.inr ⟨h.1, h'⟩

example : nestedUpdate (cons "a" (cons "b" (leaf 1) (cons "c" (leaf 2) nil)) nil)
      (cons "a" (cons "c" (leaf 5) nil) (cons "e" (leaf 6) nil)) =
    cons "a" (cons "b" (leaf 1) (cons "c" (leaf 5) nil)) (cons "e" (leaf 6) nil) := by decide

/-! ### Concrete cases that meet the hypotheses of the theorems above -/

/-- A dictionary with two levels. -/
def exNested : Obj String ℕ := cons "a" (cons "b" (leaf 1) nil) (cons "c" (leaf 2) nil)

example := C27_get_set false (leaf 5) exNested (cons "a" (cons "b" (leaf 5) nil) (cons "c" (leaf 2) nil)) ["a", "b"] (by decide)
example := C27_frame false (leaf 5) exNested (cons "a" (cons "b" (leaf 5) nil) (cons "c" (leaf 2) nil)) ["a", "b"] (by decide) ["c"]
  (by simp [Apart]) (leaf 2)
example := C27_set_get false (leaf 1) exNested ["a", "b"] (by decide)
example := C27_allow (leaf 5) exNested ["d", "e"] rfl
example := C60_update_wins exNested (cons "a" (cons "d" (leaf 7) nil) nil) (by simp [WF, lookup, isDict]) ["a", "d"] 7 (by decide)
example := C60_update_frame exNested (cons "a" (cons "d" (leaf 7) nil) nil) rfl (by simp [WF, lookup, isDict]) ["a", "b"]
  (by intro o h; have e : nestedGet (cons "a" (cons "d" (leaf 7) nil) nil : Obj String ℕ) ["a", "b"] = .error "KeyError" := by decide
      rw [e] at h; cases h)
  (by
    intro q v hq h
    obtain rfl | rfl | rfl : q = [] ∨ q = ["a"] ∨ q = ["a", "b"] := by
      have := (List.mem_inits _ _).2 hq
      simpa using this
    · cases h
    · have e : nestedGet (cons "a" (cons "d" (leaf 7) nil) nil : Obj String ℕ) ["a"] = .ok (cons "d" (leaf 7) nil) := by decide
      rw [e] at h; cases h
    · have e : nestedGet (cons "a" (cons "d" (leaf 7) nil) nil : Obj String ℕ) ["a", "b"] = .error "KeyError" := by decide
      rw [e] at h; cases h) (leaf 1)

end Verif.Props
