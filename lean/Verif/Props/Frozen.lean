import Verif.Props.NestedDict

/-!
C29, C30: frozen parameters, encoded key paths.
-/
set_option linter.unusedSectionVars false
namespace Verif.Props
open Verif.Nested Verif.Nested.Obj

variable {K : Type} {V : Type} [DecidableEq K]

/-! ## Flattening -/

theorem mem_flatten (d : Obj K V) (hw : WF d) (p : List K) (v : V) : (p, v) ∈ flatten d ↔ at? p d = some (leaf v) := by
  induction d generalizing p with
  | leaf x =>
    cases p with
    | nil => simp [flatten, at?, eq_comm]
    | cons j p => simp [flatten, at?, lookup]
  | nil =>
    cases p with
    | nil => simp [flatten, at?]
    | cons j p => simp [flatten, at?, lookup]
  | cons k o r iho ihr =>
    obtain ⟨h1, h2, h3, h4⟩ := hw
    simp only [flatten, List.mem_append, List.mem_map, Prod.mk.injEq, Prod.exists]
    cases p with
    | nil =>
      simp only [at?, Option.some.injEq, reduceCtorEq, iff_false, not_or]
      constructor
      · rintro ⟨a, b, -, h, -⟩
        exact absurd h (by simp)
      · rw [ihr h4]
        simp only [at?, Option.some.injEq]
        rintro rfl
        simp [isDict] at h2
    | cons j p =>
      rw [ihr h4]
      by_cases hkj : k = j
      · subst hkj
        have : at? (k :: p) (cons k o r) = at? p o := by simp [at?, lookup]
        rw [this, ← iho h3]
        have h5 : at? (k :: p) r = none := by simp [at?, h1]
        rw [h5]
        constructor
        · rintro (⟨a, b, h, h', rfl⟩ | h)
          · cases h'; exact h
          · cases h
        · intro h; exact Or.inl ⟨p, v, h, rfl, rfl⟩
      · have : at? (j :: p) (cons k o r) = at? (j :: p) r := by simp [at?, lookup, hkj]
        rw [this]
        constructor
        · rintro (⟨a, b, h, h', rfl⟩ | h)
          · cases h'; exact absurd rfl hkj
          · exact h
        · exact Or.inr

theorem nodup_flatten (d : Obj K V) (hw : WF d) : ((flatten d).map Prod.fst).Nodup := by
  induction d with
  | leaf x => simp [flatten]
  | nil => simp [flatten]
  | cons k o r iho ihr =>
    obtain ⟨h1, h2, h3, h4⟩ := hw
    simp only [flatten, List.map_append, List.map_map]
    rw [List.nodup_append]
    refine ⟨?_, ihr h4, ?_⟩
    · have : (List.map (Prod.fst ∘ fun pv : List K × V => (k :: pv.1, pv.2)) (flatten o)) =
          ((flatten o).map Prod.fst).map (fun p => k :: p) := by rw [List.map_map]; rfl
      rw [this]
      exact (iho h3).map (fun a b h => by simpa using h)
    · rintro a ha b hb rfl
      simp only [List.mem_map, Function.comp] at ha hb
      obtain ⟨x, -, rfl⟩ := ha
      obtain ⟨⟨q, v⟩, hy, hq⟩ := hb
      simp only at hq
      subst hq
      rw [mem_flatten r h4] at hy
      simp [at?, h1] at hy

theorem leaves_apart {d : Obj K V} {p q : List K} {v w : V} (hp : at? p d = some (leaf v)) (hq : at? q d = some (leaf w))
    (hne : p ≠ q) : Apart p q := by
  have key : ∀ {p q : List K} {v w : V}, at? p d = some (leaf v) → at? q d = some (leaf w) → p ≠ q → ¬ p <+: q := by
    rintro p q v w hp hq hne ⟨t, rfl⟩
    rw [at?_append, hp, Option.bind_some, at?_leaf (by rintro rfl; simp at hne)] at hq
    cases hq
  exact ⟨key hp hq hne, key hq hp hne.symm⟩

/-! ## Building a tree from leaves -/

theorem WF_updateAt (o : Obj K V) (ho : WF o) (keys : List K) (d d' : Obj K V) (hd : WF d)
    (h : updateAt true (fun _ => .ok o) keys d = .ok d') : WF d' ∧ d'.isDict = true := by
  induction keys generalizing d d' with
  | nil => cases h
  | cons k keys ih =>
    cases keys with
    | nil =>
      unfold updateAt at h
      split_ifs at h with hdict
      obtain ⟨o', ho', rfl⟩ := map_ok h
      cases ho'
      exact ⟨WF_setItem hd ho hdict, isDict_setItem _ _ _⟩
    | cons k' keys =>
      unfold updateAt at h
      by_cases hdict : d.isDict = true
      swap
      · rw [if_neg hdict] at h; cases h
      rw [if_pos hdict] at h
      cases hl : lookup k d with
      | some x =>
        rw [hl] at h
        obtain ⟨y, hy, rfl⟩ := map_ok h
        exact ⟨WF_setItem hd (ih x y (WF_lookup hd hl) hy).1 hdict, isDict_setItem _ _ _⟩
      | none =>
        rw [hl] at h
        simp only [if_true] at h
        obtain ⟨y, hy, rfl⟩ := map_ok h
        exact ⟨WF_setItem hd (ih nil y (by simp [WF]) hy).1 hdict, isDict_setItem _ _ _⟩

/-- Setting apart paths to leaves, starting from an admissible tree, succeeds. -/
theorem setAll_ok (L : List (List K × Obj K V)) (hL : L.Pairwise fun a b => Apart a.1 b.1) (hne : ∀ po ∈ L, po.1 ≠ [])
    (hwf : ∀ po ∈ L, WF po.2) (e0 : Obj K V) (hw : WF e0) (hdict : e0.isDict = true)
    (he : ∀ po ∈ L, ∀ q, q <+: po.1 → q ≠ po.1 → ∀ w, at? q e0 = some w → w.isDict = true) :
    ∃ e, L.foldlM (fun d po => setPath true po.2 po.1 d) e0 = .ok e ∧ WF e ∧ e.isDict = true := by
  induction L generalizing e0 with
  | nil => exact ⟨e0, rfl, hw, hdict⟩
  | cons a L ih =>
    obtain ⟨p, o⟩ := a
    rw [List.pairwise_cons] at hL
    obtain ⟨e1, he1⟩ := (updateAt_true_ok o p e0).2 ⟨hne (p, o) (by simp), he (p, o) (by simp)⟩
    obtain ⟨-, o', ho', s1, s2, s3⟩ := updateAt_spec _ _ _ _ _ he1
    obtain ⟨w1, w2⟩ := WF_updateAt o (hwf (p, o) (by simp)) p e0 e1 hw he1
    obtain ⟨e, i1, i2⟩ := ih hL.2 (fun po hpo => hne po (by simp [hpo])) (fun po hpo => hwf po (by simp [hpo])) e1 w1 w2 (by
      intro po hpo q hq hqne w hw
      have hap := hL.1 po hpo
      by_cases h1 : q <+: p
      · by_cases h2 : q = p
        · subst h2; exact absurd hq hap.1
        · obtain ⟨w', hw', hwd⟩ := s3 q h1 h2
          rw [hw'] at hw; cases hw; exact hwd
      · by_cases h2 : p <+: q
        · exact absurd (h2.trans hq) hap.1
        · rw [s2 q ⟨h1, h2⟩] at hw
          exact he po (by simp [hpo]) q hq hqne w hw)
    refine ⟨e, ?_, i2⟩
    rw [List.foldlM_cons, setPath_true, he1]
    exact i1

/-- The tree built from a set of leaves of a tree: it has these leaves, and no value outside their prefixes. -/
theorem build_spec (L : List (List K × V)) (hL : L.Pairwise fun a b => Apart a.1 b.1) (hne : ∀ pv ∈ L, pv.1 ≠ []) :
    ∃ e, nestedSet nil (L.map Prod.fst) (L.map fun pv => leaf pv.2) true = .ok e ∧ WF e ∧ e.isDict = true ∧
      (∀ pv ∈ L, at? pv.1 e = some (leaf pv.2)) ∧
      (∀ q o, q ≠ [] → at? q e = some o → ∃ pv ∈ L, q <+: pv.1) := by
  have hz : (L.map Prod.fst).zip (L.map fun pv => (leaf pv.2 : Obj K V)) = L.map fun pv => (pv.1, leaf pv.2) := by
    rw [List.zip_map']
  have hpw : (L.map fun pv => (pv.1, (leaf pv.2 : Obj K V))).Pairwise fun a b => Apart a.1 b.1 := List.pairwise_map.2 hL
  obtain ⟨e, h1, h2, h3⟩ := setAll_ok _ hpw (by
      intro po hpo
      obtain ⟨pv, hpv, rfl⟩ := List.mem_map.1 hpo
      exact hne pv hpv) (by
      intro po hpo
      obtain ⟨pv, -, rfl⟩ := List.mem_map.1 hpo
      simp [WF]) nil (by simp [WF]) rfl (by
      intro po hpo q hq hne w hw
      cases q with
      | nil => cases hw; rfl
      | cons j q => cases hw)
  obtain ⟨s1, s2⟩ := setAll_spec true _ hpw nil e h1
  refine ⟨e, ?_, h2, h3, ?_, ?_⟩
  · unfold nestedSet
    rw [if_neg (by simp), hz]; exact h1
  · intro pv hpv
    exact (s1 (pv.1, leaf pv.2) (List.mem_map.2 ⟨pv, hpv, rfl⟩)).2
  · intro q o hq ho
    by_contra hcon
    simp only [not_exists, not_and] at hcon
    have hap : ∀ po ∈ (L.map fun pv => (pv.1, (leaf pv.2 : Obj K V))), Apart q po.1 := by
      intro po hpo
      obtain ⟨pv, hpv, rfl⟩ := List.mem_map.1 hpo
      refine ⟨hcon pv hpv, ?_⟩
      rintro ⟨t, ht⟩
      have hleaf := (s1 (pv.1, leaf pv.2) (List.mem_map.2 ⟨pv, hpv, rfl⟩)).2
      rw [← ht, at?_append, hleaf, Option.bind_some] at ho
      by_cases htn : t = []
      · subst htn
        rw [List.append_nil] at ht
        simp only at ht
        exact hcon pv hpv (ht ▸ List.prefix_refl _)
      · rw [at?_leaf htn] at ho; cases ho
    rw [s2 q hap, at?_nil hq] at ho
    cases ho

/-! ## Training steps -/

theorem lookup_mapLeaves (g : List K → V → V) (q : List K) (j : K) (d : Obj K V) :
    lookup j (mapLeaves g q d) = (lookup j d).map (mapLeaves g (q ++ [j])) := by
  induction d with
  | leaf v => rfl
  | nil => rfl
  | cons k o r _ ih =>
    simp only [mapLeaves, lookup]
    split_ifs with h
    · subst h; rfl
    · exact ih

theorem at?_mapLeaves (g : List K → V → V) (p q : List K) (d : Obj K V) :
    at? p (mapLeaves g q d) = (at? p d).map (mapLeaves g (q ++ p)) := by
  induction p generalizing q d with
  | nil => simp [at?]
  | cons k p ih =>
    simp only [at?, lookup_mapLeaves]
    cases lookup k d with
    | none => rfl
    | some x =>
      simp only [Option.map_some, Option.bind_some]
      rw [ih]; simp

theorem isDict_mapLeaves (g : List K → V → V) (q : List K) (d : Obj K V) : (mapLeaves g q d).isDict = d.isDict := by
  cases d <;> rfl

theorem WF_mapLeaves (g : List K → V → V) (q : List K) (d : Obj K V) (h : WF d) : WF (mapLeaves g q d) := by
  induction d generalizing q with
  | leaf v => simp [mapLeaves, WF]
  | nil => simp [mapLeaves, WF]
  | cons k o r iho ihr =>
    obtain ⟨h1, h2, h3, h4⟩ := h
    refine ⟨by rw [lookup_mapLeaves, h1]; rfl, by rw [isDict_mapLeaves]; exact h2, iho _ h3, ihr _ h4⟩

/-- The same tree structure: leaves at the same paths, dictionaries at the same paths. -/
def SameShape (d d' : Obj K V) : Prop :=
  ∀ p, (at? p d = none ↔ at? p d' = none) ∧ ((∃ v, at? p d = some (leaf v)) ↔ ∃ v, at? p d' = some (leaf v))

theorem sameShape_mapLeaves (g : List K → V → V) (q : List K) (d : Obj K V) : SameShape d (mapLeaves g q d) := by
  intro p
  rw [at?_mapLeaves]
  cases at? p d with
  | none => simp
  | some o => cases o <;> simp [mapLeaves]

theorem trainSteps_spec (steps : List (Obj K V → List K → V → V)) (F T : Obj K V) (hw : WF T) :
    WF (trainSteps steps F T) ∧ (trainSteps steps F T).isDict = T.isDict ∧ SameShape T (trainSteps steps F T) := by
  unfold trainSteps
  induction steps generalizing T with
  | nil => exact ⟨hw, rfl, fun p => ⟨Iff.rfl, Iff.rfl⟩⟩
  | cons g steps ih =>
    obtain ⟨h1, h2, h3⟩ := ih (mapLeaves (g (nestedUpdate F T)) [] T) (WF_mapLeaves _ _ _ hw)
    refine ⟨h1, h2.trans (isDict_mapLeaves _ _ _), fun p => ?_⟩
    have := sameShape_mapLeaves (g (nestedUpdate F T)) [] T p
    exact ⟨this.1.trans (h3 p).1, this.2.trans (h3 p).2⟩

theorem mapM_nestedGet (d : Obj K V) (L : List (List K × V)) (h : ∀ pv ∈ L, nestedGet d pv.1 = .ok (leaf pv.2)) :
    (L.map Prod.fst).mapM (nestedGet d) = .ok (L.map fun pv => leaf pv.2) := by
  induction L with
  | nil => rfl
  | cons a L ih =>
    rw [List.map_cons, List.mapM_cons, h a (by simp), ih fun pv hpv => h pv (by simp [hpv])]; rfl

/-- Every label is one of the two allowed ones. -/
def ValidLabels (d : Obj K V) (f : List K → V → String) : Prop :=
  ∀ p v, nestedGet d p = .ok (leaf v) → f p v = "frozen" ∨ f p v = "trainable"

theorem split_spec (d : Obj K V) (hd : d.isDict = true) (hw : WF d) (f : List K → V → String) (hf : ValidLabels d f) :
    ∃ F T, splitParams d f = .ok (F, T) ∧ WF F ∧ WF T ∧ T.isDict = true ∧
      (∀ p v, at? p F = some (leaf v) ↔ at? p d = some (leaf v) ∧ f p v = "frozen") ∧
      (∀ p v, at? p T = some (leaf v) ↔ at? p d = some (leaf v) ∧ f p v = "trainable") ∧
      (∀ p v, at? p d = some (leaf v) → f p v = "frozen" → at? p T = none ∧ ∀ q w, q <+: p → at? q T ≠ some (leaf w)) := by
  have hne : ∀ p v, at? p d = some (leaf v) → p ≠ [] := by
    rintro p v h rfl
    cases h; simp [isDict] at hd
  have hany : ((flatten d).map fun pv => f pv.1 pv.2).any (fun c => !["frozen", "trainable"].contains c) = false := by
    rw [List.any_eq_false]
    intro c hc
    obtain ⟨⟨p, v⟩, hpv, rfl⟩ := List.mem_map.1 hc
    have h1 := (mem_flatten d hw p v).1 hpv
    rcases hf p v ((nestedGet_eq _ _ _).2 ⟨hne p v h1, h1⟩) with h | h <;> simp [h]
  have hpaths : ∀ label, pathsWithLabel d f label ["frozen", "trainable"] =
      .ok (((flatten d).filter fun pv => f pv.1 pv.2 == label).map Prod.fst) := by
    intro label
    unfold pathsWithLabel
    rw [hany]; rfl
  have hmem : ∀ label p v, (p, v) ∈ (flatten d).filter (fun pv => f pv.1 pv.2 == label) ↔
      at? p d = some (leaf v) ∧ f p v = label := by
    intro label p v
    rw [List.mem_filter, mem_flatten d hw]; simp
  have hpw : ∀ label, ((flatten d).filter fun pv => f pv.1 pv.2 == label).Pairwise fun a b => Apart a.1 b.1 := by
    intro label
    have hnd := nodup_flatten d hw
    have h1 : (flatten d).Pairwise fun a b => a.1 ≠ b.1 := List.pairwise_map.1 hnd
    refine (h1.imp_of_mem ?_).filter _
    intro a b ha hb hab
    exact leaves_apart ((mem_flatten d hw a.1 a.2).1 ha) ((mem_flatten d hw b.1 b.2).1 hb) hab
  have hbuild : ∀ label, ∃ e, nestedSet nil (((flatten d).filter fun pv => f pv.1 pv.2 == label).map Prod.fst)
        (((flatten d).filter fun pv => f pv.1 pv.2 == label).map fun pv => leaf pv.2) true = .ok e ∧ WF e ∧ e.isDict = true ∧
        (∀ p v, at? p e = some (leaf v) ↔ at? p d = some (leaf v) ∧ f p v = label) ∧
        (∀ q o, q ≠ [] → at? q e = some o → ∃ p v, at? p d = some (leaf v) ∧ f p v = label ∧ q <+: p) := by
    intro label
    obtain ⟨e, h1, h2, h3, h4, h5⟩ := build_spec _ (hpw label) (fun pv hpv => by
      obtain ⟨p, v⟩ := pv
      exact hne p v ((hmem label p v).1 hpv).1)
    refine ⟨e, h1, h2, h3, fun p v => ⟨fun h => ?_, fun h => h4 (p, v) ((hmem label p v).2 h)⟩, fun q o hq ho => ?_⟩
    · have hp : p ≠ [] := by rintro rfl; cases h; simp [isDict] at h3
      obtain ⟨⟨p', v'⟩, hpv, hpre⟩ := h5 p _ hp h
      have hl := h4 (p', v') hpv
      obtain ⟨t, ht⟩ := hpre
      simp only at ht
      subst ht
      by_cases htn : t = []
      · subst htn
        rw [List.append_nil] at hl hpv
        simp only at hl
        rw [h] at hl
        cases hl
        exact (hmem label p v).1 hpv
      · simp only at hl
        rw [at?_append, h, Option.bind_some, at?_leaf htn] at hl; cases hl
    · obtain ⟨⟨p', v'⟩, hpv, hpre⟩ := h5 q o hq ho
      exact ⟨p', v', ((hmem label p' v').1 hpv).1, ((hmem label p' v').1 hpv).2, hpre⟩
  obtain ⟨F, f1, f2, f3, f4, f5⟩ := hbuild "frozen"
  obtain ⟨T, t1, t2, t3, t4, t5⟩ := hbuild "trainable"
  have hget : ∀ label, ((((flatten d).filter fun pv => f pv.1 pv.2 == label).map Prod.fst).mapM (nestedGet d)) =
      .ok (((flatten d).filter fun pv => f pv.1 pv.2 == label).map fun pv => leaf pv.2) := by
    intro label
    apply mapM_nestedGet
    rintro ⟨p, v⟩ hpv
    have := ((hmem label p v).1 hpv).1
    exact (nestedGet_eq _ _ _).2 ⟨hne p v this, this⟩
  refine ⟨F, T, ?_, f2, t2, t3, f4, t4, ?_⟩
  · unfold splitParams
    simp only [bind, Except.bind, hpaths, hget, f1, t1]; rfl
  · intro p v hp hfr
    have hap : ∀ p' v', at? p' d = some (leaf v') → f p' v' = "trainable" → Apart p p' := by
      intro p' v' h1 h2
      apply leaves_apart hp h1
      rintro rfl
      rw [hp] at h1; cases h1
      rw [hfr] at h2; exact absurd h2 (by decide)
    constructor
    · cases ha : at? p T with
      | none => rfl
      | some o =>
        obtain ⟨p', v', h1, h2, h3⟩ := t5 p o (hne p v hp) ha
        exact absurd h3 (hap p' v' h1 h2).1
    · intro q w hq hw'
      obtain ⟨h1, h2⟩ := (t4 q w).1 hw'
      exact (hap q w h1 h2).2 hq

/-! ## C29 -/

/-- **C29.** Whatever the training steps do, after training every frozen parameter has exactly its initial value, and the
parameter tree has leaves at exactly the same paths as before. -/
theorem C29_frozen_never_change (d : Obj K V) (hd : d.isDict = true) (hw : WF d) (f : List K → V → String)
    (hf : ValidLabels d f) (steps : List (Obj K V → List K → V → V)) :
    ∃ d', trainFrozen d f steps = .ok d' ∧
      (∀ p v, nestedGet d p = .ok (leaf v) → f p v = "frozen" → nestedGet d' p = .ok (leaf v)) ∧
      (∀ p, (∃ v, nestedGet d p = .ok (leaf v)) ↔ ∃ v, nestedGet d' p = .ok (leaf v)) := by
  obtain ⟨F, T, h1, wF, wT, dT, hF, hT, hfr⟩ := split_spec d hd hw f hf
  obtain ⟨w', dict', shape⟩ := trainSteps_spec steps F T wT
  have hfrozen : ∀ p v, nestedGet d p = .ok (leaf v) → f p v = "frozen" →
      nestedGet (nestedUpdate F (trainSteps steps F T)) p = .ok (leaf v) := by
    intro p v hp hlab
    rw [nestedGet_eq] at hp ⊢
    refine ⟨hp.1, ?_⟩
    obtain ⟨n1, n2⟩ := hfr p v hp.2 hlab
    rw [update_untouched p F _ w' ((shape p).1.1 n1)]
    · exact (hF p v).2 ⟨hp.2, hlab⟩
    · intro q w hq hqw
      obtain ⟨x, hx⟩ := (shape q).2.2 ⟨w, hqw⟩
      exact n2 q x hq hx
  refine ⟨nestedUpdate F (trainSteps steps F T), by unfold trainFrozen; rw [h1]; rfl, hfrozen, fun p => ⟨?_, ?_⟩⟩
  · rintro ⟨v, hv⟩
    rcases hf p v hv with h | h
    · exact ⟨v, hfrozen p v hv h⟩
    · rw [nestedGet_eq] at hv
      obtain ⟨x, hx⟩ := (shape p).2.1 ⟨v, (hT p v).2 ⟨hv.2, h⟩⟩
      exact ⟨x, (nestedGet_eq _ _ _).2 ⟨hv.1, update_leaf p F _ w' x hx hv.1⟩⟩
  · rintro ⟨v, hv⟩
    rw [nestedGet_eq] at hv
    rcases update_leaf_origin p F _ w' v hv.1 hv.2 with h | h
    · obtain ⟨x, hx⟩ := (shape p).2.2 ⟨v, h⟩
      exact ⟨x, (nestedGet_eq _ _ _).2 ⟨hv.1, ((hT p x).1 hx).1⟩⟩
    · exact ⟨v, (nestedGet_eq _ _ _).2 ⟨hv.1, ((hF p v).1 h).1⟩⟩

/-- **C29.** The parameters that a step sees and that are returned are the trainable ones as they were trained, at their own
paths: the merge never mixes them up. -/
theorem C29_trainable_merged (d : Obj K V) (hd : d.isDict = true) (hw : WF d) (f : List K → V → String)
    (hf : ValidLabels d f) (steps : List (Obj K V → List K → V → V)) :
    ∃ F T d', splitParams d f = .ok (F, T) ∧ trainFrozen d f steps = .ok d' ∧
      ∀ p v, nestedGet d p = .ok (leaf v) → f p v = "trainable" →
        ∃ v', nestedGet (trainSteps steps F T) p = .ok (leaf v') ∧ nestedGet d' p = .ok (leaf v') := by
  obtain ⟨F, T, h1, wF, wT, dT, hF, hT, hfr⟩ := split_spec d hd hw f hf
  obtain ⟨w', dict', shape⟩ := trainSteps_spec steps F T wT
  refine ⟨F, T, _, h1, by unfold trainFrozen; rw [h1]; rfl, fun p v hv hlab => ?_⟩
  rw [nestedGet_eq] at hv
  obtain ⟨x, hx⟩ := (shape p).2.1 ⟨v, (hT p v).2 ⟨hv.2, hlab⟩⟩
  exact ⟨x, (nestedGet_eq _ _ _).2 ⟨hv.1, hx⟩, (nestedGet_eq _ _ _).2 ⟨hv.1, update_leaf p F _ w' x hx hv.1⟩⟩

/-- **C29.** Splitting into frozen and trainable parameters and merging back is the identity on the parameters. -/
theorem C29_split_merge (d : Obj K V) (hd : d.isDict = true) (hw : WF d) (f : List K → V → String) (hf : ValidLabels d f) :
    ∃ d', trainFrozen d f [] = .ok d' ∧ ∀ p v, nestedGet d p = .ok (leaf v) ↔ nestedGet d' p = .ok (leaf v) := by
  obtain ⟨F, T, h1, wF, wT, dT, hF, hT, hfr⟩ := split_spec d hd hw f hf
  refine ⟨nestedUpdate F T, by unfold trainFrozen; rw [h1]; rfl, fun p v => ⟨fun hv => ?_, fun hv => ?_⟩⟩
  · have hv' := (nestedGet_eq _ _ _).1 hv
    rw [nestedGet_eq]
    refine ⟨hv'.1, ?_⟩
    rcases hf p v hv with h | h
    · obtain ⟨n1, n2⟩ := hfr p v hv'.2 h
      rw [update_untouched p F _ wT n1 n2]
      exact (hF p v).2 ⟨hv'.2, h⟩
    · exact update_leaf p F _ wT v ((hT p v).2 ⟨hv'.2, h⟩) hv'.1
  · rw [nestedGet_eq] at hv ⊢
    refine ⟨hv.1, ?_⟩
    rcases update_leaf_origin p F _ wT v hv.1 hv.2 with h | h
    · exact ((hT p v).1 h).1
    · exact ((hF p v).1 h).1

/-- **C29.** A freeze function returning any other label is rejected before training starts. -/
theorem C29_bad_label_rejected (d : Obj K V) (hw : WF d) (f : List K → V → String) (p : List K)
    (v : V) (hp : nestedGet d p = .ok (leaf v)) (h1 : f p v ≠ "frozen") (h2 : f p v ≠ "trainable")
    (steps : List (Obj K V → List K → V → V)) : trainFrozen d f steps = .error "ValueError" := by
  have hmem := (mem_flatten d hw p v).2 ((nestedGet_eq _ _ _).1 hp).2
  have : ((flatten d).map fun pv => f pv.1 pv.2).any (fun c => !["frozen", "trainable"].contains c) = true := by
    rw [List.any_eq_true]
    exact ⟨f p v, List.mem_map.2 ⟨(p, v), hmem, rfl⟩, by simp [h1, h2]⟩
  unfold trainFrozen splitParams pathsWithLabel
  rw [this]; rfl

example : trainFrozen (cons "enc" (cons "w" (leaf 1) (cons "b" (leaf 2) nil)) (cons "dec" (cons "w" (leaf 3) nil) nil))
      (fun p _ => if p = ["enc", "w"] then "frozen" else "trainable") [fun _ _ v => v + 10, fun _ _ v => v * 2] =
    .ok (cons "enc" (cons "w" (leaf 1) (cons "b" (leaf 24) nil)) (cons "dec" (cons "w" (leaf 26) nil) nil)) := by decide

/-- **C29, negative.** Without a freeze function `get_trainable_paths` does not return the paths of the parameters, but the
letters of the top-level keys. -/
theorem C29_no_freeze_fun_paths_false :
    pathsNoFreeze (cons "model" (cons "w" (leaf 1) nil) (cons "lik" (leaf 2) nil)) = [["m", "o", "d", "e", "l"], ["l", "i", "k"]] := by decide

/-- The optimizer's state is initialised from the very tree that is trained: it has an entry for each trainable parameter, with its
value, and none for frozen ones, and after any number of steps it fits the parameters it is to update. -/
theorem C29_optimizer_state (d : Obj K V) (hd : d.isDict = true) (hw : WF d) (f : List K → V → String)
    (hf : ValidLabels d f) (steps : List (Obj K V → List K → V → V)) :
    ∃ F T, splitParams d f = .ok (F, T) ∧ optimizerTree d f = .ok T ∧
      (∀ p v, nestedGet T p = .ok (leaf v) ↔ nestedGet d p = .ok (leaf v) ∧ f p v = "trainable") ∧
      (∀ p, (∃ v, nestedGet T p = .ok (leaf v)) ↔ ∃ v, nestedGet (trainSteps steps F T) p = .ok (leaf v)) := by
  obtain ⟨F, T, h1, wF, wT, dT, hF, hT, hfr⟩ := split_spec d hd hw f hf
  obtain ⟨w', dict', shape⟩ := trainSteps_spec steps F T wT
  refine ⟨F, T, h1, ?_, fun p v => ?_, fun p => ?_⟩
  · unfold splitParams at h1
    unfold optimizerTree
    revert h1
    generalize pathsWithLabel d f "frozen" ["frozen", "trainable"] = a
    generalize pathsWithLabel d f "trainable" ["frozen", "trainable"] = b
    intro h1
    cases a with
    | error e => cases h1
    | ok a =>
      cases b with
      | error e => cases h1
      | ok b =>
        change (do
          let fo ← a.mapM (nestedGet d)
          let F ← nestedSet nil a fo true
          let tr ← b.mapM (nestedGet d)
          let T ← nestedSet nil b tr true
          pure (F, T) : Except String _) = _ at h1
        change (do
          let tr ← b.mapM (nestedGet d)
          nestedSet nil b tr true : Except String _) = _
        revert h1
        generalize a.mapM (nestedGet d) = x
        generalize b.mapM (nestedGet d) = y
        intro h1
        cases x with
        | error e => cases h1
        | ok x =>
          change (do
            let F ← nestedSet nil a x true
            let tr ← y
            let T ← nestedSet nil b tr true
            pure (F, T) : Except String _) = _ at h1
          revert h1
          generalize nestedSet nil a x true = z
          intro h1
          cases z with
          | error e => cases h1
          | ok z =>
            cases y with
            | error e => cases h1
            | ok y =>
              change (do
                let T ← nestedSet nil b y true
                pure (z, T) : Except String _) = _ at h1
              change nestedSet nil b y true = _
              revert h1
              generalize nestedSet nil b y true = t
              intro h1
              cases t with
              | error e => cases h1
              | ok t => cases h1; rfl
  · rw [nestedGet_eq, nestedGet_eq, hT]
    tauto
  · simp only [nestedGet_eq]
    have := shape p
    constructor
    · rintro ⟨v, hp, hv⟩
      obtain ⟨w, hw⟩ := this.2.1 ⟨v, hv⟩
      exact ⟨w, hp, hw⟩
    · rintro ⟨v, hp, hv⟩
      obtain ⟨w, hw⟩ := this.2.2 ⟨v, hv⟩
      exact ⟨w, hp, hw⟩

/-- A freeze function that returns anything but the two labels is refused when the optimizer is set up, before training. -/
theorem C29_bad_label_optimizer (d : Obj K V) (hw : WF d) (f : List K → V → String) (p : List K)
    (v : V) (hp : nestedGet d p = .ok (leaf v)) (h1 : f p v ≠ "frozen") (h2 : f p v ≠ "trainable") :
    optimizerTree d f = .error "ValueError" := by
  have hmem := (mem_flatten d hw p v).2 ((nestedGet_eq _ _ _).1 hp).2
  have : ((flatten d).map fun pv => f pv.1 pv.2).any (fun c => !["frozen", "trainable"].contains c) = true := by
    rw [List.any_eq_true]
    exact ⟨f p v, List.mem_map.2 ⟨(p, v), hmem, rfl⟩, by simp [h1, h2]⟩
  unfold optimizerTree pathsWithLabel
  rw [this]; rfl

/-! ## C30 -/

theorem sortItems_sorted {γ : Type} (l : List (List ℕ × γ)) (h : l.Pairwise fun a b => lexLe a.1 b.1 = true) :
    sortItems l = l := by
  induction l with
  | nil => rfl
  | cons a l ih =>
    rw [List.pairwise_cons] at h
    have : sortItems (a :: l) = (sortItems l).takeWhile (fun y => !lexLe a.1 y.1) ++
        a :: (sortItems l).dropWhile (fun y => !lexLe a.1 y.1) := rfl
    rw [this, ih h.2]
    cases l with
    | nil => rfl
    | cons b l =>
      have hb := h.1 b (by simp)
      simp [hb]

theorem strKey_sorted : (List.range 10).Pairwise fun i j => lexLe (strKey i) (strKey j) = true := by decide +kernel

theorem toStateDict_sorted {γ : Type} (l : List γ) (h : l.length ≤ 10) : sortItems (toStateDict l) = toStateDict l := by
  apply sortItems_sorted
  unfold toStateDict
  rw [List.pairwise_map]
  have h1 : (l.zipIdx.map Prod.snd).Pairwise fun i j => lexLe (strKey i) (strKey j) = true := by
    rw [List.zipIdx_map_snd]
    have : List.range' 0 l.length = (List.range 10).take l.length := by
      rw [← List.range_eq_range', List.take_range, min_eq_left h]
    rw [this]
    exact strKey_sorted.sublist (List.take_sublist _ _)
  exact List.pairwise_map.1 h1

theorem toStateDict_values {γ : Type} (l : List γ) : (toStateDict l).map Prod.snd = l := by
  unfold toStateDict
  rw [List.map_map]
  have : (Prod.snd ∘ fun xi : γ × ℕ => (strKey xi.2, xi.1)) = Prod.fst := rfl
  rw [this, List.zipIdx_map_fst]

/-- **C30.** Up to ten key paths of up to ten components each, decoding inverts encoding, for every choice of strings. -/
theorem C30_round_trip (a : List (List (List Char))) (h : a.length ≤ 10) (h' : ∀ p ∈ a, p.length ≤ 10) :
    decode (encode a) = a := by
  unfold decode encode
  rw [toStateDict_sorted _ (by simpa using h)]
  have e : (toStateDict (a.map fun path => toStateDict (path.map fun s => s.map Char.toNat))).map
      (fun kv => (sortItems kv.2).map fun s => s.2.map Char.ofNat) =
      ((toStateDict (a.map fun path => toStateDict (path.map fun s => s.map Char.toNat))).map Prod.snd).map
      (fun v => (sortItems v).map fun s => s.2.map Char.ofNat) := by rw [List.map_map]; rfl
  rw [e, toStateDict_values, List.map_map]
  conv_rhs => rw [← List.map_id a]
  apply List.map_congr_left
  intro p hp
  simp only [Function.comp, id]
  rw [toStateDict_sorted _ (by simpa using h' p hp)]
  have e2 : (toStateDict (p.map fun s => s.map Char.toNat)).map (fun s => s.2.map Char.ofNat) =
      ((toStateDict (p.map fun s => s.map Char.toNat)).map Prod.snd).map (fun s => s.map Char.ofNat) := by
    rw [List.map_map]; rfl
  rw [e2, toStateDict_values, List.map_map]
  conv_rhs => rw [← List.map_id p]
  apply List.map_congr_left
  intro s _
  rw [Function.comp, List.map_map]
  conv_rhs => rw [id, ← List.map_id s]
  apply List.map_congr_left
  intro c _
  exact Char.ofNat_toNat c

example : decode (encode [["model".toList, "w".toList], ["model".toList, "b".toList]]) =
    [["model".toList, "w".toList], ["model".toList, "b".toList]] := by decide +kernel

/-- **C30, negative.** With eleven key paths, decoding returns them in another order: the eleventh becomes the third. -/
theorem C30_eleven_false :
    decode (encode ((List.range 11).map fun i => [[Char.ofNat (97 + i)]])) =
      (["a", "b", "k", "c", "d", "e", "f", "g", "h", "i", "j"].map fun s => [s.toList]) := by decide +kernel

/-! ### Concrete cases that meet the hypotheses of the theorems above -/

/-- Parameters of an encoder and a decoder. -/
def exFrozen : Obj String ℕ := cons "enc" (cons "w" (leaf 1) (cons "b" (leaf 2) nil)) (cons "dec" (cons "w" (leaf 3) nil) nil)

theorem exFrozen_wf : WF exFrozen := by simp [exFrozen, WF, lookup, isDict]

/-- Freeze the weights of the encoder. -/
def exFreeze (p : List String) (_ : ℕ) : String := if p = ["enc", "w"] then "frozen" else "trainable"

theorem exFreeze_valid : ValidLabels exFrozen exFreeze := by
  intro p v _
  unfold exFreeze
  split_ifs <;> simp

example := C29_frozen_never_change exFrozen rfl exFrozen_wf exFreeze exFreeze_valid [fun _ _ v => v + 10, fun _ _ v => v * 2]
example := C29_trainable_merged exFrozen rfl exFrozen_wf exFreeze exFreeze_valid [fun _ _ v => v + 10, fun _ _ v => v * 2]
example := C29_split_merge exFrozen rfl exFrozen_wf exFreeze exFreeze_valid
example := C29_optimizer_state exFrozen rfl exFrozen_wf exFreeze exFreeze_valid [fun _ _ v => v + 10, fun _ _ v => v * 2]
example : optimizerTree exFrozen exFreeze = .ok (cons "enc" (cons "b" (leaf 2) nil) (cons "dec" (cons "w" (leaf 3) nil) nil)) := by
  decide +kernel
example := C29_bad_label_optimizer exFrozen exFrozen_wf (fun _ _ => "fixed") ["enc", "w"] 1 (by decide +kernel) (by decide) (by decide)

end Verif.Props
