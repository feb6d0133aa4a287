import Mathlib.Algebra.Order.BigOperators.Group.List
import Verif.Props.AdviRun

/-! Properties of samples of the Laplace approximation (C74), and of the Laplace approximation under a diagonal Gaussian prior (C135). -/

set_option linter.unusedSectionVars false

namespace Verif.Props

open Verif.GaussPost Verif.Nested Verif.Nested.Obj Verif.OutputLayer Verif.Props.AdviRun

/-! ## Trees that fit -/

section
variable {K : Type} [DecidableEq K]

theorem mem_topKeys {V : Type} (k : K) (d : Obj K V) : k ∈ topKeys d ↔ (lookup k d).isSome = true := by
  induction d with
  | leaf v => simp [topKeys, lookup]
  | nil => simp [topKeys, lookup]
  | cons j o r _ ih =>
    by_cases h : j = k
    · simp [topKeys, lookup, h]
    · simp [topKeys, lookup, h, ih, Ne.symm h]

theorem topKeys_mapLeaves {V : Type} (g : List K → V → V) (q : List K) (d : Obj K V) : topKeys (mapLeaves g q d) = topKeys d := by
  induction d with
  | leaf v => rfl
  | nil => rfl
  | cons j o r _ ih => simp only [mapLeaves, topKeys, ih]

theorem sameKeys_spec (a b : Obj K (List ℝ)) : sameKeys a b = true ↔
    (a.isDict = true → b.isDict = true ∧ ∀ k, k ∈ topKeys a ↔ k ∈ topKeys b) := by
  unfold sameKeys
  cases ha : a.isDict
  · simp
  · simp only [Bool.not_true, Bool.false_or, Bool.and_eq_true, List.all_eq_true, decide_eq_true_eq, true_implies]
    constructor
    · rintro ⟨⟨h1, h2⟩, h3⟩
      exact ⟨h1, fun k => ⟨h2 k, h3 k⟩⟩
    · rintro ⟨h1, h2⟩
      exact ⟨⟨h1, fun k => (h2 k).1⟩, fun k => (h2 k).2⟩

theorem sameKeys_map (g : List K → List ℝ → List ℝ) (q : List K) (a b : Obj K (List ℝ)) :
    sameKeys a (mapLeaves g q b) = sameKeys a b := by
  unfold sameKeys
  rw [isDict_mapLeaves, topKeys_mapLeaves]

theorem fitsItems_map (g : List K → List ℝ → List ℝ) (a b : Obj K (List ℝ)) (q : List K) :
    fitsItems a (mapLeaves g q b) = fitsItems a b := by
  induction a generalizing b q with
  | leaf v => rfl
  | nil => rfl
  | cons k o r iho ihr =>
    simp only [fitsItems, ihr]
    rw [lookup_mapLeaves]
    cases lookup k b with
    | none => rfl
    | some y => simp only [Option.map_some, sameKeys_map, iho]

theorem fits_map (g : List K → List ℝ → List ℝ) (a b : Obj K (List ℝ)) (q : List K) :
    fits a (mapLeaves g q b) = fits a b := by
  unfold fits
  rw [sameKeys_map, fitsItems_map]

/-- Wherever the first tree has an object, so has the second; where it is a dictionary it has the same keys. -/
theorem fits_at (a b : Obj K (List ℝ)) (hk : sameKeys a b = true) (h : fitsItems a b = true) (p : List K) (x : Obj K (List ℝ))
    (hx : at? p a = some x) : ∃ y, at? p b = some y ∧ sameKeys x y = true ∧ fitsItems x y = true := by
  induction p generalizing a b with
  | nil => cases hx; exact ⟨b, rfl, hk, h⟩
  | cons k p ih =>
    have key : ∀ (a b : Obj K (List ℝ)) (o : Obj K (List ℝ)), fitsItems a b = true → lookup k a = some o →
        ∃ y, lookup k b = some y ∧ sameKeys o y = true ∧ fitsItems o y = true := by
      intro a b o
      induction a with
      | leaf v => intro _ h; cases h
      | nil => intro _ h; cases h
      | cons j u r _ ihr =>
        intro h hl
        simp only [fitsItems, Bool.and_eq_true] at h
        by_cases hj : j = k
        · subst hj
          simp only [lookup, if_pos] at hl
          cases hl
          cases hy : lookup j b with
          | none => rw [hy] at h; simp at h
          | some y => rw [hy] at h; simp only [Bool.and_eq_true] at h; exact ⟨y, rfl, h.1⟩
        · simp only [lookup, if_neg hj] at hl
          exact ihr h.2 hl
    obtain ⟨o, ho, hx⟩ := Option.bind_eq_some_iff.1 hx
    obtain ⟨y, h1, h2, h3⟩ := key a b o h ho
    obtain ⟨z, h4, h5⟩ := ih o y h2 h3 hx
    exact ⟨z, by show (lookup k b).bind (at? p) = _; rw [h1]; exact h4, h5⟩

/-- A tree fits itself. -/
theorem fits_self (d : Obj K (List ℝ)) (hw : WF d) : fits d d = true := by
  have sk : ∀ d : Obj K (List ℝ), sameKeys d d = true := fun d => (sameKeys_spec d d).2 fun h => ⟨h, fun _ => Iff.rfl⟩
  have key : ∀ (a b : Obj K (List ℝ)), WF a → (∀ k o, lookup k a = some o → lookup k b = some o) → fitsItems a b = true := by
    intro a
    induction a with
    | leaf v => intro b _ _; rfl
    | nil => intro b _ _; rfl
    | cons k o r iho ihr =>
      intro b hw h
      obtain ⟨h1, h2, h3, h4⟩ := hw
      simp only [fitsItems, h k o (by simp [lookup]), Bool.and_eq_true]
      refine ⟨⟨sk o, iho o h3 fun _ _ h => h⟩, ihr b h4 fun j u hj => h j u ?_⟩
      have : k ≠ j := by rintro rfl; rw [h1] at hj; cases hj
      simp [lookup, this, hj]
  unfold fits
  rw [sk, key d d hw fun _ _ h => h]; rfl

theorem mem_flatten_cons {V : Type} {k : K} {o r : Obj K V} {p : List K} {v : V} (h : (p, v) ∈ Nested.flatten o) :
    (k :: p, v) ∈ Nested.flatten (cons k o r) := by
  simp only [Nested.flatten, List.mem_append, List.mem_map]
  exact Or.inl ⟨(p, v), h, rfl⟩

/-- The loop of `tree_map` when both other trees have arrays where the first has. -/
theorem tree3Loop_at (f : List ℝ → List ℝ → List ℝ → List ℝ) (g h : List K → List ℝ → List ℝ) (d b c : Obj K (List ℝ)) (q : List K)
    (hb : fitsItems d b = true) (hc : fitsItems d c = true)
    (gb : ∀ p v, (p, v) ∈ Nested.flatten d → at? p b = some (leaf (g (q ++ p) v)))
    (gc : ∀ p v, (p, v) ∈ Nested.flatten d → at? p c = some (leaf (h (q ++ p) v))) :
    tree3Loop f d b c = .ok (mapLeaves (fun p v => f v (g p v) (h p v)) q d) := by
  induction d generalizing b c q with
  | leaf v =>
    have h1 := gb [] v (by simp [Nested.flatten])
    have h2 := gc [] v (by simp [Nested.flatten])
    cases h1; cases h2
    simp [tree3Loop, mapLeaves]
  | nil => rfl
  | cons k o r iho ihr =>
    simp only [fitsItems, Bool.and_eq_true] at hb hc
    cases h1 : lookup k b with
    | none => rw [h1] at hb; simp at hb
    | some x =>
    cases h2 : lookup k c with
    | none => rw [h2] at hc; simp at hc
    | some y =>
    rw [h1] at hb
    rw [h2] at hc
    simp only [Bool.and_eq_true] at hb hc
    have i1 := iho x y (q ++ [k]) hb.1.2 hc.1.2 (fun p v hp => by
      have := gb _ _ (mem_flatten_cons (k := k) (r := r) hp)
      have e : at? (k :: p) b = at? p x := by show (lookup k b).bind (at? p) = _; rw [h1]; rfl
      rw [e] at this
      rw [this]; simp) (fun p v hp => by
      have := gc _ _ (mem_flatten_cons (k := k) (r := r) hp)
      have e : at? (k :: p) c = at? p y := by show (lookup k c).bind (at? p) = _; rw [h2]; rfl
      rw [e] at this
      rw [this]; simp)
    have i2 := ihr b c q hb.2 hc.2 (fun p v hp => gb p v (by simp only [Nested.flatten, List.mem_append]; exact Or.inr hp))
      fun p v hp => gc p v (by simp only [Nested.flatten, List.mem_append]; exact Or.inr hp)
    simp only [tree3Loop, h1, h2, bind, Except.bind, i1, i2, mapLeaves]
    rfl

/-- Once the structures fit, the loop either succeeds or raises a TypeError. -/
theorem tree3Loop_error (f : List ℝ → List ℝ → List ℝ → List ℝ) (d b c : Obj K (List ℝ)) (hb : fitsItems d b = true)
    (hc : fitsItems d c = true) (e : String) (he : tree3Loop f d b c = .error e) : e = "TypeError" := by
  induction d generalizing b c with
  | leaf v =>
    cases b <;> cases c <;> simp only [tree3Loop] at he <;> cases he <;> rfl
  | nil => simp only [tree3Loop] at he; cases he
  | cons k o r iho ihr =>
    simp only [fitsItems, Bool.and_eq_true] at hb hc
    cases h1 : lookup k b with
    | none => rw [h1] at hb; simp at hb
    | some x =>
    cases h2 : lookup k c with
    | none => rw [h2] at hc; simp at hc
    | some y =>
    rw [h1] at hb
    rw [h2] at hc
    simp only [Bool.and_eq_true] at hb hc
    simp only [tree3Loop, h1, h2, bind, Except.bind] at he
    cases h3 : tree3Loop f o x y with
    | error e' => rw [h3] at he; cases he; exact iho x y hb.1.2 hc.1.2 h3
    | ok v =>
      rw [h3] at he
      cases h4 : tree3Loop f r b c with
      | error e' => simp only [h4] at he; cases he; exact ihr b c hb.2 hc.2 h4
      | ok w => simp only [h4] at he; cases he

/-- If the loop succeeds, the second tree has an array wherever the first has. -/
theorem tree3Loop_leaf (f : List ℝ → List ℝ → List ℝ → List ℝ) (d b c e : Obj K (List ℝ)) (hw : WF d) (he : tree3Loop f d b c = .ok e)
    (p : List K) (v : List ℝ) (hp : (p, v) ∈ Nested.flatten d) : ∃ w, at? p b = some (leaf w) := by
  induction d generalizing b c e p with
  | leaf u =>
    simp only [Nested.flatten, List.mem_singleton, Prod.mk.injEq] at hp
    obtain ⟨rfl, rfl⟩ := hp
    cases b with
    | leaf w => exact ⟨w, rfl⟩
    | nil => cases he
    | cons _ _ _ => cases he
  | nil => simp [Nested.flatten] at hp
  | cons k o r iho ihr =>
    simp only [tree3Loop] at he
    cases h1 : lookup k b with
    | none => rw [h1] at he; cases he
    | some x =>
    cases h2 : lookup k c with
    | none => rw [h1, h2] at he; cases he
    | some y =>
    rw [h1, h2] at he
    simp only [bind, Except.bind] at he
    cases h3 : tree3Loop f o x y with
    | error e' => rw [h3] at he; cases he
    | ok u =>
    cases h4 : tree3Loop f r b c with
    | error e' => simp only [h3, h4] at he; cases he
    | ok w =>
    simp only [Nested.flatten, List.mem_append, List.mem_map] at hp
    rcases hp with ⟨⟨p', v'⟩, hp, heq⟩ | hp
    · simp only [Prod.mk.injEq] at heq
      obtain ⟨rfl, rfl⟩ := heq
      obtain ⟨z, hz⟩ := iho x y u hw.2.2.1 h3 p' hp
      exact ⟨z, by show (lookup k b).bind (at? p') = _; rw [h1]; exact hz⟩
    · exact ihr b c w hw.2.2.2 h4 p hp

end

/-! ## Standard deviations of a tree -/

/-- The standard deviations of a Hessian tree, when the log-variances of the prior stand in a tree of the same shape. -/
theorem computeStd_tree (hess : Obj String (List ℝ)) (hw : WF hess) (lv : List String → List ℝ)
    (hl : ∀ p v, (p, v) ∈ Nested.flatten hess → (lv p).length = v.length) :
    computeStd ((paths hess).map lv).flatten hess =
      .ok (mapLeaves (fun p h => List.zipWith laplaceStd (lv p) h) [] hess) := by
  obtain ⟨hv, hhv⟩ := arrays_fun hess hw fun _ x => x
  have hrav : ravelTree hess = ((paths hess).map hv).flatten := by
    rw [ravelTree_eq, paths, List.map_map]
    congr 1
    exact List.map_congr_left fun pv hpv => hhv pv ((mem_arrays hess pv).1 hpv)
  have hlen : ∀ p ∈ paths hess, (lv p).length = (hv p).length := by
    intro p hp
    obtain ⟨x, hx⟩ := (mem_paths hess p).1 hp
    have := hhv _ hx
    rw [hl p x hx]; exact congrArg _ this
  have hz : ∀ l : List (List String), (∀ p ∈ l, (lv p).length = (hv p).length) →
      (l.map lv).flatten.length = (l.map hv).flatten.length ∧ List.zipWith laplaceStd (l.map lv).flatten (l.map hv).flatten =
      (l.map fun p => List.zipWith laplaceStd (lv p) (hv p)).flatten := by
    intro l
    induction l with
    | nil => intro _; exact ⟨rfl, rfl⟩
    | cons p l ih =>
      intro h
      obtain ⟨i1, i2⟩ := ih fun p hp => h p (by simp [hp])
      simp only [List.map_cons, List.flatten_cons, List.length_append]
      refine ⟨by rw [i1, h p (by simp)], ?_⟩
      rw [List.zipWith_append (h p (by simp)), i2]
  obtain ⟨z1, z2⟩ := hz (paths hess) hlen
  unfold computeStd bcast
  rw [hrav, if_pos z1, z2]
  show unravelTree hess _ = _
  rw [unravel_pieces hess hw _ fun pv hpv => by
    rw [List.length_zipWith, hl _ _ hpv, ← hhv pv hpv, min_self]]
  congr 1
  exact mapLeaves_congr _ _ _ _ fun pv hpv => by simp only [List.nil_append]; rw [hhv pv hpv]

/-- The standard deviations of a Hessian tree under an isotropic prior. -/
theorem computeStd_iso (hess : Obj String (List ℝ)) (hw : WF hess) (plv : ℝ) :
    computeStd [plv] hess = .ok (mapLeaves (fun _ h => h.map (laplaceStd plv)) [] hess) := by
  obtain ⟨hv, hhv⟩ := arrays_fun hess hw fun _ x => x
  have hrav : ravelTree hess = ((paths hess).map hv).flatten := by
    rw [ravelTree_eq, paths, List.map_map]
    congr 1
    exact List.map_congr_left fun pv hpv => hhv pv ((mem_arrays hess pv).1 hpv)
  have hb : bcast laplaceStd [plv] (ravelTree hess) = .ok ((ravelTree hess).map (laplaceStd plv)) := by
    unfold bcast
    by_cases h : [plv].length = (ravelTree hess).length
    · rw [if_pos h]
      obtain ⟨x, hx⟩ := List.length_eq_one_iff.1 h.symm
      rw [hx]; rfl
    · rw [if_neg h, if_pos (by rfl)]; rfl
  unfold computeStd
  rw [hb]
  show unravelTree hess _ = _
  rw [hrav, List.map_flatten, List.map_map, unravel_pieces hess hw _ fun pv hpv => by
    simp [← hhv pv hpv]]
  congr 1
  exact mapLeaves_congr _ _ _ _ fun pv hpv => by simp only [List.nil_append, Function.comp_apply]; rw [hhv pv hpv]

/-! ## Well-formed trees -/

section
variable {K V : Type} [DecidableEq K]

theorem WF_update (create : Bool) (f : Option (Obj K V) → Except String (Obj K V))
    (hf : ∀ x y, (∀ o, x = some o → WF o) → f x = .ok y → WF y) (keys : List K) (d d' : Obj K V) (hd : WF d)
    (h : updateAt create f keys d = .ok d') : WF d' := by
  induction keys generalizing d d' with
  | nil => cases h
  | cons k keys ih =>
    cases keys with
    | nil =>
      unfold updateAt at h
      split_ifs at h with hdict
      obtain ⟨o', ho', rfl⟩ := map_ok h
      exact WF_setItem hd (hf _ _ (fun o ho => WF_lookup hd ho) ho') hdict
    | cons k' keys =>
      unfold updateAt at h
      by_cases hdict : d.isDict = true
      swap
      · rw [if_neg hdict] at h; cases h
      rw [if_pos hdict] at h
      cases hl : lookup k d with
      | some x =>
        rw [hl] at h
        obtain ⟨y, hy, rfl⟩ := map_ok h
        exact WF_setItem hd (ih x y (WF_lookup hd hl) hy) hdict
      | none =>
        rw [hl] at h
        dsimp only at h
        by_cases hc : create = true
        · rw [if_pos hc] at h
          obtain ⟨y, hy, rfl⟩ := map_ok h
          exact WF_setItem hd (ih nil y (by simp [WF]) hy) hdict
        · rw [if_neg hc] at h; cases h

theorem WF_pairOf (l0 l1 : K) (a b : Obj K V) (ha : WF a) (hb : WF b) : WF (pairOf l0 l1 a b) := by
  unfold pairOf
  exact WF_setItem (WF_setItem (by simp [WF]) ha rfl) hb (isDict_setItem _ _ _)

theorem WF_nestedPair (l0 l1 : K) (d st : Obj K V) (ps : List (List K)) (objs : List (Obj K V)) (hd : WF d)
    (ho : ∀ o ∈ objs, WF o) (h : nestedPair d ps objs l0 l1 = .ok st) : WF st := by
  unfold nestedPair at h
  split_ifs at h
  have key : ∀ (L : List (List K × Obj K V)) (d : Obj K V), (∀ po ∈ L, WF po.2) → WF d →
      L.foldlM (fun d po => pairPath l0 l1 po.2 po.1 d) d = .ok st → WF st := by
    intro L
    induction L with
    | nil => intro d _ hd h; cases h; exact hd
    | cons a L ih =>
      intro d hL hd h
      obtain ⟨d1, h1, h2⟩ := foldlM_cons_ok h
      refine ih d1 (fun po hpo => hL po (by simp [hpo])) ?_ h2
      refine WF_update _ _ (fun x y hx hy => ?_) _ _ _ hd h1
      cases x with
      | none => cases hy
      | some x => cases hy; exact WF_pairOf _ _ _ _ (hx x rfl) (hL a (by simp))
  exact key _ d (fun po hpo => ho _ (List.of_mem_zip hpo).2) hd h

theorem WF_at {d o : Obj K V} (hd : WF d) (p : List K) (h : at? p d = some o) : WF o := by
  induction p generalizing d with
  | nil => cases h; exact hd
  | cons k p ih =>
    obtain ⟨x, hx, h⟩ := Option.bind_eq_some_iff.1 h
    exact ih (WF_lookup hd hx) h

theorem WF_nestedUnpair (l0 l1 : K) (st m e : Obj K V) (ps : List (List K)) (hd : WF st) (h : nestedUnpair st ps l0 l1 = .ok (m, e)) :
    WF m ∧ WF e := by
  unfold nestedUnpair at h
  have key : ∀ (ps : List (List K)) (s : Obj K V × Obj K V), WF s.1 → WF s.2 → ps.foldlM (unpairPath l0 l1) s = .ok (m, e) →
      WF m ∧ WF e := by
    intro ps
    induction ps with
    | nil => intro s h1 h2 h; cases h; exact ⟨h1, h2⟩
    | cons p ps ih =>
      intro s h1 h2 h
      obtain ⟨s', h3, h4⟩ := foldlM_cons_ok h
      unfold unpairPath at h3
      by_cases hp : p = []
      · simp only [if_pos hp, bind, Except.bind] at h3; cases h3
      simp only [if_neg hp, bind, Except.bind] at h3
      cases g1 : nestedGet s.1 p with
      | error _ => rw [g1] at h3; cases h3
      | ok w =>
      rw [g1] at h3
      have hw : WF w := WF_at h1 p ((nestedGet_eq _ _ _).1 g1).2
      cases g2 : item w l1 with
      | error _ => simp only [g2] at h3; cases h3
      | ok b =>
      cases g3 : item w l0 with
      | error _ => simp only [g2, g3] at h3; cases h3
      | ok a =>
      simp only [g2, g3] at h3
      cases g4 : updateAt true (fun _ => .ok b) p s.2 with
      | error _ => rw [g4] at h3; cases h3
      | ok d2 =>
      rw [g4] at h3
      dsimp only at h3
      split at h3
      · cases h3
      · rename_i d1 g5
        cases h3
        refine ih _ ?_ ?_ h4
        · refine WF_update _ _ (fun x y hx hy => ?_) _ _ _ h1 g5
          cases x with
          | none => cases hy
          | some x => cases hy; exact WF_lookup hw ((item_eq _ _ _).1 g3)
        · exact (WF_updateAt b (WF_lookup hw ((item_eq _ _ _).1 g2)) p _ _ h2 g4).1
  exact key ps _ hd (by simp [WF]) h

end

/-! ## Samples -/

/-- **C74, samples of selected parameters.** Under an isotropic prior a sample holds at every selected parameter the MAP value plus the
standard deviation of that parameter times the noise drawn for it, entry by entry, and every other parameter as in the MAP state; in
whatever order the selection is read. -/
theorem C74_sample (params : Obj String (List ℝ)) (hw : WF params) (ps ps' : List (List String)) (mf hf : List String → List ℝ) (plv : ℝ)
    (gen : List String → List ℝ → List ℝ) (hp : ps.Pairwise Apart) (hd : ∀ p ∈ ps, nestedGet params p = .ok (leaf (mf p)))
    (hperm : ps.Perm ps') :
    ∃ st d', laplacePair params ps (ps.map hf) = .ok st ∧ laplaceSample st (some ps') [plv] gen = .ok d' ∧
      (∀ p ∈ ps, nestedGet d' p = .ok (leaf (List.zipWith (fun m se => m + se.1 * se.2) (mf p)
        (((hf p).map (laplaceStd plv)).zip (gen p ((hf p).map (laplaceStd plv))))))) ∧
      (∀ q, (∀ p ∈ ps, Apart q p) → ∀ r, nestedGet d' q = .ok r ↔ nestedGet params q = .ok r) := by
  obtain ⟨dp, e, h1, h2, h3⟩ := pair_unpair_perm "mean" "hess_lik_diag" (by decide) params ps ps' (fun p => leaf (hf p)) hp
    (fun p h => ⟨_, hd p h⟩) hperm
  have hp' : ps'.Pairwise Apart := (hperm.pairwise_iff fun h => h.symm).1 hp
  have hwdp : WF dp := WF_nestedPair _ _ _ _ _ _ hw (by
    intro o ho
    obtain ⟨p, -, rfl⟩ := List.mem_map.1 ho
    simp [WF]) h1
  have hwe : WF e := (WF_nestedUnpair _ _ _ _ _ _ hwdp h2).2
  let of : List String → Obj String (List ℝ) := fun p =>
    leaf (shiftLeaf (mf p) ((hf p).map (laplaceStd plv)) (gen p ((hf p).map (laplaceStd plv))))
  have hz : ps'.zip (ps'.map of) = ps'.map fun p => (p, of p) := by
    conv_lhs => rw [← List.map_id ps', List.map_map]
    rw [List.zip_map']; rfl
  obtain ⟨d', hd'⟩ := setMany_existing_ok (ps'.map fun p => (p, of p)) (List.pairwise_map.2 hp') params (by
    intro po hpo
    obtain ⟨p, hps, rfl⟩ := List.mem_map.1 hpo
    exact ⟨_, hd p (hperm.mem_iff.2 hps)⟩)
  have hset : nestedSet params ps' (ps'.map of) false = .ok d' := by
    unfold nestedSet
    rw [if_neg (by simp), hz]; exact hd'
  obtain ⟨-, s2, s3⟩ := C27_set_many false params d' ps' (ps'.map of) hp' hset
  refine ⟨dp, d', by unfold laplacePair; rw [List.map_map]; exact h1, ?_, ?_, ?_⟩
  · let F : List String → Except String (Obj String (List ℝ)) := fun p => do
        let m ← nestedGet params p
        let s ← nestedGet (mapLeaves (fun _ (h : List ℝ) => h.map (laplaceStd plv)) [] e) p
        let e ← nestedGet (mapLeaves gen [] (mapLeaves (fun _ (h : List ℝ) => h.map (laplaceStd plv)) [] e)) p
        tree3 shiftLeaf m s e
    have hm : ps'.mapM F = .ok (ps'.map of) := by
      apply mapM_map_ok
      intro p hps
      have hps := hperm.mem_iff.2 hps
      have a1 := nestedGet_mapLeaves (fun _ (h : List ℝ) => h.map (laplaceStd plv)) e p _ (h3 p hps)
      have a2 := nestedGet_mapLeaves gen _ p _ a1
      simp only [F, bind, Except.bind, hd p hps, a1, a2]
      rfl
    unfold laplaceSample
    simp only [h2]
    show (computeStd [plv] e >>= _) = _
    rw [computeStd_iso e hwe plv]
    show (ps'.mapM F >>= fun objs => nestedSet params ps' objs false) = _
    rw [hm]; exact hset
  · intro p hps
    exact s2 (p, of p) (by rw [hz]; exact List.mem_map.2 ⟨p, hperm.mem_iff.1 hps, rfl⟩)
  · intro q hq r
    exact s3 q (fun p hps => hq p (hperm.mem_iff.2 hps)) r

/-- What the state of a Hessian tree with any order of keys looks like. -/
theorem pairAll_any (l0 l1 : String) (hl : l0 ≠ l1) (d other : Obj String (List ℝ)) (hw : WF d) (ho : OnlyParams d) (hwo : WF other)
    (hk : ∀ k v, lookup k d = some v → ∃ w y, lookup k other = some w ∧ lookup "params" w = some y) :
    ∃ st h, pairAll l0 l1 d other = .ok st ∧ projAll l0 st = .ok d ∧ projAll l1 st = .ok h ∧ WF h ∧ h.isDict = true ∧
      topKeys h = topKeys d ∧
      ∀ k v, lookup k d = some v → ∃ w y, lookup k other = some w ∧ lookup "params" w = some y ∧ lookup k h = some (cons "params" y nil) := by
  induction d with
  | leaf _ => exact ho.elim
  | nil => exact ⟨nil, nil, rfl, rfl, rfl, by simp [WF], rfl, rfl, fun k v h => by cases h⟩
  | cons k v r _ ih =>
    obtain ⟨⟨x, rfl⟩, ho⟩ := ho
    obtain ⟨hkr, -, -, hw⟩ := hw
    have hsub : ∀ j v, lookup j r = some v → lookup j (cons k (cons "params" x nil) r) = some v := fun j v hj => by
      have : k ≠ j := by rintro rfl; rw [hkr] at hj; cases hj
      simp [lookup, this, hj]
    obtain ⟨st, h, h1, h2, h3, h4, h5, h6, h7⟩ := ih hw ho fun j v hj => hk j v (hsub j v hj)
    obtain ⟨w, y, g1, g2⟩ := hk k (cons "params" x nil) (by simp [lookup])
    have i1 : item (cons "params" x nil : Obj String (List ℝ)) "params" = .ok x := (item_eq _ _ _).2 (by simp [lookup])
    have i2 : item other k = .ok w := (item_eq _ _ _).2 g1
    have i3 : item w "params" = .ok y := (item_eq _ _ _).2 g2
    have j1 := at?_pairOf l0 l1 hl x y
    have i4 : item (cons "params" (pairOf l0 l1 x y) nil : Obj String (List ℝ)) "params" = .ok (pairOf l0 l1 x y) :=
      (item_eq _ _ _).2 (by simp [lookup])
    refine ⟨cons k (cons "params" (pairOf l0 l1 x y) nil) st, cons k (cons "params" y nil) h, ?_, ?_, ?_, ?_, rfl, ?_, ?_⟩
    · simp only [pairAll, bind, Except.bind, i1, i2, i3, h1]; rfl
    · simp only [projAll, bind, Except.bind, i4, (item_eq _ _ _).2 j1.1, h2]; rfl
    · simp only [projAll, bind, Except.bind, i4, (item_eq _ _ _).2 j1.2, h3]; rfl
    · refine ⟨?_, h5, ⟨rfl, rfl, WF_lookup (WF_lookup hwo g1) g2, by simp [WF]⟩, h4⟩
      cases hq : lookup k h with
      | none => rfl
      | some z =>
        have : k ∈ topKeys r := by rw [← h6, mem_topKeys, hq]; rfl
        rw [mem_topKeys, hkr] at this
        cases this
    · simp only [topKeys, h6]
    · intro j v hj
      by_cases hjk : k = j
      · subst hjk
        exact ⟨w, y, g1, g2, by simp [lookup]⟩
      · simp only [lookup, if_neg hjk] at hj ⊢
        exact h7 j v hj

theorem fitsItems_of {K : Type} [DecidableEq K] (a b : Obj K (List ℝ)) (hw : WF a)
    (h : ∀ k o, lookup k a = some o → ∃ y, lookup k b = some y ∧ sameKeys o y = true ∧ fitsItems o y = true) : fitsItems a b = true := by
  induction a with
  | leaf v => rfl
  | nil => rfl
  | cons k o r _ ihr =>
    obtain ⟨y, h1, h2, h3⟩ := h k o (by simp [lookup])
    simp only [fitsItems, h1, h2, h3, Bool.and_self, Bool.true_and]
    refine ihr hw.2.2.2 fun j u hj => h j u ?_
    have : k ≠ j := by rintro rfl; rw [hw.1] at hj; cases hj
    simp [lookup, this, hj]

/-- The arrays of a tree that fits and has arrays where the first has stand at the same paths. -/
theorem leaf_paths {K : Type} [DecidableEq K] (a b : Obj K (List ℝ)) (hk : sameKeys a b = true) (hf : fitsItems a b = true)
    (h : ∀ p v, at? p a = some (leaf v) → ∃ w, at? p b = some (leaf w)) (p : List K) (w : List ℝ) (hp : at? p b = some (leaf w)) :
    ∃ v, at? p a = some (leaf v) := by
  induction p generalizing a b with
  | nil =>
    cases hp
    cases a with
    | leaf v => exact ⟨v, rfl⟩
    | nil => simp [sameKeys, isDict] at hk
    | cons _ _ _ => simp [sameKeys, isDict] at hk
  | cons k p ih =>
    obtain ⟨y, hy, hp⟩ := Option.bind_eq_some_iff.1 hp
    have had : a.isDict = true := by
      cases a with
      | leaf v =>
        obtain ⟨w', hw'⟩ := h [] v rfl
        cases hw'
        cases hy
      | nil => rfl
      | cons _ _ _ => rfl
    have hka : k ∈ topKeys a := by
      rw [((sameKeys_spec a b).1 hk had).2, mem_topKeys, hy]; rfl
    rw [mem_topKeys] at hka
    obtain ⟨x, hx⟩ := Option.isSome_iff_exists.1 hka
    have e : ∀ p, at? (k :: p) a = at? p x := fun p => by show (lookup k a).bind (at? p) = _; rw [hx]; rfl
    have e' : ∀ p, at? (k :: p) b = at? p y := fun p => by show (lookup k b).bind (at? p) = _; rw [hy]; rfl
    obtain ⟨y', h1, h2, h3⟩ := fits_at a b hk hf [k] x (by rw [e]; rfl)
    rw [e'] at h1
    cases h1
    obtain ⟨v, hv⟩ := ih x y h2 h3 (fun p v hv => by
      obtain ⟨w, hw⟩ := h (k :: p) v (by rw [e]; exact hv)
      exact ⟨w, by rw [e'] at hw; exact hw⟩) hp
    exact ⟨v, by rw [e]; exact hv⟩

theorem paths_eq (a b : Obj String (List ℝ)) (ha : WF a) (hb : WF b) (h : ∀ p, (∃ v, at? p a = some (leaf v)) ↔ ∃ v, at? p b = some (leaf v)) :
    paths a = paths b := by
  have h1 := arrays_sorted a ha
  have h2 := arrays_sorted b hb
  have hmem : ∀ p, p ∈ paths a ↔ p ∈ paths b := fun p => by
    rw [mem_paths, mem_paths]
    simp only [mem_flatten a ha, mem_flatten b hb]
    exact h p
  exact List.Perm.eq_of_pairwise (fun x y _ _ hxy hyx => absurd hxy (lt_asymm hyx)) h1 h2
    ((List.perm_ext_iff_of_nodup (h1.imp fun h => ne_of_lt h) (h2.imp fun h => ne_of_lt h)).2 hmem)

/-- The state of a model all of whose parameters are treated: the Hessian keeps its arrays, whatever the order of its keys. -/
theorem state_all (params hess : Obj String (List ℝ)) (hw : WF params) (ho : OnlyParams params) (hwh : WF hess)
    (hfit : fits params hess = true) (hf : List String → List ℝ → List ℝ)
    (hh : ∀ p m, (p, m) ∈ Nested.flatten params → at? p hess = some (leaf (hf p m))) :
    ∃ st h, pairAll "mean" "hess_lik_diag" params hess = .ok st ∧ projAll "mean" st = .ok params ∧
      projAll "hess_lik_diag" st = .ok h ∧ WF h ∧ fits params h = true ∧ paths h = paths params ∧
      ∀ p m, (p, m) ∈ Nested.flatten params → at? p h = some (leaf (hf p m)) := by
  simp only [fits, Bool.and_eq_true] at hfit
  have hpar : ∀ k v, lookup k params = some v → ∃ x, v = cons "params" x nil := by
    clear hfit hh hw hwh
    induction params with
    | leaf _ => exact ho.elim
    | nil => intro k v h; cases h
    | cons j o r _ ih =>
      intro k v h
      by_cases hj : j = k
      · simp only [lookup, if_pos hj] at h
        cases h; exact ho.1
      · simp only [lookup, if_neg hj] at h
        exact ih ho.2 k v h
  have hkey : ∀ k v, lookup k params = some v → ∃ x w y, v = cons "params" x nil ∧ lookup k hess = some w ∧ lookup "params" w = some y ∧
      sameKeys x y = true ∧ fitsItems x y = true := by
    intro k v hk
    obtain ⟨x, rfl⟩ := hpar k v hk
    obtain ⟨w, h1, h2, h3⟩ := fits_at _ _ hfit.1 hfit.2 [k] (cons "params" x nil) (by simp [at?, hk])
    obtain ⟨y, h4, h5, h6⟩ := fits_at _ _ h2 h3 ["params"] x (by simp [at?, lookup])
    have h1 : lookup k hess = some w := by simpa [at?] using h1
    have h4 : lookup "params" w = some y := by simpa [at?] using h4
    exact ⟨x, w, y, rfl, h1, h4, h5, h6⟩
  obtain ⟨st, h, h1, h2, h3, h4, h5, h6, h7⟩ := pairAll_any "mean" "hess_lik_diag" (by decide) params hess hw ho hwh
    fun k v hk => by obtain ⟨x, w, y, -, g1, g2, -⟩ := hkey k v hk; exact ⟨w, y, g1, g2⟩
  have hsk : sameKeys params h = true := (sameKeys_spec _ _).2 fun _ => ⟨h5, fun k => by rw [h6]⟩
  have hfi : fitsItems params h = true := fitsItems_of _ _ hw fun k o hk => by
    obtain ⟨x, w, y, rfl, g1, g2, g3, g4⟩ := hkey k o hk
    obtain ⟨w', y', g5, g6, g7⟩ := h7 k _ hk
    rw [g1] at g5; cases g5
    rw [g2] at g6; cases g6
    exact ⟨_, g7, by simp [sameKeys, isDict, topKeys], by simp [fitsItems, lookup, g3, g4]⟩
  have hat : ∀ p m, (p, m) ∈ Nested.flatten params → at? p h = some (leaf (hf p m)) := by
    intro p m hp
    have hp1 := hh p m hp
    have hp2 := (mem_flatten params hw p m).1 hp
    cases p with
    | nil => cases hp2; exact ho.elim
    | cons k p =>
      obtain ⟨v, hv, hp3⟩ := Option.bind_eq_some_iff.1 hp2
      obtain ⟨x, rfl⟩ := hpar k v hv
      obtain ⟨w, y, g1, g2, g3⟩ := h7 k _ hv
      cases p with
      | nil => cases hp3
      | cons j p =>
        obtain ⟨u, hu, hp4⟩ := Option.bind_eq_some_iff.1 hp3
        have hj : "params" = j := by
          by_contra hne
          simp [lookup, hne] at hu
        subst hj
        have e1 : at? (k :: "params" :: p) hess = at? p y := by
          show (lookup k hess).bind (at? ("params" :: p)) = _
          rw [g1]
          show (lookup "params" w).bind (at? p) = _
          rw [g2]; rfl
        have e2 : at? (k :: "params" :: p) h = at? p y := by
          show (lookup k h).bind (at? ("params" :: p)) = _
          rw [g3]
          show (lookup "params" (cons "params" y nil)).bind (at? p) = _
          simp [lookup]
        rw [e2, ← e1]; exact hp1
  refine ⟨st, h, h1, h2, h3, h4, by simp [fits, hsk, hfi], paths_eq _ _ h4 hw fun p => ⟨fun ⟨v, hv⟩ => ?_, fun ⟨v, hv⟩ => ?_⟩, hat⟩
  · exact leaf_paths params h hsk hfi (fun p v hv => ⟨_, hat p v ((mem_flatten params hw p v).2 hv)⟩) p v hv
  · exact ⟨_, hat p v ((mem_flatten params hw p v).2 hv)⟩

/-- A sample, once the standard deviations are known. -/
theorem sample_all (params st h : Obj String (List ℝ)) (hw : WF params) (h2 : projAll "mean" st = .ok params)
    (h3 : projAll "hess_lik_diag" st = .ok h) (hfit : fits params h = true) (hf : List String → List ℝ → List ℝ)
    (hat : ∀ p m, (p, m) ∈ Nested.flatten params → at? p h = some (leaf (hf p m))) (plv : List ℝ) (sd : List String → List ℝ → List ℝ)
    (hsd : computeStd plv h = .ok (mapLeaves sd [] h)) (gen : List String → List ℝ → List ℝ) :
    laplaceSample st none plv gen = .ok (mapLeaves (fun p m => List.zipWith (fun m se => m + se.1 * se.2) m
        ((sd p (hf p m)).zip (gen p (sd p (hf p m))))) [] params) := by
  unfold laplaceSample
  simp only [h2, h3, bind, Except.bind, hsd]
  unfold tree3
  rw [fits_map, fits_map, fits_map, hfit, Bool.and_self, if_pos rfl]
  simp only [fits, Bool.and_eq_true] at hfit
  exact tree3Loop_at shiftLeaf (fun p m => sd p (hf p m)) (fun p m => gen p (sd p (hf p m))) params _ _ []
    (by rw [fitsItems_map]; exact hfit.2) (by rw [fitsItems_map, fitsItems_map]; exact hfit.2)
    (fun p m hp => by rw [at?_mapLeaves, hat p m hp]; rfl)
    (fun p m hp => by rw [at?_mapLeaves, at?_mapLeaves, hat p m hp]; rfl)

/-- **C74, no selection.** With all parameters treated, under an isotropic prior, whatever the models and the Hessian and the order of its
keys: converting and recovering the MAP parameters is the identity, and a sample is at every leaf the MAP value plus standard deviation
times noise. -/
theorem C74_all (params hess : Obj String (List ℝ)) (hw : WF params) (ho : OnlyParams params) (hwh : WF hess)
    (hfit : fits params hess = true) (hf : List String → List ℝ → List ℝ)
    (hh : ∀ p m, (p, m) ∈ Nested.flatten params → at? p hess = some (leaf (hf p m))) (plv : ℝ) (gen : List String → List ℝ → List ℝ) :
    ∃ st, pairAll "mean" "hess_lik_diag" params hess = .ok st ∧ laplaceToMap st none = .ok params ∧
      laplaceSample st none [plv] gen = .ok (mapLeaves (fun p m => List.zipWith (fun m se => m + se.1 * se.2) m
        (((hf p m).map (laplaceStd plv)).zip (gen p ((hf p m).map (laplaceStd plv))))) [] params) := by
  obtain ⟨st, h, h1, h2, h3, h4, h5, h6, h7⟩ := state_all params hess hw ho hwh hfit hf hh
  exact ⟨st, h1, h2, sample_all params st h hw h2 h3 h5 hf h7 [plv] (fun _ x => x.map (laplaceStd plv)) (computeStd_iso h h4 plv) gen⟩

/-- **C74, states of different structure.** If at some place the mean of a state is a dictionary and the Hessian is none or one with other
keys, sampling raises a ValueError; if the structures fit otherwise but the Hessian has a dictionary in place of an array, it raises a TypeError. -/
theorem C74_sample_keys (st mean hess : Obj String (List ℝ)) (plv : ℝ) (gen : List String → List ℝ → List ℝ) (hwm : WF mean)
    (hwh : WF hess) (hm : projAll "mean" st = .ok mean) (hh : projAll "hess_lik_diag" st = .ok hess) :
    (∀ p a, at? p mean = some a → a.isDict = true → (∀ b, at? p hess = some b → b.isDict = true → ¬ ∀ k, k ∈ topKeys a ↔ k ∈ topKeys b) →
      laplaceSample st none [plv] gen = .error "ValueError") ∧
    (∀ p v b, fits mean hess = true → at? p mean = some (leaf v) → at? p hess = some b → b.isDict = true →
      laplaceSample st none [plv] gen = .error "TypeError") := by
  have h0 : laplaceSample st none [plv] gen = if fits mean hess then
      tree3Loop shiftLeaf mean (mapLeaves (fun _ h => h.map (laplaceStd plv)) [] hess)
        (mapLeaves gen [] (mapLeaves (fun _ h => h.map (laplaceStd plv)) [] hess)) else .error "ValueError" := by
    unfold laplaceSample
    simp only [hm, hh, bind, Except.bind, computeStd_iso hess hwh plv]
    unfold tree3
    rw [fits_map, fits_map, fits_map, Bool.and_self]
  constructor
  · intro p a ha had hb
    rw [h0]
    by_cases hfit : fits mean hess = true
    · simp only [fits, Bool.and_eq_true] at hfit
      obtain ⟨y, h1, h2, -⟩ := fits_at _ _ hfit.1 hfit.2 p a ha
      obtain ⟨h3, h4⟩ := (sameKeys_spec a y).1 h2 had
      exact absurd h4 (hb y h1 h3)
    · rw [if_neg hfit]
  · intro p v b hfit hp hb hbd
    rw [h0, if_pos hfit]
    simp only [fits, Bool.and_eq_true] at hfit
    cases hr : tree3Loop shiftLeaf mean (mapLeaves (fun _ h => h.map (laplaceStd plv)) [] hess)
        (mapLeaves gen [] (mapLeaves (fun _ h => h.map (laplaceStd plv)) [] hess)) with
    | error e =>
      rw [tree3Loop_error _ _ _ _ (by rw [fitsItems_map]; exact hfit.2) (by rw [fitsItems_map, fitsItems_map]; exact hfit.2) e hr]
    | ok e =>
      obtain ⟨w, hw⟩ := tree3Loop_leaf _ _ _ _ _ hwm hr p v ((mem_flatten mean hwm p v).2 hp)
      rw [at?_mapLeaves, hb] at hw
      have hw : mapLeaves (fun _ (h : List ℝ) => h.map (laplaceStd plv)) ([] ++ p) b = leaf w := by simpa using hw
      have := congrArg isDict hw
      rw [isDict_mapLeaves, hbd] at this
      cases this

/-! ## Diagonal priors -/

theorem computeStd_refused (plv : List ℝ) (h : Obj String (List ℝ)) (h1 : plv.length ≠ 1) (h2 : plv.length ≠ (ravelTree h).length) :
    computeStd plv h = .error "TypeError" := by
  unfold computeStd bcast
  rw [if_neg h2, if_neg h1]
  by_cases h3 : (ravelTree h).length = 1
  · rw [if_pos h3]
    show unravelTree h _ = _
    unfold unravelTree
    rw [if_pos (by rw [List.length_map]; exact h2)]
  · rw [if_neg h3]; rfl

/-- **C135, all parameters.** Under a diagonal prior with as many log-variances as there are parameters, whatever the models, the Hessian and the
order of its keys: the log-variances belong to the parameters in such a way that the prior's density at the parameters is the product of the
centred normal densities with these log-variances, and a sample of the Laplace approximation is the MAP value plus noise times the
standard deviation with inverse square `exp(-log-variance) + Hessian` of the same parameter. -/
theorem C135_all (params hess : Obj String (List ℝ)) (hw : WF params) (ho : OnlyParams params) (hwh : WF hess)
    (hfit : fits params hess = true) (hf : List String → List ℝ → List ℝ)
    (hh : ∀ p m, (p, m) ∈ Nested.flatten params → at? p hess = some (leaf (hf p m)) ∧ (hf p m).length = m.length)
    (plv : List ℝ) (hplv : plv.length = (ravelTree params).length) :
    ∃ lv : List String → List ℝ, (∀ p m, (p, m) ∈ Nested.flatten params → (lv p).length = m.length) ∧
      OutputLayer.diagLogProb plv (ravelTree params) = .ok ((Nested.flatten params).map fun pm =>
        (List.zipWith (fun l x => -(1 / 2) * (Real.exp (-l) * x ^ 2 + Real.log (2 * Real.pi) + l)) (lv pm.1) pm.2).sum).sum ∧
      ∃ st, pairAll "mean" "hess_lik_diag" params hess = .ok st ∧ ∀ gen, laplaceSample st none plv gen =
        .ok (mapLeaves (fun p m => List.zipWith (fun m se => m + se.1 * se.2) m
          ((List.zipWith laplaceStd (lv p) (hf p m)).zip (gen p (List.zipWith laplaceStd (lv p) (hf p m))))) [] params) := by
  obtain ⟨lv, -, hl, hpl⟩ := unravel_spec params hw plv hplv
  obtain ⟨st, h, h1, h2, h3, h4, h5, h6, h7⟩ := state_all params hess hw ho hwh hfit hf fun p m hp => (hh p m hp).1
  refine ⟨lv, fun p m hp => hl (p, m) hp, ?_, st, h1, fun gen => ?_⟩
  · obtain ⟨mv, hmv⟩ := arrays_fun params hw fun _ x => x
    have hrav : ravelTree params = ((paths params).map mv).flatten := by
      rw [ravelTree_eq, paths, List.map_map]
      congr 1
      exact List.map_congr_left fun pv hpv => hmv pv ((mem_arrays params pv).1 hpv)
    have key : ∀ l : List (List String), (∀ p ∈ l, (lv p).length = (mv p).length) →
        (((l.map lv).flatten.zip (l.map mv).flatten).map fun q : ℝ × ℝ =>
          Real.exp (-q.1) * q.2 ^ 2 + Real.log (2 * Real.pi) + q.1).sum * (-(1 / 2)) =
        (l.map fun p => (List.zipWith (fun l x => -(1 / 2) * (Real.exp (-l) * x ^ 2 + Real.log (2 * Real.pi) + l)) (lv p) (mv p)).sum).sum := by
      intro l
      induction l with
      | nil => intro _; simp
      | cons p l ih =>
        intro h
        simp only [List.map_cons, List.flatten_cons, List.sum_cons]
        rw [List.zip_append (h p (by simp)), List.map_append, List.sum_append, add_mul, ih fun p hp => h p (by simp [hp])]
        congr 1
        rw [← List.map_uncurry_zip_eq_zipWith, ← List.sum_map_mul_right]
        congr 1
        apply List.map_congr_left
        rintro ⟨a, b⟩ _
        simp only [Function.uncurry]
        ring
    unfold OutputLayer.diagLogProb broadcast2
    rw [if_pos hplv]
    show Except.ok _ = Except.ok _
    congr 1
    have hsum : ((Nested.flatten params).map fun pm =>
        (List.zipWith (fun l x => -(1 / 2) * (Real.exp (-l) * x ^ 2 + Real.log (2 * Real.pi) + l)) (lv pm.1) pm.2).sum).sum =
        ((paths params).map fun p =>
          (List.zipWith (fun l x => -(1 / 2) * (Real.exp (-l) * x ^ 2 + Real.log (2 * Real.pi) + l)) (lv p) (mv p)).sum).sum := by
      rw [paths, List.map_map]
      refine Eq.trans ?_ ((List.perm_insertionSort (fun a b => a.1 ≤ b.1) (Nested.flatten params)).map _).sum_eq.symm
      congr 1
      apply List.map_congr_left
      intro pm hpm
      show _ = (List.zipWith _ (lv pm.1) (mv pm.1)).sum
      rw [← hmv pm hpm]
    rw [hsum, ← key _ fun p hp => by
      obtain ⟨x, hx⟩ := (mem_paths params p).1 hp
      have := hmv _ hx
      rw [hl _ hx]; exact congrArg _ this, ← hrav, hpl, mul_comm]
  · refine sample_all params st h hw h2 h3 h5 hf h7 plv (fun p x => List.zipWith laplaceStd (lv p) x) ?_ gen
    rw [← hpl, ← h6]
    refine computeStd_tree h h4 lv fun p v hp => ?_
    have hp1 : p ∈ paths params := by rw [← h6]; exact (mem_paths h p).2 ⟨v, hp⟩
    obtain ⟨m, hm⟩ := (mem_paths params p).1 hp1
    have hv := (mem_flatten h h4 p v).1 hp
    rw [h7 p m hm] at hv
    cases hv
    rw [hl _ hm, (hh p m hm).2]

/-- **C135, wrong numbers.** With neither one log-variance nor as many as there are parameters, samples are refused. -/
theorem C135_refused (params hess : Obj String (List ℝ)) (hw : WF params) (ho : OnlyParams params) (hwh : WF hess)
    (hfit : fits params hess = true) (hf : List String → List ℝ → List ℝ)
    (hh : ∀ p m, (p, m) ∈ Nested.flatten params → at? p hess = some (leaf (hf p m)) ∧ (hf p m).length = m.length)
    (plv : List ℝ) (h1 : plv.length ≠ 1) (hplv : plv.length ≠ (ravelTree params).length) :
    ∃ st, pairAll "mean" "hess_lik_diag" params hess = .ok st ∧ ∀ gen, laplaceSample st none plv gen = .error "TypeError" := by
  obtain ⟨st, h, g1, g2, g3, g4, g5, g6, g7⟩ := state_all params hess hw ho hwh hfit hf fun p m hp => (hh p m hp).1
  refine ⟨st, g1, fun gen => ?_⟩
  have hlen : (ravelTree h).length = (ravelTree params).length := by
    obtain ⟨mv, hmv⟩ := arrays_fun params hw fun _ x => x
    obtain ⟨hv, hhv⟩ := arrays_fun h g4 fun _ x => x
    have e1 : ravelTree params = ((paths params).map mv).flatten := by
      rw [ravelTree_eq, paths, List.map_map]
      congr 1
      exact List.map_congr_left fun pv hpv => hmv pv ((mem_arrays params pv).1 hpv)
    have e2 : ravelTree h = ((paths h).map hv).flatten := by
      rw [ravelTree_eq, paths, List.map_map]
      congr 1
      exact List.map_congr_left fun pv hpv => hhv pv ((mem_arrays h pv).1 hpv)
    rw [e1, e2, g6, List.length_flatten, List.length_flatten, List.map_map, List.map_map]
    congr 1
    apply List.map_congr_left
    intro p hp
    obtain ⟨m, hm⟩ := (mem_paths params p).1 hp
    have a1 := hhv _ ((mem_flatten h g4 p _).2 (g7 p m hm))
    have a2 := hmv _ hm
    simp only at a1 a2
    simp only [Function.comp_apply, ← a1, ← a2, (hh p m hm).2]
  unfold laplaceSample
  simp only [g2, g3, bind, Except.bind, computeStd_refused plv h h1 (by rw [hlen]; exact hplv)]

/-- **C135, false with frozen parameters.** Under a diagonal prior with as many log-variances (at least two) as there are parameters, and some frozen
parameter, the fit succeeds and every sample raises a TypeError. -/
theorem C135_frozen_false (params : Obj String (List ℝ)) (hw : WF params) (ps ps' : List (List String)) (mf hf : List String → List ℝ)
    (hp : ps.Pairwise Apart) (hd : ∀ p ∈ ps, nestedGet params p = .ok (leaf (mf p)) ∧ (hf p).length = (mf p).length) (hperm : ps.Perm ps')
    (q : List String) (v : List ℝ) (hq : (q, v) ∈ Nested.flatten params) (hqs : q ∉ ps) (hv : v ≠ [])
    (plv : List ℝ) (hplv : plv.length = (ravelTree params).length) (h2 : 2 ≤ plv.length) :
    ∃ st, laplacePair params ps (ps.map hf) = .ok st ∧ ∀ gen, laplaceSample st (some ps') plv gen = .error "TypeError" := by
  obtain ⟨dp, e, h3, h4, h5, h6⟩ := pair_unpair_perm4 "mean" "hess_lik_diag" (by decide) params ps ps' (fun p => leaf (hf p)) hp
    (fun p h => ⟨_, (hd p h).1⟩) hperm
  have hwdp : WF dp := WF_nestedPair _ _ _ _ _ _ hw (by
    intro o ho
    obtain ⟨p, -, rfl⟩ := List.mem_map.1 ho
    simp [WF]) h3
  have hwe : WF e := (WF_nestedUnpair _ _ _ _ _ _ hwdp h4).2
  have hnd : ps.Nodup := hp.imp fun {a b} hab => by rintro rfl; exact hab.1 (List.prefix_refl a)
  have hsub : ∀ p w, (p, w) ∈ Nested.flatten e → (p, w) ∈ ps.map fun p => (p, hf p) := by
    intro p w hpw
    rw [mem_flatten e hwe] at hpw
    have hpne : p ≠ [] := by
      rintro rfl
      have : e = leaf w := by simpa [at?] using hpw
      subst this
      cases ps with
      | nil =>
        have : ps' = [] := List.perm_nil.1 hperm.symm
        subst this
        cases h4
      | cons a ps =>
        have := ((nestedGet_eq _ _ _).1 (h5 a (by simp)))
        rw [at?_leaf this.1] at this
        cases this.2
    by_contra hcon
    refine h6 p (fun r hr => ?_) (leaf w) ((nestedGet_eq _ _ _).2 ⟨hpne, hpw⟩)
    have hr' := ((nestedGet_eq _ _ _).1 (h5 r hr)).2
    refine leaves_apart hpw hr' ?_
    rintro rfl
    rw [hr'] at hpw
    cases hpw
    exact hcon (List.mem_map.2 ⟨p, hr, rfl⟩)
  have hle : ((Nested.flatten e).map fun pv => pv.2.length).sum ≤ (ps.map fun p => (hf p).length).sum := by
    have hn : (Nested.flatten e).Nodup := List.Nodup.of_map _ (nodup_flatten e hwe)
    obtain ⟨l, hl, hs⟩ := List.Nodup.subperm hn fun x hx => hsub x.1 x.2 hx
    have h7 := (hl.map fun pv => pv.2.length).sum_eq
    have h8 := (hs.map fun pv : List String × List ℝ => pv.2.length).sum_le_sum fun a _ => Nat.zero_le a
    rw [h7, List.map_map] at h8
    exact h8
  have hlt : (ps.map fun p => (hf p).length).sum < (ravelTree params).length := by
    have hn : ((q, v) :: ps.map fun p => (p, mf p)).Nodup := by
      refine List.nodup_cons.2 ⟨?_, (List.nodup_map_iff fun a b h => (Prod.mk.inj h).1).2 hnd⟩
      intro hmem
      obtain ⟨p, hps, hpq⟩ := List.mem_map.1 hmem
      cases hpq
      exact hqs hps
    obtain ⟨l, hl, hs⟩ := List.Nodup.subperm (l₂ := Nested.flatten params) hn (by
      intro x hx
      rcases List.mem_cons.1 hx with rfl | hx
      · exact hq
      · obtain ⟨p, hps, rfl⟩ := List.mem_map.1 hx
        exact (mem_flatten params hw _ _).2 ((nestedGet_eq _ _ _).1 (hd p hps).1).2)
    have h7 := (hl.map fun pv => pv.2.length).sum_eq
    have h8 := (hs.map fun pv : List String × List ℝ => pv.2.length).sum_le_sum fun a _ => Nat.zero_le a
    rw [h7, List.map_cons, List.map_map, List.sum_cons] at h8
    rw [length_ravelTree]
    have e1 : (ps.map fun p => (hf p).length) = ps.map ((fun pv : List String × List ℝ => pv.2.length) ∘ fun p => (p, mf p)) :=
      List.map_congr_left fun p hps => (hd p hps).2
    rw [e1]
    have : 0 < v.length := List.length_pos_iff.2 hv
    simp only at h8
    omega
  refine ⟨dp, by unfold laplacePair; rw [List.map_map]; exact h3, fun gen => ?_⟩
  unfold laplaceSample
  simp only [h4]
  show (computeStd plv e >>= _) = _
  rw [computeStd_refused plv e (by omega) (by rw [length_ravelTree e]; omega)]
  rfl

/-! ## Examples -/

/-- Two models, the second with its Hessian in another order of keys. -/
def exTree : Obj String (List ℝ) :=
  cons "model" (cons "params" (cons "w" (leaf [1, 2]) (cons "b" (leaf [3]) nil)) nil) nil

def exHess : Obj String (List ℝ) :=
  cons "model" (cons "params" (cons "b" (leaf [0]) (cons "w" (leaf [5, 6]) nil)) nil) nil

example : WF exTree ∧ OnlyParams exTree ∧ WF exHess ∧ fits exTree exHess = true ∧
    at? ["model", "params", "w"] exHess = some (leaf [5, 6]) ∧ (ravelTree exTree).length = 3 := by
  refine ⟨by simp [WF, exTree, lookup, isDict], ⟨⟨_, rfl⟩, trivial⟩, by simp [WF, exHess, lookup, isDict], ?_, ?_, ?_⟩
  · simp [fits, sameKeys, fitsItems, exTree, exHess, lookup, isDict, topKeys]
  · simp [at?, exHess, lookup]
  · rw [length_ravelTree]; simp [exTree, Nested.flatten]

/-- The hypotheses with one array selected and one frozen. -/
example : ([["model", "params", "w"]] : List (List String)).Pairwise Apart ∧
    nestedGet exTree ["model", "params", "w"] = .ok (leaf [1, 2]) ∧ (["model", "params", "b"], [3]) ∈ Nested.flatten exTree ∧
    ["model", "params", "b"] ∉ ([["model", "params", "w"]] : List (List String)) := by
  refine ⟨by simp, by rfl, by simp [exTree, Nested.flatten], by simp⟩

/-! ### Concrete cases that meet the hypotheses of the theorems above -/

theorem exTree_fits : WF exTree ∧ OnlyParams exTree ∧ WF exHess ∧ fits exTree exHess = true ∧ (ravelTree exTree).length = 3 := by
  refine ⟨by simp [WF, exTree, lookup, isDict], ⟨⟨_, rfl⟩, trivial⟩, by simp [WF, exHess, lookup, isDict], ?_, ?_⟩
  · simp [fits, sameKeys, fitsItems, exTree, exHess, lookup, isDict, topKeys]
  · rw [length_ravelTree]; simp [exTree, Nested.flatten]

theorem exHess_at (p : List String) (m : List ℝ) (h : (p, m) ∈ Nested.flatten exTree) :
    at? p exHess = some (leaf (if m = [3] then [0] else [5, 6])) ∧ (if m = [3] then [0] else [5, 6] : List ℝ).length = m.length := by
  simp only [exTree, Nested.flatten, List.map_cons, List.map_nil, List.mem_cons, List.not_mem_nil,
    or_false, Prod.mk.injEq, List.append_nil, List.cons_append, List.nil_append] at h
  rcases h with ⟨rfl, rfl⟩ | ⟨rfl, rfl⟩
  · simp [at?, exHess, lookup]
  · simp [at?, exHess, lookup]

example := C74_sample exTree exTree_fits.1 [["model", "params", "w"]] [["model", "params", "w"]] (fun _ => [1, 2]) (fun _ => [5, 6]) (-1)
  (fun _ l => l.map fun _ => 2) (by simp) (by intro p hp; rw [List.mem_singleton] at hp; subst hp; rfl) (List.Perm.refl _)
example := C74_all exTree exHess exTree_fits.1 exTree_fits.2.1 exTree_fits.2.2.1 exTree_fits.2.2.2.1 (fun _ m => if m = [3] then [0] else [5, 6])
  (fun p m h => (exHess_at p m h).1) (-1) (fun _ l => l.map fun _ => 2)
example := C135_all exTree exHess exTree_fits.1 exTree_fits.2.1 exTree_fits.2.2.1 exTree_fits.2.2.2.1 (fun _ m => if m = [3] then [0] else [5, 6])
  exHess_at [1, 2, 3] (by simp [exTree_fits.2.2.2.2])
example := C135_refused exTree exHess exTree_fits.1 exTree_fits.2.1 exTree_fits.2.2.1 exTree_fits.2.2.2.1
  (fun _ m => if m = [3] then [0] else [5, 6]) exHess_at [1, 2] (by simp) (by simp [exTree_fits.2.2.2.2])

/-- A state whose entries hold the two halves. -/
def exPaired : Obj String (List ℝ) :=
  cons "model" (cons "params" (cons "mean" (cons "w" (leaf [1, 2]) nil) (cons "hess_lik_diag" (cons "w" (leaf [5, 6]) nil) nil)) nil) nil

example := C74_sample_keys exPaired (cons "model" (cons "params" (cons "w" (leaf [1, 2]) nil) nil) nil)
  (cons "model" (cons "params" (cons "w" (leaf [5, 6]) nil) nil) nil) (-1) (fun _ l => l) (by simp [WF, lookup, isDict])
  (by simp [WF, lookup, isDict]) rfl
  rfl

end Verif.Props
