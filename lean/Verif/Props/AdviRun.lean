import Verif.Model.AdviRun
import Verif.Props.ADVI

/-! Properties of ADVI from fit to samples, load and further fits (C103). -/

set_option linter.unusedSectionVars false

namespace Verif.Props.AdviRun

open Verif.GaussPost Verif.Nested Verif.Nested.Obj Verif.Props

/-! ## Vectors and trees -/

section
variable {K : Type} [LinearOrder K] {α : Type}

/-- The arrays of a dictionary with their paths, in sorted order of paths. -/
def arrays (d : Obj K (List α)) : List (List K × List α) := (Nested.flatten d).insertionSort fun a b => a.1 ≤ b.1

/-- The paths of the arrays of a dictionary in sorted order. -/
def paths (d : Obj K (List α)) : List (List K) := (arrays d).map (·.1)

theorem flatten_mapLeaves {V : Type} (g : List K → V → V) (q : List K) (d : Obj K V) :
    Nested.flatten (mapLeaves g q d) = (Nested.flatten d).map fun pv => (pv.1, g (q ++ pv.1) pv.2) := by
  induction d generalizing q with
  | leaf v => simp [mapLeaves, Nested.flatten]
  | nil => simp [mapLeaves, Nested.flatten]
  | cons k o r iho ihr =>
    simp only [mapLeaves, Nested.flatten, iho, ihr, List.map_append, List.map_map]
    congr 1
    apply List.map_congr_left
    intro pv _
    simp

theorem arrays_mapLeaves (g : List K → List α → List α) (d : Obj K (List α)) :
    arrays (mapLeaves g [] d) = (arrays d).map fun pv => (pv.1, g pv.1 pv.2) := by
  unfold arrays
  rw [flatten_mapLeaves]
  simp only [List.nil_append]
  exact (List.map_insertionSort (fun a b => a.1 ≤ b.1) (fun a b => a.1 ≤ b.1) (fun pv => (pv.1, g pv.1 pv.2)) (Nested.flatten d)
    fun a _ b _ => Iff.rfl).symm

theorem paths_mapLeaves (g : List K → List α → List α) (d : Obj K (List α)) : paths (mapLeaves g [] d) = paths d := by
  unfold paths
  rw [arrays_mapLeaves, List.map_map]; rfl

theorem ravelTree_eq (d : Obj K (List α)) : ravelTree d = ((arrays d).map (·.2)).flatten := rfl

theorem ravelTree_mapLeaves (vf : List K → List α) (d : Obj K (List α)) :
    ravelTree (mapLeaves (fun p _ => vf p) [] d) = ((paths d).map vf).flatten := by
  rw [ravelTree_eq, arrays_mapLeaves, List.map_map, paths, List.map_map]; rfl

theorem mem_arrays (d : Obj K (List α)) (pv : List K × List α) : pv ∈ arrays d ↔ pv ∈ Nested.flatten d :=
  List.mem_insertionSort _

theorem arrays_sorted (d : Obj K (List α)) (hw : WF d) : (paths d).Pairwise (· < ·) := by
  have htot : Std.Total (fun a b : List K × List α => a.1 ≤ b.1) := ⟨fun a b => le_total a.1 b.1⟩
  have htr : IsTrans (List K × List α) (fun a b => a.1 ≤ b.1) := ⟨fun a b c h1 h2 => le_trans h1 h2⟩
  have h1 : (paths d).Pairwise (· ≤ ·) :=
    List.pairwise_map.2 (List.pairwise_insertionSort (fun a b : List K × List α => a.1 ≤ b.1) (Nested.flatten d))
  have h2 : (paths d).Nodup := by
    have := nodup_flatten d hw
    exact ((List.perm_insertionSort _ (Nested.flatten d)).map Prod.fst).nodup_iff.2 this
  exact h1.imp₂ (fun a b hle hne => lt_of_le_of_ne hle hne) h2

theorem offset_eq (d : Obj K (List α)) (p : List K) :
    offset d p = (((arrays d).filter fun pv => pv.1 < p).map fun pv => pv.2.length).sum := by
  unfold offset
  exact (((List.perm_insertionSort _ (Nested.flatten d)).filter _).map _).sum_eq.symm

theorem length_ravelTree (d : Obj K (List α)) : (ravelTree d).length = ((Nested.flatten d).map fun pv => pv.2.length).sum := by
  rw [ravelTree_eq, List.length_flatten, List.map_map]
  exact ((List.perm_insertionSort _ (Nested.flatten d)).map _).sum_eq

/-- The pieces of a vector that `unravelTree` puts at the paths of a strictly sorted list. -/
theorem pieces_aux (B A : List (List K × List α)) (h : ((A ++ B).map (·.1)).Pairwise (· < ·)) (v : List α)
    (hv : v.length = ((A ++ B).map fun pv => pv.2.length).sum) :
    let o := fun p => (((A ++ B).filter fun pv => pv.1 < p).map fun pv => pv.2.length).sum
    (B.map fun pv => (v.drop (o pv.1)).take pv.2.length).flatten = v.drop (A.map fun pv => pv.2.length).sum ∧
      ∀ pv ∈ B, ((v.drop (o pv.1)).take pv.2.length).length = pv.2.length := by
  induction B generalizing A with
  | nil =>
    rw [List.append_nil] at hv
    refine ⟨?_, by simp⟩
    rw [List.drop_of_length_le (by omega)]; rfl
  | cons b B ih =>
    have e : A ++ b :: B = (A ++ [b]) ++ B := by simp
    have ih := ih (A ++ [b]) (by rw [← e]; exact h) (by rw [← e]; exact hv)
    rw [← e] at ih
    obtain ⟨i1, i2⟩ := ih
    have hb : ((A ++ b :: B).filter fun pv => pv.1 < b.1) = A := by
      rw [List.map_append, List.pairwise_append, List.map_cons, List.pairwise_cons] at h
      rw [List.filter_append, List.filter_cons_of_neg (by simp), List.filter_eq_self.2, List.filter_eq_nil_iff.2, List.append_nil]
      · intro x hx
        have := h.2.1.1 x.1 (List.mem_map_of_mem hx)
        simp [this.le]
      · intro x hx
        have := h.2.2 x.1 (List.mem_map_of_mem hx) b.1 (by simp)
        simpa using this
    have hsum : ((A ++ b :: B).map fun pv => pv.2.length).sum =
        (A.map fun pv => pv.2.length).sum + (b.2.length + (B.map fun pv => pv.2.length).sum) := by simp
    dsimp only
    constructor
    · rw [List.map_cons, List.flatten_cons, i1, hb, List.map_append, List.sum_append]
      simp only [List.map_cons, List.map_nil, List.sum_cons, List.sum_nil, add_zero]
      rw [← List.drop_drop, List.take_append_drop]
    · intro pv hpv
      rcases List.mem_cons.1 hpv with rfl | hpv
      · rw [hb, List.length_take, List.length_drop]
        omega
      · exact i2 pv hpv

theorem mapLeaves_congr {V : Type} (f g : List K → V → V) (d : Obj K V) (q : List K)
    (h : ∀ pv ∈ Nested.flatten d, f (q ++ pv.1) pv.2 = g (q ++ pv.1) pv.2) : mapLeaves f q d = mapLeaves g q d := by
  induction d generalizing q with
  | leaf v =>
    have := h ([], v) (by simp [Nested.flatten])
    simp only [List.append_nil] at this
    simp only [mapLeaves, this]
  | nil => rfl
  | cons k o r iho ihr =>
    simp only [mapLeaves]
    rw [iho (q ++ [k]) fun pv hpv => by
        have := h (k :: pv.1, pv.2) (by
          simp only [Nested.flatten, List.mem_append, List.mem_map]
          exact Or.inl ⟨pv, hpv, rfl⟩)
        simpa using this,
      ihr q fun pv hpv => h pv (by simp only [Nested.flatten, List.mem_append]; exact Or.inr hpv)]

/-- The value of a duplicate-free list of pairs as a function of the path. -/
theorem arrays_fun (d : Obj K (List α)) (hw : WF d) (g : List K → List α → List α) :
    ∃ f : List K → List α, ∀ pv ∈ Nested.flatten d, g pv.1 pv.2 = f pv.1 := by
  refine ⟨fun p => match at? p d with | some (leaf x) => g p x | _ => [], ?_⟩
  rintro ⟨p, x⟩ hpx
  rw [mem_flatten d hw] at hpx
  simp only [hpx]

/-- What `unravelTree` gives: the arrays become consecutive pieces, in sorted order of paths, of the same lengths. -/
theorem unravel_spec (d : Obj K (List α)) (hw : WF d) (v : List α) (hv : v.length = (ravelTree d).length) :
    ∃ vf : List K → List α, unravelTree d v = .ok (mapLeaves (fun p _ => vf p) [] d) ∧
      (∀ pv ∈ Nested.flatten d, (vf pv.1).length = pv.2.length) ∧ ((paths d).map vf).flatten = v := by
  obtain ⟨h1, h2⟩ := pieces_aux (arrays d) [] (arrays_sorted d hw) v (by
    rw [hv, ravelTree_eq, List.length_flatten, List.map_map]; rfl)
  simp only [List.nil_append, ← offset_eq, List.map_nil, List.sum_nil, List.drop_zero] at h1 h2
  obtain ⟨vf, hvf⟩ := arrays_fun d hw fun p x => (v.drop (offset d p)).take x.length
  refine ⟨vf, ?_, fun pv hpv => ?_, ?_⟩
  · unfold unravelTree
    rw [if_neg (by simp [hv])]
    congr 1
    exact mapLeaves_congr _ _ _ _ fun pv hpv => by simpa using hvf pv hpv
  · rw [← hvf pv hpv]; exact h2 pv ((mem_arrays d pv).2 hpv)
  · rw [← h1, paths, List.map_map]
    congr 1
    apply List.map_congr_left
    intro pv hpv
    exact (hvf pv ((mem_arrays d pv).1 hpv)).symm

/-- Pieces of the same lengths with the same concatenation are the same. -/
theorem pieces_inj {A : Type} (l : List A) (f g : A → List α) (hlen : ∀ a ∈ l, (f a).length = (g a).length)
    (h : (l.map f).flatten = (l.map g).flatten) : ∀ a ∈ l, f a = g a := by
  have a1 := unravel_flatten (l.map f)
  have a2 := unravel_flatten (l.map g)
  have a3 : (l.map f).map List.length = (l.map g).map List.length := by
    rw [List.map_map, List.map_map]
    exact List.map_congr_left fun a ha => hlen a ha
  rw [h, a3, a2] at a1
  exact List.map_inj_left.1 a1.symm

theorem mem_paths (d : Obj K (List α)) (p : List K) : p ∈ paths d ↔ ∃ x, (p, x) ∈ Nested.flatten d := by
  unfold paths
  simp only [List.mem_map, mem_arrays]
  constructor
  · rintro ⟨⟨q, x⟩, h, rfl⟩; exact ⟨x, h⟩
  · rintro ⟨x, h⟩; exact ⟨_, h, rfl⟩

/-- `unravelTree` of the pieces in sorted order of paths. -/
theorem unravel_pieces (d : Obj K (List α)) (hw : WF d) (wf : List K → List α)
    (hl : ∀ pv ∈ Nested.flatten d, (wf pv.1).length = pv.2.length) :
    unravelTree d ((paths d).map wf).flatten = .ok (mapLeaves (fun p _ => wf p) [] d) := by
  obtain ⟨vf, h1, h2, h3⟩ := unravel_spec d hw ((paths d).map wf).flatten (by
    rw [ravelTree_eq, List.length_flatten, List.length_flatten, paths, List.map_map, List.map_map, List.map_map]
    congr 1
    exact List.map_congr_left fun pv hpv => hl pv ((mem_arrays d pv).1 hpv))
  rw [h1]
  congr 1
  refine mapLeaves_congr _ _ _ _ fun pv hpv => ?_
  have : pv.1 ∈ paths d := (mem_paths d _).2 ⟨pv.2, hpv⟩
  simp only [List.nil_append]
  refine pieces_inj (paths d) vf wf (fun p hp => ?_) h3 pv.1 this
  obtain ⟨x, hx⟩ := (mem_paths d p).1 hp
  rw [h2 _ hx, hl _ hx]

/-- **Raveling.** The vector of parameters goes back to the parameters, and a vector of the right length comes back from the
parameters made from it; any other length raises. -/
theorem C103_ravel (d : Obj K (List α)) (hw : WF d) :
    unravelTree d (ravelTree d) = .ok d ∧
    (∀ v, v.length = (ravelTree d).length → (∃ d', unravelTree d v = .ok d' ∧ ravelTree d' = v ∧ WF d' ∧ SameShape d d')) ∧
    ∀ v, v.length ≠ (ravelTree d).length → unravelTree d v = .error "TypeError" := by
  refine ⟨?_, ?_, fun v hv => by unfold unravelTree; rw [if_pos hv]⟩
  · obtain ⟨f, hf⟩ := arrays_fun d hw fun _ x => x
    have h1 : mapLeaves (fun p _ => f p) [] d = d := by
      have : mapLeaves (fun _ x => x) [] d = d := by
        have : ∀ (q : List K) (d : Obj K (List α)), mapLeaves (fun _ x => x) q d = d := by
          intro q d
          induction d generalizing q with
          | leaf v => rfl
          | nil => rfl
          | cons k o r iho ihr => simp only [mapLeaves, iho, ihr]
        exact this [] d
      conv_rhs => rw [← this]
      exact mapLeaves_congr _ _ _ _ fun pv hpv => by simpa using (hf pv hpv).symm
    have := unravel_pieces d hw f fun pv hpv => by rw [← hf pv hpv]
    rwa [← ravelTree_mapLeaves, h1] at this
  · intro v hv
    obtain ⟨vf, h1, h2, h3⟩ := unravel_spec d hw v hv
    exact ⟨_, h1, by rw [ravelTree_mapLeaves, h3], WF_mapLeaves _ _ _ hw, sameShape_mapLeaves _ _ _⟩

end

/-! ## Stored states -/

theorem onlyParams_mapLeaves (g : List String → List ℝ → List ℝ) (q : List String) (d : Obj String (List ℝ)) (h : OnlyParams d) :
    OnlyParams (mapLeaves g q d) := by
  induction d generalizing q with
  | leaf _ => exact h.elim
  | nil => trivial
  | cons k v r _ ih =>
    obtain ⟨⟨x, rfl⟩, h⟩ := h
    exact ⟨⟨_, rfl⟩, ih _ h⟩

theorem cons_params_le (k k' : String) (q q' : List String) :
    k :: "params" :: q ≤ k' :: "params" :: q' ↔ k :: q ≤ k' :: q' := by
  rw [← not_lt, ← not_lt, List.cons_lt_cons_iff, List.cons_lt_cons_iff, List.cons_lt_cons_iff]
  simp

/-- A dictionary. -/
def Spine : Obj String (List ℝ) → Prop
  | leaf _ => False
  | nil => True
  | cons _ _ r => Spine r

/-- `sample` ravels `{k: v["params"][label]}`, which gives the same vector as `{k: {"params": v["params"][label]}}`. -/
theorem rawProj_spec (label : String) (st e : Obj String (List ℝ)) (h : projAll label st = .ok e) (hd : Spine st) : ∃ e', rawProj label st = .ok e' ∧ ravelTree e' = ravelTree e := by
  have key : ∃ e', rawProj label st = .ok e' ∧ (∀ pv ∈ Nested.flatten e', pv.1 ≠ []) ∧
      Nested.flatten e = (Nested.flatten e').map fun pv => (pv.1.headD "" :: "params" :: pv.1.tail, pv.2) := by
    induction st generalizing e with
    | leaf _ => exact hd.elim
    | nil => cases h; exact ⟨nil, rfl, by simp [Nested.flatten], rfl⟩
    | cons k v r _ ih =>
      unfold projAll at h
      obtain ⟨p, h1, h⟩ := Verif.bind_ok.1 h
      obtain ⟨m, h2, h⟩ := Verif.bind_ok.1 h
      obtain ⟨r', h3, h⟩ := Verif.bind_ok.1 h
      cases h
      obtain ⟨e', i1, i2, i3⟩ := ih r' h3 hd
      refine ⟨cons k m e', ?_, ?_, ?_⟩
      · simp only [rawProj, bind, Except.bind, h1, h2, i1]; rfl
      · intro pv hpv
        simp only [Nested.flatten, List.mem_append, List.mem_map] at hpv
        rcases hpv with ⟨x, -, rfl⟩ | hpv
        · simp
        · exact i2 pv hpv
      · simp [Nested.flatten, i3]
  obtain ⟨e', h1, h2, h3⟩ := key
  refine ⟨e', h1, ?_⟩
  rw [ravelTree_eq, ravelTree_eq, arrays, arrays, h3,
    ← List.map_insertionSort (fun a b : List String × List ℝ => a.1 ≤ b.1) (fun a b : List String × List ℝ => a.1 ≤ b.1),
    List.map_map]
  · rfl
  · intro a ha b hb
    have ha := h2 a ha
    have hb := h2 b hb
    obtain ⟨a1, a2⟩ := a
    obtain ⟨b1, b2⟩ := b
    cases a1 with
    | nil => exact absurd rfl ha
    | cons k q =>
      cases b1 with
      | nil => exact absurd rfl hb
      | cons k' q' => exact (cons_params_le k k' q q').symm

/-- The number of entries of a dictionary of arrays. -/
def entries (d : Obj String (List ℝ)) : ℕ := (ravelTree d).length

theorem entries_cons (k : String) (o r : Obj String (List ℝ)) : entries (cons k o r) = entries o + entries r := by
  unfold entries
  rw [length_ravelTree, length_ravelTree, length_ravelTree]
  simp [Nested.flatten, Function.comp_def]

theorem entries_nil : entries (nil : Obj String (List ℝ)) = 0 := rfl

/-- A stored state has twice as many entries as parameters, and it is a dictionary. -/
theorem pairAll_entries (l0 l1 : String) (hl : l0 ≠ l1) (d other st a b : Obj String (List ℝ)) (hd : d.isDict = true) (hw : WF d)
    (h : pairAll l0 l1 d other = .ok st) (ha : projAll l0 st = .ok a) (hb : projAll l1 st = .ok b) :
    entries st = entries a + entries b ∧ Spine st := by
  induction d generalizing st a b with
  | leaf _ => simp [isDict] at hd
  | nil => cases h; cases ha; cases hb; exact ⟨rfl, trivial⟩
  | cons k v r _ ih =>
    unfold pairAll at h
    obtain ⟨x, h1, h⟩ := Verif.bind_ok.1 h
    obtain ⟨w, h2, h⟩ := Verif.bind_ok.1 h
    obtain ⟨y, h3, h⟩ := Verif.bind_ok.1 h
    obtain ⟨r', h4, h⟩ := Verif.bind_ok.1 h
    cases h
    unfold projAll at ha hb
    obtain ⟨p, a1, ha⟩ := Verif.bind_ok.1 ha
    obtain ⟨m, a2, ha⟩ := Verif.bind_ok.1 ha
    obtain ⟨ra, a3, ha⟩ := Verif.bind_ok.1 ha
    cases ha
    obtain ⟨p', b1, hb⟩ := Verif.bind_ok.1 hb
    obtain ⟨m', b2, hb⟩ := Verif.bind_ok.1 hb
    obtain ⟨rb, b3, hb⟩ := Verif.bind_ok.1 hb
    cases hb
    have hp : item (cons "params" (pairOf l0 l1 x y) nil : Obj String (List ℝ)) "params" = .ok (pairOf l0 l1 x y) :=
      (item_eq _ _ _).2 (by simp [lookup])
    rw [hp] at a1 b1
    cases a1
    cases b1
    have j := at?_pairOf l0 l1 hl x y
    rw [(item_eq _ _ _).2 j.1] at a2
    rw [(item_eq _ _ _).2 j.2] at b2
    cases a2
    cases b2
    obtain ⟨i1, i2⟩ := ih r' ra rb hw.2.1 hw.2.2.2 h4 a3 b3
    have hpo : pairOf l0 l1 x y = cons l0 x (cons l1 y nil) := by simp [pairOf, setItem, hl]
    refine ⟨?_, i2⟩
    rw [hpo]
    simp only [entries_cons, entries_nil, i1]
    omega

theorem bcast_eq (f : ℝ → ℝ → ℝ) (a b : List ℝ) (h : a.length = b.length) : bcast f a b = .ok (List.zipWith f a b) := by
  unfold bcast
  rw [if_pos h]

theorem zipWith_zip_map {A B C D E : Type} (f : A → E → D) (g : B → C → E) (a : List A) (b : List B) (c : List C) :
    List.zipWith f a (List.zipWith g b c) = List.zipWith (fun x yz => f x (g yz.1 yz.2)) a (b.zip c) := by
  induction a generalizing b c with
  | nil => rfl
  | cons x a ih =>
    cases b with
    | nil => rfl
    | cons y b =>
      cases c with
      | nil => rfl
      | cons z c => simp only [List.zipWith_cons_cons, List.zip_cons_cons, ih]

theorem forwardB_eq (m s u : List ℝ) (h1 : m.length = s.length) (h2 : s.length = u.length) :
    forwardB m s u = .ok (forwardList m s u) := by
  unfold forwardB forwardList
  rw [bcast_eq _ _ _ h2]
  show bcast _ _ _ = _
  rw [bcast_eq _ _ _ (by rw [List.length_zipWith]; omega), zipWith_zip_map]

/-- The flow works piece by piece. -/
theorem forward_pieces {A : Type} (l : List A) (vf sf uf : A → List ℝ)
    (h : ∀ a ∈ l, (vf a).length = (sf a).length ∧ (sf a).length = (uf a).length) :
    forwardList (l.map vf).flatten (l.map sf).flatten (l.map uf).flatten =
      (l.map fun a => forwardList (vf a) (sf a) (uf a)).flatten := by
  induction l with
  | nil => rfl
  | cons a l ih =>
    have ha := h a (by simp)
    have ih := ih fun b hb => h b (by simp [hb])
    unfold forwardList at ih ⊢
    simp only [List.map_cons, List.flatten_cons]
    rw [List.zip_append ha.2, List.zipWith_append (by rw [List.length_zip]; omega), ih]

/-- Storing without freezing: the two dictionaries in the state. -/
theorem store_spec (params : Obj String (List ℝ)) (hw : WF params) (ho : OnlyParams params) (m s : List ℝ)
    (hm : m.length = entries params) (hs : s.length = entries params) :
    ∃ st vf sf, adviStore params none m s = .ok st ∧
      projAll "mean" st = .ok (mapLeaves (fun p _ => vf p) [] params) ∧
      projAll "log_std" st = .ok (mapLeaves (fun p _ => sf p) [] params) ∧
      (∀ pv ∈ Nested.flatten params, (vf pv.1).length = pv.2.length ∧ (sf pv.1).length = pv.2.length) ∧
      ((paths params).map vf).flatten = m ∧ ((paths params).map sf).flatten = s ∧ Spine st ∧ entries st = 2 * entries params := by
  obtain ⟨vf, v1, v2, v3⟩ := unravel_spec params hw m hm
  obtain ⟨sf, s1, s2, s3⟩ := unravel_spec params hw s hs
  have hdict : params.isDict = true := by cases params <;> first | rfl | exact ho.elim
  have hcomp : mapLeaves (fun p _ => sf p) [] params =
      mapLeaves (fun p _ => sf p) [] (mapLeaves (fun p _ => vf p) [] params) := by rw [mapLeaves_comp]
  obtain ⟨st, h1, h2, h3⟩ := pairAll_spec "mean" "log_std" (by decide) (fun p _ => sf p) (mapLeaves (fun p _ => vf p) [] params)
    (mapLeaves (fun p _ => sf p) [] params) (WF_mapLeaves _ _ _ hw) (onlyParams_mapLeaves _ _ _ ho)
    (by rw [isDict_mapLeaves]; exact hdict) (by
      intro k v hk
      rw [hcomp, lookup_mapLeaves_nil, hk]; rfl)
  rw [← hcomp] at h3
  have hent : ∀ f : List String → List ℝ, (∀ pv ∈ Nested.flatten params, (f pv.1).length = pv.2.length) →
      entries (mapLeaves (fun p _ => f p) [] params) = entries params := by
    intro f hf
    unfold entries
    rw [length_ravelTree, length_ravelTree, flatten_mapLeaves, List.map_map]
    congr 1
    exact List.map_congr_left fun pv hpv => by simpa using hf pv hpv
  obtain ⟨e1, e2⟩ := pairAll_entries "mean" "log_std" (by decide) _ _ st _ _ (by rw [isDict_mapLeaves]; exact hdict)
    (WF_mapLeaves _ _ _ hw) h1 h2 h3
  refine ⟨st, vf, sf, ?_, h2, h3, fun pv hpv => ⟨v2 pv hpv, s2 pv hpv⟩, v3, s3, e2, ?_⟩
  · unfold adviStore
    simp only [v1, s1, bind, Except.bind, h1]
  · rw [e1, hent vf v2, hent sf s2]; omega

/-- Sampling from a state stored without freezing, by any closure with the structure of the parameters. -/
theorem sample_spec (params c st : Obj String (List ℝ)) (hw : WF params) (vf sf uf : List String → List ℝ) (hst : Spine st)
    (h1 : projAll "mean" st = .ok (mapLeaves (fun p _ => vf p) [] params))
    (h2 : projAll "log_std" st = .ok (mapLeaves (fun p _ => sf p) [] params))
    (hl : ∀ pv ∈ Nested.flatten params, (vf pv.1).length = pv.2.length ∧ (sf pv.1).length = pv.2.length ∧
      (uf pv.1).length = pv.2.length) (n : ℕ) (noise : ℕ → List ℝ) (hn : noise n = ((paths params).map uf).flatten)
    (hc : ∃ cf : List String → List ℝ, c = mapLeaves (fun p _ => cf p) [] params ∧
      ∀ pv ∈ Nested.flatten params, (cf pv.1).length = pv.2.length) :
    AdviPost.sample ⟨c, none, n⟩ st none noise =
      .ok (mapLeaves (fun p _ => forwardList (vf p) (sf p) (uf p)) [] params) := by
  obtain ⟨m', m1, m2⟩ := rawProj_spec "mean" st _ h1 hst
  obtain ⟨s', s1, s2⟩ := rawProj_spec "log_std" st _ h2 hst
  rw [ravelTree_mapLeaves] at m2 s2
  have hp : ∀ p ∈ paths params, (vf p).length = (sf p).length ∧ (sf p).length = (uf p).length := by
    intro p hp
    obtain ⟨x, hx⟩ := (mem_paths params p).1 hp
    obtain ⟨a, b, c⟩ := hl _ hx
    exact ⟨a.trans b.symm, b.trans c.symm⟩
  have hlen : ∀ f g : List String → List ℝ, (∀ p ∈ paths params, (f p).length = (g p).length) →
      ((paths params).map f).flatten.length = ((paths params).map g).flatten.length := by
    intro f g h
    rw [List.length_flatten, List.length_flatten, List.map_map, List.map_map]
    congr 1
    exact List.map_congr_left h
  have hf : forwardB (ravelTree m') (ravelTree s') (noise n) =
      .ok ((paths params).map fun p => forwardList (vf p) (sf p) (uf p)).flatten := by
    rw [m2, s2, hn, forwardB_eq _ _ _ (hlen vf sf fun p h => (hp p h).1) (hlen sf uf fun p h => (hp p h).2),
      forward_pieces _ _ _ _ hp]
  obtain ⟨cf, rfl, hcf⟩ := hc
  have hu : unravelTree (mapLeaves (fun p _ => cf p) [] params)
      ((paths params).map fun p => forwardList (vf p) (sf p) (uf p)).flatten =
      .ok (mapLeaves (fun p _ => forwardList (vf p) (sf p) (uf p)) [] params) := by
    have := unravel_pieces (mapLeaves (fun p _ => cf p) [] params) (WF_mapLeaves _ _ _ hw)
      (fun p => forwardList (vf p) (sf p) (uf p)) (by
        intro pv hpv
        rw [flatten_mapLeaves] at hpv
        obtain ⟨x, hx, rfl⟩ := List.mem_map.1 hpv
        obtain ⟨a, b, c⟩ := hl x hx
        simp only [List.nil_append]
        unfold forwardList
        rw [List.length_zipWith, List.length_zip, hcf x hx]
        omega)
    rwa [paths_mapLeaves, mapLeaves_comp] at this
  unfold AdviPost.sample AdviPost.unravel
  simp only [m1, s1, bind, Except.bind, pure, Except.pure, hf, hu]

/-- **C103, sampling without freezing.** The state of a fit with vectors `m` and `s` of the right length holds at every array of
the parameters its mean and its log-standard-deviation, which together are `m` and `s`. A sample has the structure of the
parameters, and at every array holds mean plus `exp(log_std)` times noise, entrywise, every number of the base noise being used
once. -/
theorem C103_sample (params : Obj String (List ℝ)) (hw : WF params) (ho : OnlyParams params) (m s : List ℝ) (noise : ℕ → List ℝ)
    (hn : ∀ n, (noise n).length = n) (hm : m.length = entries params) (hs : s.length = entries params) :
    ∃ (post : AdviPost) (st : Obj String (List ℝ)) (mean logStd u : List String → List ℝ), adviFitPost params none = .ok post ∧ adviStore params none m s = .ok st ∧
      projAll "mean" st = .ok (mapLeaves (fun p _ => mean p) [] params) ∧
      projAll "log_std" st = .ok (mapLeaves (fun p _ => logStd p) [] params) ∧
      ravelTree (mapLeaves (fun p _ => mean p) [] params) = m ∧ ravelTree (mapLeaves (fun p _ => logStd p) [] params) = s ∧
      ravelTree (mapLeaves (fun p _ => u p) [] params) = noise (entries params) ∧
      (∀ pv ∈ Nested.flatten params, (mean pv.1).length = pv.2.length ∧ (logStd pv.1).length = pv.2.length ∧
        (u pv.1).length = pv.2.length) ∧
      post.sample st none noise = .ok (mapLeaves (fun p _ =>
        List.zipWith (fun m su => m + Real.exp su.1 * su.2) (mean p) ((logStd p).zip (u p))) [] params) := by
  obtain ⟨st, vf, sf, h1, h2, h3, h4, h5, h6, h7, -⟩ := store_spec params hw ho m s hm hs
  obtain ⟨uf, u1, u2, u3⟩ := unravel_spec params hw (noise (entries params)) (hn _)
  obtain ⟨pf, hpf⟩ := arrays_fun params hw fun _ x => x
  refine ⟨⟨params, none, entries params⟩, st, vf, sf, uf, rfl, h1, h2, h3, ?_, ?_, ?_,
    fun pv hpv => ⟨(h4 pv hpv).1, (h4 pv hpv).2, u2 pv hpv⟩, ?_⟩
  · rw [ravelTree_mapLeaves, h5]
  · rw [ravelTree_mapLeaves, h6]
  · rw [ravelTree_mapLeaves, u3]
  · refine sample_spec params params st hw vf sf uf h7 h2 h3 (fun pv hpv => ⟨(h4 pv hpv).1, (h4 pv hpv).2, u2 pv hpv⟩)
      (entries params) noise u3.symm ⟨pf, ?_, fun pv hpv => by rw [← hpf pv hpv]⟩
    obtain ⟨pf', hr⟩ : ∃ f : List String → List ℝ, mapLeaves (fun p _ => f p) [] params = params := by
      obtain ⟨vf', a1, -, -⟩ := unravel_spec params hw (ravelTree params) rfl
      rw [(C103_ravel params hw).1] at a1
      exact ⟨vf', (Except.ok.inj a1).symm⟩
    conv_lhs => rw [← hr]
    refine mapLeaves_congr _ _ _ _ fun pv hpv => ?_
    have hmem : (pv.1, pf' pv.1) ∈ Nested.flatten params := by
      have : (pv.1, pf' pv.1) ∈ Nested.flatten (mapLeaves (fun p _ => pf' p) [] params) := by
        rw [flatten_mapLeaves]
        exact List.mem_map.2 ⟨pv, hpv, rfl⟩
      rwa [hr] at this
    simpa using hpf _ hmem

/-- **C103, loading without freezing.** A posterior that loads the state draws, for every base noise, the sample of the
posterior that was fitted. -/
theorem C103_load (params : Obj String (List ℝ)) (hw : WF params) (ho : OnlyParams params) (m s : List ℝ) (noise : ℕ → List ℝ)
    (hn : ∀ n, (noise n).length = n) (hm : m.length = entries params) (hs : s.length = entries params) :
    ∃ post post' st d, adviFitPost params none = .ok post ∧ adviStore params none m s = .ok st ∧
      adviLoadPost st none = .ok post' ∧ post.sample st none noise = .ok d ∧ post'.sample st none noise = .ok d := by
  obtain ⟨post, st, vf, sf, uf, p1, p2, -, -, p3, p4, p5, p6, p7⟩ := C103_sample params hw ho m s noise hn hm hs
  obtain ⟨st', vf', sf', h1, h2, h3, h4, h5, h6, h7, h8⟩ := store_spec params hw ho m s hm hs
  rw [p2] at h1
  cases h1
  have hv : ∀ p ∈ paths params, vf' p = vf p := pieces_inj _ _ _ (fun p hp => by
    obtain ⟨x, hx⟩ := (mem_paths params p).1 hp
    rw [(h4 _ hx).1, (p6 _ hx).1]) (by rw [h5, ← p3, ravelTree_mapLeaves])
  have hs' : ∀ p ∈ paths params, sf' p = sf p := pieces_inj _ _ _ (fun p hp => by
    obtain ⟨x, hx⟩ := (mem_paths params p).1 hp
    rw [(h4 _ hx).2, (p6 _ hx).2.1]) (by rw [h6, ← p4, ravelTree_mapLeaves])
  refine ⟨post, ⟨mapLeaves (fun p _ => vf' p) [] params, none, entries params⟩, st, _, p1, p2, ?_, p7, ?_⟩
  · unfold adviLoadPost
    have h8' : (ravelTree st).length = 2 * entries params := h8
    simp only [h2, bind, Except.bind, pure, Except.pure, h8']
    congr 2
    omega
  · rw [sample_spec params _ st hw vf' sf' uf h7 h2 h3 (fun pv hpv => ⟨(h4 pv hpv).1, (h4 pv hpv).2, (p6 pv hpv).2.2⟩)
      (entries params) noise (by rw [← p5, ravelTree_mapLeaves]) ⟨vf', rfl, fun pv hpv => (h4 pv hpv).1⟩]
    congr 1
    refine mapLeaves_congr _ _ _ _ fun pv hpv => ?_
    have hp : pv.1 ∈ paths params := (mem_paths params _).2 ⟨pv.2, hpv⟩
    simp only [List.nil_append]
    rw [hv _ hp, hs' _ hp]; rfl

/-- **C103, going on without freezing.** A further fit from the state starts with the means and log-standard-deviations
stored, and with the mean parameters. -/
theorem C103_restart (params : Obj String (List ℝ)) (hw : WF params) (ho : OnlyParams params) (m s : List ℝ)
    (hm : m.length = entries params) (hs : s.length = entries params) :
    ∃ st d, adviStore params none m s = .ok st ∧ unravelTree params m = .ok d ∧ adviRestart st none none = .ok (d, m, s) := by
  obtain ⟨st, vf, sf, h1, h2, h3, h4, h5, h6, -, -⟩ := store_spec params hw ho m s hm hs
  refine ⟨st, mapLeaves (fun p _ => vf p) [] params, h1, ?_, ?_⟩
  · rw [← h5, unravel_pieces params hw vf fun pv hpv => (h4 pv hpv).1]
  · unfold adviRestart
    simp only [h2, h3, bind, Except.bind, pure, Except.pure, ravelTree_mapLeaves, h5, h6]

/-! ## Selections -/

/-- The second dictionary of `nested_unpair` is made by `nested_set`. -/
theorem unpair_second (l0 l1 : String) (ps : List (List String)) (d d' e0 e : Obj String (List ℝ))
    (h : ps.foldlM (unpairPath l0 l1) (d, e0) = .ok (d', e)) :
    ∃ os : List (Obj String (List ℝ)), os.length = ps.length ∧
      (ps.zip os).foldlM (fun d po => setPath true po.2 po.1 d) e0 = .ok e := by
  induction ps generalizing d e0 with
  | nil => cases h; exact ⟨[], rfl, rfl⟩
  | cons p ps ih =>
    rw [List.foldlM_cons] at h
    obtain ⟨⟨d1, e1⟩, h1, h⟩ := Verif.bind_ok.1 h
    obtain ⟨os, i1, i2⟩ := ih d1 e1 h
    unfold unpairPath at h1
    dsimp only at h1
    by_cases hpn : p = []
    · rw [if_pos hpn] at h1; cases h1
    rw [if_neg hpn] at h1
    obtain ⟨w, -, h1⟩ := Verif.bind_ok.1 h1
    obtain ⟨b, -, h1⟩ := Verif.bind_ok.1 h1
    obtain ⟨a, -, h1⟩ := Verif.bind_ok.1 h1
    obtain ⟨d02, j1, h1⟩ := Verif.bind_ok.1 h1
    obtain ⟨d01, j2, h1⟩ := Verif.bind_ok.1 h1
    cases h1
    refine ⟨b :: os, by simp [i1], ?_⟩
    rw [List.zip_cons_cons, List.foldlM_cons]
    exact Verif.bind_ok.2 ⟨e1, by rw [setPath_true]; exact j1, i2⟩

/-- The log-standard-deviations read from a state: exactly the selected arrays. -/
theorem unpair_log_stds (ps : List (List String)) (d d' e : Obj String (List ℝ)) (sf : List String → List ℝ)
    (hp : ps.Pairwise Apart) (h : nestedUnpair d ps "mean" "log_std" = .ok (d', e))
    (he : ∀ p ∈ ps, nestedGet e p = .ok (leaf (sf p))) :
    nestedSet nil ps (ps.map fun p => leaf (sf p)) true = .ok e ∧ ravelTree e = ((ps.insertionSort (· ≤ ·)).map sf).flatten := by
  obtain ⟨os, h1, h2⟩ := unpair_second "mean" "log_std" ps d d' nil e h
  have hset : nestedSet nil ps os true = .ok e := by
    unfold nestedSet
    rw [if_neg (by simp [h1])]; exact h2
  have hos : os = ps.map fun p => leaf (sf p) := by
    obtain ⟨-, s2, -⟩ := C27_set_many true nil e ps os hp hset
    apply List.ext_getElem
    · simp [h1]
    · intro i hi hi'
      have hips : i < ps.length := by rw [← h1]; exact hi
      have := s2 (ps[i], os[i]) (by
        have : (ps.zip os)[i]'(by rw [List.length_zip]; omega) = (ps[i], os[i]) := by simp
        rw [← this]; exact List.getElem_mem _)
      rw [he _ (List.getElem_mem hips)] at this
      rw [List.getElem_map]
      exact (Except.ok.inj this).symm
  rw [hos] at hset
  obtain ⟨e', e1, e2⟩ := ravelTree_build ps hp (fun p hps => ((nestedGet_eq _ _ _).1 (he p hps)).1) sf
  rw [hset] at e1
  cases e1
  exact ⟨hset, e2⟩

/-- **C103, loading a selection.** After loading, whatever the order in which the selected paths are read from the state, a sample
holds at every selected array its own mean plus `exp(log_std)` times noise, every number of the base noise being used once, and
all else as in the parameters of the fit. -/
theorem C103_load_selected (params : Obj String (List ℝ)) (ps ps' : List (List String)) (mf : List String → List ℝ)
    (hp : ps.Pairwise Apart) (h : ∀ p ∈ ps, nestedGet params p = .ok (leaf (mf p))) (hperm : ps.Perm ps') (hne : ps ≠ [])
    (m s : List ℝ) (hm : m.length = ((ps.map mf).flatten).length) (hs : s.length = ((ps.map mf).flatten).length)
    (noise : ℕ → List ℝ) (hn : ∀ n, (noise n).length = n) :
    ∃ (st : Obj String (List ℝ)) (post : AdviPost) (d : Obj String (List ℝ)) (mean logStd u : List String → List ℝ),
      adviStore params (some ps) m s = .ok st ∧ adviLoadPost st (some ps') = .ok post ∧
      post.sample st (some ps') noise = .ok d ∧
      (ps.map mean).flatten = m ∧ (ps.map logStd).flatten = s ∧ (ps'.map u).flatten = noise m.length ∧
      (∀ p ∈ ps, (mean p).length = (mf p).length ∧ (logStd p).length = (mf p).length ∧ (u p).length = (mf p).length ∧
        nestedGet d p = .ok (leaf (List.zipWith (fun m su => m + Real.exp su.1 * su.2) (mean p) ((logStd p).zip (u p))))) ∧
      (∀ q, (∀ p ∈ ps, Apart q p) → ∀ r, nestedGet d q = .ok r ↔ nestedGet params q = .ok r) := by
  obtain ⟨st, d0, e, vf, sf, h1, h2, h3, h4, h5, h6⟩ :=
    advi_recover "mean" "log_std" (by decide) params ps ps' mf hp h hperm m s hm hs
  obtain ⟨d0', _, i1, -, -, -, i5⟩ := unravelInto_spec params ps mf hp h m hm
  rw [h3] at i1
  cases i1
  have hp' : ps'.Pairwise Apart := (hperm.pairwise_iff fun h => h.symm).1 hp
  have hmem : ∀ p ∈ ps', p ∈ ps := fun p hps => hperm.mem_iff.2 hps
  obtain ⟨-, hrav⟩ := unpair_log_stds ps' st d0 e sf hp' h2 fun p hps => (h6 p (hmem p hps)).2.2.2
  have hlen : ∀ f : List String → List ℝ, (∀ p ∈ ps, (f p).length = (mf p).length) → ∀ qs : List (List String), qs.Perm ps →
      ((qs.map f).flatten).length = m.length := by
    intro f hf qs hqs
    rw [hm, ((hqs.map f).flatten).length_eq, List.length_flatten, List.length_flatten, List.map_map, List.map_map]
    congr 1
    exact List.map_congr_left hf
  have hdim : (ravelTree e).length = m.length := by
    rw [hrav]
    exact hlen sf (fun p hps => (h6 p hps).2.1) _ ((List.perm_insertionSort _ _).trans hperm.symm)
  -- the noise, piece by piece
  obtain ⟨u1, u2⟩ := flatten_unravel ((ps'.map mf).map List.length) (noise m.length) (by
    rw [hn, hm, ((hperm.map mf).flatten).length_eq, List.length_flatten])
  obtain ⟨uf, huf⟩ := exists_fun_of_nodup ps' (nodup_of_apart hp') (unravelSizes ((ps'.map mf).map List.length) (noise m.length))
    (by simpa using congrArg List.length u2)
  have hul : ∀ p ∈ ps, (uf p).length = (mf p).length := by
    rw [← huf, List.map_map, List.map_map] at u2
    exact fun p hps => List.map_inj_left.1 u2 p (hperm.mem_iff.1 hps)
  have hu : (ps'.map uf).flatten = noise m.length := by rw [huf, u1]
  let wf : List String → List ℝ := fun p => forwardList (vf p) (sf p) (uf p)
  have hwl : ∀ p ∈ ps, (wf p).length = (vf p).length := by
    intro p hps
    have a := h6 p hps
    have b := hul p hps
    simp only [wf, forwardList, List.length_zipWith, List.length_zip]
    omega
  obtain ⟨d, wf', j1, j2, j3, j4, j5⟩ := unravelInto_spec d0 ps' vf hp' (fun p hps => (h6 p (hmem p hps)).2.2.1)
    (ps'.map wf).flatten (by
      rw [List.length_flatten, List.length_flatten, List.map_map, List.map_map]
      congr 1
      exact List.map_congr_left fun p hps => hwl p (hmem p hps))
  have hww : ∀ p ∈ ps', wf' p = wf p := pieces_inj ps' wf' wf (fun p hps => by rw [j3 p hps, hwl p (hmem p hps)]) j2
  refine ⟨st, ⟨d0, some ps', m.length⟩, d, vf, sf, uf, h1, ?_, ?_, h4, h5, hu, fun p hps => ⟨(h6 p hps).1, (h6 p hps).2.1,
    hul p hps, ?_⟩, fun q hq r => ?_⟩
  · unfold adviLoadPost
    have hne' : ps' ≠ [] := fun h0 => hne (by rw [h0] at hperm; exact hperm.eq_nil)
    simp only [h2, bind, Except.bind, pure, Except.pure, if_neg hne', hdim]
  · have r1 := (getPaths_ok d0 ps' vf fun p hps => (h6 p (hmem p hps)).2.2.1).2
    have r2 := (getPaths_ok e ps' sf fun p hps => (h6 p (hmem p hps)).2.2.2).2
    have r3 : forwardB (ps'.map vf).flatten (ps'.map sf).flatten (noise m.length) = .ok (ps'.map wf).flatten := by
      rw [forwardB_eq, ← hu, forward_pieces]
      · intro p hps
        have a := h6 p (hmem p hps)
        have b := hul p (hmem p hps)
        omega
      · rw [hlen vf (fun p hps => (h6 p hps).1) _ hperm.symm, hlen sf (fun p hps => (h6 p hps).2.1) _ hperm.symm]
      · rw [hlen sf (fun p hps => (h6 p hps).2.1) _ hperm.symm, hn]
    unfold AdviPost.sample AdviPost.unravel
    simp only [h2, bind, Except.bind, pure, Except.pure, r1, r2, r3, j1]
  · rw [j4 p (hperm.mem_iff.1 hps), hww p (hperm.mem_iff.1 hps)]; rfl
  · rw [j5 q (fun p hps => hq p (hmem p hps)) r, i5 q hq r]

/-- **C103, going on with a selection.** A further fit with a selection of arrays that were trained before starts with their
stored means, in the order of the selection, and their stored log-standard-deviations, in sorted order of paths. -/
theorem C103_restart_selected (params : Obj String (List ℝ)) (ps ps' qs : List (List String)) (mf : List String → List ℝ)
    (hp : ps.Pairwise Apart) (h : ∀ p ∈ ps, nestedGet params p = .ok (leaf (mf p))) (hperm : ps.Perm ps')
    (m s : List ℝ) (hm : m.length = ((ps.map mf).flatten).length) (hs : s.length = ((ps.map mf).flatten).length)
    (hq : qs.Sublist ps') :
    ∃ (st d : Obj String (List ℝ)) (mean logStd : List String → List ℝ), adviStore params (some ps) m s = .ok st ∧
      unravelInto params ps m = .ok d ∧ (ps.map mean).flatten = m ∧ (ps.map logStd).flatten = s ∧
      (∀ p ∈ ps, (mean p).length = (mf p).length ∧ (logStd p).length = (mf p).length) ∧
      adviRestart st (some ps') (some qs) =
        .ok (d, (qs.map mean).flatten, ((qs.insertionSort (· ≤ ·)).map logStd).flatten) := by
  obtain ⟨st, d0, e, vf, sf, h1, h2, h3, h4, h5, h6⟩ :=
    advi_recover "mean" "log_std" (by decide) params ps ps' mf hp h hperm m s hm hs
  have hmem : ∀ p ∈ qs, p ∈ ps := fun p hps => hperm.mem_iff.2 (hq.subset hps)
  have hp' : ps'.Pairwise Apart := (hperm.pairwise_iff fun h => h.symm).1 hp
  refine ⟨st, d0, vf, sf, h1, h3, h4, h5, fun p hps => ⟨(h6 p hps).1, (h6 p hps).2.1⟩, ?_⟩
  have r1 := (getPaths_ok d0 qs vf fun p hps => (h6 p (hmem p hps)).2.2.1).2
  have r2 := (C76_log_stds e qs sf (hp'.sublist hq) fun p hps => (h6 p (hmem p hps)).2.2.2).1
  unfold adviRestart
  simp only [h2, bind, Except.bind, r1, r2, pure, Except.pure]

theorem forall₂_left {A B : Type} {R : A → B → Prop} {l : List A} {l' : List B} (h : List.Forall₂ R l l') (a : A) (ha : a ∈ l) :
    ∃ b, R a b := by
  induction h with
  | nil => simp at ha
  | cons h1 _ ih =>
    rcases List.mem_cons.1 ha with rfl | ha
    · exact ⟨_, h1⟩
    · exact ih ha

/-- **C103, going on with other parameters: failure.** A further fit that selects an array that was frozen before raises. -/
theorem C103_unfreeze_false (params : Obj String (List ℝ)) (ps ps' qs : List (List String)) (mf : List String → List ℝ)
    (hp : ps.Pairwise Apart) (h : ∀ p ∈ ps, nestedGet params p = .ok (leaf (mf p))) (hperm : ps.Perm ps')
    (m s : List ℝ) (hm : m.length = ((ps.map mf).flatten).length) (hs : s.length = ((ps.map mf).flatten).length)
    (q : List String) (hq : q ∈ qs) (hapart : ∀ p ∈ ps, Apart q p) :
    ∃ st, adviStore params (some ps) m s = .ok st ∧ ∀ r, adviRestart st (some ps') (some qs) ≠ .ok r := by
  obtain ⟨st, d0, e, vf, sf, h1, h2, h3, h4, h5, h6⟩ :=
    advi_recover "mean" "log_std" (by decide) params ps ps' mf hp h hperm m s hm hs
  have hp' : ps'.Pairwise Apart := (hperm.pairwise_iff fun h => h.symm).1 hp
  refine ⟨st, h1, fun r hr => ?_⟩
  obtain ⟨hset, -⟩ := unpair_log_stds ps' st d0 e sf hp' h2 fun p hps => (h6 p (hperm.mem_iff.2 hps)).2.2.2
  obtain ⟨-, -, s3⟩ := C27_set_many true nil e ps' _ hp' hset
  unfold adviRestart at hr
  simp only [h2, bind, Except.bind] at hr
  obtain ⟨m', -, hr⟩ := Verif.bind_ok.1 hr
  obtain ⟨s', hr', hr⟩ := Verif.bind_ok.1 hr
  unfold adviRavLogStds at hr'
  obtain ⟨os, hos, -⟩ := Verif.bind_ok.1 hr'
  obtain ⟨o, ho⟩ : ∃ o, nestedGet e q = .ok o := by
    exact forall₂_left (Verif.mapM_ok.1 hos) q hq
  rw [s3 q (fun p hps => hapart p (hperm.mem_iff.2 hps))] at ho
  have := (nestedGet_eq _ _ _).1 ho
  rw [at?_nil this.1] at this
  cases this.2

theorem entries_setItem (k : String) (o x d : Obj String (List ℝ)) (h : lookup k d = some x) :
    entries (setItem k o d) + entries x = entries d + entries o := by
  induction d with
  | leaf _ => simp [lookup] at h
  | nil => simp [lookup] at h
  | cons k' o' r _ ih =>
    unfold lookup at h
    unfold setItem
    by_cases hk : k' = k
    · rw [if_pos hk] at h ⊢
      cases h
      rw [entries_cons, entries_cons]
      omega
    · rw [if_neg hk] at h ⊢
      have := ih h
      rw [entries_cons, entries_cons]
      omega

theorem entries_modify (y x : List ℝ) (hyx : x.length = y.length) (p : List String) (d d' : Obj String (List ℝ))
    (hx : at? p d = some (leaf x)) (h : modifyAt (fun _ => .ok (leaf y)) p d = .ok d') : entries d' = entries d := by
  induction p generalizing d d' with
  | nil =>
    cases h
    cases hx
    simp [entries, length_ravelTree, Nested.flatten, hyx]
  | cons k p ih =>
    unfold at? at hx
    unfold modifyAt at h
    cases hl : lookup k d with
    | none => rw [hl] at hx; cases hx
    | some w =>
      rw [hl] at hx h
      obtain ⟨o, h1, rfl⟩ := map_ok h
      have h2 := ih w o hx h1
      have h3 := entries_setItem k o w d hl
      omega

theorem entries_setMany (L : List (List String × List ℝ)) (hL : L.Pairwise fun a b => Apart a.1 b.1) (d d' : Obj String (List ℝ))
    (hd : ∀ pv ∈ L, ∃ x, nestedGet d pv.1 = .ok (leaf x) ∧ x.length = pv.2.length)
    (h : (L.map fun pv => (pv.1, (leaf pv.2 : Obj String (List ℝ)))).foldlM (fun d po => setPath false po.2 po.1 d) d = .ok d') :
    entries d' = entries d := by
  induction L generalizing d with
  | nil => cases h; rfl
  | cons a L ih =>
    rw [List.pairwise_cons] at hL
    rw [List.map_cons, List.foldlM_cons] at h
    obtain ⟨d1, h1, h⟩ := Verif.bind_ok.1 h
    obtain ⟨x, hx, hlen⟩ := hd a (by simp)
    have hfr := C27_frame false _ d d1 a.1 h1
    have h2 := ih hL.2 d1 (fun pv hpv => by
      obtain ⟨y, hy, hyl⟩ := hd pv (by simp [hpv])
      exact ⟨y, (hfr pv.1 (hL.1 pv hpv).symm _).2 hy, hyl⟩) h
    rw [h2]
    unfold setPath at h1
    obtain ⟨-, h1⟩ := (updateAt_false _ (by simp) _ _ _).1 h1
    exact entries_modify a.2 x hlen a.1 d d1 ((nestedGet_eq _ _ _).1 hx).2 h1

/-- **C103, going on without freezing after a fit with freezing: failure.** The vector of log-standard-deviations only covers the
arrays trained before. If these are fewer than all and more than one number, the first step raises; if they are a single number,
training can run but its end raises, and so does every checkpoint. -/
theorem C103_thaw_false (params : Obj String (List ℝ)) (ps ps' : List (List String)) (mf : List String → List ℝ)
    (hp : ps.Pairwise Apart) (h : ∀ p ∈ ps, nestedGet params p = .ok (leaf (mf p))) (hperm : ps.Perm ps')
    (m s : List ℝ) (hm : m.length = ((ps.map mf).flatten).length) (hs : s.length = ((ps.map mf).flatten).length)
    (hlt : m.length < entries params) :
    ∃ (st d : Obj String (List ℝ)) (m' s' : List ℝ), adviStore params (some ps) m s = .ok st ∧
      adviRestart st (some ps') none = .ok (d, m', s') ∧ s'.length = m.length ∧
      (1 < m.length → ∀ u : List ℝ, u.length = entries d → forwardB m' s' u = .error "TypeError") ∧
      (∀ m1 s1 : List ℝ, s1.length = s'.length → ∀ r, adviStore d none m1 s1 ≠ .ok r) := by
  obtain ⟨st, d0, e, vf, sf, h1, h2, h3, h4, h5, h6⟩ :=
    advi_recover "mean" "log_std" (by decide) params ps ps' mf hp h hperm m s hm hs
  have hp' : ps'.Pairwise Apart := (hperm.pairwise_iff fun h => h.symm).1 hp
  obtain ⟨-, hrav⟩ := unpair_log_stds ps' st d0 e sf hp' h2 fun p hps => (h6 p (hperm.mem_iff.2 hps)).2.2.2
  have hlen : (ravelTree e).length = m.length := by
    rw [hrav, hm, ((((List.perm_insertionSort (· ≤ ·) ps').trans hperm.symm).map sf).flatten).length_eq, List.length_flatten,
      List.length_flatten, List.map_map, List.map_map]
    congr 1
    exact List.map_congr_left fun p hps => (h6 p hps).2.1
  have hent : m.length < entries d0 := by
    have hz : ps.zip (ps.map fun p => (leaf (vf p) : Obj String (List ℝ))) = ps.map fun p => (p, leaf (vf p)) := zip_map_self _ _
    have e1 : nestedSet params ps ((unravelSizes ((ps.map mf).map List.length) m).map leaf) false = .ok d0 := by
      have := h3
      unfold unravelInto at this
      rw [(getPaths_ok params ps mf h).1] at this
      exact this
    have e2 : unravelSizes ((ps.map mf).map List.length) m = ps.map vf := by
      have := unravel_flatten (ps.map vf)
      rw [h4] at this
      rw [← this]
      congr 1
      rw [List.map_map, List.map_map]
      exact List.map_congr_left fun p hps => ((h6 p hps).1).symm
    rw [e2, List.map_map] at e1
    unfold nestedSet at e1
    rw [if_neg (by simp)] at e1
    have e3 := entries_setMany (ps.map fun p => (p, vf p)) (List.pairwise_map.2 hp) params d0 (by
      intro pv hpv
      obtain ⟨p, hps, rfl⟩ := List.mem_map.1 hpv
      exact ⟨mf p, h p hps, ((h6 p hps).1).symm⟩) (by
      rw [List.map_map]
      exact (congrArg (fun l => List.foldlM _ params l) hz).symm.trans e1)
    omega
  refine ⟨st, d0, ravelTree d0, ravelTree e, h1, ?_, hlen, fun h1m u hu => ?_, fun m1 s1 hs1 r hr => ?_⟩
  · unfold adviRestart
    simp only [h2, bind, Except.bind, pure, Except.pure]
  · unfold forwardB bcast
    rw [if_neg (by omega), if_neg (by omega), if_neg (by omega)]
    rfl
  · unfold adviStore at hr
    obtain ⟨a, -, hr⟩ := Verif.bind_ok.1 hr
    obtain ⟨b, hb, -⟩ := Verif.bind_ok.1 hr
    unfold unravelTree at hb
    rw [if_pos (by unfold entries at hent; omega)] at hb
    cases hb

/-- **C103, freezing after a fit without freezing.** A further fit with a selection of arrays starts with their stored means, in
the order of the selection, and their stored log-standard-deviations, in sorted order of paths. -/
theorem C103_refreeze (params : Obj String (List ℝ)) (hw : WF params) (ho : OnlyParams params) (m s : List ℝ)
    (hm : m.length = entries params) (hs : s.length = entries params) (qs : List (List String)) (hq : qs.Pairwise Apart)
    (hqs : ∀ q ∈ qs, ∃ x, nestedGet params q = .ok (leaf x)) :
    ∃ (st : Obj String (List ℝ)) (mean logStd : List String → List ℝ), adviStore params none m s = .ok st ∧
      ravelTree (mapLeaves (fun p _ => mean p) [] params) = m ∧ ravelTree (mapLeaves (fun p _ => logStd p) [] params) = s ∧
      (∀ pv ∈ Nested.flatten params, (mean pv.1).length = pv.2.length ∧ (logStd pv.1).length = pv.2.length) ∧
      adviRestart st none (some qs) = .ok (mapLeaves (fun p _ => mean p) [] params, (qs.map mean).flatten,
        ((qs.insertionSort (· ≤ ·)).map logStd).flatten) := by
  obtain ⟨st, vf, sf, h1, h2, h3, h4, h5, h6, -, -⟩ := store_spec params hw ho m s hm hs
  refine ⟨st, vf, sf, h1, by rw [ravelTree_mapLeaves, h5], by rw [ravelTree_mapLeaves, h6], h4, ?_⟩
  have hget : ∀ f : List String → List ℝ, ∀ q ∈ qs, nestedGet (mapLeaves (fun p _ => f p) [] params) q = .ok (leaf (f q)) := by
    intro f q hqm
    obtain ⟨x, hx⟩ := hqs q hqm
    exact nestedGet_mapLeaves (fun p _ => f p) params q x hx
  have r1 := (getPaths_ok _ qs vf (hget vf)).2
  have r2 := (C76_log_stds _ qs sf hq (hget sf)).1
  unfold adviRestart
  simp only [h2, h3, bind, Except.bind, pure, Except.pure, r1, r2]

/-- **C77, without freezing.** A vector of SWAG goes back to the parameters it came from, whatever training did to the arrays. -/
theorem C77_all {K α : Type} [LinearOrder K] (params : Obj K (List α)) (hw : WF params) (g : List K → List α → List α)
    (hg : ∀ pv ∈ Nested.flatten params, (g pv.1 pv.2).length = pv.2.length) :
    swagBackAll params (mapLeaves g [] params) = .ok (mapLeaves g [] params) := by
  obtain ⟨f, hf⟩ := arrays_fun params hw g
  have h1 : mapLeaves g [] params = mapLeaves (fun p _ => f p) [] params :=
    mapLeaves_congr _ _ _ _ fun pv hpv => by simpa using hf pv hpv
  unfold swagBackAll
  rw [h1, ravelTree_mapLeaves, unravel_pieces params hw f fun pv hpv => by rw [← hf pv hpv, hg pv hpv]]

/-! ## Examples -/

/-- The parameters of a model with a kernel of two weights and a bias, in the order in which flax creates them. -/
def exParams : Obj String (List ℝ) :=
  cons "model" (cons "params" (cons "kernel" (leaf [1, 2]) (cons "bias" (leaf [3]) nil)) nil) nil

theorem ex_wf : WF exParams ∧ OnlyParams exParams ∧ entries exParams = 3 := by
  refine ⟨by simp [exParams, WF, lookup, isDict], ⟨⟨_, rfl⟩, trivial⟩, ?_⟩
  simp [entries, length_ravelTree, Nested.flatten, exParams]

example : ∃ (post : AdviPost) (st : Obj String (List ℝ)) (mean logStd u : List String → List ℝ), adviFitPost exParams none = .ok post ∧
    adviStore exParams none [30, 10, 20] [0, 1, 2] = .ok st ∧
    post.sample st none (fun n => List.replicate n 1) = .ok (mapLeaves (fun p _ =>
      List.zipWith (fun m su => m + Real.exp su.1 * su.2) (mean p) ((logStd p).zip (u p))) [] exParams) := by
  obtain ⟨post, st, mean, logStd, u, h1, h2, -, -, -, -, -, -, h3⟩ := C103_sample exParams ex_wf.1 ex_wf.2.1 [30, 10, 20] [0, 1, 2]
    (fun n => List.replicate n 1) (by simp) (by simp [ex_wf.2.2]) (by simp [ex_wf.2.2])
  exact ⟨post, st, mean, logStd, u, h1, h2, h3⟩

/-- The pieces of a vector: the bias comes first, since its path is the smaller one. -/
example : unravelTree (cons "kernel" (leaf [1, 2]) (cons "bias" (leaf [3]) nil)) [30, 10, 20] =
    .ok (cons "kernel" (leaf [10, 20]) (cons "bias" (leaf [30]) nil)) := by decide +kernel

example : unravelTree (cons "kernel" (leaf [1, 2]) (cons "bias" (leaf [3]) nil)) [30, 10] = .error "TypeError" := by
  decide +kernel

/-- The bias only is trained, then a fit without freezing goes on from there. -/
example : ∃ (st d : Obj String (List ℝ)) (m' s' : List ℝ),
    adviStore exParams (some [["model", "params", "bias"]]) [30] [0] = .ok st ∧
    adviRestart st (some [["model", "params", "bias"]]) none = .ok (d, m', s') ∧
    (∀ m1 s1 : List ℝ, s1.length = s'.length → ∀ r, adviStore d none m1 s1 ≠ .ok r) := by
  obtain ⟨st, d, m', s', h1, h2, -, -, h3⟩ := C103_thaw_false exParams [["model", "params", "bias"]] [["model", "params", "bias"]]
    (fun _ => [3]) (by simp) (by
      intro p hp
      rw [List.mem_singleton] at hp
      subst hp
      rfl) (List.Perm.refl _) [30] [0] (by simp) (by simp) (by rw [ex_wf.2.2]; simp)
  exact ⟨st, d, m', s', h1, h2, h3⟩

/-- Likewise for a kernel of two weights: the first step raises. -/
example : ∃ (st d : Obj String (List ℝ)) (m' s' : List ℝ),
    adviStore exParams (some [["model", "params", "kernel"]]) [10, 20] [0, 1] = .ok st ∧
    adviRestart st (some [["model", "params", "kernel"]]) none = .ok (d, m', s') ∧
    (∀ u : List ℝ, u.length = entries d → forwardB m' s' u = .error "TypeError") := by
  obtain ⟨st, d, m', s', h1, h2, -, h3, -⟩ := C103_thaw_false exParams [["model", "params", "kernel"]] [["model", "params", "kernel"]]
    (fun _ => [1, 2]) (by simp) (by
      intro p hp
      rw [List.mem_singleton] at hp
      subst hp
      rfl) (List.Perm.refl _) [10, 20] [0, 1] (by simp) (by simp) (by rw [ex_wf.2.2]; simp)
  exact ⟨st, d, m', s', h1, h2, h3 (by simp)⟩

/-- The bias was trained, the kernel is to be trained further. -/
example : ∃ st, adviStore exParams (some [["model", "params", "bias"]]) [30] [0] = .ok st ∧
    ∀ r, adviRestart st (some [["model", "params", "bias"]]) (some [["model", "params", "kernel"]]) ≠ .ok r :=
  C103_unfreeze_false exParams [["model", "params", "bias"]] [["model", "params", "bias"]] [["model", "params", "kernel"]]
    (fun _ => [3]) (by simp) (by
      intro p hp
      rw [List.mem_singleton] at hp
      subst hp
      rfl) (List.Perm.refl _) [30] [0] (by simp) (by simp) ["model", "params", "kernel"] (by simp) (by
      intro p hp
      rw [List.mem_singleton] at hp
      subst hp
      simp [Apart])

/-! ### Concrete cases that meet the hypotheses of the theorems above -/

example := C103_ravel exParams ex_wf.1
example := C103_load exParams ex_wf.1 ex_wf.2.1 [30, 10, 20] [0, 1, 2] (fun n => List.replicate n 1) (by simp) (by simp [ex_wf.2.2])
  (by simp [ex_wf.2.2])
example := C103_restart exParams ex_wf.1 ex_wf.2.1 [30, 10, 20] [0, 1, 2] (by simp [ex_wf.2.2]) (by simp [ex_wf.2.2])

theorem ex_leaves : ∀ p ∈ ([["model", "params", "kernel"], ["model", "params", "bias"]] : List (List String)),
    nestedGet exParams p = .ok (leaf (if p = ["model", "params", "kernel"] then [1, 2] else [3])) := by
  intro p hp
  simp only [List.mem_cons, List.not_mem_nil, or_false] at hp
  rcases hp with rfl | rfl
  · rw [if_pos rfl]; rfl
  · rw [if_neg (by decide)]; rfl

example := C103_load_selected exParams [["model", "params", "kernel"], ["model", "params", "bias"]]
  [["model", "params", "bias"], ["model", "params", "kernel"]] _ (by simp [Apart]) ex_leaves (List.Perm.swap _ _ _) (by simp)
  [30, 10, 20] [0, 1, 2] (by simp) (by simp) (fun n => List.replicate n 1) (by simp)
example := C103_restart_selected exParams [["model", "params", "kernel"], ["model", "params", "bias"]]
  [["model", "params", "bias"], ["model", "params", "kernel"]] [["model", "params", "bias"]] _ (by simp [Apart]) ex_leaves
  (List.Perm.swap _ _ _) [30, 10, 20] [0, 1, 2] (by simp) (by simp) (by simp)
example := C103_refreeze exParams ex_wf.1 ex_wf.2.1 [30, 10, 20] [0, 1, 2] (by simp [ex_wf.2.2]) (by simp [ex_wf.2.2])
  [["model", "params", "bias"]] (by simp) (by intro q hq; rw [List.mem_singleton] at hq; subst hq; exact ⟨[3], rfl⟩)

end Verif.Props.AdviRun
