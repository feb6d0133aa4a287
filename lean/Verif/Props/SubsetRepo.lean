import Verif.Model.SubsetRepo
import Verif.Props.StateRepo
import Verif.Props.NestedDict
import Verif.Props.Frozen

/-!
# C63: sampled states are stored without their frozen parameters and come back complete
-/

set_option linter.unusedSectionVars false

namespace Verif.Props
open Verif.StateRepo Verif.Nested Verif.Nested.Obj Verif.SubsetRepo

variable {A K W : Type} [DecidableEq A] [DecidableEq K]

theorem mapM_get_ok (d : Obj K W) (ps : List (List K)) (h : ∀ p ∈ ps, ∃ o, nestedGet d p = .ok o) :
    ∃ objs, ps.mapM (nestedGet d) = .ok objs ∧ ps.length = objs.length ∧
      ∀ po ∈ ps.zip objs, nestedGet d po.1 = .ok po.2 := by
  induction ps with
  | nil => exact ⟨[], rfl, rfl, by simp⟩
  | cons p ps ih =>
    obtain ⟨o, ho⟩ := h p (by simp)
    obtain ⟨objs, h1, h2, h3⟩ := ih fun q hq => h q (by simp [hq])
    refine ⟨o :: objs, by rw [List.mapM_cons, ho, h1]; rfl, by simp [h2], ?_⟩
    intro po hpo
    rw [List.zip_cons_cons, List.mem_cons] at hpo
    rcases hpo with rfl | hpo
    · exact ho
    · exact h3 po hpo

theorem mapM_get_length {d : Obj K W} {ps : List (List K)} {objs : List (Obj K W)} (h : ps.mapM (nestedGet d) = .ok objs) :
    (∀ p ∈ ps, ∃ o, nestedGet d p = .ok o) := by
  induction ps generalizing objs with
  | nil => simp
  | cons p ps ih =>
    rw [List.mapM_cons] at h
    cases hp : nestedGet d p with
    | error e => rw [hp] at h; cases h
    | ok o =>
      rw [hp] at h
      cases hps : ps.mapM (nestedGet d) with
      | error e => rw [hps] at h; cases h
      | ok os =>
        intro q hq
        rcases List.mem_cons.1 hq with rfl | hq
        · exact ⟨o, hp⟩
        · exact ih hps q hq

theorem setMany_existing_ok (L : List (List K × Obj K W)) (hL : L.Pairwise fun a b => Apart a.1 b.1) (d : Obj K W)
    (h : ∀ po ∈ L, ∃ o, nestedGet d po.1 = .ok o) :
    ∃ d', L.foldlM (fun d po => setPath false po.2 po.1 d) d = .ok d' := by
  induction L generalizing d with
  | nil => exact ⟨d, rfl⟩
  | cons a L ih =>
    rw [List.pairwise_cons] at hL
    obtain ⟨d1, h1⟩ := (C27_missing_raises a.2 d a.1).2 (h a (by simp))
    obtain ⟨d', h'⟩ := ih hL.2 d1 fun po hpo => by
      obtain ⟨o, ho⟩ := h po (by simp [hpo])
      exact ⟨o, (C27_frame false a.2 d d1 a.1 h1 po.1 (hL.1 po hpo).symm o).2 ho⟩
    exact ⟨d', by rw [List.foldlM_cons, h1]; exact h'⟩

theorem setMany_fresh_ok (L : List (List K × Obj K W)) (hL : L.Pairwise fun a b => Apart a.1 b.1)
    (hne : ∀ po ∈ L, po.1 ≠ []) (d : Obj K W) (hd : d.isDict = true)
    (he : ∀ po ∈ L, ∀ q, q <+: po.1 → q ≠ po.1 → ∀ w, at? q d = some w → w.isDict = true) :
    ∃ d', L.foldlM (fun d po => setPath true po.2 po.1 d) d = .ok d' := by
  induction L generalizing d with
  | nil => exact ⟨d, rfl⟩
  | cons a L ih =>
    rw [List.pairwise_cons] at hL
    obtain ⟨d1, h1⟩ := (updateAt_true_ok a.2 a.1 d).2 ⟨hne a (by simp), he a (by simp)⟩
    obtain ⟨-, o', ho', s1, s2, s3⟩ := updateAt_spec _ _ _ _ _ h1
    have hd1 : d1.isDict = true := by
      obtain ⟨w, hw, hw'⟩ := s3 [] List.nil_prefix (hne a (by simp)).symm
      cases hw; exact hw'
    obtain ⟨d', h'⟩ := ih hL.2 (fun po hpo => hne po (by simp [hpo])) d1 hd1 fun po hpo q hq hqne w hw => by
      by_cases hap : Apart q a.1
      · exact he po (by simp [hpo]) q hq hqne w (by rw [← s2 q hap]; exact hw)
      · by_cases h1 : q <+: a.1
        · by_cases h2 : q = a.1
          · exact absurd (h2 ▸ hq) (hL.1 po hpo).1
          · obtain ⟨w', hw', hd'⟩ := s3 q h1 h2
            rw [hw] at hw'; cases hw'; exact hd'
        · have h2 : a.1 <+: q := by
            by_contra h2; exact hap ⟨h1, h2⟩
          exact absurd (h2.trans hq) (hL.1 po hpo).1
    refine ⟨d', ?_⟩
    rw [List.foldlM_cons, setPath_true, h1]
    exact h'

theorem zip_pairwise_apart {ps : List (List K)} {objs : List (Obj K W)} (hl : ps.length = objs.length)
    (hp : ps.Pairwise Apart) : (ps.zip objs).Pairwise fun a b => Apart a.1 b.1 := by
  have : ((ps.zip objs).map Prod.fst).Pairwise Apart := by
    rw [List.map_fst_zip (by omega)]; exact hp
  exact List.pairwise_map.1 this

theorem replace_params (P : A) (s : TS A (Obj K W)) (p : Obj K W) :
    (s.replace [(P, p)]).attr P = p ∧ (∀ a, a ≠ P → (s.replace [(P, p)]).attr a = s.attr a) := by
  simp only [TS.replace, List.foldl_cons, List.foldl_nil]
  exact ⟨by simp, fun a ha => by rw [if_neg (Ne.symm ha)]⟩

theorem replace_step (P : A) (s : TS A (Obj K W)) (p : Obj K W) :
    (s.replace [(P, p)]).step = s.step ∧ (s.replace [(P, p)]).acc = s.acc := ⟨rfl, rfl⟩

/-- The stored part: what it holds at the selected paths, and nothing elsewhere. -/
theorem remove_spec (P : A) (ps : List (List K)) (hp : ps.Pairwise Apart) (s : TS A (Obj K W))
    (h : ∀ p ∈ ps, ∃ o, nestedGet (s.attr P) p = .ok o) :
    ∃ s', removeState P (some ps) s = .ok s' ∧ s'.step = s.step ∧ s'.acc = s.acc ∧ (∀ a, a ≠ P → s'.attr a = s.attr a) ∧
      (∀ p ∈ ps, nestedGet (s'.attr P) p = nestedGet (s.attr P) p) ∧
      (∀ q o, nestedGet (s'.attr P) q = .ok o → ∃ p ∈ ps, p <+: q ∨ q <+: p) := by
  obtain ⟨objs, h1, h2, h3⟩ := mapM_get_ok (s.attr P) ps h
  have hpw := zip_pairwise_apart h2 hp
  obtain ⟨d', hd'⟩ := setMany_fresh_ok (ps.zip objs) hpw (fun po hpo => ((nestedGet_eq _ _ _).1 (h3 po hpo)).1) .nil rfl
    (fun po _ q _ _ w hw => by
      cases q with
      | nil => cases hw; rfl
      | cons k q => cases hw)
  have hset : nestedSet .nil ps objs true = .ok d' := by
    unfold nestedSet; rw [if_neg (by simpa using h2)]; exact hd'
  obtain ⟨-, g1, g2⟩ := C27_set_many true .nil d' ps objs hp hset
  refine ⟨s.replace [(P, d')], by simp only [removeState, h1]; show (nestedSet .nil ps objs true >>= _) = _; rw [hset]; rfl,
    rfl, rfl, (replace_params P s d').2, ?_, ?_⟩
  · intro p hpm
    rw [(replace_params P s d').1]
    obtain ⟨i, hi, rfl⟩ := List.getElem_of_mem hpm
    have hz : (ps[i], objs[i]'(by omega)) ∈ ps.zip objs := by
      rw [List.mem_iff_getElem]
      exact ⟨i, by simp; omega, by simp⟩
    rw [g1 _ hz, h3 _ hz]
  · intro q o hq
    rw [(replace_params P s d').1] at hq
    by_contra hcon
    push Not at hcon
    have := (g2 q (fun p hpm => ⟨(hcon p hpm).2, (hcon p hpm).1⟩) o).1 hq
    rw [nestedGet_eq] at this
    obtain ⟨hne, hat⟩ := this
    rw [at?_nil hne] at hat
    cases hat

theorem add_spec (P : A) (ps : List (List K)) (hp : ps.Pairwise Apart) (a : Obj K W) (s : TS A (Obj K W))
    (ha : ∀ p ∈ ps, ∃ o, nestedGet a p = .ok o) (h : ∀ p ∈ ps, ∃ o, nestedGet (s.attr P) p = .ok o) :
    ∃ s', addState P (some ps) (some a) s = .ok s' ∧ s'.step = s.step ∧ s'.acc = s.acc ∧
      (∀ b, b ≠ P → s'.attr b = s.attr b) ∧
      (∀ p ∈ ps, nestedGet (s'.attr P) p = nestedGet (s.attr P) p) ∧
      (∀ q, (∀ p ∈ ps, Apart q p) → ∀ o, nestedGet (s'.attr P) q = .ok o ↔ nestedGet a q = .ok o) := by
  obtain ⟨objs, h1, h2, h3⟩ := mapM_get_ok (s.attr P) ps h
  have hpw := zip_pairwise_apart h2 hp
  obtain ⟨d', hd'⟩ := setMany_existing_ok (ps.zip objs) hpw a (fun po hpo => ha po.1 (List.of_mem_zip hpo).1)
  have hset : nestedSet a ps objs false = .ok d' := by
    unfold nestedSet; rw [if_neg (by simpa using h2)]; exact hd'
  obtain ⟨-, g1, g2⟩ := C27_set_many false a d' ps objs hp hset
  refine ⟨s.replace [(P, d')], by simp only [addState, h1]; show (nestedSet a ps objs false >>= _) = _; rw [hset]; rfl,
    rfl, rfl, (replace_params P s d').2, ?_, ?_⟩
  · intro p hpm
    rw [(replace_params P s d').1]
    obtain ⟨i, hi, rfl⟩ := List.getElem_of_mem hpm
    have hz : (ps[i], objs[i]'(by omega)) ∈ ps.zip objs := by
      rw [List.mem_iff_getElem]
      exact ⟨i, by simp; omega, by simp⟩
    rw [g1 _ hz, h3 _ hz]
  · intro q hq o
    rw [(replace_params P s d').1]
    exact g2 q hq o

/-- **C63.** Storing a state in a slot and reading it back: it can be done whenever the selected parameters exist in the state
and in `all_params`; step and all other attributes come back (accumulated gradients only from memory), the selected
parameters are those of the state, all other parameters those of `all_params`; every other slot is as before; and the slot
itself holds nothing but the selected parameters. -/
theorem C63_round_trip (P : A) (m : SubRepo A K W) (ps : List (List K)) (a : Obj K W) (hw : m.which = some ps)
    (hall : m.allParams = some a) (hp : ps.Pairwise Apart) (s : TS A (Obj K W))
    (ha : ∀ p ∈ ps, ∃ o, nestedGet a p = .ok o) (hs : ∀ p ∈ ps, ∃ o, nestedGet (s.attr P) p = .ok o)
    (i : ℕ) (hi : i < m.slots.length) (hm : ∀ r ∈ m.slots, r.dirSet = false ∨ ∃ c, DiskHas r c) :
    ∃ m' s', subPut P m s i 1 = .ok m' ∧ subGet P m' i = .ok s' ∧ s'.step = s.step ∧
      s'.acc = (if m.slots[i].dirSet then none else s.acc) ∧ (∀ b, b ≠ P → s'.attr b = s.attr b) ∧
      (∀ p ∈ ps, nestedGet (s'.attr P) p = nestedGet (s.attr P) p) ∧
      (∀ q, (∀ p ∈ ps, Apart q p) → ∀ o, nestedGet (s'.attr P) q = .ok o ↔ nestedGet a q = .ok o) ∧
      (∀ k, k ≠ i → subGet P m' k = subGet P m k) ∧
      (m'.which = m.which ∧ m'.allParams = m.allParams ∧ m'.slots.length = m.slots.length ∧
        ∀ r ∈ m'.slots, r.dirSet = false ∨ ∃ c, DiskHas r c) ∧
      (∃ st, multiGet m'.slots i = .ok st ∧
        ∀ q o, nestedGet (st.attr P) q = .ok o → ∃ p ∈ ps, p <+: q ∨ q <+: p) := by
  obtain ⟨s1, r1, r2, r3, r4, r5, r6⟩ := remove_spec P ps hp s hs
  obtain ⟨sl, q1, q2, q3, q4, q5⟩ := C34_put_get m.slots s1 i hi hm
  let s1' : TS A (Obj K W) := if m.slots[i].dirSet then { s1 with acc := none } else s1
  have e1 : s1'.attr = s1.attr := by simp only [s1']; split_ifs <;> rfl
  have e2 : s1'.step = s1.step := by simp only [s1']; split_ifs <;> rfl
  have e3 : s1'.acc = if m.slots[i].dirSet then none else s1.acc := by simp only [s1']; split_ifs <;> rfl
  obtain ⟨s2, t1, t2, t3, t4, t5, t6⟩ := add_spec P ps hp a s1' ha (by
    intro p hpm
    rw [e1, r5 p hpm]; exact hs p hpm)
  refine ⟨{ m with slots := sl }, s2, ?_, ?_, by rw [t2, e2, r2], by rw [t3, e3, r3], ?_, ?_, t6, ?_, ⟨rfl, rfl, q2, q5⟩,
    s1', q3, by rw [e1]; exact r6⟩
  · simp only [subPut, hw, r1, liftPy]
    show (liftRepo (multiPut m.slots s1 i 1) >>= _) = _
    rw [q1]; rfl
  · simp only [subGet, q3, liftRepo, hw, hall]
    show liftPy (addState P (some ps) (some a) s1') = _
    rw [t1]; rfl
  · intro b hb; rw [t4 b hb, e1, r4 b hb]
  · intro p hpm; rw [t5 p hpm, e1, r5 p hpm]
  · intro k hk
    simp only [subGet, q4 k hk]

theorem nestedGet_leaf_agree {d e a : Obj K W} {ps : List (List K)} (hps : ∀ p ∈ ps, ∃ o, nestedGet e p = .ok o)
    (h1 : ∀ p ∈ ps, nestedGet d p = nestedGet e p)
    (h2 : ∀ q, (∀ p ∈ ps, Apart q p) → ∀ o, nestedGet d q = .ok o ↔ nestedGet a q = .ok o)
    (h3 : ∀ q, (∀ p ∈ ps, Apart q p) → ∀ o, nestedGet e q = .ok o ↔ nestedGet a q = .ok o)
    (q : List K) (v : W) : nestedGet d q = .ok (leaf v) ↔ nestedGet e q = .ok (leaf v) := by
  by_cases hq : ∀ p ∈ ps, Apart q p
  · rw [h2 q hq, h3 q hq]
  · push Not at hq
    obtain ⟨p, hp, hap⟩ := hq
    obtain ⟨o, ho⟩ := hps p hp
    have hd : nestedGet d p = .ok o := (h1 p hp).trans ho
    rw [nestedGet_eq] at ho hd
    by_cases hpre : p <+: q
    · obtain ⟨t, rfl⟩ := hpre
      rw [nestedGet_eq, nestedGet_eq, at?_append, at?_append, ho.2, hd.2]
    · have hqp : q <+: p := by
        by_contra hcon; exact hap ⟨hcon, hpre⟩
      obtain ⟨t, rfl⟩ := hqp
      have ht : t ≠ [] := by rintro rfl; simp at hpre
      have key : ∀ x : Obj K W, at? (q ++ t) x = some o → nestedGet x q ≠ .ok (leaf v) := by
        intro x hx hg
        rw [nestedGet_eq] at hg
        rw [at?_append, hg.2, Option.bind_some, at?_leaf ht] at hx
        cases hx
      exact ⟨fun h => absurd h (key d hd.2), fun h => absurd h (key e ho.2)⟩

/-- **C63, the samples come back.** When the state put agrees with `all_params` outside the selected paths, as states of a
chain do whose other parameters are frozen, reading the slot gives the parameters of that state, leaf by leaf. -/
theorem C63_samples_back (P : A) (m : SubRepo A K W) (ps : List (List K)) (a : Obj K W) (hw : m.which = some ps)
    (hall : m.allParams = some a) (hp : ps.Pairwise Apart) (s : TS A (Obj K W))
    (ha : ∀ p ∈ ps, ∃ o, nestedGet a p = .ok o) (hs : ∀ p ∈ ps, ∃ o, nestedGet (s.attr P) p = .ok o)
    (hfrozen : ∀ q, (∀ p ∈ ps, Apart q p) → ∀ o, nestedGet (s.attr P) q = .ok o ↔ nestedGet a q = .ok o)
    (i : ℕ) (hi : i < m.slots.length) (hm : ∀ r ∈ m.slots, r.dirSet = false ∨ ∃ c, DiskHas r c)
    (m' : SubRepo A K W) (hput : subPut P m s i 1 = .ok m') :
    ∃ s', subGet P m' i = .ok s' ∧ ∀ q v, nestedGet (s'.attr P) q = .ok (leaf v) ↔ nestedGet (s.attr P) q = .ok (leaf v) := by
  obtain ⟨m1, s', h1, h2, -, -, -, h5, h6, -, -, -⟩ := C63_round_trip P m ps a hw hall hp s ha hs i hi hm
  rw [hput] at h1
  cases h1
  exact ⟨s', h2, fun q v => nestedGet_leaf_agree hs h5 h6 hfrozen q v⟩

/-- **C63, a chain.** Any number of puts, in any order of slots: each slot read back gives the selected parameters of the
last state put there, and `all_params` elsewhere. -/
theorem C63_chain (P : A) (ps : List (List K)) (a : Obj K W) (hp : ps.Pairwise Apart)
    (ha : ∀ p ∈ ps, ∃ o, nestedGet a p = .ok o)
    (puts : List (ℕ × TS A (Obj K W))) (hputs : ∀ x ∈ puts, ∀ p ∈ ps, ∃ o, nestedGet (x.2.attr P) p = .ok o)
    (m : SubRepo A K W) (hw : m.which = some ps) (hall : m.allParams = some a)
    (hi : ∀ x ∈ puts, x.1 < m.slots.length) (hm : ∀ r ∈ m.slots, r.dirSet = false ∨ ∃ c, DiskHas r c) :
    ∃ m', puts.foldlM (fun m x => subPut P m x.2 x.1 1) m = .ok m' ∧
      (∀ k, (∀ x ∈ puts, x.1 ≠ k) → subGet P m' k = subGet P m k) ∧
      (∀ pre k s post, puts = pre ++ (k, s) :: post → (∀ x ∈ post, x.1 ≠ k) →
        ∃ s', subGet P m' k = .ok s' ∧ s'.step = s.step ∧ (∀ b, b ≠ P → s'.attr b = s.attr b) ∧
          (∀ p ∈ ps, nestedGet (s'.attr P) p = nestedGet (s.attr P) p) ∧
          (∀ q, (∀ p ∈ ps, Apart q p) → ∀ o, nestedGet (s'.attr P) q = .ok o ↔ nestedGet a q = .ok o)) := by
  induction puts generalizing m with
  | nil => exact ⟨m, rfl, fun _ _ => rfl, fun pre k s post h => by simp at h⟩
  | cons x puts ih =>
    obtain ⟨m1, s1, h1, h2, h3, -, h4, h5, h6, h7, ⟨h8, h9, h10, h11⟩, -⟩ :=
      C63_round_trip P m ps a hw hall hp x.2 ha (hputs x (by simp)) x.1 (hi x (by simp)) hm
    obtain ⟨m', g1, g2, g3⟩ := ih (fun y hy => hputs y (by simp [hy])) m1 (h8.trans hw) (h9.trans hall)
      (fun y hy => by rw [h10]; exact hi y (by simp [hy])) h11
    refine ⟨m', by rw [List.foldlM_cons, h1]; exact g1, ?_, ?_⟩
    · intro k hk
      rw [g2 k fun y hy => hk y (by simp [hy]), h7 k (hk x (by simp)).symm]
    · intro pre k s post heq hpost
      cases pre with
      | nil =>
        simp only [List.nil_append, List.cons.injEq] at heq
        obtain ⟨rfl, rfl⟩ := heq
        refine ⟨s1, ?_, h3, h4, h5, h6⟩
        rw [g2 k hpost]; exact h2
      | cons y pre =>
        simp only [List.cons_append, List.cons.injEq] at heq
        exact g3 pre k s post heq.2 hpost

/-- **C63, no selection.** Without `which_params` the repository is the plain one: every operation is the parent's. -/
theorem C63_unrestricted (P : A) (m : SubRepo A K W) (hw : m.which = none) (s : TS A (Obj K W)) (i keep : ℕ) :
    subPut P m s i keep = (liftRepo (multiPut m.slots s i keep)).map (fun sl => { m with slots := sl }) ∧
    subGet P m i = liftRepo (multiGet m.slots i) ∧ subGetAll m = liftRepo (multiGetAll m.slots) := by
  refine ⟨?_, ?_, ?_⟩
  · simp only [subPut, hw, removeState, liftPy]
    show (liftRepo (multiPut m.slots s i keep) >>= _) = _
    cases liftRepo (multiPut m.slots s i keep) <;> rfl
  · simp only [subGet, hw, addState, liftPy]
    cases liftRepo (multiGet m.slots i) <;> rfl
  · simp only [subGetAll, hw, updateList]
    cases liftRepo (multiGetAll m.slots) <;> rfl

/-- **C63, missing parameters.** A state that lacks a selected parameter is refused. -/
theorem C63_missing (P : A) (m : SubRepo A K W) (ps : List (List K)) (hw : m.which = some ps) (s : TS A (Obj K W))
    (p : List K) (hp : p ∈ ps) (h : ∀ o, nestedGet (s.attr P) p ≠ .ok o) (i keep : ℕ) :
    ∃ e, subPut P m s i keep = .error (.py e) := by
  have : ∃ e, removeState P (some ps) s = .error e := by
    cases hr : ps.mapM (nestedGet (s.attr P)) with
    | error e => exact ⟨e, by simp only [removeState, hr]; rfl⟩
    | ok objs =>
      obtain ⟨o, ho⟩ := mapM_get_length hr p hp
      exact absurd ho (h o)
  obtain ⟨e, he⟩ := this
  exact ⟨e, by simp only [subPut, hw, he, liftPy]; rfl⟩

/-- **C63, updates.** Updating attributes other than `params` in a slot on disk changes those and no parameter. -/
theorem C63_update (P : A) (m : SubRepo A K W) (i : ℕ) (hi : i < m.slots.length) (st : TS A (Obj K W))
    (hd : DiskHas m.slots[i] (some st)) (vars : List (A × Obj K W)) (hv : ∀ x ∈ vars, x.1 ≠ P) (s : TS A (Obj K W))
    (hget : subGet P m i = .ok s) :
    ∃ m' s', subUpdate m vars i 1 = .ok m' ∧ subGet P m' i = .ok s' ∧ s'.attr P = s.attr P ∧ s'.step = s.step ∧
      (∀ a, a ≠ P → s'.attr a = (s.replace vars).attr a) ∧ ∀ k, k ≠ i → subGet P m' k = subGet P m k := by
  have hrepl : (st.replace vars).attr P = st.attr P := (replace_spec st vars).2.2.1 P hv
  obtain ⟨⟨r', hu, hg⟩, -⟩ := C33_crash_atomic_false m.slots[i] st hd vars
  have hst : multiGet m.slots i = .ok st := by
    unfold multiGet
    rw [List.getElem?_eq_getElem hi]
    have := diskHas_get m.slots[i] _ hd
    cases h : getState m.slots[i] false with
    | error e => rw [h] at this; cases this
    | ok x => rw [h] at this; simp only [Except.toOption, Option.some.injEq] at this; subst this; exact h
  have hadd : liftPy (addState P m.which m.allParams st) = .ok s := by
    simp only [subGet, hst, liftRepo] at hget; exact hget
  have hacc : ∀ (x y : TS A (Obj K W)) , x.attr P = y.attr P → ∀ sx, addState P m.which m.allParams x = .ok sx →
      (∃ sy, addState P m.which m.allParams y = .ok sy ∧ sy.attr P = sx.attr P ∧ sy.step = y.step ∧
        ∀ a, a ≠ P → sy.attr a = y.attr a) ∧ (sx.step = x.step ∧ ∀ a, a ≠ P → sx.attr a = x.attr a) := by
    intro x y hxy sx hx
    cases hwm : m.which with
    | none => rw [hwm] at hx; cases hx; exact ⟨⟨y, rfl, hxy.symm, rfl, fun _ _ => rfl⟩, rfl, fun _ _ => rfl⟩
    | some ps =>
      cases ham : m.allParams with
      | none => rw [hwm, ham] at hx; cases hx
      | some a =>
        rw [hwm, ham] at hx
        simp only [addState] at hx ⊢
        rw [← hxy]
        cases h1 : ps.mapM (nestedGet (x.attr P)) with
        | error e => rw [h1] at hx; cases hx
        | ok objs =>
          rw [h1] at hx
          change (nestedSet a ps objs false >>= _) = _ at hx
          cases h2 : nestedSet a ps objs false with
          | error e => rw [h2] at hx; cases hx
          | ok d =>
            rw [h2] at hx
            cases hx
            refine ⟨⟨y.replace [(P, d)], ?_, ?_, rfl, (replace_params P y d).2⟩, rfl, (replace_params P x d).2⟩
            · show (nestedSet a ps objs false >>= _) = _; rw [h2]; rfl
            · rw [(replace_params P y d).1, (replace_params P x d).1]
  have hadd' : addState P m.which m.allParams st = .ok s := by
    cases h : addState P m.which m.allParams st with
    | error e => rw [h] at hadd; cases hadd
    | ok x => rw [h] at hadd; cases hadd; rfl
  obtain ⟨⟨s', k1, k2, k3, k4⟩, k5, k6⟩ := hacc st { st.replace vars with acc := none } hrepl.symm s hadd'
  refine ⟨{ m with slots := m.slots.set i r' }, s', ?_, ?_, k2, ?_, ?_, ?_⟩
  · simp only [subUpdate, multiUpdate, List.getElem?_eq_getElem hi, hu]; rfl
  · simp only [subGet, multiGet, List.getElem?_set_self hi, hg, liftRepo]
    show liftPy (addState P m.which m.allParams _) = _
    rw [k1]; rfl
  · rw [k3, k5]; rfl
  · intro a ha
    rw [k4 a ha]
    show (st.replace vars).attr a = _
    simp only [TS.replace, k6 a ha]
  · intro k hk
    simp only [subGet, multiGet, List.getElem?_set_ne (Ne.symm hk)]

/-- **C63, failure.** Reading all slots at once raises `NameError` as soon as a selection is set and there is a slot, although
every slot can be read. -/
theorem C63_get_all_false (m : SubRepo A K W) (ps : List (List K)) (hw : m.which = some ps) (ss : List (TS A (Obj K W)))
    (hss : multiGetAll m.slots = .ok ss) (hne : m.slots ≠ []) : subGetAll m = .error (.py "NameError") := by
  have hl : ss.length = m.slots.length := (C34_all_in_order m.slots [] ss hss).1
  have : ss ≠ [] := by
    rintro rfl
    simp at hl
    exact hne (List.length_eq_zero_iff.1 hl.symm)
  simp only [subGetAll, hss, liftRepo]
  show updateList m.which ss = _
  simp [updateList, hw, this]

/-- **C63, failure.** With everything frozen (`which_params=()`, and then no `all_params`) states can be stored but not
read. -/
theorem C63_all_frozen_false (P : A) (m : SubRepo A K W) (hw : m.which = some []) (hall : m.allParams = none)
    (s : TS A (Obj K W)) (i : ℕ) (hi : i < m.slots.length) (hm : ∀ r ∈ m.slots, r.dirSet = false ∨ ∃ c, DiskHas r c) :
    ∃ m', subPut P m s i 1 = .ok m' ∧ subGet P m' i = .error (.py "AttributeError") := by
  obtain ⟨s1, r1, -⟩ := remove_spec P [] List.Pairwise.nil s (by simp)
  obtain ⟨sl, q1, q2, q3, q4, q5⟩ := C34_put_get m.slots s1 i hi hm
  refine ⟨{ m with slots := sl }, ?_, ?_⟩
  · simp only [subPut, hw, r1, liftPy]
    show (liftRepo (multiPut m.slots s1 i 1) >>= _) = _
    rw [q1]; rfl
  · simp only [subGet, q3, liftRepo, hw, hall]
    rfl

/-- Two slots in memory; `all_params = {"m": {"w": 1, "b": 2}}`, selected path `m.w`. -/
def subsetExample : SubRepo (Fin 2) String ℕ :=
  ⟨multiInit 2 false, some (cons "m" (cons "w" (leaf 1) (cons "b" (leaf 2) nil)) nil), some [["m", "w"]]⟩

/-- **C63.** Extraction gives, for the requested attributes in their order, the values of the state that reading gives (with
the full parameters); without an index, one such list for every position. -/
theorem C63_extract {A K W : Type} [DecidableEq A] [DecidableEq K] (P : A) (m : SubRepo A K W) (keys : List A) :
    (∀ i s, subGet P m i = .ok s → ∃ l, subExtract P m keys i = .ok l ∧ l.map Prod.fst = keys ∧
      ∀ k o, (k, o) ∈ l → o = s.attr k) ∧
    (∀ L, subExtractAll P m keys = .ok L → L.length = m.slots.length ∧
      ∀ i l, L[i]? = some l → subExtract P m keys i = .ok l) := by
  refine ⟨fun i s h => ?_, fun L h => ?_⟩
  · refine ⟨keys.map fun k => (k, s.attr k), ?_, ?_, ?_⟩
    · simp only [subExtract, bind, Except.bind, h]
    · simp [List.map_map, Function.comp_def]
    · intro k o ho
      obtain ⟨k', -, e⟩ := List.mem_map.1 ho
      cases e; rfl
  · have hf := mapM_ok.1 h
    have hl := hf.length_eq
    rw [List.length_range] at hl
    refine ⟨hl.symm, fun i l hi => ?_⟩
    have hi' : i < L.length := (List.getElem?_eq_some_iff.1 hi).1
    have := List.forall₂_iff_get.1 hf |>.2 i (by simpa [hl] using hi') hi'
    simp only [List.get_eq_getElem, List.getElem_range] at this
    rw [this]
    congr 1
    exact (List.getElem?_eq_some_iff.1 hi).2

/-- A state of that example with `w = 7`; attribute 0 is `params`. -/
def subsetState : TS (Fin 2) (Obj String ℕ) :=
  ⟨3, none, fun a => if a = 0 then cons "m" (cons "w" (leaf 7) (cons "b" (leaf 2) nil)) nil else leaf 5⟩

example : (subPut 0 subsetExample subsetState 1 1).bind (fun m => subExtract 0 m [0, 1] 1) =
    .ok [(0, cons "m" (cons "w" (leaf 7) (cons "b" (leaf 2) nil)) nil), (1, leaf 5)] := by decide +kernel

example : (subPut 0 subsetExample subsetState 1 1).bind (fun m => liftRepo (multiExtract m.slots [0] 1)) =
    .ok [(0, cons "m" (cons "w" (leaf 7) nil) nil)] := by decide +kernel

example : subPut 0 subsetExample ⟨3, none, fun _ => leaf 5⟩ 1 1 |>.toOption |>.isNone := by decide +kernel

/-- The hypotheses of the round trip hold for the example. -/
example : ∃ m' s', subPut 0 subsetExample subsetState 1 1 = .ok m' ∧ subGet 0 m' 1 = .ok s' ∧
    nestedGet (s'.attr 0) ["m", "b"] = .ok (leaf 2) := by
  obtain ⟨m', s', h1, h2, -, -, -, -, h6, -⟩ := C63_round_trip (0 : Fin 2) subsetExample [["m", "w"]] _ rfl rfl
    (List.pairwise_singleton _ _) subsetState (by
      intro p hp; rw [List.mem_singleton] at hp; subst hp; exact ⟨leaf 1, by decide +kernel⟩) (by
      intro p hp; rw [List.mem_singleton] at hp; subst hp; exact ⟨leaf 7, by decide +kernel⟩) 1 (by decide)
    (C34_init 2 false).2
  refine ⟨m', s', h1, h2, (h6 ["m", "b"] ?_ _).2 (by decide +kernel)⟩
  intro p hp; rw [List.mem_singleton] at hp; subst hp
  exact ⟨by decide, by decide⟩

/-- A chain of three puts into two slots. -/
example : ([(0, subsetState), (1, subsetState), (0, { subsetState with step := 9 })].foldlM
      (fun m x => subPut 0 m x.2 x.1 1) subsetExample).bind (fun m => (subGet 0 m 0).map (·.step)) = .ok 9 := by
  decide +kernel

/-! ### Concrete cases that meet the hypotheses of the theorems above -/

theorem subsetExample_has : ∀ p ∈ ([["m", "w"]] : List (List String)), ∃ o, nestedGet (cons "m" (cons "w" (leaf 1) (cons "b" (leaf 2) nil)) nil : Obj String ℕ) p = .ok o := by
  intro p hp; rw [List.mem_singleton] at hp; subst hp; exact ⟨leaf 1, by decide +kernel⟩

theorem subsetState_has : ∀ p ∈ ([["m", "w"]] : List (List String)), ∃ o, nestedGet (subsetState.attr 0) p = .ok o := by
  intro p hp; rw [List.mem_singleton] at hp; subst hp; exact ⟨leaf 7, by decide +kernel⟩

example := C63_chain (0 : Fin 2) [["m", "w"]] _ (List.pairwise_singleton _ _) subsetExample_has
  [(0, subsetState), (1, subsetState), (0, { subsetState with step := 9 })]
  (by
    intro x hx
    simp only [List.mem_cons, List.not_mem_nil, or_false] at hx
    rcases hx with rfl | rfl | rfl <;> exact subsetState_has) subsetExample rfl rfl (by decide) (C34_init 2 false).2
example := C63_unrestricted (0 : Fin 2) { subsetExample with which := none } rfl subsetState 1 1
example := C63_missing (0 : Fin 2) subsetExample [["m", "w"]] rfl ⟨3, none, fun _ => leaf 5⟩ ["m", "w"] (by simp)
  (by intro o h; revert h; exact (by decide +kernel : (nestedGet (leaf 5 : Obj String ℕ) ["m", "w"]).toOption.isNone) |> fun hn h => by simp [h, Except.toOption] at hn) 1 1
example := C63_all_frozen_false (0 : Fin 2) { subsetExample with which := some [], allParams := none } rfl rfl subsetState 1 (by decide)
  (C34_init 2 false).2

theorem subsetState_frozen (q : List String) (hq : ∀ p ∈ ([["m", "w"]] : List (List String)), Apart q p) (o : Obj String ℕ) :
    nestedGet (subsetState.attr 0) q = .ok o ↔
      nestedGet (cons "m" (cons "w" (leaf 1) (cons "b" (leaf 2) nil)) nil : Obj String ℕ) q = .ok o := by
  have h := (setAll_spec false [(["m", "w"], leaf 7)] (List.pairwise_singleton _ _)
    (cons "m" (cons "w" (leaf 1) (cons "b" (leaf 2) nil)) nil : Obj String ℕ) (subsetState.attr 0) (by decide +kernel)).2 q
    (by intro po hpo; rw [List.mem_singleton] at hpo; subst hpo; exact hq _ (by simp))
  rw [nestedGet_eq, nestedGet_eq, h]

example := (show ∃ m', subPut 0 subsetExample subsetState 1 1 = .ok m' from ⟨_, rfl⟩).imp fun m' h =>
  C63_samples_back (0 : Fin 2) subsetExample [["m", "w"]] _ rfl rfl (List.pairwise_singleton _ _) subsetState subsetExample_has
    subsetState_has subsetState_frozen 1 (by decide) (C34_init 2 false).2 m' h

/-- The example with checkpoints on disk. -/
def subsetDisk : SubRepo (Fin 2) String ℕ :=
  { subsetExample with slots := [⟨true, .dir [(3, subsetState)], .absent, none⟩, ⟨true, .dir [(3, subsetState)], .absent, none⟩] }

example := (show ∃ s, subGet 0 subsetDisk 1 = .ok s from ⟨_, rfl⟩).imp fun s h => C63_update (0 : Fin 2) subsetDisk 1 (by decide) subsetState ⟨rfl, rfl, rfl⟩ [(1, leaf 8)] (by simp) s h
example := C63_get_all_false subsetDisk [["m", "w"]] rfl [subsetState, subsetState] rfl (by simp [subsetDisk])

end Verif.Props
