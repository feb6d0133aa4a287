import Verif.Model.SamplerRun
import Verif.Props.SubsetRepo
import Verif.Props.SGMCMC

/-!
# C101: the samples of a sampler's posterior are the states of its chain

A fit with any freeze function, in memory or in a directory, sampled from directly, after a load, and continued.
-/

set_option linter.unusedSectionVars false

namespace Verif.Props.SamplerRun
open Verif.StateRepo Verif.Nested Verif.Nested.Obj Verif.SubsetRepo Verif.SGMCMC Verif.PosteriorSample Verif.SamplerRun Verif.Props
open Verif.Training

variable {A K W : Type} [DecidableEq A] [DecidableEq K]

/-! ## Vocabulary -/

/-- The same values at the same paths. -/
def SameLeaves (d e : Obj K W) : Prop := ∀ q v, nestedGet d q = .ok (leaf v) ↔ nestedGet e q = .ok (leaf v)

/-- `D` are all parameters after the first `t` steps from `start`: those that training for `t` steps would return (C29). -/
def ParamsAfter (r : Run A K W) (start : Obj K W) (t : ℕ) (D : Obj K W) : Prop :=
  match r.freeze with
  | none => D = (r.steps.take t).foldl (fun T g => mapLeaves (g T) [] T) start
  | some f => trainFrozen start f (r.steps.take t) = .ok D

/-- A location where a directory can be written. -/
def Free (l : Loc (TS A (Obj K W))) : Prop := ∀ s, l ≠ .file s

/-- The first `n` of the executed steps at which a sample is due. -/
def times (n : ℕ) (due : ℕ → Bool) (ran : ℕ) : List ℕ := ((List.range' 1 ran).filter due).take n

/-- What a fit needs: parameters in a dictionary, labels as documented, something trainable, room on disk, a run long enough. -/
structure Good (r : Run A K W) (start : Obj K W) (due : ℕ → Bool) (dirs : Option (ℕ → Loc (TS A (Obj K W))))
    (last0 : Loc (TS A (Obj K W))) : Prop where
  dict : start.isDict = true
  wf : WF start
  labels : ∀ f, r.freeze = some f → ValidLabels start f ∧ ∃ p v, nestedGet start p = .ok (leaf v) ∧ f p v = "trainable"
  sampler : ∀ t c, r.doSample t c = (decide (c < r.nSamples) && due t)
  enough : accepts r.doSample r.nSamples r.total = true
  keep : 1 ≤ r.keep
  free : ∀ d, dirs = some d → ∀ i, Free (d i)
  freeLast : Free last0

/-! ## Writing and reading one slot -/

theorem restore_saved {S : Type} (d : Dir S) (step : ℕ) (s : S) (keep : ℕ) (hk : 1 ≤ keep) :
    ∃ d', saveCkpt d step s keep true = some d' ∧ restoreCkpt d' = some s := by
  refine ⟨_, rfl, ?_⟩
  unfold restoreCkpt
  rw [List.getLast?_drop, if_neg (by simp; omega)]
  simp

theorem restore_save_loc (l : Loc (TS A (Obj K W))) (hl : Free l) (s : TS A (Obj K W)) (hs : s.acc = none) (keep : ℕ)
    (hk : 1 ≤ keep) : ∃ l', save l s keep = .ok l' ∧ restore l' = .ok s ∧ Free l' := by
  have hst : s.strip = s := by cases s; simp only at hs; subst hs; rfl
  cases l with
  | file x => exact absurd rfl (hl x)
  | absent =>
    obtain ⟨d', h1, h2⟩ := restore_saved ([] : Dir (TS A (Obj K W))) s.step s keep hk
    refine ⟨.dir d', ?_, ?_, fun _ => by simp⟩
    · simp only [save, hst, h1]; rfl
    · simp only [restore, h2]
  | dir d =>
    obtain ⟨d', h1, h2⟩ := restore_saved d s.step s keep hk
    refine ⟨.dir d', ?_, ?_, fun _ => by simp⟩
    · simp only [save, hst, h1]; rfl
    · simp only [restore, h2]

theorem put_get (r : Repo (TS A (Obj K W))) (hr : Free r.ckpt) (s : TS A (Obj K W)) (hs : s.acc = none) (keep : ℕ)
    (hk : 1 ≤ keep) :
    ∃ r', put r s false keep = .ok r' ∧ getState r' false = .ok s ∧ r'.dirSet = r.dirSet ∧ Free r'.ckpt := by
  cases hd : r.dirSet with
  | false => exact ⟨{ r with mem := some s }, by simp [put, hd], by simp [getState, hd], hd, hr⟩
  | true =>
    obtain ⟨l', h1, h2, h3⟩ := restore_save_loc r.ckpt hr s hs keep hk
    exact ⟨{ r with ckpt := l' }, by simp [put, hd, h1, Except.map], by simp [getState, hd, h2], hd, h3⟩

theorem remove_acc (P : A) (which : Option (List (List K))) (s s' : TS A (Obj K W)) (h : removeState P which s = .ok s') :
    s'.acc = s.acc ∧ s'.step = s.step ∧ ∀ a, a ≠ P → s'.attr a = s.attr a := by
  cases which with
  | none => cases h; exact ⟨rfl, rfl, fun _ _ => rfl⟩
  | some ps =>
    simp only [removeState] at h
    obtain ⟨objs, -, h⟩ := Verif.bind_ok.mp h
    obtain ⟨p, -, h⟩ := Verif.bind_ok.mp h
    cases h
    exact ⟨rfl, rfl, fun a ha => (replace_params P s p).2 a ha⟩

/-- Puts into different slots: each slot then reads as the part that is kept of its state; the others are untouched. -/
theorem puts_spec (P : A) (keep : ℕ) (hk : 1 ≤ keep) (puts : List (ℕ × TS A (Obj K W))) (m : SubRepo A K W)
    (hnd : (puts.map Prod.fst).Nodup) (hi : ∀ x ∈ puts, x.1 < m.slots.length) (hacc : ∀ x ∈ puts, x.2.acc = none)
    (hrem : ∀ x ∈ puts, ∃ st, removeState P m.which x.2 = .ok st) (hfree : ∀ s ∈ m.slots, Free s.ckpt) :
    ∃ m', puts.foldlM (fun m x => subPut P m x.2 x.1 keep) m = .ok m' ∧ m'.which = m.which ∧ m'.allParams = m.allParams ∧
      m'.slots.length = m.slots.length ∧ (∀ k : ℕ, k ∉ puts.map Prod.fst → m'.slots[k]? = m.slots[k]?) ∧
      (∀ x ∈ puts, ∃ st, removeState P m.which x.2 = .ok st ∧ multiGet m'.slots x.1 = .ok st) ∧
      (∀ (k : ℕ) s', m'.slots[k]? = some s' → Free s'.ckpt ∧ ∃ s, m.slots[k]? = some s ∧ s'.dirSet = s.dirSet) := by
  induction puts generalizing m with
  | nil =>
    exact ⟨m, rfl, rfl, rfl, rfl, fun _ _ => rfl, by simp, fun k s' h => ⟨hfree _ (List.mem_of_getElem? h), s', h, rfl⟩⟩
  | cons x puts ih =>
    have hx := hi x (by simp)
    obtain ⟨st, hst⟩ := hrem x (by simp)
    have hsa : st.acc = none := (remove_acc P _ _ _ hst).1.trans (hacc x (by simp))
    obtain ⟨r', p1, p2, p3, p4⟩ := put_get m.slots[x.1] (hfree _ (List.getElem_mem hx)) st hsa keep hk
    have hput : subPut P m x.2 x.1 keep = .ok { m with slots := m.slots.set x.1 r' } := by
      simp only [subPut, hst, liftPy]
      show (liftRepo (multiPut m.slots st x.1 keep) >>= _) = _
      have : multiPut m.slots st x.1 keep = .ok (m.slots.set x.1 r') := by
        simp [multiPut, List.getElem?_eq_getElem hx, p1, Except.map]
      rw [this]; rfl
    rw [List.map_cons, List.nodup_cons] at hnd
    obtain ⟨m', g1, g2, g3, g4, g5, g6, g7⟩ := ih { m with slots := m.slots.set x.1 r' } hnd.2
      (fun y hy => by simpa using hi y (by simp [hy])) (fun y hy => hacc y (by simp [hy]))
      (fun y hy => hrem y (by simp [hy])) (fun s hs => by
        rcases List.mem_or_eq_of_mem_set hs with h | rfl
        · exact hfree s h
        · exact p4)
    refine ⟨m', ?_, g2, g3, ?_, ?_, ?_, ?_⟩
    · rw [List.foldlM_cons, hput]; exact g1
    · simpa using g4
    · intro k hk'
      simp only [List.map_cons, List.mem_cons, not_or] at hk'
      rw [g5 k hk'.2]
      simp only [List.getElem?_set_ne (Ne.symm hk'.1)]
    · intro y hy
      rcases List.mem_cons.1 hy with rfl | hy
      · refine ⟨st, hst, ?_⟩
        unfold multiGet
        rw [g5 y.1 hnd.1]
        simp only [List.getElem?_set_self hx]
        exact p2
      · exact g6 y hy
    · intro k s' hs'
      obtain ⟨q1, s, q2, q3⟩ := g7 k s' hs'
      refine ⟨q1, ?_⟩
      by_cases hkx : x.1 = k
      · subst hkx
        simp only [List.getElem?_set_self hx] at q2
        cases q2
        exact ⟨m.slots[x.1], List.getElem?_eq_getElem hx, q3.trans p3⟩
      · simp only [List.getElem?_set_ne hkx] at q2
        exact ⟨s, q2, q3⟩

/-! ## The trainable parameters and their slots -/

theorem trainable_paths (d : Obj K W) (hd : d.isDict = true) (hw : WF d) (f : List K → W → String) (hf : ValidLabels d f) :
    ∃ ps, pathsWithLabel d f "trainable" ["frozen", "trainable"] = .ok ps ∧ ps.Pairwise Apart ∧
      ∀ p, p ∈ ps ↔ ∃ v, nestedGet d p = .ok (leaf v) ∧ f p v = "trainable" := by
  have hne : ∀ p v, at? p d = some (leaf v) → p ≠ [] := by
    rintro p v h rfl
    cases h; simp [isDict] at hd
  have hget : ∀ p v, nestedGet d p = .ok (leaf v) ↔ (p, v) ∈ flatten d := fun p v => by
    rw [mem_flatten d hw, nestedGet_eq]
    exact ⟨fun h => h.2, fun h => ⟨hne p v h, h⟩⟩
  have hany : ((flatten d).map fun pv => f pv.1 pv.2).any (fun c => !(["frozen", "trainable"].contains c)) = false := by
    rw [List.any_eq_false]
    intro c hc
    obtain ⟨⟨p, v⟩, hpv, rfl⟩ := List.mem_map.1 hc
    rcases hf p v ((hget p v).2 hpv) with h | h <;> simp [h]
  refine ⟨((flatten d).filter fun pv => f pv.1 pv.2 == "trainable").map Prod.fst, ?_, ?_, fun p => ⟨fun hp => ?_, ?_⟩⟩
  · unfold pathsWithLabel
    rw [hany]; rfl
  · rw [List.pairwise_map]
    have h1 : (flatten d).Pairwise fun a b => a.1 ≠ b.1 := List.pairwise_map.1 (nodup_flatten d hw)
    refine (h1.imp_of_mem ?_).filter _
    intro a b ha hb hab
    exact leaves_apart ((mem_flatten d hw a.1 a.2).1 ha) ((mem_flatten d hw b.1 b.2).1 hb) hab
  · obtain ⟨⟨p', v⟩, hpv, rfl⟩ := List.mem_map.1 hp
    rw [List.mem_filter] at hpv
    exact ⟨v, (hget p' v).2 hpv.1, by simpa using hpv.2⟩
  · rintro ⟨v, h1, h2⟩
    exact List.mem_map.2 ⟨(p, v), List.mem_filter.2 ⟨(hget p v).1 h1, by simpa using h2⟩, rfl⟩

/-- `d` is what is kept of the parameters `D`: everything, or the leaves at the selected paths. -/
def Kept (which : Option (List (List K))) (d D : Obj K W) : Prop :=
  match which with
  | none => d = D
  | some ps => ∀ p ∈ ps, ∃ v, nestedGet d p = .ok (leaf v) ∧ nestedGet D p = .ok (leaf v)

/-- What is stored in slot `i` of a chain: the state after step `t`, of whose parameters `D` the selected part is kept. -/
def SlotHas (r : Run A K W) (which : Option (List (List K))) (slots : List (Repo (TS A (Obj K W)))) (i t : ℕ) (D : Obj K W) :
    Prop :=
  ∃ st, multiGet slots i = .ok st ∧ st.acc = none ∧ st.step = t ∧ (∀ a, a ≠ r.P → st.attr a = r.others t a) ∧
    Kept which (st.attr r.P) D

theorem leaf_agree {d e a : Obj K W} {ps : List (List K)} (hps : ∀ p ∈ ps, ∃ o, nestedGet e p = .ok o)
    (h1 : ∀ p ∈ ps, nestedGet d p = nestedGet e p)
    (h2 : ∀ q, (∀ p ∈ ps, Apart q p) → ∀ v, nestedGet d q = .ok (leaf v) ↔ nestedGet a q = .ok (leaf v))
    (h3 : ∀ q, (∀ p ∈ ps, Apart q p) → ∀ v, nestedGet a q = .ok (leaf v) ↔ nestedGet e q = .ok (leaf v)) :
    SameLeaves d e := by
  intro q v
  by_cases hq : ∀ p ∈ ps, Apart q p
  · rw [h2 q hq, h3 q hq]
  · push Not at hq
    obtain ⟨p, hp, hap⟩ := hq
    obtain ⟨o, ho⟩ := hps p hp
    have hd : nestedGet d p = .ok o := (h1 p hp).trans ho
    rw [nestedGet_eq] at ho hd
    by_cases hpre : p <+: q
    · obtain ⟨t, rfl⟩ := hpre
      rw [nestedGet_eq, nestedGet_eq, at?_append, at?_append, ho.2, hd.2]
    · have hqp : q <+: p := by
        by_contra hcon; exact hap ⟨hcon, hpre⟩
      obtain ⟨t, rfl⟩ := hqp
      have ht : t ≠ [] := by rintro rfl; simp at hpre
      have key : ∀ x : Obj K W, at? (q ++ t) x = some o → nestedGet x q ≠ .ok (leaf v) := by
        intro x hx hg
        rw [nestedGet_eq] at hg
        rw [at?_append, hg.2, Option.bind_some, at?_leaf ht] at hx
        cases hx
      exact ⟨fun h => absurd h (key d hd.2), fun h => absurd h (key e ho.2)⟩

/-- A slot is read with the frozen parameters of any tree that has them. -/
theorem read_slot (r : Run A K W) (m : SubRepo A K W) (ps ps' : List (List K)) (hp : ps.Pairwise Apart) (hperm : ps'.Perm ps)
    (a D : Obj K W) (hw : m.which = some ps') (ha : m.allParams = some a) (i t : ℕ)
    (h : SlotHas r (some ps) m.slots i t D) (hin : ∀ p ∈ ps, ∃ o, nestedGet a p = .ok o)
    (hout : ∀ q, (∀ p ∈ ps, Apart q p) → ∀ v, nestedGet a q = .ok (leaf v) ↔ nestedGet D q = .ok (leaf v)) :
    ∃ s, subGet r.P m i = .ok s ∧ s.acc = none ∧ s.step = t ∧ (∀ b, b ≠ r.P → s.attr b = r.others t b) ∧
      SameLeaves (s.attr r.P) D := by
  obtain ⟨st, g1, g2, g3, g4, g5⟩ := h
  simp only [Kept] at g5
  have hp' : ps'.Pairwise Apart := (hperm.pairwise_iff (fun h => Apart.symm h)).2 hp
  obtain ⟨s', q1, q2, q3, q4, q5, q6⟩ := add_spec r.P ps' hp' a st (fun p h => hin p (hperm.mem_iff.1 h))
    (fun p h => by obtain ⟨v, hv, -⟩ := g5 p (hperm.mem_iff.1 h); exact ⟨_, hv⟩)
  refine ⟨s', ?_, q3.trans g2, q2.trans g3, fun b hb => (q4 b hb).trans (g4 b hb), ?_⟩
  · simp only [subGet, g1, liftRepo, hw, ha]
    show liftPy (addState r.P (some ps') (some a) st) = _
    rw [q1]; rfl
  · refine leaf_agree (ps := ps) (a := a) (fun p h => ?_) (fun p h => ?_) (fun q hq v => ?_) hout
    · obtain ⟨v, -, hv⟩ := g5 p h; exact ⟨_, hv⟩
    · obtain ⟨v, hv, hv'⟩ := g5 p h
      rw [q5 p (hperm.mem_iff.2 h), hv, hv']
    · exact q6 q (fun p h => hq p (hperm.mem_iff.1 h)) (leaf v)

/-- Outside the trainable paths nothing changes during a run. -/
theorem frozen_agree (r : Run A K W) (start : Obj K W) (hd : start.isDict = true) (hw : WF start) (f : List K → W → String)
    (hf : r.freeze = some f) (hv : ValidLabels start f) (ps : List (List K))
    (hps : ∀ p, p ∈ ps ↔ ∃ v, nestedGet start p = .ok (leaf v) ∧ f p v = "trainable") (t : ℕ) (D : Obj K W)
    (hD : ParamsAfter r start t D) (q : List K) (hq : ∀ p ∈ ps, Apart q p) (v : W) :
    nestedGet start q = .ok (leaf v) ↔ nestedGet D q = .ok (leaf v) := by
  simp only [ParamsAfter, hf] at hD
  obtain ⟨D', h1, h2, h3⟩ := C29_frozen_never_change start hd hw f hv (r.steps.take t)
  rw [hD] at h1; cases h1
  have hfr : ∀ w, nestedGet start q = .ok (leaf w) → f q w = "frozen" := fun w h => by
    rcases hv q w h with h' | h'
    · exact h'
    · exact absurd (List.prefix_refl q) (hq q ((hps q).2 ⟨w, h, h'⟩)).1
  constructor
  · intro h; exact h2 q v h (hfr v h)
  · intro h
    obtain ⟨w, hw'⟩ := (h3 q).2 ⟨v, h⟩
    have := h2 q w hw' (hfr w hw')
    rw [h] at this; cases this
    exact hw'

/-- The same, between two times of a run. -/
theorem frozen_agree2 (r : Run A K W) (start : Obj K W) (hd : start.isDict = true) (hw : WF start) (f : List K → W → String)
    (hf : r.freeze = some f) (hv : ValidLabels start f) (ps : List (List K))
    (hps : ∀ p, p ∈ ps ↔ ∃ v, nestedGet start p = .ok (leaf v) ∧ f p v = "trainable") (t u : ℕ) (D E : Obj K W)
    (hD : ParamsAfter r start t D) (hE : ParamsAfter r start u E) (q : List K) (hq : ∀ p ∈ ps, Apart q p) (v : W) :
    nestedGet E q = .ok (leaf v) ↔ nestedGet D q = .ok (leaf v) :=
  (frozen_agree r start hd hw f hf hv ps hps u E hE q hq v).symm.trans
    (frozen_agree r start hd hw f hf hv ps hps t D hD q hq v)

/-! ## The fit -/

theorem paramsAfter_start (r : Run A K W) (start : Obj K W) (due : ℕ → Bool) (dirs : Option (ℕ → Loc (TS A (Obj K W))))
    (last0 : Loc (TS A (Obj K W))) (h : Good r start due dirs last0) :
    ∃ F T, startParams r start = .ok (F, T) ∧ ∀ t, ParamsAfter r start t (allParams r F (chain r F T t)) := by
  cases hf : r.freeze with
  | none =>
    refine ⟨.nil, start, by simp only [startParams, hf], fun t => ?_⟩
    simp only [ParamsAfter, hf, allParams, chain]
  | some f =>
    obtain ⟨F, T, h1, -⟩ := split_spec start h.dict h.wf f (h.labels f hf).1
    refine ⟨F, T, by simp only [startParams, hf, h1], fun t => ?_⟩
    simp only [ParamsAfter, hf, allParams, chain, trainFrozen, h1]
    rfl

/-- What a fit leaves behind: in slot `i` the state after the `i`-th sampled step; the other slots as they were found; in the
directory's `c` the final state. -/
theorem fit_spec (r : Run A K W) (start : Obj K W) (due : ℕ → Bool) (dirs : Option (ℕ → Loc (TS A (Obj K W))))
    (last0 : Loc (TS A (Obj K W))) (h : Good r start due dirs last0) :
    ∃ which out, whichParams r start = .ok which ∧ fit r start dirs last0 = .ok out ∧
      out.repo.which = which ∧ out.repo.allParams = (newRepo ([] : List (Repo (TS A (Obj K W)))) which start).allParams ∧
      out.repo.slots.length = r.nSamples ∧
      (∀ s ∈ out.repo.slots, s.dirSet = dirs.isSome ∧ Free s.ckpt) ∧
      (∀ (i t : ℕ), (times r.nSamples due r.steps.length)[i]? = some t →
        ∃ D, ParamsAfter r start t D ∧ SlotHas r which out.repo.slots i t D) ∧
      (∀ i : ℕ, (times r.nSamples due r.steps.length).length ≤ i → out.repo.slots[i]? = (freshSlots r.nSamples dirs)[i]?) ∧
      (dirs.isSome → ∃ s, restore out.last = .ok s ∧ ParamsAfter r start r.steps.length (s.attr r.P)) := by
  obtain ⟨F, T, hst, hpa⟩ := paramsAfter_start r start due dirs last0 h
  -- the selected paths, and what the chain has there
  have hwhich : ∃ which, whichParams r start = .ok which ∧ ∀ t, ∃ st, removeState r.P which (stateAt r F T t) = .ok st ∧
      Kept which (st.attr r.P) (allParams r F (chain r F T t)) := by
    cases hf : r.freeze with
    | none =>
      refine ⟨none, by simp only [whichParams, hf], fun t => ⟨_, rfl, ?_⟩⟩
      simp only [Kept, stateAt, if_pos, allParams, hf]
    | some f =>
      obtain ⟨hv, -⟩ := h.labels f hf
      obtain ⟨ps, p1, p2, p3⟩ := trainable_paths start h.dict h.wf f hv
      refine ⟨some ps, by simp only [whichParams, hf, p1]; rfl, fun t => ?_⟩
      obtain ⟨F', T', D, s1, s2, s3⟩ := C29_trainable_merged start h.dict h.wf f hv (r.steps.take t)
      have e : F' = F ∧ T' = T := by
        simp only [startParams, hf] at hst
        rw [s1] at hst
        injection hst with hst
        exact Prod.mk.inj hst
      obtain ⟨rfl, rfl⟩ := e
      have hchain : chain r F' T' t = trainSteps (r.steps.take t) F' T' := by
        simp only [chain, allParams, hf, trainSteps]
      have hD : D = allParams r F' (chain r F' T' t) := by
        have := hpa t
        simp only [ParamsAfter, hf] at this
        rw [s2] at this; injection this
      have hstate : (stateAt r F' T' t).attr r.P = chain r F' T' t := by simp only [stateAt, if_pos]
      have hleaf : ∀ p ∈ ps, ∃ v, nestedGet (chain r F' T' t) p = .ok (leaf v) ∧
          nestedGet (allParams r F' (chain r F' T' t)) p = .ok (leaf v) := by
        intro p hp
        obtain ⟨v, hv1, hv2⟩ := (p3 p).1 hp
        rw [hchain, ← hchain, ← hD, hchain]
        exact s3 p v hv1 hv2
      obtain ⟨st, q1, -, -, -, q5, -⟩ := remove_spec r.P ps p2 (stateAt r F' T' t) (fun p hp => by
        obtain ⟨v, hv1, -⟩ := hleaf p hp
        exact ⟨_, by rw [hstate]; exact hv1⟩)
      refine ⟨st, q1, fun p hp => ?_⟩
      obtain ⟨v, hv1, hv2⟩ := hleaf p hp
      exact ⟨v, by rw [q5 p hp, hstate]; exact hv1, hv2⟩
  obtain ⟨which, hw, hrem⟩ := hwhich
  have hputs := (collect_spec r.nSamples due r.doSample h.sampler (stateAt r F T) r.steps.length).2.2
  change _ = (times r.nSamples due r.steps.length).zipIdx.map _ at hputs
  set ts := times r.nSamples due r.steps.length with hts
  have hlen : ts.length ≤ r.nSamples := by simp [hts, times]
  have hmem : ∀ x, x ∈ ts.zipIdx.map (fun ti => (ti.2, stateAt r F T ti.1)) ↔ ∃ i t, ts[i]? = some t ∧ x = (i, stateAt r F T t) := by
    intro x
    rw [List.mem_map]
    constructor
    · rintro ⟨⟨t, i⟩, hti, rfl⟩
      exact ⟨i, t, by simpa using List.mem_zipIdx_iff_getElem?.1 hti, rfl⟩
    · rintro ⟨i, t, hti, rfl⟩
      exact ⟨(t, i), List.mem_zipIdx_iff_getElem?.2 (by simpa using hti), rfl⟩
  have hfst : (ts.zipIdx.map (fun ti => (ti.2, stateAt r F T ti.1))).map Prod.fst = List.range ts.length := by
    rw [List.map_map]
    have : (Prod.fst ∘ fun ti : ℕ × ℕ => (ti.2, stateAt r F T ti.1)) = Prod.snd := rfl
    rw [this, List.zipIdx_map_snd, List.range_eq_range']
  have hsl : ∀ w, (newRepo (freshSlots r.nSamples dirs) w start : SubRepo A K W).slots = freshSlots r.nSamples dirs :=
    fun _ => rfl
  have hfl : (freshSlots r.nSamples dirs : List (Repo (TS A (Obj K W)))).length = r.nSamples := by simp [freshSlots]
  have hfresh : ∀ s ∈ (freshSlots r.nSamples dirs : List (Repo (TS A (Obj K W)))), s.dirSet = dirs.isSome ∧ Free s.ckpt := by
    intro s hs
    obtain ⟨i, -, rfl⟩ := List.mem_map.1 hs
    cases hd : dirs with
    | none => exact ⟨rfl, fun _ => by simp⟩
    | some d => exact ⟨rfl, h.free d hd i⟩
  obtain ⟨m, g1, g2, g3, g4, g5, g6, g7⟩ := puts_spec r.P r.keep h.keep (ts.zipIdx.map fun ti => (ti.2, stateAt r F T ti.1))
    (newRepo (freshSlots r.nSamples dirs) which start)
    (by rw [hfst]; exact List.nodup_range)
    (fun x hx => by
      obtain ⟨i, t, hti, rfl⟩ := (hmem x).1 hx
      have := (List.getElem?_eq_some_iff.mp hti).1
      rw [hsl, hfl]; omega)
    (fun x hx => by
      obtain ⟨i, t, hti, rfl⟩ := (hmem x).1 hx; rfl)
    (fun x hx => by
      obtain ⟨i, t, hti, rfl⟩ := (hmem x).1 hx
      obtain ⟨st, q, -⟩ := hrem t
      exact ⟨st, q⟩)
    (fun s hs => (hfresh s hs).2)
  have hfit : ∃ l, fit r start dirs last0 = .ok ⟨m, l⟩ ∧
      (dirs.isSome → ∃ s, restore l = .ok s ∧ ParamsAfter r start r.steps.length (s.attr r.P)) := by
    have hpre : ∀ X : Except SErr (Fitted A K W), (match dirs with
        | none => (.ok ⟨m, last0⟩ : Except SErr (Fitted A K W))
        | some _ => do
          let l ← liftRepo (save last0 (finalState r F T) r.keep)
          .ok ⟨m, l⟩) = X → fit r start dirs last0 = X := by
      intro X hX
      unfold fit
      rw [hw, hst]
      simp only [liftPy, bind, Except.bind, h.enough, Bool.not_true, Bool.false_eq_true, if_false]
      have : ((List.range' 1 r.steps.length).map (stateAt r F T)).foldl (Sampler.stepEnd r.doSample) Sampler.init =
        collect r.doSample (stateAt r F T) r.steps.length := rfl
      rw [this, hputs, g1]
      exact hX
    cases hd : dirs with
    | none => subst hd; exact ⟨last0, hpre _ rfl, by simp⟩
    | some d =>
      subst hd
      obtain ⟨l, l1, l2, -⟩ := restore_save_loc last0 h.freeLast (finalState r F T) rfl r.keep h.keep
      refine ⟨l, hpre _ (by simp only [l1, liftRepo]; rfl), fun _ => ⟨_, l2, ?_⟩⟩
      have : (finalState r F T).attr r.P = allParams r F (chain r F T r.steps.length) := by simp only [finalState, if_pos]
      rw [this]
      exact hpa _
  obtain ⟨l, hl1, hl2⟩ := hfit
  refine ⟨which, ⟨m, l⟩, hw, hl1, g2, g3, by simp only [g4, hsl, hfl], ?_, ?_, ?_, hl2⟩
  · intro s hs
    obtain ⟨k, hk⟩ := List.mem_iff_getElem?.1 hs
    obtain ⟨q1, s0, q2, q3⟩ := g7 k s hk
    exact ⟨q3.trans (hfresh s0 (List.mem_of_getElem? q2)).1, q1⟩
  · intro i t hti
    obtain ⟨st, q1, q2⟩ := g6 _ ((hmem _).2 ⟨i, t, hti, rfl⟩)
    obtain ⟨st', q3, q4⟩ := hrem t
    simp only at q1 q2
    change removeState r.P which (stateAt r F T t) = .ok st at q1
    rw [q1] at q3; cases q3
    obtain ⟨a1, a2, a3⟩ := remove_acc _ _ _ _ q1
    refine ⟨_, hpa t, st, q2, a1, a2, fun a ha => ?_, q4⟩
    rw [a3 a ha]
    simp only [stateAt, if_neg ha]
  · intro i hi
    exact g5 i (by rw [hfst]; simpa using hi)

/-! ## Reading -/

/-- Slot `i` gives the complete state after step `t`: its step, its attributes, and all parameters that the chain had then. -/
def Gives (r : Run A K W) (start : Obj K W) (m : SubRepo A K W) (i t : ℕ) : Prop :=
  ∃ s D, subGet r.P m i = .ok s ∧ s.acc = none ∧ s.step = t ∧ (∀ a, a ≠ r.P → s.attr a = r.others t a) ∧
    ParamsAfter r start t D ∧ SameLeaves (s.attr r.P) D

/-- The same selected paths, in whatever order. -/
def SamePaths (w w' : Option (List (List K))) : Prop :=
  match w, w' with
  | none, none => True
  | some ps, some ps' => ps'.Perm ps
  | _, _ => False

theorem samePaths_refl (w : Option (List (List K))) : SamePaths w w := by
  cases w
  · trivial
  · exact List.Perm.refl _

theorem reads (r : Run A K W) (start : Obj K W) (due : ℕ → Bool) (dirs : Option (ℕ → Loc (TS A (Obj K W))))
    (last0 : Loc (TS A (Obj K W))) (h : Good r start due dirs last0) (which which' : Option (List (List K)))
    (hw : whichParams r start = .ok which) (hsame : SamePaths which which') (m : SubRepo A K W) (hm : m.which = which')
    (a : Obj K W) (ha : a = start ∨ ∃ u, ParamsAfter r start u a)
    (hall : m.allParams = (newRepo ([] : List (Repo (TS A (Obj K W)))) which' a).allParams)
    (i t : ℕ) (D : Obj K W) (hD : ParamsAfter r start t D) (hslot : SlotHas r which m.slots i t D) :
    Gives r start m i t := by
  cases hf : r.freeze with
  | none =>
    have : which = none := by simp only [whichParams, hf] at hw; injection hw with hw; exact hw.symm
    subst this
    cases which' with
    | some _ => exact hsame.elim
    | none =>
      obtain ⟨st, g1, g2, g3, g4, g5⟩ := hslot
      refine ⟨st, D, ?_, g2, g3, g4, hD, fun q v => by rw [← (g5 : st.attr r.P = D)]⟩
      rw [(C63_unrestricted r.P m hm st i 1).2.1, g1]; rfl
  | some f =>
    obtain ⟨hv, p0, v0, hp0, hl0⟩ := h.labels f hf
    obtain ⟨ps, p1, p2, p3⟩ := trainable_paths start h.dict h.wf f hv
    have : which = some ps := by
      simp only [whichParams, hf, p1] at hw
      injection hw with hw; exact hw.symm
    subst this
    cases which' with
    | none => exact hsame.elim
    | some ps' =>
      have hperm : ps'.Perm ps := hsame
      have hne : m.allParams = some a := by
        cases ps' with
        | nil =>
          have := hperm.mem_iff.2 ((p3 p0).2 ⟨v0, hp0, hl0⟩)
          cases this
        | cons => exact hall
      have hin : ∀ p ∈ ps, ∃ o, nestedGet a p = .ok o := by
        intro p hp
        obtain ⟨v, hv1, hv2⟩ := (p3 p).1 hp
        rcases ha with rfl | ⟨u, hu⟩
        · exact ⟨_, hv1⟩
        · obtain ⟨E, e1, -, e3⟩ := C29_frozen_never_change start h.dict h.wf f hv (r.steps.take u)
          simp only [ParamsAfter, hf] at hu
          rw [hu] at e1; cases e1
          obtain ⟨w, hw'⟩ := (e3 p).1 ⟨v, hv1⟩
          exact ⟨_, hw'⟩
      obtain ⟨s, s1, s2, s3, s4, s5⟩ := read_slot r m ps ps' p2 hperm a D hm hne i t hslot hin (fun q hq v => by
        rcases ha with rfl | ⟨u, hu⟩
        · exact frozen_agree r a h.dict h.wf f hf hv ps p3 t D hD q hq v
        · exact frozen_agree2 r start h.dict h.wf f hf hv ps p3 t u D a hD hu q hq v)
      exact ⟨s, D, s1, s2, s3, s4, hD, s5⟩

/-- **C101, what is kept besides the samples.** Next to the samples the fitted posterior keeps the starting parameters, to complete the samples with, exactly if some parameter paths are selected. -/
theorem C101_kept (r : Run A K W) (start : Obj K W) (due : ℕ → Bool) (dirs : Option (ℕ → Loc (TS A (Obj K W))))
    (last0 : Loc (TS A (Obj K W))) (h : Good r start due dirs last0) :
    ∃ out, fit r start dirs last0 = .ok out ∧
      ((whichParams r start = .ok none ∨ whichParams r start = .ok (some [])) → out.repo.allParams = none) ∧
      ∀ p ps, whichParams r start = .ok (some (p :: ps)) → out.repo.allParams = some start := by
  obtain ⟨which, out, h1, h2, -, h4, -⟩ := fit_spec r start due dirs last0 h
  refine ⟨out, h2, ?_, ?_⟩
  · rintro (h' | h')
    · rw [h1] at h'; cases h'; exact h4
    · rw [h1] at h'; cases h'; exact h4
  · intro p ps h'
    rw [h1] at h'; cases h'; exact h4

/-- **C101.** A fit that is given a long enough run succeeds. Reading slot `i` then gives the state after the `i`-th step at
which a sample was due: its attributes and all its parameters, the sampled ones and the frozen ones. -/
theorem C101_slots (r : Run A K W) (start : Obj K W) (due : ℕ → Bool) (dirs : Option (ℕ → Loc (TS A (Obj K W))))
    (last0 : Loc (TS A (Obj K W))) (h : Good r start due dirs last0) :
    ∃ out, fit r start dirs last0 = .ok out ∧
      ∀ (i t : ℕ), (times r.nSamples due r.steps.length)[i]? = some t → Gives r start out.repo i t := by
  obtain ⟨which, out, h1, h2, h3, h4, -, -, h7, -, -⟩ := fit_spec r start due dirs last0 h
  refine ⟨out, h2, fun i t hti => ?_⟩
  obtain ⟨D, hD, hs⟩ := h7 i t hti
  exact reads r start due dirs last0 h which which h1 (samePaths_refl _) out.repo h3 start (Or.inl rfl) h4 i t D hD hs

theorem times_full (r : Run A K W) (start : Obj K W) (due : ℕ → Bool) (dirs : Option (ℕ → Loc (TS A (Obj K W))))
    (last0 : Loc (TS A (Obj K W))) (h : Good r start due dirs last0) (hrun : r.steps.length = r.total) :
    (times r.nSamples due r.steps.length).length = r.nSamples := by
  have := (accepts_iff r.nSamples due r.doSample h.sampler r.total).1 h.enough
  simp only [times, List.length_take, hrun]
  omega

/-- **C101.** After a complete run every draw of `sample` succeeds: draw `i` gives the parameters, the mutable state and the
calibration parameters that the chain had after the `i`-th sampled step. -/
theorem C101_sample (r : Run A K W) (start : Obj K W) (due : ℕ → Bool) (dirs : Option (ℕ → Loc (TS A (Obj K W))))
    (last0 : Loc (TS A (Obj K W))) (h : Good r start due dirs last0) (hrun : r.steps.length = r.total)
    (n : Names A) (hn : n.params = r.P) (hm : n.mutbl ≠ r.P) (hc : n.calibParams ≠ r.P) (hcm : n.calibMutable ≠ r.P) :
    ∃ out, fit r start dirs last0 = .ok out ∧
      ∀ i, i < r.nSamples → ∃ J t D, sample n out.repo i = .ok J ∧ (times r.nSamples due r.total)[i]? = some t ∧
        ParamsAfter r start t D ∧ SameLeaves J.params D ∧ J.mutbl = r.others t n.mutbl ∧
        J.calibParams = r.others t n.calibParams ∧ J.calibMutable = r.others t n.calibMutable := by
  obtain ⟨out, h1, h2⟩ := C101_slots r start due dirs last0 h
  have hl := times_full r start due dirs last0 h hrun
  refine ⟨out, h1, fun i hi => ?_⟩
  rw [← hl] at hi
  obtain ⟨s0, -, g0, -⟩ := h2 0 _ (List.getElem?_eq_getElem (by omega))
  obtain ⟨s, D, g1, -, -, g4, g5, g6⟩ := h2 i _ (List.getElem?_eq_getElem hi)
  refine ⟨jointOf n s, (times r.nSamples due r.steps.length)[i], D, ?_, ?_, g5, ?_, g4 _ hm, g4 _ hc, g4 _ hcm⟩
  · simp only [sample, hn, bind, Except.bind, g0, g1]
  · rw [← hrun]; exact List.getElem?_eq_getElem hi
  · simp only [jointOf, hn]; exact g6

/-- **C101, SGHMC.** Draw `i` of a complete SGHMC run is the chain after step `burnin + (i+1)·thinning`. -/
theorem C101_sghmc (r : Run A K W) (start : Obj K W) (b k : ℕ) (hk : 0 < k) (dirs : Option (ℕ → Loc (TS A (Obj K W))))
    (last0 : Loc (TS A (Obj K W))) (hs : r.doSample = sghmcDoSample r.nSamples b k)
    (h : Good r start (fun t => decide (t > b) && decide ((t - b) % k = 0)) dirs last0) (hrun : r.steps.length = r.total) :
    ∃ out, fit r start dirs last0 = .ok out ∧
      ∀ i, i < r.nSamples → Gives r start out.repo i (b + (i + 1) * k) := by
  obtain ⟨out, h1, h2⟩ := C101_slots r start _ dirs last0 h
  refine ⟨out, h1, fun i hi => h2 i _ ?_⟩
  have hacc := (accepts_iff r.nSamples _ r.doSample h.sampler r.total).1 h.enough
  rw [sghmc_times b k hk] at hacc
  simp only [List.length_map, List.length_range] at hacc
  rw [times, hrun, sghmc_times b k hk, List.getElem?_take, if_pos hi, List.getElem?_map, List.getElem?_range (by omega)]
  simp

/-- **C101, saved and loaded.** After a fit in a directory, loading it (with the selected paths decoded in any order, and at
most as many samples) gives a posterior with the same samples: frozen parameters are taken from the final state, where they
are what they were at the start. -/
theorem C101_load (r : Run A K W) (start : Obj K W) (due : ℕ → Bool) (d : ℕ → Loc (TS A (Obj K W)))
    (last0 : Loc (TS A (Obj K W))) (h : Good r start due (some d) last0) :
    ∃ out which, fit r start (some d) last0 = .ok out ∧ whichParams r start = .ok which ∧
      ∀ which' n', SamePaths which which' → n' ≤ r.nSamples →
        ∃ m, load r.P which' n' (slotDirs out.repo) out.last = .ok m ∧
          ∀ (i t : ℕ), i < n' → (times r.nSamples due r.steps.length)[i]? = some t → Gives r start m i t := by
  obtain ⟨which, out, h1, h2, h3, h4, h5, h6, h7, -, h9⟩ := fit_spec r start due (some d) last0 h
  refine ⟨out, which, h2, h1, fun which' n' hsame hn' => ?_⟩
  obtain ⟨sf, hf1, hf2⟩ := h9 rfl
  refine ⟨newRepo (freshSlots n' (some (slotDirs out.repo))) which' (sf.attr r.P), by simp only [load, hf1], fun i t hi hti => ?_⟩
  obtain ⟨D, hD, st, g1, g2, g3, g4, g5⟩ := h7 i t hti
  have hlt : i < out.repo.slots.length := by rw [h5]; omega
  refine reads r start due (some d) last0 h which which' h1 hsame
    (newRepo (freshSlots n' (some (slotDirs out.repo))) which' (sf.attr r.P)) rfl (sf.attr r.P) (Or.inr ⟨_, hf2⟩) rfl i t D hD
    ⟨st, ?_, g2, g3, g4, g5⟩
  have hslot := (h6 _ (List.getElem_mem hlt)).1
  unfold multiGet at g1 ⊢
  rw [List.getElem?_eq_getElem hlt] at g1
  have : (newRepo (freshSlots n' (some (slotDirs out.repo))) which' (sf.attr r.P) : SubRepo A K W).slots[i]? =
      some { dirSet := true, ckpt := out.repo.slots[i].ckpt, other := .absent, mem := none } := by
    simp [newRepo, freshSlots, slotDirs, List.getElem?_range hi, List.getElem?_eq_getElem hlt]
  rw [this]
  simp only [getState, hslot, Option.isSome_some, if_true, Bool.false_eq_true, if_false] at g1 ⊢
  exact g1

/-- **C101, continued.** A further fit that starts from the current state starts from the last sample, one that restores the
directory starts from the end of the chain. -/
theorem C101_restart (r : Run A K W) (start : Obj K W) (due : ℕ → Bool) (d : ℕ → Loc (TS A (Obj K W)))
    (last0 : Loc (TS A (Obj K W))) (h : Good r start due (some d) last0) (hrun : r.steps.length = r.total)
    (hn : 0 < r.nSamples) :
    ∃ out, fit r start (some d) last0 = .ok out ∧
      (∃ p, restartParams r.P (some out.last) out.repo = .ok p ∧ ParamsAfter r start r.total p) ∧
      (∃ p t D, restartParams r.P none out.repo = .ok p ∧ (times r.nSamples due r.total)[r.nSamples - 1]? = some t ∧
        ParamsAfter r start t D ∧ SameLeaves p D) := by
  obtain ⟨which, out, h1, h2, h3, h4, h5, h6, h7, -, h9⟩ := fit_spec r start due (some d) last0 h
  refine ⟨out, h2, ?_, ?_⟩
  · obtain ⟨sf, hf1, hf2⟩ := h9 rfl
    exact ⟨sf.attr r.P, by simp only [restartParams, hf1, liftRepo]; rfl, by rw [← hrun]; exact hf2⟩
  · have hl := times_full r start due (some d) last0 h hrun
    have hlt : r.nSamples - 1 < (times r.nSamples due r.steps.length).length := by omega
    have hti := List.getElem?_eq_getElem hlt
    obtain ⟨D, hD, hs⟩ := h7 _ _ hti
    obtain ⟨s, D', g1, -, -, -, g5, g6⟩ := reads r start due (some d) last0 h which which h1 (samePaths_refl _) out.repo h3 start
      (Or.inl rfl) h4 _ _ D hD hs
    refine ⟨s.attr r.P, _, D', ?_, by rw [← hrun]; exact hti, g5, g6⟩
    simp only [restartParams, h5, g1]; rfl

/-- **C101, early stopping.** False of the code: that every slot gives a sample of this run. Steps that were not executed leave their
slots as they were: unread in memory (reading them raises), and on disk with whatever an earlier run left there. -/
theorem C101_early_stop_false (r : Run A K W) (start : Obj K W) (due : ℕ → Bool) (dirs : Option (ℕ → Loc (TS A (Obj K W))))
    (last0 : Loc (TS A (Obj K W))) (h : Good r start due dirs last0) :
    ∃ out, fit r start dirs last0 = .ok out ∧
      ∀ i, (times r.nSamples due r.steps.length).length ≤ i → i < r.nSamples →
        (dirs = none → subGet r.P out.repo i = .error (.repo .noState)) ∧
        (∀ d s, dirs = some d → restore (d i) = .ok s → r.freeze = none → subGet r.P out.repo i = .ok s) := by
  obtain ⟨which, out, h1, h2, h3, h4, h5, h6, -, h8, -⟩ := fit_spec r start due dirs last0 h
  refine ⟨out, h2, fun i hi hlt => ⟨fun hd => ?_, fun d s hd hs hf => ?_⟩⟩
  · subst hd
    have : multiGet out.repo.slots i = .error .noState := by
      unfold multiGet
      rw [h8 i hi]
      have : (freshSlots r.nSamples none : List (Repo (TS A (Obj K W))))[i]? =
          some { dirSet := false, ckpt := .absent, other := .absent, mem := none } := by
        unfold freshSlots
        rw [List.getElem?_map, List.getElem?_range hlt]; rfl
      rw [this]; rfl
    simp only [subGet, this, liftRepo]; rfl
  · subst hd
    have hw : which = none := by simp only [whichParams, hf] at h1; injection h1 with h1; exact h1.symm
    have : multiGet out.repo.slots i = .ok s := by
      unfold multiGet
      rw [h8 i hi]
      simp [freshSlots, List.getElem?_range hlt, getState, hs]
    rw [(C63_unrestricted r.P out.repo (h3.trans hw) s i 1).2.1, this]; rfl

/-- **C101, `save_state`.** It keeps every sample where it is … -/
theorem C101_save_state (r : Run A K W) (start : Obj K W) (due : ℕ → Bool) (dirs : Option (ℕ → Loc (TS A (Obj K W))))
    (last0 : Loc (TS A (Obj K W))) (h : Good r start due dirs last0) (hrun : r.steps.length = r.total) (keep : ℕ)
    (hkeep : 1 ≤ keep) :
    ∃ out m, fit r start dirs last0 = .ok out ∧ saveState r.P r.nSamples out.repo keep = .ok m ∧
      ∀ (i t : ℕ), (times r.nSamples due r.total)[i]? = some t → Gives r start m i t := by
  obtain ⟨which, out, h1, h2, h3, h4, h5, h6, h7, -, -⟩ := fit_spec r start due dirs last0 h
  have hl := times_full r start due dirs last0 h hrun
  -- one read and write keeps what the slots have
  have hstep : ∀ (m : SubRepo A K W) (i : ℕ), i < r.nSamples → m.which = which → m.allParams = out.repo.allParams →
      m.slots.length = r.nSamples → (∀ s ∈ m.slots, Free s.ckpt) →
      (∀ (j t : ℕ), (times r.nSamples due r.steps.length)[j]? = some t → ∃ D, ParamsAfter r start t D ∧ SlotHas r which m.slots j t D) →
      ∃ m', (do
        let s ← subGet r.P m i
        subPut r.P m s i keep) = .ok m' ∧ m'.which = which ∧ m'.allParams = out.repo.allParams ∧
        m'.slots.length = r.nSamples ∧ (∀ s ∈ m'.slots, Free s.ckpt) ∧
        (∀ (j t : ℕ), (times r.nSamples due r.steps.length)[j]? = some t → ∃ D, ParamsAfter r start t D ∧ SlotHas r which m'.slots j t D) := by
    intro m i hi e1 e2 e3 e4 e5
    have hti := List.getElem?_eq_getElem (show i < (times r.nSamples due r.steps.length).length by omega)
    obtain ⟨D, hD, hs⟩ := e5 _ _ hti
    obtain ⟨s, D', g1, g2, g3, g4, g5, g6⟩ := reads r start due dirs last0 h which which h1 (samePaths_refl _) m e1 start
      (Or.inl rfl) (e2.trans h4) i _ D hD hs
    have hrem : ∃ st, removeState r.P m.which s = .ok st ∧
        Kept which (st.attr r.P) D := by
      rw [e1]
      cases which with
      | none =>
        refine ⟨s, rfl, ?_⟩
        obtain ⟨st, q1, -, -, -, q5⟩ := hs
        rw [(C63_unrestricted r.P m e1 st i 1).2.1, q1] at g1
        cases g1; exact q5
      | some ps =>
        have hpp : ps.Pairwise Apart := by
          cases hf : r.freeze with
          | none => simp [whichParams, hf] at h1
          | some f =>
            obtain ⟨ps0, p1, p2, -⟩ := trainable_paths start h.dict h.wf f (h.labels f hf).1
            simp only [whichParams, hf, p1] at h1
            injection h1 with h1; injection h1 with h1
            rw [← h1]; exact p2
        have hDD : D = D' := by
          unfold ParamsAfter at hD g5
          cases hf : r.freeze with
          | none => rw [hf] at hD g5; exact hD.trans g5.symm
          | some f => rw [hf] at hD g5; simp only at hD g5; rw [hD] at g5; injection g5
        subst hDD
        obtain ⟨st, q1, -, -, -, q5⟩ := hs
        have hleaf : ∀ p ∈ ps, ∃ v, nestedGet (s.attr r.P) p = .ok (leaf v) ∧ nestedGet D p = .ok (leaf v) := by
          intro p hp
          obtain ⟨v, -, hv⟩ := q5 p hp
          exact ⟨v, (g6 p v).2 hv, hv⟩
        obtain ⟨st', w1, -, -, -, w5, -⟩ := remove_spec r.P ps hpp s (fun p hp => by
          obtain ⟨v, hv, -⟩ := hleaf p hp; exact ⟨_, hv⟩)
        refine ⟨st', w1, fun p hp => ?_⟩
        obtain ⟨v, hv1, hv2⟩ := hleaf p hp
        exact ⟨v, by rw [w5 p hp]; exact hv1, hv2⟩
    obtain ⟨st, hst, hstD⟩ := hrem
    obtain ⟨m', k1, k2, k3, k4, k5, k6, k7⟩ := puts_spec r.P keep hkeep [(i, s)] m (by simp) (by simp [e3, hi]) (by simp [g2])
      (by simp [hst]) e4
    have hput : subPut r.P m s i keep = .ok m' := by
      rw [List.foldlM_cons] at k1
      obtain ⟨m1, hm1, hm2⟩ := Verif.bind_ok.mp k1
      cases hm2; exact hm1
    refine ⟨m', by simp only [bind, Except.bind, g1, hput], k2.trans e1, k3.trans e2, k4.trans e3, ?_, ?_⟩
    · intro x hx
      obtain ⟨k, hk⟩ := List.mem_iff_getElem?.1 hx
      exact (k7 k x hk).1
    · intro j t hjt
      by_cases hij : j = i
      · subst hij
        rw [hti] at hjt; cases hjt
        obtain ⟨st', w1, w2⟩ := k6 (j, s) (by simp)
        simp only at w1 w2
        rw [hst] at w1; cases w1
        obtain ⟨a1, a2, a3⟩ := remove_acc _ _ _ _ hst
        exact ⟨D, hD, st, w2, a1.trans g2, a2.trans g3, fun a ha => (a3 a ha).trans (g4 a ha), hstD⟩
      · obtain ⟨D2, hD2, st2, y1, y2⟩ := e5 j t hjt
        refine ⟨D2, hD2, st2, ?_, y2⟩
        unfold multiGet at y1 ⊢
        rw [k5 j (by simpa using hij)]; exact y1
  have hall : ∀ k, k ≤ r.nSamples → ∃ m, (List.range k).foldlM (fun m i => do
        let s ← subGet r.P m i
        subPut r.P m s i keep) out.repo = .ok m ∧ m.which = which ∧ m.allParams = out.repo.allParams ∧
        m.slots.length = r.nSamples ∧ (∀ s ∈ m.slots, Free s.ckpt) ∧
        (∀ (j t : ℕ), (times r.nSamples due r.steps.length)[j]? = some t → ∃ D, ParamsAfter r start t D ∧ SlotHas r which m.slots j t D) := by
    intro k
    induction k with
    | zero => intro _; exact ⟨out.repo, rfl, h3, rfl, h5, fun s hs => (h6 s hs).2, h7⟩
    | succ k ih =>
      intro hk
      obtain ⟨m, m1, m2, m3, m4, m5, m6⟩ := ih (by omega)
      obtain ⟨m', n1, n2⟩ := hstep m k (by omega) m2 m3 m4 m5 m6
      refine ⟨m', ?_, n2⟩
      rw [List.range_succ, List.foldlM_append, m1]
      refine (Verif.bind_ok.mpr ⟨m, rfl, ?_⟩)
      rw [List.foldlM_cons, n1]; rfl
  obtain ⟨m, m1, m2, m3, m4, m5, m6⟩ := hall r.nSamples (le_refl _)
  refine ⟨out, m, h2, m1, fun i t hti => ?_⟩
  rw [← hrun] at hti
  obtain ⟨D, hD, hs⟩ := m6 i t hti
  exact reads r start due dirs last0 h which which h1 (samePaths_refl _) m m2 start (Or.inl rfl) (m3.trans h4) i t D hD hs

/-- **C101, `save_state`.** … and false of the code: that it saves to the directory it is given. After a fit in memory, saving to an
empty directory succeeds, and loading that directory raises. -/
theorem C101_save_nothing_false (r : Run A K W) (start : Obj K W) (due : ℕ → Bool)
    (h : Good r start due none .absent) (hrun : r.steps.length = r.total) (keep : ℕ) (hkeep : 1 ≤ keep)
    (which : Option (List (List K))) (n : ℕ) :
    ∃ out m, fit r start none .absent = .ok out ∧ saveState r.P r.nSamples out.repo keep = .ok m ∧
      load r.P which n (slotDirs m) out.last = .error (.py "ValueError") := by
  obtain ⟨out, m, h1, h2, -⟩ := C101_save_state r start due none .absent h hrun keep hkeep
  refine ⟨out, m, h1, h2, ?_⟩
  have hlast : out.last = .absent := by
    unfold fit at h1
    obtain ⟨w, -, h1⟩ := Verif.bind_ok.mp h1
    rw [h.enough] at h1
    simp only [Bool.not_true, Bool.false_eq_true, if_false] at h1
    obtain ⟨FT, -, h1⟩ := Verif.bind_ok.mp h1
    obtain ⟨m', -, h1⟩ := Verif.bind_ok.mp h1
    cases h1; rfl
  simp only [load, hlast, restore]

/-- **C101, too short.** A run that cannot yield the samples asked for is refused before training. -/
theorem C101_too_short (r : Run A K W) (start : Obj K W) (dirs : Option (ℕ → Loc (TS A (Obj K W))))
    (last0 : Loc (TS A (Obj K W))) (which : Option (List (List K))) (hw : whichParams r start = .ok which)
    (h : accepts r.doSample r.nSamples r.total = false) : fit r start dirs last0 = .error (.py "ValueError") := by
  unfold fit
  simp only [hw, h, liftPy, bind, Except.bind, Bool.not_false, if_true]

/-! ## A run: five steps that add one, burn-in 1, thinning 2, two samples -/

/-- `{"m": {"w": 1, "b": 2}}`. -/
def runStart : Obj String ℕ := cons "m" (cons "w" (leaf 1) (cons "b" (leaf 2) nil)) nil

/-- Biases are frozen; `executed` of the five steps are executed. -/
def runExample (executed : ℕ) : Run (Fin 2) String ℕ where
  P := 0
  freeze := some fun p _ => if p.getLast? = some "b" then "frozen" else "trainable"
  steps := List.replicate executed fun _ _ v => v + 1
  total := 5
  others := fun t _ => leaf (10 * t)
  doSample := sghmcDoSample 2 1 2
  nSamples := 2
  keep := 2

theorem runStart_leaves (p : List String) (v : ℕ) (h : nestedGet runStart p = .ok (leaf v)) :
    (p = ["m", "w"] ∧ v = 1) ∨ (p = ["m", "b"] ∧ v = 2) := by
  rw [nestedGet_eq] at h
  have := (mem_flatten runStart (by simp [runStart, WF, lookup, isDict]) p v).2 h.2
  simp [runStart, flatten] at this
  exact this

/-- The hypotheses of the theorems hold for it, in memory and in an empty directory, also when it stops early. -/
theorem runExample_good (executed : ℕ) (dirs : Option (ℕ → Loc (TS (Fin 2) (Obj String ℕ)))) (hd : ∀ d, dirs = some d → ∀ i, Free (d i)) :
    Good (runExample executed) runStart (fun t => decide (t > 1) && decide ((t - 1) % 2 = 0)) dirs .absent where
  dict := rfl
  wf := by simp [runStart, WF, lookup, isDict]
  labels := by
    intro f hf
    cases hf
    refine ⟨fun p v h => ?_, ["m", "w"], 1, rfl, rfl⟩
    rcases runStart_leaves p v h with ⟨rfl, -⟩ | ⟨rfl, -⟩ <;> simp
  sampler := by intro t c; simp [runExample, sghmcDoSample, Bool.and_assoc]
  enough := (by decide +kernel : accepts (sghmcDoSample 2 1 2) 2 5 = true)
  keep := (by decide : 1 ≤ 2)
  free := hd
  freeLast := by intro s; simp

example : ∃ out, fit (runExample 5) runStart none .absent = .ok out ∧
    ∀ i, i < 2 → Gives (runExample 5) runStart out.repo i (1 + (i + 1) * 2) :=
  C101_sghmc (runExample 5) runStart 1 2 (by decide) none .absent rfl (runExample_good 5 none (by simp)) rfl

/-- The samples are the parameters after steps 3 and 5. -/
example : ((fit (runExample 5) runStart none .absent).bind fun out => (List.range 2).mapM fun i =>
      (subGet 0 out.repo i).map fun s => (s.attr 0, s.attr 1)) =
    .ok [(cons "m" (cons "w" (leaf 4) (cons "b" (leaf 2) nil)) nil, leaf 30),
      (cons "m" (cons "w" (leaf 6) (cons "b" (leaf 2) nil)) nil, leaf 50)] := by decide +kernel

/-- On disk and loaded (the keys in another order). -/
example : ((fit (runExample 5) runStart (some fun _ => .absent) .absent).bind fun out =>
      (load 0 (some [["m", "w"]]) 2 (slotDirs out.repo) out.last).bind fun m => (List.range 2).mapM fun i =>
      (subGet 0 m i).map fun s => s.attr 0) =
    .ok [cons "m" (cons "b" (leaf 2) (cons "w" (leaf 4) nil)) nil,
      cons "m" (cons "b" (leaf 2) (cons "w" (leaf 6) nil)) nil] := by decide +kernel

/-- Loading with one sample more: the third slot is empty. -/
example : ((fit (runExample 5) runStart (some fun _ => .absent) .absent).bind fun out =>
      (load 0 (some [["m", "w"]]) 3 (slotDirs out.repo) out.last).bind fun m =>
      (subGet 0 m 2).map fun s => s.attr 0) = .error (.repo .notFound) := by decide +kernel

/-- Stopped after four steps: the current state cannot be continued from, the directory can. -/
example : ((fit (runExample 4) runStart (some fun _ => .absent) .absent).bind fun out => restartParams 0 none out.repo) =
      .error (.repo .notFound) ∧
    ((fit (runExample 4) runStart (some fun _ => .absent) .absent).bind fun out => restartParams 0 (some out.last) out.repo) =
      .ok (cons "m" (cons "b" (leaf 2) (cons "w" (leaf 5) nil)) nil) := by decide +kernel

/-- A second run in the same directory that stops after four steps: slot 0 is its own, slot 1 is still that of the first run. -/
example : ((fit (runExample 5) runStart (some fun _ => .absent) .absent).bind fun out1 =>
      (fit (runExample 4) (cons "m" (cons "w" (leaf 100) (cons "b" (leaf 2) nil)) nil) (some (slotDirs out1.repo)) out1.last).bind
      fun out => (List.range 2).mapM fun i => (subGet 0 out.repo i).map fun s => s.attr 0) =
    .ok [cons "m" (cons "w" (leaf 103) (cons "b" (leaf 2) nil)) nil,
      cons "m" (cons "w" (leaf 6) (cons "b" (leaf 2) nil)) nil] := by decide +kernel

/-! ### Concrete cases that meet the hypotheses of the theorems above -/

example := C101_kept (runExample 4) runStart _ none .absent (runExample_good 4 none (by simp))
example := C101_slots (runExample 4) runStart _ none .absent (runExample_good 4 none (by simp))
example := C101_load (runExample 5) runStart _ (fun _ => .absent) .absent
  (runExample_good 5 (some fun _ => .absent) (by intro d h i; cases h; simp [Free]))
example := C101_restart (runExample 5) runStart _ (fun _ => .absent) .absent
  (runExample_good 5 (some fun _ => .absent) (by intro d h i; cases h; simp [Free])) rfl (by decide)
example := C101_early_stop_false (runExample 4) runStart _ none .absent (runExample_good 4 none (by simp))
example := C101_save_state (runExample 5) runStart _ none .absent (runExample_good 5 none (by simp)) rfl 3 (by decide)
example := C101_save_nothing_false (runExample 5) runStart _ (runExample_good 5 none (by simp)) rfl 3 (by decide) none 2

end Verif.Props.SamplerRun
