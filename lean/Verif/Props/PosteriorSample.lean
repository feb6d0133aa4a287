import Verif.Model.PosteriorSample
import Verif.Props.StateRepo
import Verif.Props.FitStart
import Mathlib.Algebra.BigOperators.Ring.Finset
import Mathlib.Algebra.BigOperators.Fin
import Mathlib.Algebra.BigOperators.Field
import Mathlib.Data.Fintype.BigOperators
import Mathlib.Data.Real.Basic
import Mathlib.Tactic.FieldSimp

/-!
C93: samples of MAP, deep ensemble and SG-MCMC posteriors are stored states, whole and equally likely.
-/
set_option linter.unusedSectionVars false
set_option linter.unusedVariables false
namespace Verif.Props.PosteriorSample
open Verif.StateRepo Verif.FitStart Verif.PosteriorSample Verif.Props

variable {A V : Type} [DecidableEq A]

/-- **C93.** A sample of a MAP posterior is the stored state: its parameters, network state and calibration, and sampling
fails exactly if nothing is stored. -/
theorem C93_map (n : Names A) (r : Repo (TS A V)) :
    (∀ s, getState r false = .ok s → mapSample n r =
      .ok { params := s.attr n.params, mutbl := s.attr n.mutbl, calibParams := s.attr n.calibParams,
            calibMutable := s.attr n.calibMutable }) ∧
    (∀ e, getState r false = .error e → mapSample n r = .error e) := by
  constructor <;> intro s h <;> simp [mapSample, h, Except.map, jointOf]

/-- **C93.** A sample of an ensemble or of stored Monte Carlo samples is one stored state as a whole: parameters, network
state and calibration all come from the slot drawn. -/
theorem C93_slot (n : Names A) (m : List (Repo (TS A V))) (ss : ℕ → TS A V) (size : ℕ)
    (h : ∀ i < size, multiGet m i = .ok (ss i)) (draw : ℕ) (hd : draw < size) :
    slotSample n m draw = .ok
      { params := (ss draw).attr n.params, mutbl := (ss draw).attr n.mutbl,
        calibParams := (ss draw).attr n.calibParams, calibMutable := (ss draw).attr n.calibMutable } := by
  simp only [slotSample, h 0 (by omega), h draw hd, bind, Except.bind, jointOf]

/-- **C93.** After a member has been stored, the draws of its slot give it and all other draws are as before. -/
theorem C93_put (n : Names A) (m : List (Repo (TS A V))) (s : TS A V) (i : ℕ) (hi : i < m.length)
    (hm : ∀ r ∈ m, r.dirSet = false ∨ ∃ c, DiskHas r c) (ss : ℕ → TS A V)
    (h : ∀ k < m.length, k ≠ i → multiGet m k = .ok (ss k)) :
    ∃ m', multiPut m s i 1 = .ok m' ∧ m'.length = m.length ∧ ∀ draw < m.length,
      slotSample n m' draw = .ok (if draw = i then jointOf n s else jointOf n (ss draw)) := by
  obtain ⟨m', h1, h2, h3, h4, -⟩ := C34_put_get m s i hi hm
  refine ⟨m', h1, h2, fun draw hd => ?_⟩
  have hall : ∀ k < m.length, ∃ t, multiGet m' k = .ok t ∧
      jointOf n t = if k = i then jointOf n s else jointOf n (ss k) := by
    intro k hk
    by_cases hki : k = i
    · subst hki
      refine ⟨_, h3, ?_⟩
      rw [if_pos rfl]
      split_ifs <;> rfl
    · exact ⟨ss k, (h4 k hki).trans (h k hk hki), by rw [if_neg hki]⟩
  obtain ⟨t0, g0, -⟩ := hall 0 (by omega)
  obtain ⟨t, g, ht⟩ := hall draw hd
  simp only [slotSample, g0, g, bind, Except.bind, ht]

/-- The sum of a function of one coordinate over all index sequences. -/
theorem sum_coord {s k : ℕ} (h : Fin s → ℝ) (i : Fin k) :
    ∑ d : Fin k → Fin s, h (d i) = (s : ℝ) ^ (k - 1) * ∑ j, h j := by
  have key := Finset.prod_univ_sum (fun _ : Fin k => (Finset.univ : Finset (Fin s)))
    (fun a j => if a = i then h j else (1 : ℝ))
  rw [Fintype.piFinset_univ] at key
  have hr : ∀ d : Fin k → Fin s, (∏ a, if a = i then h (d a) else (1 : ℝ)) = h (d i) := by
    intro d
    rw [Finset.prod_ite_eq' Finset.univ i fun a => h (d a)]
    simp
  rw [Finset.sum_congr rfl fun d _ => hr d] at key
  rw [← key, ← Finset.mul_prod_erase Finset.univ _ (Finset.mem_univ i)]
  have he : ∀ a ∈ Finset.univ.erase i, (∑ j : Fin s, if a = i then h j else (1 : ℝ)) = s := by
    intro a ha
    simp [Finset.ne_of_mem_erase ha]
  rw [Finset.prod_congr rfl he, Finset.prod_const, Finset.card_erase_of_mem (Finset.mem_univ i)]
  simp [mul_comm]

/-- **C93.** Averages over posterior samples are unbiased for the ensemble: over all (equally likely) ways of drawing `k`
samples independently from the slots, the mean of any function of the samples averages to its mean over the members. -/
theorem C93_unbiased (n : Names A) (m : List (Repo (TS A V))) (size k : ℕ) (hk : 0 < k) (hs : 0 < size)
    (ss : ℕ → TS A V) (h : ∀ i < size, multiGet m i = .ok (ss i)) (f : Joint V → ℝ) :
    ∃ g : (Fin k → Fin size) → Fin k → Joint V,
      (∀ d i, slotSample n m (d i) = .ok (g d i)) ∧
      (∑ d : Fin k → Fin size, (∑ i, f (g d i)) / k) / (size : ℝ) ^ k =
        (∑ j : Fin size, f (jointOf n (ss j))) / size := by
  refine ⟨fun d i => jointOf n (ss (d i)), fun d i => C93_slot n m ss size h (d i) (d i).2, ?_⟩
  rw [← Finset.sum_div, Finset.sum_comm]
  have := fun i : Fin k => sum_coord (fun j : Fin size => f (jointOf n (ss j))) i
  rw [Finset.sum_congr rfl fun i _ => this i]
  rw [Finset.sum_const, Finset.card_univ, Fintype.card_fin, nsmul_eq_mul]
  obtain ⟨k, rfl⟩ : ∃ k', k = k' + 1 := ⟨k - 1, by omega⟩
  have hk' : ((k + 1 : ℕ) : ℝ) ≠ 0 := by positivity
  have hs' : (size : ℝ) ≠ 0 := by positivity
  rw [Nat.add_sub_cancel, pow_succ]
  field_simp

/-- Members 0 and 1 with different parameters, a network state and no calibration. -/
def two : List (Repo (TS (Fin 4) ℕ)) :=
  [⟨false, .absent, .absent, some ⟨0, none, fun a => if a = 0 then 5 else 1⟩⟩,
   ⟨false, .absent, .absent, some ⟨0, none, fun a => if a = 0 then 7 else 2⟩⟩]

example : (slotSample ⟨0, 1, 2, 3⟩ two 1).toOption.map (fun j => (j.params, j.mutbl)) = some (7, 2) ∧
    (slotSample ⟨0, 1, 2, 3⟩ two 0).toOption.map (fun j => (j.params, j.mutbl)) = some (5, 1) := by decide +kernel

/-- **C93.** Of an ensemble saved with more members than the loading approximator has, the members beyond its size are never
drawn: what they hold makes no difference to any sample. -/
theorem C93_larger_ensemble_ignored (n : Names A) (dirs dirs' : ℕ → Loc (TS A V)) (size : ℕ)
    (h : ∀ i < size, dirs i = dirs' i) (hs : 0 < size) (draw : ℕ) :
    (ensembleLoad dirs size >>= fun m => slotSample n m draw) = (ensembleLoad dirs' size >>= fun m => slotSample n m draw) := by
  have : (List.range size).map (fun i => ({ dirSet := true, ckpt := dirs i, other := .absent, mem := none } : Repo (TS A V))) =
      (List.range size).map (fun i => { dirSet := true, ckpt := dirs' i, other := .absent, mem := none }) := by
    apply List.map_congr_left
    intro i hi
    rw [h i (List.mem_range.1 hi)]
  unfold ensembleLoad
  rw [h 0 hs, this]

/-- **C93, failure.** A directory with fewer members than the loading approximator has is accepted if it has the first; then
every draw of a missing member fails (while the draws of the others succeed). -/
theorem C93_smaller_ensemble_false (n : Names A) (dirs : ℕ → Loc (TS A V)) (saved size : ℕ) (h0 : 0 < saved)
    (hlt : saved < size) (ss : ℕ → TS A V) (h : ∀ i < saved, restore (dirs i) = .ok (ss i))
    (hmiss : ∀ i, saved ≤ i → dirs i = .absent) :
    ∃ m, ensembleLoad dirs size = .ok m ∧ (∀ draw < saved, slotSample n m draw = .ok (jointOf n (ss draw))) ∧
      ∀ draw, saved ≤ draw → draw < size → slotSample n m draw = .error .notFound := by
  refine ⟨(List.range size).map fun i => { dirSet := true, ckpt := dirs i, other := .absent, mem := none }, ?_, ?_, ?_⟩
  · simp only [ensembleLoad, h 0 h0]
  · intro draw hd
    have hg : ∀ i < saved, multiGet ((List.range size).map fun i =>
        ({ dirSet := true, ckpt := dirs i, other := .absent, mem := none } : Repo (TS A V))) i = .ok (ss i) := by
      intro i hi
      simp [multiGet, List.getElem?_map, List.getElem?_range (lt_trans hi hlt), getState, h i hi]
    exact C93_slot n _ ss saved hg draw hd
  · intro draw h1 h2
    have g0 : multiGet ((List.range size).map fun i =>
        ({ dirSet := true, ckpt := dirs i, other := .absent, mem := none } : Repo (TS A V))) 0 = .ok (ss 0) := by
      simp [multiGet, List.getElem?_map, List.getElem?_range (by omega : 0 < size), getState, h 0 h0]
    have g1 : multiGet ((List.range size).map fun i =>
        ({ dirSet := true, ckpt := dirs i, other := .absent, mem := none } : Repo (TS A V))) draw = .error .notFound := by
      simp [multiGet, List.getElem?_map, List.getElem?_range h2, getState, hmiss draw h1, restore]
    simp only [slotSample, g0, g1, bind, Except.bind]

/-- **C93.** `pull` of a slot returns what `get` returns and leaves every other slot as it was; in memory it leaves the slot
itself too. -/
theorem C93_pull (m m' : List (Repo (TS A V))) (i : ℕ) (s : TS A V) (h : multiPull m i = .ok (m', s)) :
    multiGet m i = .ok s ∧ m'.length = m.length ∧ (∀ k, k ≠ i → multiGet m' k = multiGet m k) ∧
    ((∀ r, m[i]? = some r → r.dirSet = false) → multiGet m' i = .ok s) := by
  unfold multiPull at h
  cases hr : m[i]? with
  | none => rw [hr] at h; simp at h
  | some r =>
    rw [hr] at h
    dsimp only at h
    cases hp : pull r false with
    | error e => rw [hp] at h; simp [Except.map] at h
    | ok t =>
      rw [hp] at h
      simp only [Except.map, Except.ok.injEq, Prod.mk.injEq] at h
      obtain ⟨rfl, rfl⟩ := h
      have hi : i < m.length := (List.getElem?_eq_some_iff.1 hr).1
      have hget : getState r false = .ok t.2 := by
        unfold pull at hp
        obtain ⟨x, hx, hp⟩ := Verif.bind_ok.mp hp
        rw [hx]
        simp only [Bool.false_eq_true, if_false] at hp
        split_ifs at hp with hd
        · cases hc : r.ckpt <;> rw [hc] at hp <;> simp at hp
          rw [← hp]
        · simp only [Except.ok.injEq] at hp
          rw [← hp]
      refine ⟨by simp [multiGet, hr, hget], by simp, fun k hk => ?_, fun hd => ?_⟩
      · unfold multiGet
        rw [List.getElem?_set_ne (Ne.symm hk)]
      · have hd := hd r rfl
        have ht : t.1 = r := by
          unfold pull at hp
          rw [hget] at hp
          simp [bind, Except.bind, hd] at hp
          rw [← hp]
        simp [multiGet, hi, ht, hget]

example : (multiPull two 1).toOption.map (fun t => (t.2.attr 0, t.1.length)) = some (7, 2) := by decide +kernel

/-! ### Concrete cases that meet the hypotheses of the theorems above -/

/-- The states of the two members. -/
def twoStates (i : ℕ) : TS (Fin 4) ℕ := if i = 0 then ⟨0, none, fun a => if a = 0 then 5 else 1⟩ else ⟨0, none, fun a => if a = 0 then 7 else 2⟩

theorem two_get : ∀ i < 2, multiGet two i = .ok (twoStates i) := by
  intro i hi
  match i, hi with
  | 0, _ => rfl
  | 1, _ => rfl

example := C93_slot ⟨0, 1, 2, 3⟩ two twoStates 2 two_get 1 (by norm_num)
example := C93_put ⟨0, 1, 2, 3⟩ two ⟨4, none, fun _ => 9⟩ 1 (by simp [two]) (by intro r hr; left; simp [two] at hr; rcases hr with rfl | rfl <;> rfl) twoStates
  (fun k hk _ => two_get k hk)
example := C93_larger_ensemble_ignored (A := Fin 4) (V := ℕ) ⟨0, 1, 2, 3⟩ (fun i => if i < 2 then .file (twoStates i) else .absent)
  (fun i => if i < 2 then .file (twoStates i) else .absent) 2 (by intro i hi; simp [hi]) (by norm_num) 1

end Verif.Props.PosteriorSample
