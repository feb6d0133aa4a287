import Verif.Model.Sharing
import Mathlib.Algebra.BigOperators.Fin
import Mathlib.Tactic.Linarith
import Mathlib.Tactic.Ring
import Mathlib.Tactic.Positivity
import Mathlib.Tactic.IntervalCases

/-! Property C96: objects shared through default arguments. -/
set_option linter.unusedSectionVars false

namespace Verif.Props

open Verif.Sharing Verif.SGMCMC

/-! ### Private objects -/

/-- Configuration `c` refers to optimizer `o`, which no other configuration does. -/
structure Private (w : World) (c o : ℕ) (m : Opt) (cbs : Option (List Cb)) : Prop where
  conf : w.confs[c]? = some ⟨o, cbs⟩
  opt : w.opts[o]? = some m
  only : ∀ (c' : ℕ) cf, w.confs[c']? = some cf → cf.opt = o → c' = c

theorem private_step {w : World} {c o : ℕ} {m : Opt} {cbs : Option (List Cb)} (ho : o ≠ 0) (h : Private w c o m cbs) (op : Op)
    (h1 : ∀ l, op ≠ .newConf (some o) l) (h2 : op ≠ .fit .sampler c) (h3 : op ≠ .fit .sngp c) :
    Private (step w op).1 c o m cbs := by
  obtain ⟨hc, hopt, honly⟩ := h
  have hcl : c < w.confs.length := (List.getElem?_eq_some_iff.1 hc).1
  have hol : o < w.opts.length := (List.getElem?_eq_some_iff.1 hopt).1
  cases op with
  | newOpt m' => exact ⟨hc, by simp only [step]; rw [List.getElem?_append_left hol]; exact hopt, honly⟩
  | newConf o' l =>
    refine ⟨by simp only [step]; rw [List.getElem?_append_left hcl]; exact hc, hopt, fun c' cf hc' hcf => ?_⟩
    simp only [step] at hc'
    rcases lt_or_ge c' w.confs.length with hlt | hge
    · rw [List.getElem?_append_left hlt] at hc'
      exact honly c' cf hc' hcf
    · rw [List.getElem?_append_right hge, List.getElem?_singleton] at hc'
      split at hc'
      · obtain rfl := Option.some.inj hc'
        exfalso
        cases o' with
        | none => exact ho hcf.symm
        | some o' => exact h1 l (by rw [show o' = o from hcf])
      · cases hc'
  | fit m' c' =>
    simp only [step, fitStep]
    cases hcf : w.confs[c']? with
    | none => exact ⟨hc, hopt, honly⟩
    | some cf =>
      cases m' with
      | plain => exact ⟨hc, hopt, honly⟩
      | sampler =>
        refine ⟨hc, ?_, honly⟩
        have hne : cf.opt ≠ o := fun heq => h2 (by rw [honly c' cf hcf heq])
        simp only
        rw [List.getElem?_set_ne hne]
        exact hopt
      | sngp =>
        have hne : c' ≠ c := fun heq => h3 (by rw [heq])
        refine ⟨by simp only; rw [List.getElem?_set_ne hne]; exact hc, hopt, fun c'' cf'' hc'' hcf'' => ?_⟩
        simp only at hc''
        rcases eq_or_ne c' c'' with rfl | hn
        · rw [List.getElem?_set_self (List.getElem?_eq_some_iff.1 hcf).1] at hc''
          obtain rfl := Option.some.inj hc''
          exact honly c' cf hcf hcf''
        · rw [List.getElem?_set_ne hn] at hc''
          exact honly c'' cf'' hc'' hcf''

/-- **C96.** A configuration with an optimizer of its own, not passed to a sampler or to SNGP itself, gives every later fit the
method and the callbacks it was made with, whatever else is configured and fitted in between. -/
theorem C96_private (w : World) (c o : ℕ) (m : Opt) (cbs : Option (List Cb)) (ho : o ≠ 0) (h : Private w c o m cbs)
    (ops : List Op) (h1 : ∀ op ∈ ops, (∀ l, op ≠ .newConf (some o) l) ∧ op ≠ .fit .sampler c ∧ op ≠ .fit .sngp c) :
    usedAfter w ops .plain c = some ⟨m, cbs.getD []⟩ := by
  have : Private (run w ops) c o m cbs := by
    induction ops generalizing w with
    | nil => exact h
    | cons op ops ih =>
      have hop := h1 op (by simp)
      exact ih _ (private_step ho h op hop.1 hop.2.1 hop.2.2) fun op' h' => h1 op' (by simp [h'])
  simp only [usedAfter, fitStep, this.conf, List.getD_eq_getElem?_getD, this.opt, Option.getD_some]

/-- **C96.** After any history, a configuration made with a new optimizer gives the next fit the method and callbacks it was made
with. -/
theorem C96_explicit (w : World) (m : Opt) (cbs : Option (List Cb)) :
    usedAfter w [.newOpt m, .newConf (some w.opts.length) cbs] .plain w.confs.length = some ⟨m, cbs.getD []⟩ := by
  simp [usedAfter, run, step, fitStep]

/-- **C96.** A sampler never uses the method or the callbacks of the configuration it is given. -/
theorem C96_sampler_ignores (w : World) (ops : List Op) (c : ℕ) (u : Used) (h : usedAfter w ops .sampler c = some u) :
    (∃ n, u.opt = .integrator n) ∧ ∀ n, Cb.user n ∉ u.cbs := by
  simp only [usedAfter, fitStep] at h
  split at h
  · cases h
  · obtain rfl := Option.some.inj h
    exact ⟨⟨_, rfl⟩, by simp⟩

/-! ### The shared optimizer -/

theorem opt_kept (w : World) (o : ℕ) (m : Opt) (h : w.opts[o]? = some m) (ops : List Op)
    (hops : ∀ op ∈ ops, ∀ c, op ≠ .fit .sampler c) : (run w ops).opts[o]? = some m := by
  induction ops generalizing w with
  | nil => exact h
  | cons op ops ih =>
    refine ih _ ?_ fun op' h' => hops op' (by simp [h'])
    cases op with
    | newOpt m' => simp only [step]; rw [List.getElem?_append_left (List.getElem?_eq_some_iff.1 h).1]; exact h
    | newConf o' l => exact h
    | fit m' c =>
      simp only [step, fitStep]
      split
      · exact h
      · cases m' with
        | plain => exact h
        | sngp => exact h
        | sampler => exact absurd rfl (hops _ (by simp) c)

/-- **C96, negation.** Once a sampler has been fitted, every fit with a configuration referring to the same optimizer uses the
sampler's integrator instead of the method the configuration was made with, until another sampler is fitted. -/
theorem C96_leak_false (w : World) (c o : ℕ) (cbs : Option (List Cb)) (hc : w.confs[c]? = some ⟨o, cbs⟩)
    (ho : o < w.opts.length) (ops : List Op) (hops : ∀ op ∈ ops, ∀ c, op ≠ .fit .sampler c) (c' : ℕ) (cf : Conf)
    (hc' : (run w (.fit .sampler c :: ops)).confs[c']? = some cf) (hcf : cf.opt = o) :
    usedAfter w (.fit .sampler c :: ops) .plain c' = some ⟨.integrator w.fits, cf.cbs.getD []⟩ := by
  have hk : (run w (.fit .sampler c :: ops)).opts[o]? = some (.integrator w.fits) := by
    have h0 : (step w (.fit .sampler c)).1.opts[o]? = some (.integrator w.fits) := by
      simp only [step, fitStep, hc]
      exact List.getElem?_set_self ho
    exact opt_kept _ o _ h0 ops hops
  simp only [usedAfter, fitStep, hc', List.getD_eq_getElem?_getD, hcf, hk, Option.getD_some]

theorem run_append (w : World) (a b : List Op) : run w (a ++ b) = run (run w a) b := List.foldl_append

/-- **C96, negation.** Two configurations made without an optimizer share one: after a sampler was fitted with the first, MAP
with a configuration made later runs the sampler's integrator, not Adam. -/
theorem C96_default_false (w : World) (c : ℕ) (cbs l : Option (List Cb)) (hc : w.confs[c]? = some ⟨0, cbs⟩)
    (ho : 0 < w.opts.length) (ops : List Op) (hops : ∀ op ∈ ops, ∀ c, op ≠ .fit .sampler c) :
    usedAfter w (.fit .sampler c :: ops ++ [.newConf none l]) .plain (run w (.fit .sampler c :: ops)).confs.length =
      some ⟨.integrator w.fits, l.getD []⟩ := by
  have hc' : (run w (.fit .sampler c :: (ops ++ [.newConf none l]))).confs[(run w (.fit .sampler c :: ops)).confs.length]? =
      some ⟨0, l⟩ := by
    rw [show Op.fit .sampler c :: (ops ++ [.newConf none l]) = (.fit .sampler c :: ops) ++ [.newConf none l] from rfl,
      run_append]
    simp [run, step]
  refine C96_leak_false w c 0 cbs hc ho (ops ++ [.newConf none l]) ?_ _ ⟨0, l⟩ hc' rfl
  intro op hop
  rcases List.mem_append.1 hop with h | h
  · exact hops op h
  · simp only [List.mem_singleton] at h
    rw [h]; exact fun _ h => by cases h

/-- **C96.** After the import, fits with the default configuration of either `train` use Adam and no callbacks. -/
theorem C96_start (c : ℕ) (hc : c < 2) : usedAfter World.init [] .plain c = some ⟨.adam, []⟩ ∧
    (usedAfter World.init [] .sampler c).map (·.opt) = some (.integrator 0) := by
  interval_cases c <;> exact ⟨rfl, rfl⟩

/-- **C96, negation.** The two `train` methods have a configuration each, but one optimizer: after a sampler is fitted with the default
configuration of one, MAP with the default configuration of the other does not use Adam. -/
theorem C96_two_defaults_false (ops : List Op) (hops : ∀ op ∈ ops, ∀ c, op ≠ .fit .sampler c) (cf : Conf)
    (hcf : (run World.init (.fit .sampler 0 :: ops)).confs[1]? = some cf) (h0 : cf.opt = 0) :
    (usedAfter World.init (.fit .sampler 0 :: ops) .plain 1).map (·.opt) = some (.integrator 0) := by
  rw [C96_leak_false World.init 0 0 none rfl (by decide) ops hops 1 cf hcf h0]
  rfl

theorem fits_le (w : World) (ops : List Op) : w.fits ≤ (run w ops).fits := by
  induction ops generalizing w with
  | nil => exact le_rfl
  | cons op ops ih =>
    refine le_trans ?_ (ih _)
    cases op with
    | newOpt m => exact le_rfl
    | newConf o l => exact le_rfl
    | fit m c =>
      simp only [step, fitStep]
      split
      · exact le_rfl
      · cases m <;> exact Nat.le_succ _

/-- **C96.** No two fits of samplers share an integrator, even with the same configuration: each fit makes its own. -/
theorem C96_fresh (w : World) (a b : List Op) (c c' : ℕ) (u v : Used) (hu : usedAfter w a .sampler c = some u)
    (hv : usedAfter w (a ++ .fit .sampler c :: b) .sampler c' = some v) : u.opt ≠ v.opt := by
  rw [usedAfter, run_append] at hv
  simp only [usedAfter] at hu
  set w1 := run w a with hw1
  simp only [fitStep] at hu
  have hu' : u.opt = .integrator w1.fits := by
    split at hu
    · cases hu
    · obtain rfl := Option.some.inj hu; rfl
  have hc : ∃ cf, w1.confs[c]? = some cf := by
    cases h : w1.confs[c]? with
    | none => rw [h] at hu; cases hu
    | some cf => exact ⟨cf, rfl⟩
  obtain ⟨cf, hcf⟩ := hc
  have hle : w1.fits + 1 ≤ (run w1 (.fit .sampler c :: b)).fits := by
    have : (step w1 (.fit .sampler c)).1.fits = w1.fits + 1 := by simp [step, fitStep, hcf]
    rw [← this]
    exact fits_le _ b
  have hv' : v.opt = .integrator (run w1 (.fit .sampler c :: b)).fits := by
    simp only [fitStep] at hv
    split at hv
    · cases hv
    · obtain rfl := Option.some.inj hv; rfl
  rw [hu', hv']
  intro h
  injection h with h
  omega

example : (run World.init [.fit .sampler 0, .newConf none none]).confs[1]? = some ⟨0, none⟩ ∧
    usedAfter World.init [.fit .sampler 0, .newConf none none] .sampler 1 = some ⟨.integrator 1, [.sampling 1]⟩ := by decide

/-! ### Callbacks of SNGP -/

/-- **C96, negation.** Every fit of SNGP leaves one more reset callback in the configuration it is given; a later fit with that
configuration, of whatever model, runs them all. -/
theorem C96_resets (w : World) (c o : ℕ) (cbs : Option (List Cb)) (hc : w.confs[c]? = some ⟨o, cbs⟩) (ops : List Op) :
    ∃ u, usedAfter w ops .plain c = some u ∧
      u.cbs = cbs.getD [] ++ List.replicate (ops.count (.fit .sngp c)) .reset := by
  have : ∃ l, (run w ops).confs[c]? = some ⟨o, l⟩ ∧
      l.getD [] = cbs.getD [] ++ List.replicate (ops.count (.fit .sngp c)) .reset := by
    induction ops generalizing w cbs with
    | nil => exact ⟨cbs, hc, by simp⟩
    | cons op ops ih =>
      have hcl : c < w.confs.length := (List.getElem?_eq_some_iff.1 hc).1
      have hstep : ∃ l, (step w op).1.confs[c]? = some ⟨o, l⟩ ∧
          l.getD [] = cbs.getD [] ++ List.replicate (if op = .fit .sngp c then 1 else 0) .reset := by
        cases op with
        | newOpt m' => exact ⟨cbs, hc, by simp⟩
        | newConf o' l' => exact ⟨cbs, by simp only [step]; rw [List.getElem?_append_left hcl]; exact hc, by simp⟩
        | fit m' c' =>
          simp only [step, fitStep]
          cases hcf : w.confs[c']? with
          | none =>
            refine ⟨cbs, hc, ?_⟩
            rw [if_neg]
            · simp
            · rintro heq
              injection heq with _ h2
              rw [h2, hc] at hcf
              cases hcf
          | some cf =>
            cases m' with
            | plain => exact ⟨cbs, hc, by simp⟩
            | sampler => exact ⟨cbs, hc, by simp⟩
            | sngp =>
              rcases eq_or_ne c' c with rfl | hn
              · rw [hc] at hcf
                obtain rfl := Option.some.inj hcf
                refine ⟨_, List.getElem?_set_self hcl, ?_⟩
                cases cbs <;> simp
              · exact ⟨cbs, by simp only; rw [List.getElem?_set_ne hn]; exact hc, by simp [hn]⟩
      obtain ⟨l, hl, hl'⟩ := hstep
      obtain ⟨l2, h2, h2'⟩ := ih (step w op).1 l hl
      refine ⟨l2, h2, ?_⟩
      rw [h2', hl', List.append_assoc, List.replicate_append_replicate, List.count_cons, add_comm]
      simp only [beq_iff_eq]
  obtain ⟨l, hl, hl'⟩ := this
  exact ⟨⟨(run w ops).opts.getD o .adam, l.getD []⟩, by simp only [usedAfter, fitStep, hl], hl'⟩

/-! ### What an integrator does as optimizer of MAP -/

/-- **C96.** MAP adds the method's update computed from the gradient of the loss. The first update of an integrator of SGHMC with
the identity preconditioner is, apart from the noise, the gradient times the step size: the loss goes up to first order where a
method of descent takes it down. -/
theorem C96_ascent {ι : Type} [Fintype ι] (decay : ℝ) (sch : ℕ → ℝ) (key : Key) (g : ι → ℝ) (hh : 0 < sch 0)
    (hg : ∃ i, g i ≠ 0) :
    0 < ∑ i, g i * (sghmcUpdate (identityPrecond ι) decay none sch (fun _ _ => 0) g (sghmcInit (identityPrecond ι) key)).1 i := by
  obtain ⟨j, hj⟩ := hg
  have hterm : ∀ i, g i * (sghmcUpdate (identityPrecond ι) decay none sch (fun _ _ => 0) g
      (sghmcInit (identityPrecond ι) key)).1 i = sch 0 * g i ^ 2 := by
    intro i
    simp only [sghmcUpdate, sghmcInit, identityPrecond, mul_zero, zero_mul, zero_add, add_zero]
    have := Real.mul_self_sqrt hh.le
    calc g i * (g i * Real.sqrt (sch 0) * Real.sqrt (sch 0))
        = (Real.sqrt (sch 0) * Real.sqrt (sch 0)) * g i ^ 2 := by ring
      _ = sch 0 * g i ^ 2 := by rw [this]
  rw [Finset.sum_congr rfl fun i _ => hterm i]
  refine Finset.sum_pos' (fun i _ => by positivity) ⟨j, Finset.mem_univ _, ?_⟩
  have := sq_nonneg (g j)
  positivity

/-! ### Random generators -/

/-- Every reference is to an object that exists. -/
structure RWF (r : Rngs) : Prop where
  len : r.models.length = r.keys.length
  ref : ∀ p g : ℕ, r.priors[p]? = some (some g) → g < r.keys.length

theorem drawFrom_fields (r : Rngs) (g : ℕ) :
    (drawFrom r g).1.models = r.models ∧ (drawFrom r g).1.priors = r.priors ∧
      (drawFrom r g).1.keys.length = r.keys.length := by
  unfold drawFrom
  split <;> simp

theorem rwf_step (r : Rngs) (h : RWF r) (op : ROp) : RWF (rstep r op).1 := by
  have hd : ∀ g, RWF (drawFrom r g).1 := by
    intro g
    obtain ⟨h1, h2, h3⟩ := drawFrom_fields r g
    exact ⟨by rw [h1, h3]; exact h.len, fun p g' hp => by rw [h3]; rw [h2] at hp; exact h.ref p g' hp⟩
  cases op with
  | newPrior =>
    refine ⟨h.len, fun p g hp => ?_⟩
    simp only [rstep] at hp
    rcases lt_or_ge p r.priors.length with hlt | hge
    · rw [List.getElem?_append_left hlt] at hp; exact h.ref p g hp
    · rw [List.getElem?_append_right hge, List.getElem?_singleton] at hp
      split at hp <;> cases hp
  | newModel seed p =>
    refine ⟨by simp [rstep, h.len], fun p' g hp => ?_⟩
    simp only [rstep, List.length_append, List.length_singleton] at hp ⊢
    rcases eq_or_ne (p.getD 0) p' with heq | hn
    · rw [heq] at hp
      rw [List.getElem?_set] at hp
      simp only [if_true] at hp
      split at hp
      · cases hp; omega
      · cases hp
    · rw [List.getElem?_set_ne hn] at hp
      have := h.ref p' g hp
      omega
  | draw m => exact hd m
  | priorSample m =>
    simp only [rstep]
    split
    · exact h
    · split
      · exact h
      · exact hd _

theorem rwf_run (ops : List ROp) : RWF (rrun Rngs.init ops) := by
  have : ∀ r, RWF r → RWF (rrun r ops) := by
    induction ops with
    | nil => exact fun r h => h
    | cons op ops ih => exact fun r h => ih _ (rwf_step r h op)
  refine this _ ⟨rfl, fun p g hp => ?_⟩
  simp only [Rngs.init, List.getElem?_singleton] at hp
  split at hp <;> cases hp

/-- Model `m` has prior `p`, which no other model has, and its generator is at `k`. -/
structure ROwn (r : Rngs) (m p : ℕ) (k : Key) : Prop where
  wf : RWF r
  model : r.models[m]? = some p
  prior : r.priors[p]? = some (some m)
  key : r.keys[m]? = some k
  only : ∀ m' : ℕ, r.models[m']? = some p → m' = m
  others : ∀ p' : ℕ, r.priors[p']? = some (some m) → p' = p

/-- Specification: the draws of model `m`. -/
def isDraw (m : ℕ) (op : ROp) : Bool := op = .draw m ∨ op = .priorSample m

theorem own_drawFrom {r : Rngs} {m p : ℕ} {k : Key} (h : ROwn r m p k) (g : ℕ) :
    ROwn (drawFrom r g).1 m p (if g = m then .left k else k) := by
  obtain ⟨h1, h2, h3⟩ := drawFrom_fields r g
  have hml : m < r.keys.length := (List.getElem?_eq_some_iff.1 h.key).1
  refine ⟨⟨by rw [h1, h3]; exact h.wf.len, fun p' g' hp => by rw [h3]; rw [h2] at hp; exact h.wf.ref p' g' hp⟩,
    by rw [h1]; exact h.model, by rw [h2]; exact h.prior, ?_, by rw [h1]; exact h.only, by rw [h2]; exact h.others⟩
  unfold drawFrom
  rcases eq_or_ne g m with rfl | hn
  · rw [h.key]
    simp only [if_true]
    rw [List.getElem?_set_self hml]
    rfl
  · rw [if_neg hn]
    split
    · exact h.key
    · simp only
      rw [List.getElem?_set_ne hn]
      exact h.key

theorem own_step {r : Rngs} {m p : ℕ} {k : Key} (hp0 : p ≠ 0) (h : ROwn r m p k) (op : ROp)
    (hop : ∀ s, op ≠ .newModel s (some p)) : ROwn (rstep r op).1 m p (if isDraw m op then .left k else k) := by
  have hml : m < r.keys.length := (List.getElem?_eq_some_iff.1 h.key).1
  have hmm : m < r.models.length := (List.getElem?_eq_some_iff.1 h.model).1
  have hpl : p < r.priors.length := (List.getElem?_eq_some_iff.1 h.prior).1
  cases op with
  | newPrior =>
    simp only [isDraw, reduceCtorEq, or_self, decide_false, Bool.false_eq_true, if_false]
    refine ⟨rwf_step r h.wf _, h.model, by simp only [rstep]; rw [List.getElem?_append_left hpl]; exact h.prior, h.key,
      h.only, fun p' hp' => ?_⟩
    simp only [rstep] at hp'
    rcases lt_or_ge p' r.priors.length with hlt | hge
    · rw [List.getElem?_append_left hlt] at hp'; exact h.others p' hp'
    · rw [List.getElem?_append_right hge, List.getElem?_singleton] at hp'
      split at hp' <;> cases hp'
  | newModel s q =>
    have hq : q.getD 0 ≠ p := by
      cases q with
      | none => exact fun h => hp0 h.symm
      | some q => exact fun hqp => hop s (by rw [show q = p from hqp])
    simp only [isDraw, reduceCtorEq, or_self, decide_false, Bool.false_eq_true, if_false]
    refine ⟨rwf_step r h.wf _, by simp only [rstep]; rw [List.getElem?_append_left hmm]; exact h.model,
      by simp only [rstep]; rw [List.getElem?_set_ne hq]; exact h.prior,
      by simp only [rstep]; rw [List.getElem?_append_left hml]; exact h.key, fun m' hm' => ?_, fun p' hp' => ?_⟩
    · simp only [rstep] at hm'
      rcases lt_or_ge m' r.models.length with hlt | hge
      · rw [List.getElem?_append_left hlt] at hm'; exact h.only m' hm'
      · rw [List.getElem?_append_right hge, List.getElem?_singleton] at hm'
        split at hm'
        · exact absurd (Option.some.inj hm') hq
        · cases hm'
    · simp only [rstep] at hp'
      rcases eq_or_ne (q.getD 0) p' with heq | hn
      · rw [heq, List.getElem?_set] at hp'
        simp only [if_true] at hp'
        split at hp'
        · have : r.keys.length = m := by injection hp' with h1; injection h1
          omega
        · cases hp'
      · rw [List.getElem?_set_ne hn] at hp'
        exact h.others p' hp'
  | draw m' =>
    have := own_drawFrom h m'
    simpa [isDraw, rstep] using this
  | priorSample m' =>
    rcases eq_or_ne m' m with rfl | hn
    · have := own_drawFrom h m'
      simp only [rstep, h.model, List.getD_eq_getElem?_getD, h.prior, Option.getD_some]
      simpa [isDraw] using this
    · have hd : isDraw m (.priorSample m') = false := by simp [isDraw, hn]
      rw [hd]
      simp only [rstep]
      split
      · exact h
      · next p' hp' =>
        split
        · exact h
        · next g hg =>
          have hgm : g ≠ m := by
            rintro rfl
            have hg' : r.priors[p']? = some (some g) := by
              rw [List.getD_eq_getElem?_getD] at hg
              cases hx : r.priors[p']? with
              | none => rw [hx] at hg; cases hg
              | some y => rw [hx] at hg; simp only [Option.getD_some] at hg; rw [hg]
            have := h.others p' hg'
            rw [this] at hp'
            exact hn (h.only m' hp')
          have := own_drawFrom h g
          rw [if_neg hgm] at this
          exact this

/-- **C96.** A model made with a prior of its own draws the keys fixed by its seed, one after the other, whatever other models
are made and used in between. -/
theorem C96_rng_private (hist ops : List ROp) (seed p : ℕ) (hp0 : p ≠ 0) (hp : p < (rrun Rngs.init hist).priors.length)
    (hfree : ∀ m' : ℕ, (rrun Rngs.init hist).models[m']? ≠ some p) (hops : ∀ op ∈ ops, ∀ s, op ≠ .newModel s (some p)) :
    let m := (rrun Rngs.init hist).models.length
    (rrun Rngs.init (hist ++ .newModel seed (some p) :: ops)).keys[m]? =
      some (Key.left^[ops.countP (isDraw m)] (.seed seed)) := by
  intro m
  set r := rrun Rngs.init hist with hr
  have hwf : RWF r := rwf_run hist
  have hown : ROwn (rstep r (.newModel seed (some p))).1 m p (.seed seed) := by
    refine ⟨rwf_step r hwf _, by simp [rstep, m, ← hr], ?_, ?_, fun m' hm' => ?_, fun p' hp' => ?_⟩
    · simp only [rstep, Option.getD_some]
      rw [List.getElem?_set_self hp, ← hwf.len]
    · simp only [rstep]
      rw [show m = r.keys.length from hwf.len, List.getElem?_append_right le_rfl]
      simp
    · simp only [rstep] at hm'
      rcases lt_or_ge m' r.models.length with hlt | hge
      · rw [List.getElem?_append_left hlt] at hm'; exact absurd hm' (hfree m')
      · rw [List.getElem?_append_right hge, List.getElem?_singleton] at hm'
        split at hm'
        · have : m = r.models.length := rfl
          omega
        · cases hm'
    · simp only [rstep, Option.getD_some] at hp'
      by_contra hne
      rw [List.getElem?_set_ne (fun h => hne h.symm)] at hp'
      have := hwf.ref p' m hp'
      have : m = r.keys.length := hwf.len
      omega
  have hall : ∀ (ops : List ROp) (r : Rngs) (k : Key), ROwn r m p k → (∀ op ∈ ops, ∀ s, op ≠ .newModel s (some p)) →
      (rrun r ops).keys[m]? = some (Key.left^[ops.countP (isDraw m)] k) := by
    intro ops
    induction ops with
    | nil => exact fun r k h _ => h.key
    | cons op ops ih =>
      intro r k h hops
      have h1 := own_step hp0 h op (hops op (by simp))
      have h2 := ih _ _ h1 fun op' h' => hops op' (by simp [h'])
      show (rrun (rstep r op).1 ops).keys[m]? = _
      rw [h2, List.countP_cons]
      cases hd : isDraw m op
      · simp
      · simp only [if_true]
        rw [Function.iterate_succ_apply]
  have hsplit : rrun Rngs.init (hist ++ .newModel seed (some p) :: ops) = rrun (rstep r (.newModel seed (some p))).1 ops := by
    rw [hr]; unfold rrun; rw [List.foldl_append]; rfl
  rw [hsplit]
  exact hall ops _ _ hown hops

/-- **C96, negation.** Models made without a prior share one: sampling the prior of the first model after making a second draws
from the generator of the second, and changes all its later draws. -/
theorem C96_rng_default_false (s t : ℕ) :
    (rstep (rrun Rngs.init [.newModel s none, .newModel t none]) (.priorSample 0)).2 = some (.left (.seed t)) ∧
    (rrun Rngs.init [.newModel s none, .newModel t none, .priorSample 0]).keys = [.seed s, .left (.seed t)] := by
  constructor <;> rfl

-- Adam is replaced by the integrator of the sampler in a configuration made afterwards
example : usedAfter World.init [.newConf none none, .fit .sampler 2, .newConf none (some [.user 7])] .plain 3 =
    some ⟨.integrator 0, [.user 7]⟩ := by decide

-- a configuration with its own optimizer is not affected
theorem exPrivate : Private (run World.init [.newOpt (.user 1), .newConf (some 1) none]) 2 1 (.user 1) none ∧
    usedAfter (run World.init [.newOpt (.user 1), .newConf (some 1) none]) [.newConf none none, .fit .sampler 3, .fit .sngp 0]
      .plain 2 = some ⟨.user 1, []⟩ := by
  refine ⟨⟨by decide, by decide, fun c' cf h1 h2 => ?_⟩, by decide⟩
  have hlt := (List.getElem?_eq_some_iff.1 h1).1
  have : (run World.init [.newOpt (.user 1), .newConf (some 1) none]).confs.length = 3 := by decide
  rw [this] at hlt
  interval_cases c'
  · cases h1; cases h2
  · cases h1; cases h2
  · rfl

-- two fits of SNGP with one configuration, then one of MAP
example : usedAfter World.init [.newConf none (some [.user 7]), .fit .sngp 2, .fit .sngp 2] .plain 2 =
    some ⟨.adam, [.user 7, .reset, .reset]⟩ := by decide

-- two models with their own priors: the first draws twice, the second once
example : (rrun Rngs.init [.newPrior, .newPrior, .newModel 5 (some 1), .newModel 6 (some 2), .draw 0, .priorSample 0, .draw 1]).keys =
    [.left (.left (.seed 5)), .left (.seed 6)] := by decide

/-! ### Concrete cases that meet the hypotheses of the theorems above -/

example := C96_private _ 2 1 _ none (by norm_num) exPrivate.1 [.newConf none none, .fit .sampler 3, .fit .sngp 0] (by simp)
example := C96_sampler_ignores World.init [.fit .plain 1] 0 ⟨.integrator 1, [.sampling 1]⟩ (by decide)
example := C96_leak_false World.init 0 0 none rfl (by decide) [.newConf none none, .fit .plain 1] (by simp) 2 ⟨0, none⟩ (by decide) rfl
example := C96_default_false World.init 0 none (some [.user 7]) rfl (by decide) [.fit .plain 1] (by simp)
example := C96_start 1 (by norm_num)
example := C96_two_defaults_false [.newConf none none, .fit .plain 1] (by simp) ⟨0, none⟩ (by decide) rfl
example := C96_resets World.init 1 0 none rfl [.fit .sngp 1, .fit .plain 0, .fit .sngp 1]
example := C96_ascent (1 / 10) (fun _ => 1 / 100) (.seed 3) ![0, 2] (by norm_num) ⟨1, by norm_num⟩
example := C96_rng_private [.newPrior, .newPrior, .newModel 5 (some 1)] [.draw 0, .draw 1, .priorSample 1] 6 2 (by norm_num) (by decide)
  (fun m' h => by
    have : (rrun Rngs.init [.newPrior, .newPrior, .newModel 5 (some 1)]).models = [1] := by decide
    rw [this] at h
    match m' with
    | 0 => simp at h
    | n + 1 => simp at h) (by simp)

end Verif.Props
