import Verif.Model.EnsembleTemp
import Verif.Props.ProbModel
import Verif.Props.TempLaw
import Mathlib.Analysis.SpecialFunctions.Log.Basic
import Mathlib.Analysis.SpecialFunctions.ExpDeriv
import Mathlib.Analysis.Calculus.LocalExtr.Basic
import Mathlib.Topology.Order.Compact

/-!
# C148: which temperature the calibration of an ensemble looks for
-/

set_option linter.unusedSectionVars false

namespace Verif.Props.EnsembleTemp

open Verif.ProbModel Verif.Likelihood Verif.OutputLayer Verif.EnsembleTemp Verif.Props.ProbModel

/-! ## Any calibrator -/

theorem logMeanExp_lt {A : Type} (l : List A) (hl : l ≠ []) (f g : A → ℝ) (h : ∀ x ∈ l, f x < g x) :
    logMeanExp (l.map f) < logMeanExp (l.map g) := by
  rw [← Real.exp_lt_exp, exp_logMeanExp _ (by simpa using hl), exp_logMeanExp _ (by simpa using hl)]
  rw [List.length_map, List.length_map, List.map_map, List.map_map]
  have hlen : (0 : ℝ) < l.length := by exact_mod_cast List.length_pos_iff.mpr hl
  apply div_lt_div_of_pos_right _ hlen
  apply List.sum_lt_sum_of_ne_nil hl
  intro x hx
  exact Real.exp_lt_exp.mpr (h x hx)

section any
variable {O CM P : Type}

/-- **C148, the best member.** The objective of calibration is never above the weighted log-likelihood of the best member of the ensemble
and at most `log S` below it, for any calibrator and calibration parameters: for many data points, the objective per data point is that of
the best single member. -/
theorem C148_best_member (cal : Option (P → Bool → Option CM → O → O × CM)) (ll : O → List ℝ) (n : ℕ)
    (ensemble : List O) (stored : Option P × Option (CalibVal CM)) (p : P) (m : Option CM)
    (hcal : cal = none → m = none) (hne : ensemble ≠ []) (hll : ∀ o ∈ ensemble, ll (calibrated cal p m o) ≠ []) :
    ∃ v, predJoint cal ll n ensemble stored (some p) (m.map .frozen) = .ok v ∧
      (∀ o ∈ ensemble, weighted n (ll (calibrated cal p m o)) - Real.log ensemble.length ≤ v) ∧
      ∃ o ∈ ensemble, v ≤ weighted n (ll (calibrated cal p m o)) := by
  obtain ⟨v, hv, hle, -, -⟩ := C89_objective_range cal ll n ensemble stored p m hcal hne hll
  refine ⟨v, hv, ?_, ?_⟩
  · intro o ho
    rw [predJoint_ok cal ll n ensemble stored p m hcal hne hll] at hv
    have hv' := Except.ok.inj hv
    have hlen : (0 : ℝ) < ensemble.length := by exact_mod_cast List.length_pos_iff.mpr hne
    rw [← hv', ← Real.exp_le_exp, exp_logMeanExp _ (by simpa using hne), Real.exp_sub, Real.exp_log hlen, List.length_map, List.map_map]
    apply div_le_div_of_nonneg_right _ hlen.le
    apply List.single_le_sum
    · intro z hz
      obtain ⟨w, -, rfl⟩ := List.mem_map.mp hz
      exact (Real.exp_pos _).le
    · exact List.mem_map.mpr ⟨o, ho, rfl⟩
  · by_contra hcon
    push Not at hcon
    rw [predJoint_ok cal ll n ensemble stored p m hcal hne hll] at hv
    have hv' := Except.ok.inj hv
    have h1 := logMeanExp_lt ensemble hne (fun o => weighted n (ll (calibrated cal p m o))) (fun _ => v) hcon
    rw [hv'] at h1
    have h2 : logMeanExp (ensemble.map fun _ => v) = v := by
      rw [← Real.exp_eq_exp, exp_logMeanExp _ (by simpa using hne)]
      have hlen : (0 : ℝ) < ensemble.length := by exact_mod_cast List.length_pos_iff.mpr hne
      simp only [List.map_const', List.map_replicate, List.sum_replicate, List.length_replicate, nsmul_eq_mul]
      field_simp
    rw [h2] at h1
    exact lt_irrefl _ h1

/-- **C148, agreement of the members.** Calibration parameters under which every member has a larger likelihood have the larger
objective. -/
theorem C148_pareto (cal : Option (P → Bool → Option CM → O → O × CM)) (ll : O → List ℝ) (n : ℕ)
    (ensemble : List O) (stored : Option P × Option (CalibVal CM)) (p p' : P) (m m' : Option CM)
    (hcal : cal = none → m = none ∧ m' = none) (hne : ensemble ≠ []) (hll : ∀ o ∈ ensemble, ll (calibrated cal p m o) ≠ [])
    (hll' : ∀ o ∈ ensemble, ll (calibrated cal p' m' o) ≠ [])
    (h : ∀ o ∈ ensemble, weighted n (ll (calibrated cal p m o)) < weighted n (ll (calibrated cal p' m' o))) :
    ∃ v v', predJoint cal ll n ensemble stored (some p) (m.map .frozen) = .ok v ∧
      predJoint cal ll n ensemble stored (some p') (m'.map .frozen) = .ok v' ∧ v < v' :=
  ⟨_, _, predJoint_ok cal ll n ensemble stored p m (fun h => (hcal h).1) hne hll,
    predJoint_ok cal ll n ensemble stored p' m' (fun h => (hcal h).2) hne hll', logMeanExp_lt _ hne _ _ h⟩

end any

/-! ## Regression -/

section regression
variable {d : ℕ}

/-- The mean squared standardised residual of a member on some targets: over all rows and dimensions, `(y - mean)² / variance`. -/
noncomputable def msr (ys : List (Fin d → ℝ)) (os : List ((Fin d → ℝ) × (Fin d → ℝ))) : ℝ :=
  (List.zipWith (fun o y => ∑ i, (y i - o.1 i) ^ 2 / Real.exp (o.2 i)) os ys).sum / (ys.length * d)

theorem rows_sum (φ : ℝ) (ys : List (Fin d → ℝ)) (os : List ((Fin d → ℝ) × (Fin d → ℝ))) (h : os.length = ys.length) :
    (regRows ys (os.map (scaleVar φ))).sum = -(1 / 2) * (Real.exp (-φ) * (List.zipWith (fun o y =>
        ∑ i, (y i - o.1 i) ^ 2 / Real.exp (o.2 i)) os ys).sum + (ys.length * d) * φ +
      (os.map fun o => ∑ i, (o.2 i + Real.log (2 * Real.pi))).sum) := by
  unfold regRows
  induction os generalizing ys with
  | nil =>
    have : ys = [] := List.length_eq_zero_iff.mp h.symm
    subst this
    simp
  | cons o os ih =>
    cases ys with
    | nil => simp at h
    | cons y ys =>
      simp only [List.map_cons, List.zipWith_cons_cons, List.sum_cons, List.length_cons]
      rw [ih ys (by simpa using h)]
      have : regLogProb (scaleVar φ o).1 (scaleVar φ o).2 y = -(1 / 2) * (Real.exp (-φ) * ∑ i, (y i - o.1 i) ^ 2 / Real.exp (o.2 i) +
          d * φ + ∑ i, (o.2 i + Real.log (2 * Real.pi))) := by
        unfold regLogProb scaleVar
        congr 1
        simp only
        have h3 : ∀ i : Fin d, Real.exp (-(o.2 i + φ)) * (y i - o.1 i) ^ 2 + (o.2 i + φ) + Real.log (2 * Real.pi) =
            Real.exp (-φ) * ((y i - o.1 i) ^ 2 / Real.exp (o.2 i)) + φ + (o.2 i + Real.log (2 * Real.pi)) := by
          intro i
          rw [neg_add, Real.exp_add, Real.exp_neg (o.2 i)]
          field_simp
          ring
        simp only [h3, Finset.sum_add_distrib, Finset.mul_sum, Finset.sum_const, Finset.card_univ, Fintype.card_fin, nsmul_eq_mul]
      rw [this]
      push_cast
      ring

/-- The rest of a member's log-likelihood, which does not depend on the temperature. -/
noncomputable def rest (os : List ((Fin d → ℝ) × (Fin d → ℝ))) : ℝ := (os.map fun o => ∑ i, (o.2 i + Real.log (2 * Real.pi))).sum

/-- The log-likelihood of a member at log-temperature `φ`, weighted. -/
noncomputable def member (n : ℕ) (ys : List (Fin d → ℝ)) (φ : ℝ) (os : List ((Fin d → ℝ) × (Fin d → ℝ))) : ℝ :=
  -(n / ys.length / 2) * ((ys.length * d) * (msr ys os * Real.exp (-φ) + φ) + rest os)

theorem weighted_member (n : ℕ) (φ : ℝ) (ys : List (Fin d → ℝ)) (os : List ((Fin d → ℝ) × (Fin d → ℝ))) (h : os.length = ys.length)
    (hd : 0 < d) (hy : ys ≠ []) :
    weighted n (regRows ys (os.map (scaleVar φ))) = member n ys φ os := by
  unfold weighted member msr rest
  rw [rows_sum φ ys os h]
  have hl : (regRows ys (os.map (scaleVar φ))).length = ys.length := by simp [regRows, h]
  rw [hl]
  have hd' : (0 : ℝ) < d := by exact_mod_cast hd
  have hy' : (0 : ℝ) < ys.length := by exact_mod_cast List.length_pos_iff.mpr hy
  field_simp

theorem member_up (n : ℕ) (hn : 0 < n) (ys : List (Fin d → ℝ)) (hd : 0 < d) (hy : ys ≠ []) (os : List ((Fin d → ℝ) × (Fin d → ℝ)))
    (φ φ' : ℝ) (hlt : φ < φ') (h : Real.exp φ' ≤ msr ys os) : member n ys φ os < member n ys φ' os := by
  have hd' : (0 : ℝ) < d := by exact_mod_cast hd
  have hy' : (0 : ℝ) < ys.length := by exact_mod_cast List.length_pos_iff.mpr hy
  have hn' : (0 : ℝ) < n := by exact_mod_cast hn
  have key : msr ys os * Real.exp (-φ') + φ' < msr ys os * Real.exp (-φ) + φ := by
    have e1 : Real.exp (-φ) = Real.exp (-φ') * Real.exp (φ' - φ) := by rw [← Real.exp_add]; congr 1; ring
    have e2 : φ' - φ + 1 < Real.exp (φ' - φ) := Real.add_one_lt_exp (by linarith)
    have e3 : 1 ≤ msr ys os * Real.exp (-φ') := by
      rw [Real.exp_neg, ← div_eq_mul_inv, le_div_iff₀ (Real.exp_pos _)]
      linarith
    rw [e1]
    nlinarith
  unfold member
  have : 0 < (n : ℝ) / ys.length / 2 := by positivity
  nlinarith [mul_pos this (mul_pos (mul_pos hy' hd') (sub_pos.mpr key))]

theorem member_down (n : ℕ) (hn : 0 < n) (ys : List (Fin d → ℝ)) (hd : 0 < d) (hy : ys ≠ []) (os : List ((Fin d → ℝ) × (Fin d → ℝ)))
    (φ φ' : ℝ) (hlt : φ < φ') (h : msr ys os ≤ Real.exp φ) : member n ys φ' os < member n ys φ os := by
  have hd' : (0 : ℝ) < d := by exact_mod_cast hd
  have hy' : (0 : ℝ) < ys.length := by exact_mod_cast List.length_pos_iff.mpr hy
  have hn' : (0 : ℝ) < n := by exact_mod_cast hn
  have key : msr ys os * Real.exp (-φ) + φ < msr ys os * Real.exp (-φ') + φ' := by
    have e1 : Real.exp (-φ') = Real.exp (-φ) * Real.exp (φ - φ') := by rw [← Real.exp_add]; congr 1; ring
    have e2 : φ - φ' + 1 < Real.exp (φ - φ') := Real.add_one_lt_exp (by linarith)
    have e4 : Real.exp (φ - φ') < 1 := by rw [Real.exp_lt_one_iff]; linarith
    have e3 : msr ys os * Real.exp (-φ) ≤ 1 := by
      rw [Real.exp_neg, ← div_eq_mul_inv, div_le_iff₀ (Real.exp_pos _)]
      linarith
    rw [e1]
    nlinarith
  unfold member
  have : 0 < (n : ℝ) / ys.length / 2 := by positivity
  nlinarith [mul_pos this (mul_pos (mul_pos hy' hd') (sub_pos.mpr key))]

theorem exists_least {A : Type} (f : A → ℝ) (l : List A) (hl : l ≠ []) : ∃ x ∈ l, ∀ y ∈ l, f x ≤ f y := by
  induction l with
  | nil => exact absurd rfl hl
  | cons a t ih =>
    by_cases ht : t = []
    · subst ht
      exact ⟨a, by simp, by simp⟩
    · obtain ⟨x, hx, h⟩ := ih ht
      by_cases hax : f a ≤ f x
      · refine ⟨a, by simp, ?_⟩
        intro y hy
        rcases List.mem_cons.mp hy with rfl | hy
        · exact le_refl _
        · exact hax.trans (h y hy)
      · refine ⟨x, by simp [hx], ?_⟩
        intro y hy
        rcases List.mem_cons.mp hy with rfl | hy
        · exact (not_le.mp hax).le
        · exact h y hy

/-- The objective as a function of the log-temperature. -/
noncomputable def J (n : ℕ) (ys : List (Fin d → ℝ)) (ensemble : List (List ((Fin d → ℝ) × (Fin d → ℝ)))) (φ : ℝ) : ℝ :=
  logMeanExp (ensemble.map (member n ys φ))

theorem predJoint_J (n : ℕ) (ys : List (Fin d → ℝ)) (ensemble : List (List ((Fin d → ℝ) × (Fin d → ℝ))))
    (stored : Option ℝ × Option (CalibVal Unit)) (hd : 0 < d) (hy : ys ≠ []) (hne : ensemble ≠ [])
    (hlen : ∀ os ∈ ensemble, os.length = ys.length) (φ : ℝ) :
    predJoint (some tempCal) (regRows ys) n ensemble stored (some φ) none = .ok (J n ys ensemble φ) := by
  have hcal : ∀ os, calibrated (some (tempCal (d := d))) φ none os = os.map (scaleVar φ) := fun _ => rfl
  have := predJoint_ok (some (tempCal (d := d))) (regRows ys) n ensemble stored φ none (by simp) hne (by
    intro os ho h
    rw [hcal] at h
    have h2 : (regRows ys (os.map (scaleVar φ))).length = ys.length := by simp [regRows, hlen os ho]
    rw [h] at h2
    exact hy (List.length_eq_zero_iff.mp h2.symm))
  rw [show (none : Option (CalibVal Unit)) = (none : Option Unit).map .frozen from rfl, this]
  unfold J
  congr 2
  apply List.map_congr_left
  intro os ho
  rw [hcal, weighted_member n φ ys os (hlen os ho) hd hy]

/-- Sums of exponentials have the derivative one expects. -/
theorem sum_deriv {A : Type} (l : List A) (f f' : A → ℝ → ℝ) (φ : ℝ) (h : ∀ x ∈ l, HasDerivAt (f x) (f' x φ) φ) :
    HasDerivAt (fun φ => (l.map fun x => Real.exp (f x φ)).sum) (l.map fun x => Real.exp (f x φ) * f' x φ).sum φ := by
  induction l with
  | nil => simpa using hasDerivAt_const φ (0 : ℝ)
  | cons a t ih =>
    simp only [List.map_cons, List.sum_cons]
    exact (h a (by simp)).exp.add (ih fun x hx => h x (by simp [hx]))

theorem member_deriv (n : ℕ) (ys : List (Fin d → ℝ)) (os : List ((Fin d → ℝ) × (Fin d → ℝ))) (φ : ℝ) :
    HasDerivAt (fun φ => member n ys φ os) (-(n / ys.length / 2) * ((ys.length * d) * (1 - msr ys os * Real.exp (-φ)))) φ := by
  unfold member
  have h1 : HasDerivAt (fun φ : ℝ => Real.exp (-φ)) (-Real.exp (-φ)) φ := by
    have := (hasDerivAt_neg φ).exp
    simpa using this
  have h2 := ((((h1.const_mul (msr ys os)).add (hasDerivAt_id φ)).const_mul ((ys.length : ℝ) * d)).add_const (rest os)).const_mul
    (-((n : ℝ) / ys.length / 2))
  refine h2.congr_deriv ?_
  ring

/-- **C148, regression.** Let `r` of a member be its mean squared standardised residual on the calibration data. The objective of
`ProbRegressor.calibrate` on an ensemble of outputs is strictly increasing in the log-temperature while the temperature is below the
residuals of all members, and strictly decreasing above all of them. If no member fits the data perfectly there is a best temperature;
every best temperature lies between the smallest and the largest residual, and is the mean of the residuals weighted by the likelihood
of all the data under each member. -/
theorem C148_regression (n : ℕ) (hn : 0 < n) (ys : List (Fin d → ℝ)) (ensemble : List (List ((Fin d → ℝ) × (Fin d → ℝ))))
    (stored : Option ℝ × Option (CalibVal Unit)) (hd : 0 < d) (hy : ys ≠ []) (hne : ensemble ≠ [])
    (hlen : ∀ os ∈ ensemble, os.length = ys.length) :
    ∃ obj : ℝ → ℝ, (∀ φ, predJoint (some tempCal) (regRows ys) n ensemble stored (some φ) none = .ok (obj φ)) ∧
      (∀ φ φ', φ < φ' → (∀ os ∈ ensemble, Real.exp φ' ≤ msr ys os) → obj φ < obj φ') ∧
      (∀ φ φ', φ < φ' → (∀ os ∈ ensemble, msr ys os ≤ Real.exp φ) → obj φ' < obj φ) ∧
      ((∀ os ∈ ensemble, 0 < msr ys os) → ∃ φ, ∀ φ', obj φ' ≤ obj φ) ∧
      ∀ φ, (∀ φ', obj φ' ≤ obj φ) →
        (∃ os ∈ ensemble, msr ys os ≤ Real.exp φ) ∧ (∃ os ∈ ensemble, Real.exp φ ≤ msr ys os) ∧
        Real.exp φ = (ensemble.map fun os => Real.exp (weighted n (regRows ys (os.map (scaleVar φ)))) * msr ys os).sum /
          (ensemble.map fun os => Real.exp (weighted n (regRows ys (os.map (scaleVar φ))))).sum := by
  have hd' : (0 : ℝ) < d := by exact_mod_cast hd
  have hy' : (0 : ℝ) < ys.length := by exact_mod_cast List.length_pos_iff.mpr hy
  have hn' : (0 : ℝ) < n := by exact_mod_cast hn
  have hup : ∀ φ φ', φ < φ' → (∀ os ∈ ensemble, Real.exp φ' ≤ msr ys os) → J n ys ensemble φ < J n ys ensemble φ' :=
    fun φ φ' hlt h => logMeanExp_lt _ hne _ _ fun os ho => member_up n hn ys hd hy os φ φ' hlt (h os ho)
  have hdown : ∀ φ φ', φ < φ' → (∀ os ∈ ensemble, msr ys os ≤ Real.exp φ) → J n ys ensemble φ' < J n ys ensemble φ :=
    fun φ φ' hlt h => logMeanExp_lt _ hne _ _ fun os ho => member_down n hn ys hd hy os φ φ' hlt (h os ho)
  have hder : ∀ φ, HasDerivAt (fun φ => (ensemble.map fun os => Real.exp (member n ys φ os)).sum)
      (ensemble.map fun os => Real.exp (member n ys φ os) *
        (-(n / ys.length / 2) * ((ys.length * d) * (1 - msr ys os * Real.exp (-φ))))).sum φ :=
    fun φ => sum_deriv ensemble (fun os φ => member n ys φ os)
      (fun os φ => -(n / ys.length / 2) * ((ys.length * d) * (1 - msr ys os * Real.exp (-φ)))) φ fun os _ => member_deriv n ys os φ
  have hJ : ∀ φ, Real.exp (J n ys ensemble φ) = (ensemble.map fun os => Real.exp (member n ys φ os)).sum / ensemble.length := by
    intro φ
    unfold J
    rw [exp_logMeanExp _ (by simpa using hne), List.length_map, List.map_map]
    rfl
  have hElen : (0 : ℝ) < ensemble.length := by exact_mod_cast List.length_pos_iff.mpr hne
  refine ⟨J n ys ensemble, predJoint_J n ys ensemble stored hd hy hne hlen, hup, hdown, ?_, ?_⟩
  · intro hpos
    obtain ⟨a, ha, hmin⟩ := exists_least (msr ys) ensemble hne
    obtain ⟨b, hb, hmax⟩ := exists_least (fun os => -msr ys os) ensemble hne
    have hab : msr ys a ≤ msr ys b := hmin b hb
    have ha0 := hpos a ha
    have hb0 := hpos b hb
    have hcont : ContinuousOn (fun φ => (ensemble.map fun os => Real.exp (member n ys φ os)).sum)
        (Set.Icc (Real.log (msr ys a)) (Real.log (msr ys b))) := fun φ _ => (hder φ).continuousAt.continuousWithinAt
    obtain ⟨φ, -, hφ⟩ := isCompact_Icc.exists_isMaxOn ⟨Real.log (msr ys a), le_refl _, Real.log_le_log ha0 hab⟩ hcont
    have hin : ∀ φ' ∈ Set.Icc (Real.log (msr ys a)) (Real.log (msr ys b)), J n ys ensemble φ' ≤ J n ys ensemble φ := by
      intro φ' h'
      rw [← Real.exp_le_exp, hJ, hJ]
      exact div_le_div_of_nonneg_right (hφ h') hElen.le
    refine ⟨φ, fun φ' => ?_⟩
    rcases lt_or_ge φ' (Real.log (msr ys a)) with h1 | h1
    · refine (hup φ' _ h1 fun os ho => ?_).le.trans (hin _ ⟨le_refl _, Real.log_le_log ha0 hab⟩)
      rw [Real.exp_log ha0]
      exact hmin os ho
    · rcases le_or_gt φ' (Real.log (msr ys b)) with h2 | h2
      · exact hin _ ⟨h1, h2⟩
      · refine (hdown _ φ' h2 fun os ho => ?_).le.trans (hin _ ⟨Real.log_le_log ha0 hab, le_refl _⟩)
        rw [Real.exp_log hb0]
        have := hmax os ho
        linarith
  · intro φ hbest
    refine ⟨?_, ?_, ?_⟩
    · by_contra hcon
      push Not at hcon
      obtain ⟨a, ha, hmin⟩ := exists_least (msr ys) ensemble hne
      have ha0 : 0 < msr ys a := (Real.exp_pos φ).trans (hcon a ha)
      have := hup φ (Real.log (msr ys a)) (by rw [Real.lt_log_iff_exp_lt ha0]; exact hcon a ha) fun os ho => by
        rw [Real.exp_log ha0]; exact hmin os ho
      exact absurd (hbest _) (not_le.mpr this)
    · by_contra hcon
      push Not at hcon
      obtain ⟨b, hb, hmax⟩ := exists_least (fun os => -msr ys os) ensemble hne
      by_cases hb0 : 0 < msr ys b
      · have := hdown (Real.log (msr ys b)) φ (by rw [Real.log_lt_iff_lt_exp hb0]; exact hcon b hb) fun os ho => by
          rw [Real.exp_log hb0]; have := hmax os ho; linarith
        exact absurd (hbest _) (not_le.mpr this)
      · have := hdown (φ - 1) φ (by linarith) fun os ho => by
          have h1 := hmax os ho
          have := (Real.exp_pos (φ - 1)).le
          linarith
        exact absurd (hbest _) (not_le.mpr this)
    · have hmaxS : IsLocalMax (fun φ => (ensemble.map fun os => Real.exp (member n ys φ os)).sum) φ := by
        apply Filter.Eventually.of_forall
        intro φ'
        have := Real.exp_le_exp.mpr (hbest φ')
        rw [hJ, hJ, div_le_div_iff_of_pos_right hElen] at this
        exact this
      have h0 := hmaxS.hasDerivAt_eq_zero (hder φ)
      have hw : ∀ os ∈ ensemble, weighted n (regRows ys (os.map (scaleVar φ))) = member n ys φ os :=
        fun os ho => weighted_member n φ ys os (hlen os ho) hd hy
      have e1 : (ensemble.map fun os => Real.exp (weighted n (regRows ys (os.map (scaleVar φ)))) * msr ys os) =
          ensemble.map fun os => Real.exp (member n ys φ os) * msr ys os :=
        List.map_congr_left fun os ho => by rw [hw os ho]
      have e2 : (ensemble.map fun os => Real.exp (weighted n (regRows ys (os.map (scaleVar φ))))) =
          ensemble.map fun os => Real.exp (member n ys φ os) := List.map_congr_left fun os ho => by rw [hw os ho]
      rw [e1, e2]
      have hS : 0 < (ensemble.map fun os => Real.exp (member n ys φ os)).sum := by
        have := hJ φ
        have h2 := Real.exp_pos (J n ys ensemble φ)
        rw [this] at h2
        exact (div_pos_iff_of_pos_right hElen).mp h2
      rw [eq_div_iff hS.ne']
      have hsplit : ∀ l : List (List ((Fin d → ℝ) × (Fin d → ℝ))), (l.map fun os => Real.exp (member n ys φ os) *
          (-(n / ys.length / 2) * ((ys.length * d) * (1 - msr ys os * Real.exp (-φ))))).sum =
          -(n / ys.length / 2) * (ys.length * d) * ((l.map fun os => Real.exp (member n ys φ os)).sum -
            Real.exp (-φ) * (l.map fun os => Real.exp (member n ys φ os) * msr ys os).sum) := by
        intro l
        induction l with
        | nil => simp
        | cons a t ih =>
          simp only [List.map_cons, List.sum_cons, ih]
          ring
      rw [hsplit] at h0
      have hk : -((n : ℝ) / ys.length / 2) * (ys.length * d) ≠ 0 := by
        have : 0 < (n : ℝ) / ys.length / 2 * (ys.length * d) := by positivity
        intro h
        linarith
      rcases mul_eq_zero.mp h0 with h | h
      · exact absurd h hk
      · have he : Real.exp φ * Real.exp (-φ) = 1 := by rw [← Real.exp_add]; simp
        have h2 : (ensemble.map fun os => Real.exp (member n ys φ os)).sum =
            Real.exp (-φ) * (ensemble.map fun os => Real.exp (member n ys φ os) * msr ys os).sum := by linarith
        rw [h2, ← mul_assoc, he, one_mul]

/-- **C148, one data point.** On a single data point the objective is the predictive log-probability. -/
theorem C148_one_row (y : Fin d → ℝ) (ensemble : List ((Fin d → ℝ) × (Fin d → ℝ))) (stored : Option ℝ × Option (CalibVal Unit))
    (hd : 0 < d) (hne : ensemble ≠ []) (φ : ℝ) :
    predJoint (some tempCal) (regRows [y]) 1 (ensemble.map fun o => [o]) stored (some φ) none =
      .ok (predLogProbs φ [y] (ensemble.map fun o => [o])).sum := by
  rw [predJoint_J 1 [y] _ stored hd (by simp) (by simpa using hne) (by
    intro os ho
    obtain ⟨o, -, rfl⟩ := List.mem_map.mp ho
    rfl)]
  congr 1
  unfold J predLogProbs
  simp only [List.mapIdx_cons, List.mapIdx_nil, List.sum_cons, List.sum_nil, add_zero, List.map_map]
  congr 1
  apply List.map_congr_left
  intro o _
  simp only [Function.comp]
  rw [← weighted_member 1 φ [y] [o] rfl hd (by simp)]
  simp [weighted, regRows]

example (o o' : (Fin 1 → ℝ) × (Fin 1 → ℝ)) : predJoint (some tempCal) (regRows [fun _ => 1]) 1 ([o, o'].map fun o => [o]) (none, none) (some 3) none =
    .ok (predLogProbs 3 [fun _ => 1] ([o, o'].map fun o => [o])).sum :=
  C148_one_row _ _ _ (by norm_num) (by simp) 3

/-- Two members, each right about one of two data points and four standard deviations off the other. -/
noncomputable def twoMembers : List (List ((Fin 1 → ℝ) × (Fin 1 → ℝ))) :=
  [[(fun _ => 0, fun _ => 0), (fun _ => 4, fun _ => 0)], [(fun _ => 4, fun _ => 0), (fun _ => 0, fun _ => 0)]]

/-- Their targets. -/
noncomputable def twoTargets : List (Fin 1 → ℝ) := [fun _ => 0, fun _ => 0]

theorem two_msr : ∀ os ∈ twoMembers, msr twoTargets os = 8 := by
  intro os ho
  simp only [twoMembers, List.mem_cons, List.not_mem_nil, or_false] at ho
  rcases ho with rfl | rfl <;> simp [msr, twoTargets] <;> norm_num

theorem two_pred (φ : ℝ) : (predLogProbs φ twoTargets twoMembers).sum =
    2 * (Real.log (1 + Real.exp (-(8 * Real.exp (-φ)))) - Real.log 2) - φ - Real.log (2 * Real.pi) := by
  have hkey : ∀ L : ℝ, Real.log (Real.exp (-(1 / 2) * (φ + L)) + Real.exp (-(1 / 2) * (Real.exp (-φ) * 16 + φ + L))) =
      -(1 / 2) * (φ + L) + Real.log (1 + Real.exp (-(8 * Real.exp (-φ)))) := by
    intro L
    have : Real.exp (-(1 / 2) * (φ + L)) + Real.exp (-(1 / 2) * (Real.exp (-φ) * 16 + φ + L)) =
        Real.exp (-(1 / 2) * (φ + L)) * (1 + Real.exp (-(8 * Real.exp (-φ)))) := by
      have h : Real.exp (-(1 / 2) * (Real.exp (-φ) * 16 + φ + L)) =
          Real.exp (-(1 / 2) * (φ + L)) * Real.exp (-(8 * Real.exp (-φ))) := by
        rw [← Real.exp_add]
        congr 1
        ring
      rw [h]
      ring
    rw [this, Real.log_mul (Real.exp_pos _).ne' (by positivity), Real.log_exp]
  have h1 : logMeanExp [-(1 / 2) * (φ + Real.log (2 * Real.pi)), -(1 / 2) * (Real.exp (-φ) * 16 + φ + Real.log (2 * Real.pi))] =
      -(1 / 2) * (φ + Real.log (2 * Real.pi)) + Real.log (1 + Real.exp (-(8 * Real.exp (-φ)))) - Real.log 2 := by
    unfold logMeanExp
    simp only [List.map_cons, List.map_nil, List.sum_cons, List.sum_nil, add_zero, List.length_cons, List.length_nil]
    rw [hkey]
    norm_num
  have h2 : logMeanExp [-(1 / 2) * (Real.exp (-φ) * 16 + φ + Real.log (2 * Real.pi)), -(1 / 2) * (φ + Real.log (2 * Real.pi))] =
      -(1 / 2) * (φ + Real.log (2 * Real.pi)) + Real.log (1 + Real.exp (-(8 * Real.exp (-φ)))) - Real.log 2 := by
    rw [← h1]
    unfold logMeanExp
    simp only [List.map_cons, List.map_nil, List.sum_cons, List.sum_nil, add_zero, List.length_cons, List.length_nil]
    rw [add_comm]
  have h3 : predLogProbs φ twoTargets twoMembers =
      [logMeanExp [-(1 / 2) * (φ + Real.log (2 * Real.pi)), -(1 / 2) * (Real.exp (-φ) * 16 + φ + Real.log (2 * Real.pi))],
       logMeanExp [-(1 / 2) * (Real.exp (-φ) * 16 + φ + Real.log (2 * Real.pi)), -(1 / 2) * (φ + Real.log (2 * Real.pi))]] := by
    simp [predLogProbs, twoTargets, twoMembers, regRows, scaleVar, regLogProb]
    norm_num
  rw [h3, List.sum_cons, List.sum_cons, List.sum_nil, h1, h2]
  ring

/-- **Calibration of an ensemble can make its predictions worse** on the calibration data: the best temperature for the objective is 8, and
no other is as good, but the log-probability that the predictive distribution gives to the calibration data is smaller there than without
calibration. (The objective averages the likelihoods of the members over all the data, the predictive distribution at every data point.) -/
theorem C148_predictive_false (stored : Option ℝ × Option (CalibVal Unit)) :
    ∃ obj : ℝ → ℝ, (∀ φ, predJoint (some tempCal) (regRows twoTargets) 2 twoMembers stored (some φ) none = .ok (obj φ)) ∧
      (∀ φ, φ ≠ Real.log 8 → obj φ < obj (Real.log 8)) ∧
      (predLogProbs (Real.log 8) twoTargets twoMembers).sum < (predLogProbs 0 twoTargets twoMembers).sum := by
  obtain ⟨obj, hobj, hup, hdown, -, -⟩ := C148_regression 2 (by norm_num) twoTargets twoMembers stored (by norm_num) (by simp [twoTargets])
    (by simp [twoMembers]) (by simp [twoMembers, twoTargets])
  have h8 : Real.exp (Real.log 8) = 8 := Real.exp_log (by norm_num)
  refine ⟨obj, hobj, ?_, ?_⟩
  · intro φ hφ
    rcases lt_or_gt_of_ne hφ with h | h
    · exact hup φ _ h fun os ho => by rw [two_msr os ho, h8]
    · exact hdown _ φ h fun os ho => by rw [two_msr os ho, h8]
  · rw [two_pred, two_pred]
    have e1 : 0 < Real.log (1 + Real.exp (-(8 * Real.exp (-0)))) := Real.log_pos (by have := Real.exp_pos (-(8 * Real.exp (-0))); linarith)
    have e2 : Real.log (1 + Real.exp (-(8 * Real.exp (-Real.log 8)))) ≤ Real.log 2 := by
      apply Real.log_le_log (by positivity)
      have : Real.exp (-(8 * Real.exp (-Real.log 8))) ≤ 1 := by
        rw [Real.exp_le_one_iff]
        have := Real.exp_pos (-Real.log 8)
        linarith
      linarith
    have e3 : Real.log 8 = 3 * Real.log 2 := by
      rw [show (8 : ℝ) = 2 ^ 3 by norm_num, Real.log_pow]
      norm_num
    have e4 : 0 < Real.log 2 := Real.log_pos (by norm_num)
    linarith

/-- The same two members: there is a best temperature, and it is 8. -/
example : ∃ obj : ℝ → ℝ, (∀ φ, predJoint (some tempCal) (regRows twoTargets) 2 twoMembers (none, none) (some φ) none = .ok (obj φ)) ∧
    (∃ φ, ∀ φ', obj φ' ≤ obj φ) ∧ ∀ φ, (∀ φ', obj φ' ≤ obj φ) → Real.exp φ = 8 := by
  obtain ⟨obj, h1, -, -, h4, h5⟩ := C148_regression 2 (by norm_num) twoTargets twoMembers (none, none) (by norm_num) (by simp [twoTargets])
    (by simp [twoMembers]) (by simp [twoMembers, twoTargets])
  refine ⟨obj, h1, h4 fun os ho => by rw [two_msr os ho]; norm_num, fun φ hφ => ?_⟩
  obtain ⟨⟨a, ha, h⟩, ⟨b, hb, h'⟩, -⟩ := h5 φ hφ
  rw [two_msr a ha] at h
  rw [two_msr b hb] at h'
  exact le_antisymm h' h

/-- They differ by at most `log 2` from the best member, and a temperature of 8 is better than 1 for both. -/
example : (∃ v, predJoint (some tempCal) (regRows twoTargets) 2 twoMembers (none, none) (some 0) ((none : Option Unit).map .frozen) = .ok v ∧
      (∀ o ∈ twoMembers, weighted 2 (regRows twoTargets (calibrated (some (tempCal (d := 1))) 0 none o)) -
        Real.log twoMembers.length ≤ v) ∧
      ∃ o ∈ twoMembers, v ≤ weighted 2 (regRows twoTargets (calibrated (some (tempCal (d := 1))) 0 none o))) ∧
    ∃ v v', predJoint (some tempCal) (regRows twoTargets) 2 twoMembers (none, none) (some 0) ((none : Option Unit).map .frozen) = .ok v ∧
      predJoint (some tempCal) (regRows twoTargets) 2 twoMembers (none, none) (some (Real.log 8)) ((none : Option Unit).map .frozen) = .ok v' ∧
      v < v' := by
  have hl : ∀ φ, ∀ o ∈ twoMembers, regRows twoTargets (calibrated (some (tempCal (d := 1))) φ none o) ≠ [] := by
    intro φ o ho
    simp only [twoMembers, List.mem_cons, List.not_mem_nil, or_false] at ho
    rcases ho with rfl | rfl <;> simp [regRows, twoTargets, calibrated, tempCal]
  refine ⟨C148_best_member _ _ _ _ _ _ none (by simp) (by simp [twoMembers]) (hl 0),
    C148_pareto _ _ _ _ _ _ _ none none (by simp) (by simp [twoMembers]) (hl 0) (hl _) ?_⟩
  intro o ho
  have hlen : o.length = twoTargets.length := by
    simp only [twoMembers, List.mem_cons, List.not_mem_nil, or_false] at ho
    rcases ho with rfl | rfl <;> rfl
  show weighted 2 (regRows twoTargets (o.map (scaleVar 0))) < weighted 2 (regRows twoTargets (o.map (scaleVar (Real.log 8))))
  rw [weighted_member 2 _ _ _ hlen (by norm_num) (by simp [twoTargets]), weighted_member 2 _ _ _ hlen (by norm_num) (by simp [twoTargets])]
  exact member_up 2 (by norm_num) _ (by norm_num) (by simp [twoTargets]) _ _ _ (Real.log_pos (by norm_num))
    (by rw [two_msr o ho, Real.exp_log (by norm_num)])

end regression

/-! ## Classification -/

section classification
open Verif.Props.TempLaw
variable {c : ℕ}

/-- The weighted log-likelihood of one member of the ensemble at a log-temperature. -/
noncomputable def classMember (n : ℕ) (ys : List (Fin c)) (φ : ℝ) (os : List (Fin c → ℝ)) : ℝ :=
  weighted n (classRows ys (os.map (scaleLogits φ)))

theorem classRows_length (ys : List (Fin c)) (os : List (Fin c → ℝ)) (h : os.length = ys.length) (φ : ℝ) :
    (classRows ys (os.map (scaleLogits φ))).length = ys.length := by
  simp [classRows, h]

theorem classRows_sum (ys : List (Fin c)) (os : List (Fin c → ℝ)) (φ : ℝ) :
    (classRows ys (os.map (scaleLogits φ))).sum = -F (os.zip ys) (Real.exp (-φ)) := by
  induction os generalizing ys with
  | nil => simp [classRows, F]
  | cons o t ih =>
    cases ys with
    | nil => simp [classRows, F]
    | cons y ys =>
      have := ih ys
      simp only [classRows, F, List.map_cons, List.zipWith_cons_cons, List.zip_cons_cons, List.sum_cons] at this ⊢
      rw [this]
      have h : classLogProb (scaleLogits φ o) (y : ℕ) = o y * Real.exp (-φ) - Real.log (S0 o (Real.exp (-φ))) := by
        unfold classLogProb
        rw [oneHot_sum_in]
        rfl
      rw [h]
      ring

theorem classMember_eq (n : ℕ) (ys : List (Fin c)) (os : List (Fin c → ℝ)) (h : os.length = ys.length) (φ : ℝ) :
    classMember n ys φ os = -(n * tempLoss (os.zip ys) φ) := by
  unfold classMember weighted
  rw [classRows_sum, classRows_length ys os h, tempLoss_eq]
  simp [h]
  ring

/-- A member with a best temperature gains on the way to it and loses on the way from it. -/
theorem classMember_unimodal (n : ℕ) (hn : 0 < n) (ys : List (Fin c)) (os : List (Fin c → ℝ)) (h : os.length = ys.length)
    (hv : ∃ o ∈ os, ∃ i j, o i ≠ o j) (b : ℝ) (hb : ∀ φ, classMember n ys φ os ≤ classMember n ys b os) (φ φ' : ℝ) (hlt : φ < φ') :
    (φ' ≤ b → classMember n ys φ os < classMember n ys φ' os) ∧ (b ≤ φ → classMember n ys φ' os < classMember n ys φ os) := by
  have hn' : (0 : ℝ) < n := by exact_mod_cast hn
  have hv' : ∃ r ∈ os.zip ys, Varied r := by
    obtain ⟨o, ho, i, j, hij⟩ := hv
    obtain ⟨k, hk, rfl⟩ := List.getElem_of_mem ho
    refine ⟨(os[k], ys[k]'(h ▸ hk)), ?_, i, j, hij⟩
    have : k < (os.zip ys).length := by simp [h, h ▸ hk]
    have h2 := List.getElem_mem this
    simpa using h2
  have hb' : ∀ φ, tempLoss (os.zip ys) b ≤ tempLoss (os.zip ys) φ := by
    intro φ
    have := hb φ
    rw [classMember_eq n ys os h, classMember_eq n ys os h] at this
    exact le_of_mul_le_mul_left (by linarith) hn'
  have hcont : Continuous (tempLoss (os.zip ys)) :=
    continuous_iff_continuousAt.2 fun x => (tempLoss_deriv (os.zip ys) x).continuousAt
  rw [classMember_eq n ys os h, classMember_eq n ys os h]
  constructor
  · intro hle
    have : tempLoss (os.zip ys) φ' < tempLoss (os.zip ys) φ := by
      refine strictAntiOn_of_deriv_neg (convex_Iic b) hcont.continuousOn (fun x hx => ?_) (Set.mem_Iic.2 (hlt.le.trans hle)) (Set.mem_Iic.2 hle) hlt
      rw [interior_Iic] at hx
      have hx' : x < b := hx
      have := (C120_direction _ hv' b hb' x hx'.ne).1
      nlinarith
    have := mul_lt_mul_of_pos_left this hn'
    linarith
  · intro hle
    have : tempLoss (os.zip ys) φ < tempLoss (os.zip ys) φ' := by
      refine strictMonoOn_of_deriv_pos (convex_Ici b) hcont.continuousOn (fun x hx => ?_) (Set.mem_Ici.2 hle) (Set.mem_Ici.2 (hle.trans hlt.le)) hlt
      rw [interior_Ici] at hx
      have hx' : b < x := hx
      have := (C120_direction _ hv' b hb' x hx'.ne').1
      nlinarith
    have := mul_lt_mul_of_pos_left this hn'
    linarith

/-- **C148, an ensemble of classifiers.** If every member has a best temperature of its own (`best os`), the objective of the ensemble
increases up to the smallest of them and decreases beyond the largest; a best temperature of the ensemble exists, and every one lies between the
smallest and the largest of the members'. -/
theorem C148_classification (n : ℕ) (hn : 0 < n) (ys : List (Fin c)) (ensemble : List (List (Fin c → ℝ)))
    (stored : Option ℝ × Option (CalibVal Unit)) (hne : ensemble ≠ []) (hlen : ∀ os ∈ ensemble, os.length = ys.length)
    (hv : ∀ os ∈ ensemble, ∃ o ∈ os, ∃ i j, o i ≠ o j) (best : List (Fin c → ℝ) → ℝ)
    (hbest : ∀ os ∈ ensemble, ∀ φ, weighted n (classRows ys (os.map (scaleLogits φ))) ≤ weighted n (classRows ys (os.map (scaleLogits (best os))))) :
    ∃ obj : ℝ → ℝ, (∀ φ, predJoint (some logitCal) (classRows ys) n ensemble stored (some φ) none = .ok (obj φ)) ∧
      (∀ φ φ', φ < φ' → (∀ os ∈ ensemble, φ' ≤ best os) → obj φ < obj φ') ∧
      (∀ φ φ', φ < φ' → (∀ os ∈ ensemble, best os ≤ φ) → obj φ' < obj φ) ∧
      (∃ φ, ∀ φ', obj φ' ≤ obj φ) ∧
      ∀ φ, (∀ φ', obj φ' ≤ obj φ) → (∃ os ∈ ensemble, best os ≤ φ) ∧ ∃ os ∈ ensemble, φ ≤ best os := by
  have hys : ∀ os ∈ ensemble, ys ≠ [] := by
    rintro os ho rfl
    obtain ⟨o, hoo, -⟩ := hv os ho
    have := hlen os ho
    simp only [List.length_nil, List.length_eq_zero_iff] at this
    rw [this] at hoo
    simp at hoo
  have hobj : ∀ φ, predJoint (some logitCal) (classRows ys) n ensemble stored (some φ) none = .ok (logMeanExp (ensemble.map (classMember n ys φ))) := by
    intro φ
    exact predJoint_ok (some (logitCal (c := c))) (classRows ys) n ensemble stored φ none (by simp) hne (by
      intro os ho h
      have h1 := classRows_length ys os (hlen os ho) φ
      have h2 : classRows ys (os.map (scaleLogits φ)) = [] := h
      rw [h2] at h1
      exact hys os ho (List.length_eq_zero_iff.mp h1.symm))
  have hup : ∀ φ φ', φ < φ' → (∀ os ∈ ensemble, φ' ≤ best os) →
      logMeanExp (ensemble.map (classMember n ys φ)) < logMeanExp (ensemble.map (classMember n ys φ')) := by
    intro φ φ' hlt hle
    exact logMeanExp_lt _ hne _ _ fun os ho => (classMember_unimodal n hn ys os (hlen os ho) (hv os ho) (best os) (hbest os ho) φ φ' hlt).1 (hle os ho)
  have hdown : ∀ φ φ', φ < φ' → (∀ os ∈ ensemble, best os ≤ φ) →
      logMeanExp (ensemble.map (classMember n ys φ')) < logMeanExp (ensemble.map (classMember n ys φ)) := by
    intro φ φ' hlt hle
    exact logMeanExp_lt _ hne _ _ fun os ho => (classMember_unimodal n hn ys os (hlen os ho) (hv os ho) (best os) (hbest os ho) φ φ' hlt).2 (hle os ho)
  refine ⟨_, hobj, hup, hdown, ?_, ?_⟩
  · obtain ⟨lo, hlo, hlo'⟩ := exists_least best ensemble hne
    obtain ⟨hi, hhi, hhi'⟩ := exists_least (fun os => -best os) ensemble hne
    have hle : best lo ≤ best hi := hlo' hi hhi
    have hcont : Continuous fun φ => logMeanExp (ensemble.map (classMember n ys φ)) := by
      have h1 : ∀ os ∈ ensemble, Continuous fun φ => classMember n ys φ os := by
        intro os ho
        have e : (fun φ => classMember n ys φ os) = fun φ => -(n * tempLoss (os.zip ys) φ) := funext (classMember_eq n ys os (hlen os ho))
        rw [e]
        have : Continuous (tempLoss (os.zip ys)) := continuous_iff_continuousAt.2 fun x => (tempLoss_deriv (os.zip ys) x).continuousAt
        fun_prop
      unfold logMeanExp
      simp only [List.map_map, List.length_map]
      refine Continuous.sub (Continuous.log ?_ ?_) continuous_const
      · exact continuous_list_sum _ fun os ho => Real.continuous_exp.comp (h1 os ho)
      · intro φ
        refine ne_of_gt (List.sum_pos _ ?_ (by simpa using hne))
        intro z hz
        obtain ⟨w, -, rfl⟩ := List.mem_map.mp hz
        exact Real.exp_pos _
    obtain ⟨φ, hφ, hmax⟩ := isCompact_Icc.exists_isMaxOn (Set.nonempty_Icc.2 hle) hcont.continuousOn
    refine ⟨φ, fun φ' => ?_⟩
    rcases lt_or_ge φ' (best lo) with h | h
    · exact (hup φ' (best lo) h hlo').le.trans (hmax (Set.left_mem_Icc.2 hle))
    · rcases lt_or_ge (best hi) φ' with h' | h'
      · exact (hdown (best hi) φ' h' fun os ho => by linarith [hhi' os ho]).le.trans (hmax (Set.right_mem_Icc.2 hle))
      · exact hmax ⟨h, h'⟩
  · intro φ hφ
    constructor
    · by_contra hcon
      push Not at hcon
      obtain ⟨lo, hlo, hlo'⟩ := exists_least best ensemble hne
      exact absurd (hφ (best lo)) (not_le.2 (hup φ (best lo) (hcon lo hlo) hlo'))
    · by_contra hcon
      push Not at hcon
      obtain ⟨hi, hhi, hhi'⟩ := exists_least (fun os => -best os) ensemble hne
      exact absurd (hφ (best hi)) (not_le.2 (hdown (best hi) φ (hcon hi hhi) fun os ho => by linarith [hhi' os ho]))

/-- Three data points of class 0, two classes; the member gives class 0 the logit `a` twice and `-a` once. -/
noncomputable def oneWrong (a : ℝ) : List (Fin 2 → ℝ) := [![a, 0], ![a, 0], ![-a, 0]]

theorem oneWrong_member (a : ℝ) (ha : 0 < a) (φ : ℝ) :
    classMember 3 [0, 0, 0] φ (oneWrong a) ≤ classMember 3 [0, 0, 0] (Real.log (a / Real.log 2)) (oneWrong a) := by
  have hl2 : 0 < Real.log 2 := Real.log_pos (by norm_num)
  rw [classMember_eq 3 _ _ (by simp [oneWrong]), classMember_eq 3 _ _ (by simp [oneWrong])]
  have hexp : Real.exp (-Real.log (a / Real.log 2)) = Real.log 2 / a := by
    rw [Real.exp_neg, Real.exp_log (by positivity), inv_div]
  have hG : G ((oneWrong a).zip [0, 0, 0]) (Real.exp (-Real.log (a / Real.log 2))) = 0 := by
    rw [hexp]
    have h1 : a * (Real.log 2 / a) = Real.log 2 := by field_simp
    have h2 : Real.exp (-(a * (Real.log 2 / a))) = 1 / 2 := by
      rw [h1, Real.exp_neg, Real.exp_log (by norm_num)]; norm_num
    have h3 : Real.exp (a * (Real.log 2 / a)) = 2 := by rw [h1, Real.exp_log (by norm_num)]
    simp [G, oneWrong, tilt, S0, S1, Fin.sum_univ_two, h2, h3]
    ring
  have h := F_min _ _ hG (Real.exp (-φ))
  rw [tempLoss_eq, tempLoss_eq]
  have : F ((oneWrong a).zip [0, 0, 0]) (Real.exp (-Real.log (a / Real.log 2))) / (((oneWrong a).zip [0, 0, 0]).length : ℝ) ≤
      F ((oneWrong a).zip [0, 0, 0]) (Real.exp (-φ)) / (((oneWrong a).zip [0, 0, 0]).length : ℝ) := by gcongr
  exact neg_le_neg (mul_le_mul_of_nonneg_left this (by norm_num))

/-- Two members, one three times as confident as the other, both wrong once in three: every best temperature lies between theirs. -/
example : ∃ obj : ℝ → ℝ, (∀ φ, predJoint (some logitCal) (classRows [0, 0, 0]) 3 [oneWrong 1, oneWrong 3] (none, none) (some φ) none = .ok (obj φ)) ∧
    (∃ φ, ∀ φ', obj φ' ≤ obj φ) ∧
    ∀ φ, (∀ φ', obj φ' ≤ obj φ) → Real.log (1 / Real.log 2) ≤ φ ∧ φ ≤ Real.log (3 / Real.log 2) := by
  have hl2 : 0 < Real.log 2 := Real.log_pos (by norm_num)
  obtain ⟨obj, h1, -, -, h4, h5⟩ := C148_classification 3 (by norm_num) ([0, 0, 0] : List (Fin 2)) [oneWrong 1, oneWrong 3] (none, none) (by simp)
    (by simp [oneWrong]) (by
      intro os ho
      simp only [List.mem_cons, List.not_mem_nil, or_false] at ho
      rcases ho with rfl | rfl
      · exact ⟨![1, 0], by simp [oneWrong], 0, 1, by simp⟩
      · exact ⟨![3, 0], by simp [oneWrong], 0, 1, by simp⟩)
    (fun os => Real.log ((os.headD 0) 0 / Real.log 2)) (by
      intro os ho φ
      simp only [List.mem_cons, List.not_mem_nil, or_false] at ho
      rcases ho with rfl | rfl
      · exact oneWrong_member 1 (by norm_num) φ
      · exact oneWrong_member 3 (by norm_num) φ)
  refine ⟨obj, h1, h4, fun φ hφ => ?_⟩
  obtain ⟨⟨a, ha, h⟩, ⟨b, hb, h'⟩⟩ := h5 φ hφ
  have hle : Real.log (1 / Real.log 2) ≤ Real.log (3 / Real.log 2) := Real.log_le_log (by positivity) (by gcongr; norm_num)
  simp only [List.mem_cons, List.not_mem_nil, or_false] at ha hb
  constructor
  · rcases ha with rfl | rfl <;> simp [oneWrong] at h ⊢ hle <;> linarith
  · rcases hb with rfl | rfl <;> simp [oneWrong] at h' ⊢ hle <;> linarith

end classification

end Verif.Props.EnsembleTemp
