import Mathlib.MeasureTheory.Measure.Typeclasses.Probability
import Mathlib.MeasureTheory.Constructions.BorelSpace.Real
import Mathlib.MeasureTheory.Integral.Lebesgue.Add
import Mathlib.MeasureTheory.Integral.Lebesgue.Map
import Mathlib.MeasureTheory.Constructions.Pi
import Mathlib.GroupTheory.Perm.Basic

/-! Lifting a leave-one-out counting bound to a coverage probability under exchangeability. -/
namespace Verif

open MeasureTheory

/-- `S` is exchangeable: its joint law is invariant under all permutations of the coordinates. -/
def Exchangeable {Ω Z ι : Type*} [MeasurableSpace Ω] [MeasurableSpace Z] (μ : Measure Ω) (S : ι → Ω → Z) : Prop :=
  ∀ σ : Equiv.Perm ι, μ.map (fun ω i => S (σ i) ω) = μ.map (fun ω i => S i ω)

/-- If, for every data set, at least `T` of the permutations `π i` satisfy `C`, then `C` has probability at least `T` divided
by their number under any exchangeable law. -/
theorem Exchangeable.coverage_perm {Ω Z ι : Type*} [MeasurableSpace Ω] [MeasurableSpace Z] [Fintype ι] [Nonempty ι]
    (μ : Measure Ω) [IsProbabilityMeasure μ]
    (S : ι → Ω → Z) (hS : ∀ i, Measurable (S i)) (hex : Exchangeable μ S) (π : ι → Equiv.Perm ι)
    (C : Set (ι → Z)) (hC : MeasurableSet C) (T : ℝ)
    (hcount : ∀ x : ι → Z, ∃ A : Finset ι, T ≤ (A.card : ℝ) ∧ ∀ i ∈ A, (x ∘ π i) ∈ C) :
    ENNReal.ofReal (T / (Fintype.card ι)) ≤ μ {ω | (fun i => S i ω) ∈ C} := by
  have hmeas : Measurable (fun ω i => S i ω) := measurable_pi_lambda _ hS
  have hmeasσ : ∀ σ : Equiv.Perm ι, Measurable (fun ω i => S (σ i) ω) :=
    fun σ => measurable_pi_lambda _ (fun i => hS (σ i))
  have heq : ∀ i : ι, μ {ω | (fun j => S (π i j) ω) ∈ C} =
      μ {ω | (fun i => S i ω) ∈ C} := by
    intro i
    have h1 := congrArg (fun ν => ν C) (hex (π i))
    rw [Measure.map_apply (hmeasσ _) hC, Measure.map_apply hmeas hC] at h1
    exact h1
  have hpos : 0 < Fintype.card ι := Fintype.card_pos
  set p := μ {ω | (fun i => S i ω) ∈ C} with hp
  have hsum : ENNReal.ofReal T ≤ (Fintype.card ι : ENNReal) * p := by
    have h1 : (Fintype.card ι : ENNReal) * p =
        ∑ i : ι, μ {ω | (fun j => S (π i j) ω) ∈ C} := by
      rw [Finset.sum_congr rfl (fun i _ => heq i)]
      simp
    rw [h1]
    have h2 : ∀ i : ι, μ {ω | (fun j => S (π i j) ω) ∈ C} =
        ∫⁻ ω, Set.indicator {ω | (fun j => S (π i j) ω) ∈ C} 1 ω ∂μ := by
      intro i
      rw [lintegral_indicator_one]
      exact (hmeasσ _) hC
    rw [Finset.sum_congr rfl (fun i _ => h2 i), ← lintegral_finsetSum]
    · calc ENNReal.ofReal T = ∫⁻ _ω, ENNReal.ofReal T ∂μ := by simp
        _ ≤ _ := by
          apply lintegral_mono
          intro ω
          obtain ⟨A, hA, hAC⟩ := hcount (fun i => S i ω)
          calc ENNReal.ofReal T ≤ ENNReal.ofReal (A.card : ℝ) := ENNReal.ofReal_le_ofReal hA
            _ = ∑ i ∈ A, (1 : ENNReal) := by simp
            _ = ∑ i ∈ A, Set.indicator {ω | (fun j => S (π i j) ω) ∈ C} (1 : Ω → ENNReal) ω := by
                apply Finset.sum_congr rfl
                intro i hi
                have := hAC i hi
                rw [Set.indicator_of_mem]
                · rfl
                · exact this
            _ ≤ _ := Finset.sum_le_univ_sum_of_nonneg (fun _ => by positivity)
    · intro i _
      exact measurable_one.indicator ((hmeasσ _) hC)
  rw [ENNReal.ofReal_div_of_pos (by positivity)]
  rw [ENNReal.div_le_iff_le_mul (by left; simp) (by left; simp)]
  rw [mul_comm, ENNReal.ofReal_natCast]
  exact hsum

/-- If, for every vector of scores, at least `T` of the `n+1` swaps "bring coordinate `i` to the held-out
position" satisfy `C`, then `C` has probability at least `T/(n+1)` under any exchangeable law. -/
theorem Exchangeable.coverage {Ω Z : Type*} [MeasurableSpace Ω] [MeasurableSpace Z] (μ : Measure Ω) [IsProbabilityMeasure μ]
    {n : ℕ} (S : Fin (n + 1) → Ω → Z) (hS : ∀ i, Measurable (S i)) (hex : Exchangeable μ S)
    (C : Set (Fin (n + 1) → Z)) (hC : MeasurableSet C) (T : ℝ)
    (hcount : ∀ x : Fin (n + 1) → Z, ∃ A : Finset (Fin (n + 1)), T ≤ (A.card : ℝ) ∧
      ∀ i ∈ A, (x ∘ Equiv.swap i (Fin.last n)) ∈ C) :
    ENNReal.ofReal (T / (n + 1)) ≤ μ {ω | (fun i => S i ω) ∈ C} := by
  have := Exchangeable.coverage_perm μ S hS hex (fun i => Equiv.swap i (Fin.last n)) C hC T hcount
  simpa using this

/-- Independent identically distributed scores are exchangeable. -/
theorem exchangeable_iid {Z : Type*} [MeasurableSpace Z] (ν : Measure Z) [IsProbabilityMeasure ν] (N : ℕ) :
    Exchangeable (Measure.pi fun _ : Fin N => ν) (fun i ω => ω i) := by
  intro σ
  have h := (measurePreserving_piCongrLeft (fun _ : Fin N => ν) σ.symm).map_eq
  have h2 : (fun (ω : Fin N → Z) i => ω (σ i)) = MeasurableEquiv.piCongrLeft (fun _ => Z) σ.symm := by
    funext ω i
    have := MeasurableEquiv.piCongrLeft_apply_apply (β := fun _ : Fin N => Z) σ.symm ω (σ i)
    simpa using this.symm
  rw [h2, h]
  exact (Measure.map_id).symm

end Verif
