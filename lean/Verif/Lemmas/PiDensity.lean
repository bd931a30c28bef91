import Mathlib.MeasureTheory.Constructions.Pi
import Mathlib.MeasureTheory.Measure.WithDensity
import Mathlib.MeasureTheory.Measure.Prod

/-!
# Products of measures with densities
-/

namespace Verif.Trajectory

open MeasureTheory
open scoped ENNReal

variable {X : Type} [MeasurableSpace X] (lam : Measure X) [SigmaFinite lam]

theorem lintegral_pi_prod : ∀ (n : ℕ) (g : Fin n → X → ℝ≥0∞), (∀ i, Measurable (g i)) →
    ∫⁻ x, ∏ i, g i (x i) ∂(Measure.pi fun _ : Fin n => lam) = ∏ i, ∫⁻ x, g i x ∂lam
  | 0, g, hg => by
    simp only [Finset.univ_eq_empty, Finset.prod_empty, lintegral_const, one_mul]
    rw [Measure.pi_of_empty]
    simp
  | n + 1, g, hg => by
    have hm : Measurable fun z : X × (Fin n → X) => g 0 z.1 * ∏ i, g (Fin.succ i) (z.2 i) := by
      have h1 : Measurable fun z : X × (Fin n → X) => g 0 z.1 := (hg 0).comp measurable_fst
      have h2 : Measurable fun z : X × (Fin n → X) => ∏ i, g (Fin.succ i) (z.2 i) :=
        Finset.measurable_prod _ fun i _ => (hg _).comp ((measurable_pi_apply i).comp measurable_snd)
      exact h1.mul h2
    have hp := measurePreserving_piFinSuccAbove (fun _ : Fin (n + 1) => lam) 0
    have h3 : Measurable fun z : Fin n → X => ∏ i, g (Fin.succ i) (z i) :=
      Finset.measurable_prod _ fun i _ => (hg _).comp (measurable_pi_apply i)
    calc ∫⁻ x, ∏ i, g i (x i) ∂(Measure.pi fun _ : Fin (n + 1) => lam)
        = ∫⁻ x, (fun z : X × (Fin n → X) => g 0 z.1 * ∏ i, g (Fin.succ i) (z.2 i))
            (MeasurableEquiv.piFinSuccAbove (fun _ => X) 0 x) ∂(Measure.pi fun _ : Fin (n + 1) => lam) := by
          refine lintegral_congr fun x => ?_
          rw [Fin.prod_univ_succ]
          rfl
      _ = ∫⁻ z, g 0 z.1 * ∏ i, g (Fin.succ i) (z.2 i) ∂(lam.prod (Measure.pi fun _ : Fin n => lam)) :=
          hp.lintegral_comp hm
      _ = (∫⁻ x, g 0 x ∂lam) * ∫⁻ z, ∏ i, g (Fin.succ i) (z i) ∂(Measure.pi fun _ : Fin n => lam) :=
          lintegral_prod_mul (hg 0).aemeasurable h3.aemeasurable
      _ = _ := by rw [lintegral_pi_prod n _ fun i => hg _, Fin.prod_univ_succ]

/-- A product of measures with densities has the product of the densities. -/
theorem pi_withDensity {n : ℕ} (g : Fin n → X → ℝ≥0∞) (hg : ∀ i, Measurable (g i))
    [∀ i, SigmaFinite (lam.withDensity (g i))] :
    Measure.pi (fun i => lam.withDensity (g i)) = (Measure.pi fun _ : Fin n => lam).withDensity fun x => ∏ i, g i (x i) := by
  classical
  refine (Measure.pi_eq fun s hs => ?_)
  rw [withDensity_apply _ (MeasurableSet.univ_pi hs), ← lintegral_indicator (MeasurableSet.univ_pi hs)]
  have h : ∀ x : Fin n → X, (Set.univ.pi s).indicator (fun x => ∏ i, g i (x i)) x = ∏ i, (s i).indicator (g i) (x i) := by
    intro x
    by_cases hx : x ∈ Set.univ.pi s
    · rw [Set.indicator_of_mem hx]
      refine Finset.prod_congr rfl fun i _ => ?_
      rw [Set.indicator_of_mem (hx i trivial)]
    · rw [Set.indicator_of_notMem hx]
      simp only [Set.mem_univ_pi, not_forall] at hx
      obtain ⟨i, hi⟩ := hx
      exact (Finset.prod_eq_zero (Finset.mem_univ i) (Set.indicator_of_notMem hi _)).symm
  simp only [h]
  rw [lintegral_pi_prod lam n _ fun i => (hg i).indicator (hs i)]
  refine Finset.prod_congr rfl fun i _ => ?_
  rw [withDensity_apply _ (hs i), lintegral_indicator (hs i)]

end Verif.Trajectory
