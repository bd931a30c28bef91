import Verif.Spec.Prior
import Mathlib.MeasureTheory.Measure.WithDensity

/-!
# Specification: the posterior distribution
-/

namespace Verif.Spec

open Verif.Priors MeasureTheory
open scoped ENNReal

/-- Total mass of prior times likelihood. -/
noncomputable def evidence (c : Registry) (lik : (∀ i, Fin (c.numel i) → ℝ) → ℝ≥0∞) : ℝ≥0∞ :=
  ∫⁻ θ in space c, jointPrior c θ * lik θ

/-- The posterior distribution of the parameters: prior times likelihood, normalised. -/
noncomputable def posterior (c : Registry) (lik : (∀ i, Fin (c.numel i) → ℝ) → ℝ≥0∞) :
    Measure (∀ i, Fin (c.numel i) → ℝ) :=
  (evidence c lik)⁻¹ • (volume.restrict (space c)).withDensity fun θ => jointPrior c θ * lik θ

end Verif.Spec
