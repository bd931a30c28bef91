import Verif.Spec.Pmmh
import Mathlib.MeasureTheory.Integral.Lebesgue.Basic

/-!
# Specification: properly weighted particles
-/

namespace Verif.Spec

open MeasureTheory
open scoped ENNReal

/-- A particle with random value `x` and random log-weight `w` is properly weighted for the (not necessarily
normalised) target `π`: the expectation of its weight times a function of its value is the integral of the function
against the target. -/
def ProperlyWeighted {Ξ α : Type} [MeasurableSpace Ξ] [MeasurableSpace α] (law : Measure Ξ) (w : Ξ → XF) (x : Ξ → α)
    (π : Measure α) : Prop :=
  ∀ φ : α → ℝ≥0∞, Measurable φ → ∫⁻ ξ, ENNReal.ofReal (expMass (w ξ)) * φ (x ξ) ∂law = ∫⁻ a, φ a ∂π

end Verif.Spec
