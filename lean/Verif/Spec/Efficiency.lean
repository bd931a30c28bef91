import Mathlib.MeasureTheory.Integral.Lebesgue.Basic

/-!
# Specification: efficiency of random weights
-/

namespace Verif.Spec

open MeasureTheory
open scoped ENNReal

/-- Squared mean over mean square of a random weight: the share of draws that count. -/
noncomputable def efficiency {Ξ : Type} [MeasurableSpace Ξ] (law : Measure Ξ) (V : Ξ → ℝ≥0∞) : ℝ≥0∞ :=
  (∫⁻ ξ, V ξ ∂law) ^ 2 / ∫⁻ ξ, V ξ ^ 2 ∂law

end Verif.Spec
