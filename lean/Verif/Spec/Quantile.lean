import Mathlib.MeasureTheory.Measure.Lebesgue.Basic

/-!
# Inverse distribution functions
-/

namespace Verif

open MeasureTheory Set

/-- `q` is the inverse distribution function of `μ`. -/
def IsQuantile (q : ℝ → ℝ) (μ : Measure ℝ) : Prop :=
  ∀ p ∈ Ioo (0 : ℝ) 1, ∀ x, q p ≤ x ↔ ENNReal.ofReal p ≤ μ (Iic x)

/-- The uniform distribution on `[0, 1)`. -/
noncomputable def unit : Measure ℝ := volume.restrict (Ico 0 1)

end Verif
