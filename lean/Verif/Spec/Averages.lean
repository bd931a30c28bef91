import Mathlib.Algebra.BigOperators.Fin
import Mathlib.Data.Real.Basic

/-!
# Averages over particles, before and after resampling

`f i` is the value of a function at particle `i`.
-/

namespace Verif.Spec

variable {n : ℕ}

/-- Average of `f` over the selected particles. -/
noncomputable def selectedMean (r : Fin n → ℕ) (f : ℕ → ℝ) : ℝ := (∑ j, f (r j)) / n

/-- Weighted average of `f`. -/
noncomputable def weightedMean (p : Fin n → ℝ) (f : ℕ → ℝ) : ℝ := ∑ i : Fin n, p i * f i

/-- Variation of `f` along the particles. -/
noncomputable def variation (n : ℕ) (f : ℕ → ℝ) : ℝ := ∑ i ∈ Finset.range (n - 1), |f (i + 1) - f i|

end Verif.Spec
