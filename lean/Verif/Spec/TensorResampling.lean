import Verif.Spec.TensorMove

/-!
# Systematic resampling of one filter
-/

namespace Verif.Torch

/-- The cumulated weights of one filter; the last is one. -/
noncomputable def level {N : ℕ} (p : Fin N → ℝ) (j : Fin N) : ℝ := if j.val + 1 = N then 1 else ∑ i with i ≤ j, p i

/-- The first particle whose cumulated weight is not below `v`. -/
def FirstAbove {N : ℕ} (p : Fin N → ℝ) (v : ℝ) (j : Fin N) : Prop := v ≤ level p j ∧ ∀ i < j, level p i < v

end Verif.Torch
