import Verif.Spec.TensorPyro

/-!
# The average complete-data log-density of a chain
-/

namespace Verif.Torch

/-- The average over the paths of filter `b` of the log-density of all states and observations, plus the log-prior. -/
noncomputable def averageLp {X Y : Type} (N T : ℕ) (I : List ℕ → X → ℝ) (H : ℕ → Fin N → List ℕ → X → ℝ) (O : ℕ → Fin N → List ℕ → Y → ℝ)
    (prior : List ℕ → ℝ) (path : ℕ → Fin N → List ℕ → X) (fy : ℕ → Y) (b : List ℕ) : ℝ :=
  (∑ n, (I b (path 0 n b) + ∑ t ∈ Finset.range T, (H t n b (path (t + 1) n b) + O t n b (fy t)))) / N + prior b

/-- The parameter of the filter with index `b`. -/
def own {B : ℕ} (θ : Fin B → ℝ) (b : List ℕ) : ℝ := if h : b.headD 0 < B then θ ⟨b.headD 0, h⟩ else 0

end Verif.Torch
