import Verif.Model.TensorGaussian
import Verif.Model.TensorSisr

/-!
# Moments of a state on tensors: `pyfilter/filters/particle/state.py:77-137`

As in `Verif.Model.Tensor`, shapes and indices begin with the last dimension, and log-weights are numbers.
-/

namespace Verif.Torch

/-- The mean and variance that `ParticleFilterCorrection` stores, pyfilter/filters/particle/state.py:95, from the values and log-weights
of the state. -/
noncomputable def storedMomentsT (event : List ℕ) (x w : Tensor) : Except PyErr (Tensor × Tensor) := do
  filterMoments event x (← normalizeT w) false true

/-- `get_covariance`, pyfilter/filters/particle/state.py:118-137. The variance of line 125 is the stored one, computed here from the
same values and log-weights. -/
noncomputable def getCovarianceT (event : List ℕ) (x w : Tensor) : Except PyErr Tensor := do
  if event.length == 0 then
    return (← storedMomentsT event x w).2
  let w ← normalizeT w
  let mean := (← Tensor.zip (· * ·) w x).sum0
  let centralized ← Tensor.zip (· - ·) x mean
  let weighted ← Tensor.zip (· * ·) w.unsqueeze1.unsqueeze1 (← centralized.unsqueeze1.matmul (← centralized.unsqueeze2))
  return weighted.sum0

end Verif.Torch
