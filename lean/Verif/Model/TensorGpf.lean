import Verif.Model.TensorGaussian
import Verif.Model.TensorMove

/-!
# The Gaussian particle filter on tensors: `pyfilter/filters/particle/gpf.py` and `pyfilter/filters/particle/proposals/approximate.py:18-31`

As in `Verif.Model.Tensor`, shapes and indices begin with the last dimension, and log-weights are numbers.
-/

namespace Verif.Torch

/-- `GaussianProposal.sample_and_weight`, pyfilter/filters/particle/proposals/approximate.py:18-31, for one observation, as a function
of the values and normalised weights of the prediction. `propagate` is that of the hidden process (pyfilter/filters/particle/state.py:59)
and `logProb` the log-density of the observation given states (lines 28-29), both from stochproc; `noise` are the standard normal
numbers of line 24. -/
noncomputable def gaussianSampleAndWeight (chol : ∀ n, Matrix (Fin n) (Fin n) ℝ → Matrix (Fin n) (Fin n) ℝ) (event : List ℕ)
    (propagate logProb : Tensor → Except PyErr Tensor) (noise : List ℕ → ℝ) (x w : Tensor) : Except PyErr (Tensor × Tensor) := do
  let xNew ← propagate x
  let values ← gaussianValues chol event xNew w (x.shape.drop event.length) noise
  return (values, ← logProb values)

/-- `GPF.predict`, pyfilter/filters/particle/gpf.py:26-29. -/
noncomputable def gpfPredict (x weights : Tensor) (prev : Index) : Except PyErr PredictionT := do
  return ⟨x, weights, ← normalizeT weights, prev⟩

/-- `GPF.correct`, pyfilter/filters/particle/gpf.py:31-34. -/
noncomputable def gpfCorrect (sampleAndWeight : Tensor → Tensor → Except PyErr (Tensor × Tensor)) (p : PredictionT) : Except PyErr CorrectionT := do
  let (x, weights) ← sampleAndWeight p.x p.normalized
  return ⟨x, weights, ← logLikelihoodT weights none, p.indices⟩

end Verif.Torch
