import Verif.Model.TensorGaussian

/-!
# Draws and weights of the linear proposals on tensors

`pyfilter/filters/particle/proposals/base.py`, `linear.py` and `approximate.py`. The densities of the model (stochproc, not in
/repo) are functions from a tensor of states to the tensor of their log-densities.
-/

namespace Verif.Torch

open Matrix

/-- `D.sample()` (PyTorch, not in /repo) with standard normal numbers `noise`.
Used for pyfilter/filters/particle/proposals/linear.py:53. -/
noncomputable def Dist.sample (chol : ∀ n, Matrix (Fin n) (Fin n) ℝ → Matrix (Fin n) (Fin n) ℝ) (D : Dist) (noise : List ℕ → ℝ) :
    Except PyErr Tensor := D.expandSample chol D.batchShape noise

/-- `D.expand(batch)` (PyTorch, not in /repo). Used for pyfilter/filters/particle/proposals/approximate.py:94-96. -/
def Dist.expandBatch (D : Dist) (batch : List ℕ) : Except PyErr Dist :=
  match D with
  | .normal loc scale => do return .normal (← loc.expandTo batch) (← scale.expandTo batch)
  | .mvn loc cov => do return .mvn (← loc.expandTo (loc.shape.take 1 ++ batch)) (← cov.expandTo (cov.shape.take 2 ++ batch))

/-- `Proposal._weight_with_kernel`, pyfilter/filters/particle/proposals/base.py:45-50. `yLp` is `log_prob(y)` of the density of
the observation given a state, `xLp` is `x_dist.log_prob`. -/
noncomputable def weightWithKernel (yLp xLp : Tensor → Except PyErr Tensor) (xNew : Tensor) (kernel : Dist) : Except PyErr Tensor := do
  Tensor.zip (· - ·) (← Tensor.zip (· + ·) (← yLp xNew) (← xLp xNew)) (← kernel.logProb xNew)

/-- `LinearGaussianObservations.sample_and_weight`, pyfilter/filters/particle/proposals/linear.py:38-55. `mean` and `scale` are those
of `hidden.mean_scale`, `xLp` the log-density of the next state. -/
noncomputable def linearSampleAndWeight (chol : ∀ n, Matrix (Fin n) (Fin n) ℝ → Matrix (Fin n) (Fin n) ℝ) (hidden obs : List ℕ)
    (yLp xLp : Tensor → Except PyErr Tensor) (y mean scale a b s : Tensor) (noise : List ℕ → ℝ) : Except PyErr (Tensor × Tensor) := do
  let kernel ← linearKernel hidden obs y mean scale a b s
  let xResult ← kernel.sample chol noise
  return (xResult, ← weightWithKernel yLp xLp xResult kernel)

/-- `GaussianLinear.sample_and_weight`, pyfilter/filters/particle/proposals/approximate.py:76-101. `x` is the value of the state,
`w` the normalised weights, `xNew` the value to which `get_predictive_density` propagates it, `meanScale` is `hidden.mean_scale` and
`batch` the batch shape of the state. -/
noncomputable def gaussianLinearSampleAndWeight (chol : ∀ n, Matrix (Fin n) (Fin n) ℝ → Matrix (Fin n) (Fin n) ℝ)
    (hidden obs batch : List ℕ) (meanScale : Tensor → Except PyErr (Tensor × Tensor)) (yLp : Tensor → Except PyErr Tensor)
    (y x xNew w a b s : Tensor) (noise : List ℕ → ℝ) : Except PyErr (Tensor × Tensor) := do
  let (predictiveMean, predictiveVariance) ← filterMoments hidden x w false false
  let (mean, scale) ← meanScale predictiveMean.unsqueeze0
  let hVarInv := (← Tensor.zip (· + ·) (scale.map (· ^ 2)) predictiveVariance.unsqueeze0).map (·⁻¹)
  let oVarInv := s.map fun r => (r ^ 2)⁻¹
  let kernel ← (← findOptimalDensity hidden obs (← Tensor.zip (· - ·) y b) mean hVarInv oVarInv a).expandBatch batch
  let predictive ← predictiveDensityT hidden xNew w
  let xResult ← kernel.sample chol noise
  return (xResult, ← weightWithKernel yLp predictive.logProb xResult kernel)

end Verif.Torch
