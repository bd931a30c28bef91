import Verif.Model.TensorSisr

/-!
# A move of SISR and of the APF on tensors: `pyfilter/filters/particle/sisr.py:14-56` and `pyfilter/filters/particle/apf.py:16-46`

As in `Verif.Model.Tensor`, shapes and indices begin with the last dimension, and log-weights are numbers. Proposals and resampling
schemes are functions on tensors; the clock of the time series is in `Verif.Model.Particle`.
-/

namespace Verif.Torch

/-- `log_likelihood`, pyfilter/filters/particle/utils.py:7-22. -/
noncomputable def logLikelihoodT (importance : Tensor) (weights : Option Tensor) : Except PyErr Tensor := do
  let maxW := importance.max0
  let temp := (← Tensor.zip (· - ·) importance maxW).map Real.exp
  let product ← (match weights with
    | none => pure (temp.map (1 / importance.shape.getLastD 0 * ·))
    | some w => Tensor.zip (· * ·) w temp : Except PyErr Tensor)
  Tensor.zip (· + ·) maxW (product.sum0.map Real.log)

/-- `Bootstrap.sample_and_weight`, pyfilter/filters/particle/proposals/bootstrap.py:10-14, as a function of values and normalised weights
of the prediction; `propagate` is that of the latent process and `logProb` is `build_density(new_x).log_prob(y)` for the observation
(stochproc, not in /repo). -/
def bootstrapT (propagate logProb : Tensor → Except PyErr Tensor) (x _normalized : Tensor) : Except PyErr (Tensor × Tensor) := do
  let newX ← propagate x
  return (newX, ← logProb newX)

/-- `Proposal.pre_weight`, pyfilter/filters/particle/proposals/base.py:69-85; `func` is the function that the proposal holds (for affine
processes the mean of the transition, pre_weight_funcs.py:9-11) and `logProb` as in `bootstrapT`. -/
def preWeightT (func logProb : Tensor → Except PyErr Tensor) (x : Tensor) : Except PyErr Tensor := do
  logProb (← func x)

/-- `ParticleFilterCorrection`, pyfilter/filters/particle/state.py:77-95, without the moments (C35, C141). -/
structure CorrectionT where
  x : Tensor
  w : Tensor
  ll : Tensor
  indices : Index

/-- `SISR.correct`, pyfilter/filters/particle/sisr.py:50-56; `sampleAndWeight` is that of the proposal for the observation, as a
function of values and normalised weights of the prediction (of the log-weights, proposals read the number of dimensions only). -/
noncomputable def sisrCorrect (sampleAndWeight : Tensor → Tensor → Except PyErr (Tensor × Tensor)) (p : PredictionT) : Except PyErr CorrectionT := do
  let (x, weights) ← sampleAndWeight p.x p.normalized
  let newWeights ← Tensor.zip (· + ·) weights p.weights
  return ⟨x, newWeights, ← logLikelihoodT weights (some p.normalized), p.indices⟩

/-- `APF.predict`, pyfilter/filters/particle/apf.py:16-23. -/
noncomputable def apfPredict (batch : List ℕ) (particles : ℕ) (x weights : Tensor) : Except PyErr PredictionT := do
  let normalized ← normalizeT weights
  let old : Index := ⟨[normalized.shape.getLastD 0], fun i => i.headD 0⟩
  let old ← (if batch ≠ [] then old.unsqueeze1.expandTo (batch ++ [particles]) else pure old : Except PyErr Index)
  return ⟨x, weights, normalized, old⟩

/-- `APF.correct`, pyfilter/filters/particle/apf.py:25-46; `preWeight` and `sampleAndWeight` are those of the proposal for the
observation, as functions of the values (and normalised weights) of the prediction. -/
noncomputable def apfCorrect (resampler : Tensor → Except PyErr Index) (preWeight : Tensor → Except PyErr Tensor)
    (sampleAndWeight : Tensor → Tensor → Except PyErr (Tensor × Tensor)) (p : PredictionT) : Except PyErr CorrectionT := do
  let pre ← preWeight p.x
  let resampleWeights ← Tensor.zip (· + ·) pre p.weights
  let indices ← resampler resampleWeights
  let resampled ← batchedGather p.x indices
  let (x, weights) ← sampleAndWeight resampled ⟨resampleWeights.shape, fun _ => 1 / pre.shape.getLastD 0⟩
  let weights ← Tensor.zip (· - ·) weights (← pre.gather0 indices)
  let ll ← Tensor.zip (· + ·) (← logLikelihoodT weights none) ((← Tensor.zip (· * ·) p.normalized (pre.map Real.exp)).sum0.map Real.log)
  return ⟨x, weights, ll, indices⟩

end Verif.Torch
