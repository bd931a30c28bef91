import Verif.Model.TensorMove

/-!
# A run of a particle filter on tensors: `pyfilter/filters/base.py:138-220`

As in `Verif.Model.Tensor`, shapes and indices begin with the last dimension, and log-weights are numbers. In `runT` the latent process is
observed at every step (`observe_every_step = 1`); `runEveryT` is the run for other values. For the recorded histories see
`Verif.Model.Filter`.
-/

namespace Verif.Torch

/-- `ParticleFilter.initialize`, pyfilter/filters/particle/base.py:87-103, given the initial sample (line 91, stochproc, not in /repo);
`particles` is the number of particles and `batch` the batch shape, of which `self.particles` is made. -/
def initializeT (batch : List ℕ) (particles : ℕ) (x : Tensor) : Except PyErr CorrectionT := do
  let weights : Tensor := ⟨batch ++ [particles], fun _ => 0⟩
  let prev : Index := ⟨[weights.shape.getLastD 0], fun i => i.headD 0⟩
  let prev ← (if batch ≠ [] then prev.unsqueeze1.expandTo (batch ++ [particles]) else pure prev : Except PyErr Index)
  return ⟨x, weights, ⟨batch, fun _ => 0⟩, prev⟩

/-- What `filter` does with an observation, pyfilter/filters/base.py:213-216: `correct` of the filter, or, if every entry is NaN,
`model.hidden.propagate` (stochproc, not in /repo) in `create_state_from_prediction`. -/
inductive ObsT where
  | seen (correct : PredictionT → Except PyErr CorrectionT)
  | missing (propagate : Tensor → Except PyErr Tensor)

/-- `predict` of the filter, as a function of values, log-weights and previous indices, and the observation, of one pass of the loop,
pyfilter/filters/base.py:154-155; both hold the random numbers of the pass. -/
structure StepT where
  predict : Tensor → Tensor → Index → Except PyErr PredictionT
  obs : ObsT

/-- `create_state_from_prediction`, pyfilter/filters/particle/state.py:38-42. -/
def createState (propagate : Tensor → Except PyErr Tensor) (p : PredictionT) : Except PyErr CorrectionT := do
  return ⟨← propagate p.x, p.weights, ⟨p.normalized.shape.dropLast, fun _ => 0⟩, p.indices⟩

/-- `filter`, pyfilter/filters/base.py:187-220. -/
def StepT.move (s : StepT) (c : CorrectionT) : Except PyErr CorrectionT := do
  let p ← s.predict c.x c.w c.indices
  match s.obs with
  | .seen correct => correct p
  | .missing propagate => createState propagate p

/-- The loop of `batch_filter`, pyfilter/filters/base.py:154-157, with the total of the log-likelihoods that `append` keeps
(pyfilter/filters/result.py:130). -/
def runT : List StepT → CorrectionT → Tensor → Except PyErr (CorrectionT × Tensor)
  | [], c, total => .ok (c, total)
  | s :: rest, c, total => do
    let c ← s.move c
    runT rest c (← Tensor.zip (· + ·) total c.ll)

/-- One pass of the `while` loop of `filter`, pyfilter/filters/base.py:204-210: the prediction on entry (line 201 or 210) and the
`propagate` of `create_state_from_prediction` (line 205). -/
structure GapT where
  predict : Tensor → Tensor → Index → Except PyErr PredictionT
  propagate : Tensor → Except PyErr Tensor

/-- An observation of a process that is observed every few steps, pyfilter/filters/base.py:201-219: the passes of the `while` loop (as many
as the time index asks for, which is not part of the tensors) and what follows. -/
structure EveryT where
  gaps : List GapT
  last : StepT

/-- The `while` loop, pyfilter/filters/base.py:204-210, with the total of the log-likelihoods that `append` keeps when the states in between
are recorded (lines 207-208; pyfilter/filters/result.py:130). -/
def gapsT (record : Bool) : List GapT → CorrectionT → Tensor → Except PyErr (CorrectionT × Tensor)
  | [], c, total => .ok (c, total)
  | g :: rest, c, total => do
    let c ← StepT.move ⟨g.predict, .missing g.propagate⟩ c
    let total ← if record then Tensor.zip (· + ·) total c.ll else .ok total
    gapsT record rest c total

/-- The loop of `batch_filter`, pyfilter/filters/base.py:154-157, for any `observe_every_step`. -/
def runEveryT (record : Bool) : List EveryT → CorrectionT → Tensor → Except PyErr (CorrectionT × Tensor)
  | [], c, total => .ok (c, total)
  | s :: rest, c, total => do
    let (c, total) ← gapsT record s.gaps c total
    let c ← s.last.move c
    runEveryT record rest c (← Tensor.zip (· + ·) total c.ll)

end Verif.Torch
