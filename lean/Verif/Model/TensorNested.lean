import Verif.Model.TensorPyro

/-!
# The nested proposal on tensors: `pyfilter/filters/particle/proposals/nested.py:27-47`

As in `Verif.Model.Tensor`, shapes and indices begin with the last dimension. Log-densities are numbers, so that `nan_to_num` and
`masked_fill_` (nested.py:34-38) change nothing; infinite ones are in `Verif.Model.KernelProposal`.
-/

namespace Verif.Torch

/-- `x.softmax(dim=0)` (PyTorch, not in /repo). Used for pyfilter/filters/particle/proposals/nested.py:35. -/
noncomputable def Tensor.softmax0 (x : Tensor) : Tensor :=
  ⟨x.shape, fun i => Real.exp (x.val i) / ∑ m ∈ Finset.range (x.shape.getLastD 0), Real.exp (x.val (i.dropLast ++ [m]))⟩

/-- `x.moveaxis(0, -1)` (PyTorch, not in /repo). Used for pyfilter/filters/particle/proposals/nested.py:40. -/
def Tensor.firstToLast (x : Tensor) : Tensor := ⟨x.shape.getLastD 0 :: x.shape.dropLast, fun i => x.val (i.tail ++ [i.headD 0])⟩

/-- `indices.unsqueeze(0)` (PyTorch, not in /repo). Used for pyfilter/filters/particle/proposals/nested.py:45. -/
def Index.unsqueeze0 (x : Index) : Index := ⟨x.shape ++ [1], fun i => x.val i.dropLast⟩

open Classical in
/-- `x.take_along_dim(indices, dim=0)` (PyTorch, not in /repo): as many dimensions, broadcast in all but the first one, and indices
within the first dimension of `x`. Used for pyfilter/filters/particle/proposals/nested.py:45. -/
noncomputable def Tensor.takeAlong0 (x : Tensor) (indices : Index) : Except PyErr Tensor :=
  if x.shape.length = indices.shape.length then
    match broadcastShape x.shape.dropLast indices.shape.dropLast with
    | none => .error .runtimeError
    | some s =>
      if ∀ i, InShape indices.shape i → indices.val i < x.shape.getLastD 0 then
        .ok ⟨s ++ [indices.shape.getLastD 0], fun i => x.val (broadcastIndex x.shape.dropLast i.dropLast ++
          [indices.val (broadcastIndex indices.shape.dropLast i.dropLast ++ [i.getLastD 0])])⟩
      else .error .runtimeError
  else .error .runtimeError

/-- `x.squeeze(0)` (PyTorch, not in /repo). Used for pyfilter/filters/particle/proposals/nested.py:45. -/
def Tensor.squeeze0 (x : Tensor) : Tensor := if x.shape.getLastD 0 = 1 then ⟨x.shape.dropLast, fun i => x.val (i ++ [0])⟩ else x

/-- `NestedProposal.sample_and_weight`, pyfilter/filters/particle/proposals/nested.py:27-47: `samples` are those of line 30, `obsLp`
is `build_density(temp_state).log_prob(y)` as a function of the values of `temp_state` (stochproc, not in /repo), `event` the event
shape of the latent process. Returns values and log-weights. -/
noncomputable def nestedSampleAndWeight (event : List ℕ) (draw : List ℕ → List ℝ → ℕ) (obsLp : Tensor → Except PyErr Tensor)
    (samples : Tensor) : Except PyErr (Tensor × Tensor) := do
  let logProb ← obsLp samples
  let probs := logProb.softmax0
  let bestSample ← categorical draw probs.firstToLast
  let bestSample := if event.length > 0 then bestSample.unsqueeze1 else bestSample
  let bestParticle := (← samples.takeAlong0 bestSample.unsqueeze0).squeeze0
  return (bestParticle, (logProb.map Real.exp).mean0.map Real.log)

end Verif.Torch
