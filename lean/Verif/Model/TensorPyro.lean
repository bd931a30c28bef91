import Verif.Model.TensorSmoothing

/-!
# The factor for `pyro` on tensors: `pyfilter/filters/particle/base.py:196-210`

As in `Verif.Model.Tensor`, shapes and indices begin with the last dimension.
-/

namespace Verif.Torch

namespace Tensor

/-- `x[0]` (PyTorch, not in /repo). Used for pyfilter/filters/particle/base.py:207. -/
def first0 (x : Tensor) : Tensor := ⟨x.shape.dropLast, fun i => x.val (i ++ [0])⟩

/-- `x[1:]` (PyTorch, not in /repo). Used for pyfilter/filters/particle/base.py:205. -/
def rest0 (x : Tensor) : Tensor := ⟨x.shape.dropLast ++ [x.shape.getLastD 0 - 1], fun i => x.val (i.dropLast ++ [i.getLastD 0 + 1])⟩

/-- `x.mean(0)` (PyTorch, not in /repo). Used for pyfilter/filters/particle/base.py:208. -/
noncomputable def mean0 (x : Tensor) : Tensor :=
  match x.shape with
  | [] => x
  | s => ⟨s.dropLast, fun i => (∑ n ∈ Finset.range (s.getLastD 0), x.val (i ++ [n])) / s.getLastD 0⟩

/-- `y.view(y.shape[:1] + (1, …) + y.shape[1:])`, pyfilter/filters/particle/base.py:201-202, where `batch` is
`obs_density.batch_shape`. -/
def spread (y : Tensor) (batch : List ℕ) : Tensor :=
  let event := y.shape.dropLast
  ⟨event ++ (batch.dropLast.map (fun _ => 1) ++ [y.shape.getLastD 0]), fun i => y.val (i.take event.length ++ [i.getLastD 0])⟩

end Tensor

/-- What `_do_pyro_ffbs` registers, pyfilter/filters/particle/base.py:196-210: `hiddenLp`, `obsLp` and `initLp` are `log_prob` of
`hidden_density`, `obs_density` (with batch shape `obsBatch`) and `init_density`. -/
noncomputable def pyroFactor (hiddenLp obsLp initLp : Tensor → Except PyErr Tensor) (obsBatch : List ℕ) (smoothed y : Tensor) :
    Except PyErr Tensor := do
  let yReshaped := y.spread obsBatch
  let h := (← hiddenLp smoothed.rest0).sum0
  let o := (← obsLp yReshaped).sum0
  let sum ← Tensor.zip (· + ·) (← Tensor.zip (· + ·) h o) (← initLp smoothed.first0)
  return sum.mean0

end Verif.Torch
