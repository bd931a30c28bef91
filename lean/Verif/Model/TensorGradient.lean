import Verif.Model.TensorPyro

/-!
# What the gradient proposal differentiates, on tensors: `pyfilter/inference/batch/mcmc/proposals/gradient.py:10-32`

As in `Verif.Model.Tensor`, shapes and indices begin with the last dimension.
-/

namespace Verif.Torch

/-- The place of an entry in memory, with the last dimension running first (PyTorch, not in /repo).
Used for pyfilter/inference/batch/mcmc/proposals/gradient.py:26. -/
def offset : List ℕ → List ℕ → ℕ
  | d :: s, i :: is => i + d * offset s is
  | _, _ => 0

/-- The entry at a place in memory, the inverse of `offset` (PyTorch, not in /repo).
Used for pyfilter/inference/batch/mcmc/proposals/gradient.py:26. -/
def entry : List ℕ → ℕ → List ℕ
  | [], _ => []
  | d :: s, k => k % d :: entry s (k / d)

/-- `x.reshape(s)` (PyTorch, not in /repo): the numbers of entries must agree; the order of the entries is kept.
Used for pyfilter/inference/batch/mcmc/proposals/gradient.py:26. -/
def Tensor.reshape (x : Tensor) (s : List ℕ) : Except PyErr Tensor :=
  if x.shape.prod = s.prod then .ok ⟨s, fun i => x.val (entry x.shape (offset s i))⟩ else .error .runtimeError

/-- `_model_likelihood`, pyfilter/inference/batch/mcmc/proposals/gradient.py:10-32: `hiddenLp`, `obsLp` and `initLp` are `log_prob` of
`hidden_dens` (with batch shape `batch`), `obs_dens` (with event shape `event`) and the initial distribution, `prior` is
`context.eval_priors(constrained=False)`. -/
noncomputable def modelLikelihood (hiddenLp obsLp initLp : Tensor → Except PyErr Tensor) (batch event : List ℕ) (prior x y : Tensor) :
    Except PyErr Tensor := do
  let y ← y.reshape (event ++ (batch.dropLast.map (fun _ => 1) ++ [y.shape.getLastD 0]))
  let first := (← initLp x.first0).mean0
  let both ← Tensor.zip (· + ·) (← hiddenLp x.rest0) (← obsLp y)
  Tensor.zip (· + ·) (← Tensor.zip (· + ·) first prior) both.sum0.mean0

/-- The number whose gradient `logl.backward(torch.ones_like(logl))` accumulates, pyfilter/inference/batch/mcmc/proposals/gradient.py:83:
the sum of all entries; for a result with at most one dimension. -/
noncomputable def Tensor.total (x : Tensor) : ℝ :=
  match x.shape with
  | [] => x.val []
  | n :: _ => ∑ k ∈ Finset.range n, x.val [k]

end Verif.Torch
