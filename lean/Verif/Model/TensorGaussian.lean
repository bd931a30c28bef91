import Verif.Model.Tensor

/-!
# Moments of particles and the Gaussian proposal on tensors (pyfilter/filters/particle)
-/

namespace Verif.Torch

open Matrix

namespace Tensor

/-- `x.sum(dim=0)` (PyTorch, not in /repo). Used for pyfilter/filters/particle/utils.py:46 and 53. -/
def sum0 (x : Tensor) : Tensor :=
  match x.shape with
  | [] => x
  | s => ⟨s.dropLast, fun i => ∑ n ∈ Finset.range (s.getLastD 0), x.val (i ++ [n])⟩

/-- `x.unsqueeze_(0)` (PyTorch, not in /repo). Used for pyfilter/filters/particle/state.py:63-64. -/
def unsqueeze0 (x : Tensor) : Tensor := ⟨x.shape ++ [1], fun i => x.val i.dropLast⟩

/-- `torch.einsum("b..., b...ij -> ...ij", w, c)` (PyTorch, not in /repo), for as many batch dimensions in both arguments.
Used for pyfilter/filters/particle/utils.py:59. -/
def einsumCov (w c : Tensor) : Except PyErr Tensor := do
  return (← zip (· * ·) w.unsqueeze1.unsqueeze1 c).sum0

/-- `x.expand(shape)` (PyTorch, not in /repo). Used for pyfilter/filters/particle/proposals/approximate.py:23. -/
def expandTo (x : Tensor) (shape : List ℕ) : Except PyErr Tensor :=
  if broadcastShape x.shape shape = some shape then .ok (x.expand shape) else .error .runtimeError

/-- `torch.linalg.cholesky(x)` (PyTorch, not in /repo); `chol` factors one matrix. It raises if a matrix is not positive definite,
see `predictiveDensityT`. Used for pyfilter/filters/particle/state.py:69. -/
noncomputable def cholesky (chol : ∀ n, Matrix (Fin n) (Fin n) ℝ → Matrix (Fin n) (Fin n) ℝ) (x : Tensor) : Except PyErr Tensor :=
  match x.shape with
  | a :: b :: r =>
    if a = b then
      .ok ⟨a :: a :: r, fun i =>
        if h : i.tail.headD 0 < a ∧ i.headD 0 < a then
          chol a (of fun (u v : Fin a) => x.val (v :: u :: i.tail.tail)) ⟨i.tail.headD 0, h.1⟩ ⟨i.headD 0, h.2⟩
        else 0⟩
    else .error .runtimeError
  | _ => .error .runtimeError

end Tensor

/-- `get_filter_mean_and_variance`, pyfilter/filters/particle/utils.py:25-65; `event` is the event shape of the state, `x` its
value and `w` the normalised weights. -/
def filterMoments (event : List ℕ) (x w : Tensor) (covariance keepDim : Bool) : Except PyErr (Tensor × Tensor) := do
  let values := if event.length == 0 then x.unsqueeze1 else x
  let weights := w.unsqueeze1
  let mean := (← Tensor.zip (· * ·) weights values).sum0
  let centered ← Tensor.zip (· - ·) values mean
  let var ← (if !covariance || event.length == 0 then do
      let var := (← Tensor.zip (· * ·) weights (centered.map (· ^ 2))).sum0
      pure (if keepDim then var else var.squeeze1)
    else do
      let covariances ← centered.unsqueeze1.matmul (← centered.unsqueeze2)
      Tensor.einsumCov weights.squeeze1 covariances : Except PyErr Tensor)
  let mean := if keepDim then mean else mean.squeeze1
  return (mean, var)

/-- `MultivariateNormal(loc, covariance_matrix=cov)` (PyTorch, not in /repo). That the matrices have to be positive definite is
not checked here, see `normalOfCov`. Used for pyfilter/filters/particle/state.py:69. -/
def Dist.mkMvnCov (loc cov : Tensor) : Except PyErr Dist :=
  if loc.shape.length < 1 then .error .valueError else Dist.mkMvn loc cov

/-- `ParticleFilterPrediction.get_predictive_density(model, approximate=True)`, pyfilter/filters/particle/state.py:59-69, after the
particles have been propagated to `xNew`. `weights` and `normalized_weights` have the same shape. -/
noncomputable def predictiveDensityT (event : List ℕ) (xNew w : Tensor) : Except PyErr Dist := do
  let (mean, var) ← filterMoments event xNew w true false
  let mean := if w.shape.length > 1 then mean.unsqueeze0 else mean
  let var := if w.shape.length > 1 then var.unsqueeze0 else var
  if event.length == 0 then Dist.mkNormal mean (var.map Real.sqrt) else Dist.mkMvnCov mean var

/-- `D.expand(batch).sample()` (PyTorch, not in /repo) with standard normal numbers `noise`: `loc + scale * eps`, or
`loc + scale_tril @ eps`. Used for pyfilter/filters/particle/proposals/approximate.py:23-24. -/
noncomputable def Dist.expandSample (chol : ∀ n, Matrix (Fin n) (Fin n) ℝ → Matrix (Fin n) (Fin n) ℝ) (D : Dist) (batch : List ℕ)
    (noise : List ℕ → ℝ) : Except PyErr Tensor :=
  let eps : Tensor := ⟨D.eventShape ++ batch, noise⟩
  match D with
  | .normal loc scale => do
    Tensor.zip (· + ·) (← loc.expandTo batch) (← Tensor.zip (· * ·) (← scale.expandTo batch) eps)
  | .mvn loc cov => do
    let loc ← loc.expandTo (loc.shape.take 1 ++ batch)
    let tril ← cov.cholesky chol
    Tensor.zip (· + ·) loc (← tril.matmul eps.unsqueeze1).squeeze1

/-- The values drawn by `GaussianProposal.sample_and_weight`, pyfilter/filters/particle/proposals/approximate.py:19-24. `batch` is
the batch shape of the state. -/
noncomputable def gaussianValues (chol : ∀ n, Matrix (Fin n) (Fin n) ℝ → Matrix (Fin n) (Fin n) ℝ) (event : List ℕ) (xNew w : Tensor)
    (batch : List ℕ) (noise : List ℕ → ℝ) : Except PyErr Tensor := do
  (← predictiveDensityT event xNew w).expandSample chol batch noise

end Verif.Torch
