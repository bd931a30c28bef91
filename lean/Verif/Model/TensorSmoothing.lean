import Verif.Model.TensorGaussian

/-!
# Smoothing on tensors: `pyfilter/filters/particle/base.py:105-146` and `pyfilter/filters/utils.py`

As in `Verif.Model.Tensor`, shapes and indices begin with the last dimension. Log-weights and log-densities are numbers.
-/

namespace Verif.Torch

/-- A tensor of integers (PyTorch, not in /repo). Used for pyfilter/filters/utils.py:4-21. -/
structure Index where
  shape : List ℕ
  val : List ℕ → ℕ

/-- An index within a shape (PyTorch, not in /repo). Used for pyfilter/filters/utils.py:21. -/
def InShape (shape i : List ℕ) : Prop := List.Forall₂ (· < ·) i shape

/-- `indices.unsqueeze(-1)` (PyTorch, not in /repo). Used for pyfilter/filters/utils.py:19. -/
def Index.unsqueeze1 (x : Index) : Index := ⟨1 :: x.shape, fun i => x.val i.tail⟩

/-- `indices.expand(shape)` (PyTorch, not in /repo). Used for pyfilter/filters/utils.py:19. -/
def Index.expandTo (x : Index) (shape : List ℕ) : Except PyErr Index :=
  if broadcastShape x.shape shape = some shape then .ok ⟨shape, fun i => x.val (broadcastIndex x.shape i)⟩ else .error .runtimeError

open Classical in
/-- `x.gather(0, indices)` (PyTorch, not in /repo) for values `val` of any kind: as many dimensions, no larger than `x` except for
the first one, and indices within the first dimension of `x`. Used for pyfilter/filters/utils.py:21. -/
noncomputable def gather0 {α : Type} (shape : List ℕ) (val : List ℕ → α) (indices : Index) : Except PyErr (List ℕ → α) :=
  if List.Forall₂ (· ≤ ·) indices.shape.dropLast shape.dropLast ∧ indices.shape.length = shape.length ∧
      ∀ i, InShape indices.shape i → indices.val i < shape.getLastD 0 then
    .ok fun i => val (i.dropLast ++ [indices.val i])
  else .error .runtimeError

/-- `x.gather(0, indices)` for numbers (PyTorch, not in /repo). Used for pyfilter/filters/particle/base.py:125. -/
noncomputable def Tensor.gather0 (x : Tensor) (indices : Index) : Except PyErr Tensor := do
  return ⟨indices.shape, ← Torch.gather0 x.shape x.val indices⟩

/-- The indices that `batched_gather` gathers with, pyfilter/filters/utils.py:17-19; `shape` is the one of `x`. -/
def batchedIndices (shape : List ℕ) (indices : Index) : Except PyErr Index :=
  if shape.length > indices.shape.length then indices.unsqueeze1.expandTo shape else .ok indices

/-- `batched_gather(x, indices, dim=0)`, pyfilter/filters/utils.py:4-21, for numbers. -/
noncomputable def batchedGather (x : Tensor) (indices : Index) : Except PyErr Tensor := do
  x.gather0 (← batchedIndices x.shape indices)

/-- `batched_gather(x, indices, dim=0)`, pyfilter/filters/utils.py:4-21, for integers. -/
noncomputable def batchedGatherIndex (x indices : Index) : Except PyErr Index := do
  let indices ← batchedIndices x.shape indices
  return ⟨indices.shape, ← gather0 x.shape x.val indices⟩

/-- `x.unsqueeze(1)` (PyTorch, not in /repo). Used for pyfilter/filters/particle/base.py:114. -/
def Tensor.unsqueezeSecond (x : Tensor) : Except PyErr Tensor :=
  if x.shape = [] then .error .indexError
  else .ok ⟨x.shape.dropLast ++ [1, x.shape.getLastD 0], fun i => x.val (i.dropLast.dropLast ++ [i.getLastD 0])⟩

/-- `x.moveaxis(1, 2)` (PyTorch, not in /repo) for three dimensions. Used for pyfilter/filters/particle/base.py:118. -/
def Tensor.moveaxis (x : Tensor) : Except PyErr Tensor :=
  match x.shape with
  | [c, b, a] => .ok ⟨[b, c, a], fun i => x.val (i.tail.headD 0 :: i.headD 0 :: i.tail.tail)⟩
  | _ => .error .indexError

/-- `Categorical(logits=x).sample()` (PyTorch, not in /repo): `draw` chooses a category for an index of the batch from the row of
its logits. Used for pyfilter/filters/particle/base.py:120. -/
def categorical (draw : List ℕ → List ℝ → ℕ) (x : Tensor) : Except PyErr Index :=
  match x.shape with
  | [] => .error .valueError
  | n :: r => .ok ⟨r, fun i => draw i ((List.range n).map fun j => x.val (j :: i))⟩

/-- `torch.stack(xs, dim=0)` (PyTorch, not in /repo). Used for pyfilter/filters/particle/base.py:128 and 146. -/
def stack (xs : List Tensor) : Except PyErr Tensor :=
  match xs with
  | [] => .error .runtimeError
  | x :: r =>
    if r.all fun t => t.shape = x.shape then
      .ok ⟨x.shape ++ [xs.length], fun i => ((xs[i.getLastD 0]?).getD x).val i.dropLast⟩
    else .error .runtimeError

/-- What smoothing reads of a recorded state, pyfilter/filters/particle/base.py:107-120 and 133-143: values, log-weights and
previous indices, and `hidden.build_density(state).log_prob` (stochproc, not in /repo). -/
structure SmoothState where
  x : Tensor
  w : Tensor
  prev : Index
  logProb : Tensor → Except PyErr Tensor

/-- One pass of the loop in `_do_sample_ffbs`, pyfilter/filters/particle/base.py:111-126; `next` is `res[-1]`, `batch` the batch
shape of the filter and `particles` the number of particles. -/
noncomputable def backStep (event batch : List ℕ) (particles : ℕ) (draw : List ℕ → List ℝ → ℕ) (next : Tensor) (s : SmoothState) :
    Except PyErr Tensor := do
  let wState ← s.logProb (← next.unsqueezeSecond)
  let weights ← Tensor.zip (· + ·) s.w.unsqueeze0 wState
  let weights ← (if batch ≠ [] then weights.moveaxis else pure weights : Except PyErr Tensor)
  let indices ← categorical draw weights
  let indices ← (if event.length > 0 then indices.unsqueeze1.expandTo (event ++ (batch ++ [particles])) else pure indices :
    Except PyErr Index)
  s.x.gather0 indices

/-- The loop of `_do_sample_ffbs`, pyfilter/filters/particle/base.py:111-126, newest state first; `draw t` draws for the state
with `t` states before it. -/
noncomputable def backLoop (event batch : List ℕ) (particles : ℕ) (draw : ℕ → List ℕ → List ℝ → ℕ) (next : Tensor) :
    List SmoothState → Except PyErr (List Tensor)
  | [] => .ok []
  | s :: rest => do
    let resampled ← backStep event batch particles (draw rest.length) next s
    return resampled :: (← backLoop event batch particles draw resampled rest)

/-- `_do_sample_ffbs`, pyfilter/filters/particle/base.py:105-128. -/
noncomputable def ffbsTensor (event batch : List ℕ) (particles : ℕ) (resampler : Tensor → Except PyErr Index)
    (draw : ℕ → List ℕ → List ℝ → ℕ) (states : List SmoothState) : Except PyErr Tensor :=
  match states.reverse with
  | [] => .error .indexError
  | latest :: rest => do
    let first ← batchedGather latest.x (← resampler latest.w)
    stack (first :: (← backLoop event batch particles draw first rest)).reverse

/-- The loop of `_do_sample_fl`, pyfilter/filters/particle/base.py:141-144, newest state first. -/
noncomputable def lagLoop (latest : SmoothState) (prev : Index) : List SmoothState → Except PyErr (List Tensor)
  | [] => .ok []
  | s :: rest => do
    let prev ← batchedGatherIndex latest.prev prev
    return (← batchedGather s.x prev) :: (← lagLoop s prev rest)

/-- `_do_sample_fl`, pyfilter/filters/particle/base.py:130-146. -/
noncomputable def flTensor (batch : List ℕ) (particles : ℕ) (states : List SmoothState) : Except PyErr Tensor :=
  match states.reverse with
  | [] => .error (.exception "StopIteration")
  | latest :: rest => do
    let prev : Index := ⟨[particles], fun i => i.headD 0⟩
    let prev ← (if batch ≠ [] then prev.unsqueeze1.expandTo (batch ++ [particles]) else pure prev : Except PyErr Index)
    stack (latest.x :: (← lagLoop latest prev rest)).reverse

end Verif.Torch
