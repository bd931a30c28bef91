import Verif.Model.TensorNested
import Verif.Model.TensorGradient

/-!
# `SISR.predict` on tensors: `pyfilter/filters/particle/sisr.py:14-48`

As in `Verif.Model.Tensor`, shapes and indices begin with the last dimension. Log-weights are numbers, so that `nan_to_num_`
(pyfilter/utils.py:57) changes nothing.
-/

namespace Verif.Torch

/-- A tensor of booleans (PyTorch, not in /repo). Used for pyfilter/filters/particle/sisr.py:19. -/
structure Mask where
  shape : List ℕ
  val : List ℕ → Bool

namespace Mask

/-- `mask.any()` for at most one dimension (PyTorch, not in /repo). Used for pyfilter/filters/particle/sisr.py:25. -/
def any (m : Mask) : Bool :=
  match m.shape with
  | [] => m.val []
  | n :: _ => (List.range n).any fun k => m.val [k]

/-- `mask.nonzero()`, which indexing with a mask of at most one dimension goes through (PyTorch, not in /repo); a mask without
dimensions adds one of its own. Used for pyfilter/filters/particle/sisr.py:29. -/
def nonzero (m : Mask) : List ℕ :=
  match m.shape with
  | [] => if m.val [] then [0] else []
  | n :: _ => (List.range n).filter fun k => m.val [k]

/-- `mask.unsqueeze(0)` (PyTorch, not in /repo). Used for pyfilter/filters/particle/sisr.py:31. -/
def unsqueeze0 (m : Mask) : Mask := ⟨m.shape ++ [1], fun i => m.val i.dropLast⟩

/-- `mask.unsqueeze_(-1)` (PyTorch, not in /repo). Used for pyfilter/filters/particle/sisr.py:41. -/
def unsqueeze1 (m : Mask) : Mask := ⟨1 :: m.shape, fun i => m.val i.tail⟩

/-- The mask expanded to a shape (PyTorch, not in /repo). Used for pyfilter/filters/particle/sisr.py:32. -/
def expanded (m : Mask) (i : List ℕ) : Bool := m.val (broadcastIndex m.shape i)

/-- How many entries of the expanded mask are set at the first `k` places in memory (PyTorch, not in /repo).
Used for pyfilter/filters/particle/sisr.py:32. -/
def before (m : Mask) (shape : List ℕ) (k : ℕ) : ℕ := ((List.range k).filter fun l => m.expanded (entry shape l)).length

end Mask

/-- `x.masked_scatter(mask, source)` (PyTorch, not in /repo) for values of any kind: the entries of `source` are copied, in their
order in memory, to the places where the expanded mask is set. Used for pyfilter/filters/particle/sisr.py:32 and 43. -/
def maskedScatter {α : Type} (shape : List ℕ) (val : List ℕ → α) (m : Mask) (sourceShape : List ℕ) (source : List ℕ → α) :
    Except PyErr (List ℕ → α) :=
  if broadcastShape m.shape shape = some shape ∧ m.before shape shape.prod ≤ sourceShape.prod then
    .ok fun i => if m.expanded i then source (entry sourceShape (m.before shape (offset shape i))) else val i
  else .error .runtimeError

/-- `x.masked_fill(mask, c)` (PyTorch, not in /repo). Used for pyfilter/filters/particle/sisr.py:34. -/
def Tensor.maskedFill (x : Tensor) (m : Mask) (c : ℝ) : Except PyErr Tensor :=
  if broadcastShape m.shape x.shape = some x.shape then .ok ⟨x.shape, fun i => if m.expanded i then c else x.val i⟩
  else .error .runtimeError

/-- `x[..., mask]` (PyTorch, not in /repo). Used for pyfilter/filters/particle/sisr.py:29. -/
def Tensor.selectLast (x : Tensor) (m : Mask) : Except PyErr Tensor :=
  match m.shape with
  | [] => .ok ⟨m.nonzero.length :: x.shape, fun i => x.val i.tail⟩
  | _ => if x.shape.take m.shape.length = m.shape then
      .ok ⟨m.nonzero.length :: x.shape.tail, fun i => x.val (m.nonzero.getD (i.headD 0) 0 :: i.tail)⟩
    else .error .indexError

open Classical in
/-- `x[indices, mask]` (PyTorch, not in /repo): `indices` for the first dimension and the entries that are set for those after it,
broadcast against each other; the other dimensions remain. Used for pyfilter/filters/particle/sisr.py:38. -/
noncomputable def Tensor.pick (x : Tensor) (indices : Index) (m : Mask) : Except PyErr Tensor :=
  let rest := x.shape.take (x.shape.length - 1 - m.shape.length)
  if x.shape.dropLast = rest ++ m.shape ∧ indices.shape.head? = some m.nonzero.length ∧
      ∀ j, InShape indices.shape j → indices.val j < x.shape.getLastD 0 then
    .ok ⟨rest ++ indices.shape, fun i =>
      let j := i.drop rest.length
      x.val (i.take rest.length ++ (m.shape.map (fun _ => m.nonzero.getD (j.headD 0) 0) ++ [indices.val j]))⟩
  else .error .indexError

/-- `x.max(dim=0)[0]` (PyTorch, not in /repo). Used for pyfilter/utils.py:59. -/
noncomputable def Tensor.max0 (x : Tensor) : Tensor :=
  ⟨x.shape.dropLast, fun i => ((List.range (x.shape.getLastD 0)).map fun n => x.val (i ++ [n])).foldl max (x.val (i ++ [0]))⟩

open Classical in
/-- `normalize`, pyfilter/utils.py:49-64. -/
noncomputable def normalizeT (weights : Tensor) : Except PyErr Tensor := do
  let normalized := (← Tensor.zip (· - ·) weights weights.max0).softmax0
  let axSum := normalized.sum0
  normalized.maskedFill ⟨axSum.shape, fun i => decide (axSum.val i = 0)⟩ (1 / normalized.shape.getLastD 0)

/-- `ParticleFilterPrediction`, pyfilter/filters/particle/state.py:18-34. -/
structure PredictionT where
  x : Tensor
  weights : Tensor
  normalized : Tensor
  indices : Index

open Classical in
/-- `SISR.predict`, pyfilter/filters/particle/sisr.py:14-48, with `get_ess` (pyfilter/utils.py:8-20); `event` is the event shape of
the latent process; values, log-weights and previous indices are those of the state. -/
noncomputable def sisrPredict (event : List ℕ) (threshold : ℝ) (resampler : Tensor → Except PyErr Index) (x weights : Tensor)
    (prev : Index) : Except PyErr PredictionT := do
  let normalized ← normalizeT weights
  let ess := (normalized.map (· ^ 2)).sum0.map (·⁻¹)
  let mask : Mask := ⟨ess.shape, fun i => decide (ess.val i < threshold)⟩
  if !mask.any then return ⟨x, weights, normalized, prev⟩
  let sub ← resampler (← normalized.selectLast mask)
  let unsqueezed := mask.unsqueeze0
  let indices ← maskedScatter prev.shape prev.val unsqueezed sub.shape sub.val
  let resampledWeights ← weights.maskedFill unsqueezed 0
  let resampledNormalized ← normalized.maskedFill unsqueezed (1 / weights.shape.getLastD 0)
  let temp ← x.pick sub mask
  let unsqueezed := if event.length > 0 then unsqueezed.unsqueeze1 else unsqueezed
  let values ← maskedScatter x.shape x.val unsqueezed temp.shape temp.val
  return ⟨⟨x.shape, values⟩, resampledWeights, resampledNormalized, ⟨prev.shape, indices⟩⟩

end Verif.Torch
