import Verif.Model.Proposals
import Verif.Model.Resampling

/-!
# Tensors with shapes, and the linear proposal on batches (pyfilter/filters/particle/proposals)

Shapes and indices are lists with the last dimension first, since torch aligns shapes at the last dimension. The value at an
index outside of the shape has no meaning.
-/

namespace Verif.Torch

open Matrix

/-- A tensor of numbers (PyTorch, not in /repo). `shape` and the argument of `val` begin with the last dimension.
Used for pyfilter/filters/particle/proposals/utils.py:217-267. -/
structure Tensor where
  shape : List ℕ
  val : List ℕ → ℝ

/-- Shape of the result of an elementwise operation (PyTorch, not in /repo): sizes agree or one of them is one.
Used for pyfilter/filters/particle/proposals/utils.py:254. -/
def broadcastShape : List ℕ → List ℕ → Option (List ℕ)
  | [], t => some t
  | a :: s, [] => some (a :: s)
  | a :: s, b :: t =>
    if a = b ∨ a = 1 ∨ b = 1 then (broadcastShape s t).map fun r => (if a = 1 then b else a) :: r else none

/-- Index of a tensor of the given shape that is read for an index of the result of broadcasting (PyTorch, not in /repo).
Used for pyfilter/filters/particle/proposals/utils.py:254. -/
def broadcastIndex : List ℕ → List ℕ → List ℕ
  | [], _ => []
  | a :: s, i => (if a = 1 then 0 else i.headD 0) :: broadcastIndex s i.tail

namespace Tensor

/-- Elementwise operation with broadcasting (PyTorch, not in /repo).
Used for pyfilter/filters/particle/proposals/utils.py:254-255. -/
def zip (f : ℝ → ℝ → ℝ) (x y : Tensor) : Except PyErr Tensor :=
  match broadcastShape x.shape y.shape with
  | none => .error .runtimeError
  | some s => .ok ⟨s, fun i => f (x.val (broadcastIndex x.shape i)) (y.val (broadcastIndex y.shape i))⟩

/-- Elementwise function (PyTorch, not in /repo). Used for pyfilter/filters/particle/proposals/linear.py:44. -/
def map (f : ℝ → ℝ) (x : Tensor) : Tensor := ⟨x.shape, fun i => f (x.val i)⟩

/-- `x.unsqueeze(-1)` (PyTorch, not in /repo). Used for pyfilter/filters/particle/proposals/utils.py:246. -/
def unsqueeze1 (x : Tensor) : Tensor := ⟨1 :: x.shape, fun i => x.val i.tail⟩

/-- `x.unsqueeze(-2)` (PyTorch, not in /repo). Used for pyfilter/filters/particle/proposals/utils.py:248. -/
def unsqueeze2 (x : Tensor) : Except PyErr Tensor :=
  match x.shape with
  | [] => .error .indexError
  | a :: r => .ok ⟨a :: 1 :: r, fun i => x.val (i.headD 0 :: i.tail.tail)⟩

/-- `x.squeeze(-1)` (PyTorch, not in /repo): only a dimension of size one is removed.
Used for pyfilter/filters/particle/proposals/utils.py:260. -/
def squeeze1 (x : Tensor) : Tensor :=
  match x.shape with
  | 1 :: r => ⟨r, fun i => x.val (0 :: i)⟩
  | _ => x

/-- `x.transpose(-2, -1)` (PyTorch, not in /repo). Used for pyfilter/filters/particle/proposals/utils.py:250. -/
def transpose (x : Tensor) : Except PyErr Tensor :=
  match x.shape with
  | a :: b :: r => .ok ⟨b :: a :: r, fun i => x.val (i.tail.headD 0 :: i.headD 0 :: i.tail.tail)⟩
  | _ => .error .indexError

/-- `x[..., 0, 0]` (PyTorch, not in /repo). Used for pyfilter/filters/particle/proposals/utils.py:265. -/
def corner (x : Tensor) : Tensor := ⟨x.shape.tail.tail, fun i => x.val (0 :: 0 :: i)⟩

/-- `x.matmul(y)` (PyTorch, not in /repo): an argument with one dimension is a vector, otherwise the last two dimensions
are matrices and the others are broadcast. Used for pyfilter/filters/particle/proposals/utils.py:252 and 260-262. -/
def matmul (x y : Tensor) : Except PyErr Tensor :=
  match x.shape, y.shape with
  | [k], [k'] => if k = k' then .ok ⟨[], fun _ => ∑ l : Fin k, x.val [l] * y.val [l]⟩ else .error .runtimeError
  | [k], m :: k' :: r =>
    if k = k' then .ok ⟨m :: r, fun i => ∑ l : Fin k, x.val [l] * y.val (i.headD 0 :: l :: i.tail)⟩
    else .error .runtimeError
  | k :: n :: r, [k'] =>
    if k = k' then .ok ⟨n :: r, fun i => ∑ l : Fin k, x.val (l :: i) * y.val [l]⟩ else .error .runtimeError
  | k :: n :: r, m :: k' :: r' =>
    if k = k' then
      match broadcastShape r r' with
      | none => .error .runtimeError
      | some s => .ok ⟨m :: n :: s, fun i =>
          ∑ l : Fin k, x.val (l :: i.tail.headD 0 :: broadcastIndex r i.tail.tail) *
            y.val (i.headD 0 :: l :: broadcastIndex r' i.tail.tail)⟩
    else .error .runtimeError
  | _, _ => .error .runtimeError

/-- `x.inverse()` (PyTorch, not in /repo). PyTorch raises for singular matrices; here the matrices are positive definite as
soon as the scales of the model are positive. Used for pyfilter/filters/particle/proposals/utils.py:254. -/
noncomputable def inverse (x : Tensor) : Except PyErr Tensor :=
  match x.shape with
  | a :: b :: r =>
    if a = b then
      .ok ⟨a :: a :: r, fun i =>
        if h : i.tail.headD 0 < a ∧ i.headD 0 < a then
          (of fun (u v : Fin a) => x.val (v :: u :: i.tail.tail))⁻¹ ⟨i.tail.headD 0, h.1⟩ ⟨i.headD 0, h.2⟩
        else 0⟩
    else .error .runtimeError
  | _ => .error .runtimeError

/-- `torch.eye(n)` (PyTorch, not in /repo). Used for pyfilter/utils.py:39. -/
def eye (n : ℕ) : Tensor := ⟨[n, n], fun i => if i.tail.headD 0 = i.headD 0 then 1 else 0⟩

/-- `construct_diag_from_flat`, pyfilter/utils.py:23-46. -/
def constructDiag (x : Tensor) (event : List ℕ) : Except PyErr Tensor :=
  if event.length ≤ 1 then
    zip (· * ·) (eye event.prod) (if event.length = 0 then x.unsqueeze1.unsqueeze1 else x.unsqueeze1)
  else .error .assertionError

/-- `x.expand(shape)` for a shape obtained by broadcasting (PyTorch, not in /repo).
Used for pyfilter/filters/particle/proposals/utils.py:265-267. -/
def expand (x : Tensor) (shape : List ℕ) : Tensor := ⟨shape, fun i => x.val (broadcastIndex x.shape i)⟩

end Tensor

/-- `Normal(loc, scale)` and `MultivariateNormal(loc, scale_tril=cholesky_ex(cov)[0])` (PyTorch, not in /repo) after
broadcasting; the latter is given by its covariance. Used for pyfilter/filters/particle/proposals/utils.py:264-267. -/
inductive Dist where
  | normal (loc scale : Tensor)
  | mvn (loc cov : Tensor)

namespace Dist

/-- `Normal(loc, scale)` (PyTorch, not in /repo). Used for pyfilter/filters/particle/proposals/utils.py:265. -/
def mkNormal (loc scale : Tensor) : Except PyErr Dist :=
  match broadcastShape loc.shape scale.shape with
  | none => .error .runtimeError
  | some s => .ok (.normal (loc.expand s) (scale.expand s))

/-- `MultivariateNormal(loc, scale_tril=cholesky_ex(cov)[0])` (PyTorch, not in /repo): dimensions other than those of the
vector and the matrix are broadcast. Used for pyfilter/filters/particle/proposals/utils.py:267. -/
def mkMvn (loc cov : Tensor) : Except PyErr Dist :=
  match loc.shape, cov.shape with
  | p :: r, a :: b :: r' =>
    match broadcastShape r' r with
    | none => .error .runtimeError
    | some s => .ok (.mvn (loc.expand (p :: s)) (cov.expand (a :: b :: s)))
  | _, _ => .error .valueError

/-- `batch_shape` (PyTorch, not in /repo). Used for pyfilter/filters/particle/proposals/utils.py:264-267. -/
def batchShape : Dist → List ℕ
  | normal loc _ => loc.shape
  | mvn loc _ => loc.shape.tail

/-- `event_shape` (PyTorch, not in /repo). Used for pyfilter/filters/particle/proposals/utils.py:264-267. -/
def eventShape : Dist → List ℕ
  | normal _ _ => []
  | mvn loc _ => loc.shape.take 1

/-- Log-density of the distribution at an index of the batch (PyTorch, not in /repo), for a value with `p` components (one for
`Normal`). Used for pyfilter/filters/particle/proposals/base.py:45-50. -/
noncomputable def logProbAt (D : Dist) (i : List ℕ) {p : ℕ} (x : Fin p → ℝ) : ℝ :=
  match D with
  | normal loc scale => ∑ e, normalLogProb (loc.val i) (scale.val i) (x e)
  | mvn loc cov => mvnLogProb (fun e : Fin p => loc.val (e :: i)) (of fun u v : Fin p => cov.val (v :: u :: i)) x

/-- `log_prob(y)` (PyTorch, not in /repo), after the check of `_validate_sample` that `y` has the event shape and can be broadcast
with the batch. Used for pyfilter/filters/particle/proposals/linear.py:86. -/
noncomputable def logProb (D : Dist) (y : Tensor) : Except PyErr Tensor :=
  match D with
  | normal loc scale =>
    match broadcastShape y.shape loc.shape with
    | none => .error .valueError
    | some s => .ok ⟨s, fun i => normalLogProb (loc.val (broadcastIndex loc.shape i)) (scale.val (broadcastIndex loc.shape i))
        (y.val (broadcastIndex y.shape i))⟩
  | mvn loc cov =>
    match y.shape, loc.shape with
    | q :: r, p :: r' =>
      if q = p then
        match broadcastShape r r' with
        | none => .error .valueError
        | some s => .ok ⟨s, fun i => mvnLogProb (fun e : Fin p => loc.val (e :: broadcastIndex r' i))
            (of fun u v : Fin p => cov.val (v :: u :: broadcastIndex r' i)) fun e : Fin p => y.val (e :: broadcastIndex r i)⟩
      else .error .valueError
    | _, _ => .error .valueError

end Dist

/-- `find_optimal_density`, pyfilter/filters/particle/proposals/utils.py:217-267, on tensors; `hidden` and `obs` are the event
shapes of the latent process and of the observations. -/
noncomputable def findOptimalDensity (hidden obs : List ℕ) (y loc hVarInv oVarInv c : Tensor) : Except PyErr Dist := do
  let hiddenIs1d := hidden.length == 0
  let obsIs1d := obs.length == 0
  let c := if hiddenIs1d then c.unsqueeze1 else c
  let cUnsqueezed ← (if obsIs1d then c.unsqueeze2 else pure c : Except PyErr Tensor)
  let cTransposed ← cUnsqueezed.transpose
  let oInvCov ← oVarInv.constructDiag obs
  let t2 ← (← cTransposed.matmul oInvCov).matmul cUnsqueezed
  let cov ← (← Tensor.zip (· + ·) (← hVarInv.constructDiag hidden) t2).inverse
  let t1 ← Tensor.zip (· * ·) hVarInv loc
  let t1 := if hiddenIs1d then t1.unsqueeze1 else t1
  let t2 ← (if obsIs1d then Tensor.zip (· * ·) oInvCov.squeeze1 y.unsqueeze1 else oInvCov.matmul y : Except PyErr Tensor)
  let t3 ← cTransposed.matmul t2.unsqueeze1
  let mean := (← cov.matmul (← Tensor.zip (· + ·) t1.unsqueeze1 t3)).squeeze1
  if hiddenIs1d then Dist.mkNormal mean.squeeze1 (cov.corner.map Real.sqrt) else Dist.mkMvn mean cov

/-- The kernel of `LinearGaussianObservations.sample_and_weight`, pyfilter/filters/particle/proposals/linear.py:38-52. `mean`
and `scale` are those of `hidden.mean_scale` (stochproc, not in /repo), `a`, `b` and `s` the parameters of the model. -/
noncomputable def linearKernel (hidden obs : List ℕ) (y mean scale a b s : Tensor) : Except PyErr Dist := do
  let hVarInv := scale.map fun r => (r ^ 2)⁻¹
  let oVarInv := s.map fun r => (r ^ 2)⁻¹
  findOptimalDensity hidden obs (← Tensor.zip (· - ·) y b) mean hVarInv oVarInv a

/-- `LinearGaussianObservations.pre_weight`, pyfilter/filters/particle/proposals/linear.py:57-86, on tensors. `x` is the value of the
state and `hScale` the scale of `hidden.mean_scale` (stochproc, not in /repo). -/
noncomputable def linearPreWeight (hidden obs : List ℕ) (y x hScale a b s : Tensor) : Except PyErr Tensor := do
  let hVar := hScale.map (· ^ 2)
  let oVar := s.map (· ^ 2)
  let a := if hidden.length == 0 then a.unsqueeze1 else a
  let obsIs1d := obs.length == 0
  let aUnsqueezed ← (if obsIs1d then a.unsqueeze2 else pure a : Except PyErr Tensor)
  let aTransposed ← aUnsqueezed.transpose
  let diagHVar ← hVar.constructDiag hidden
  let diagOVar ← oVar.constructDiag obs
  let cov ← Tensor.zip (· + ·) diagOVar (← (← aUnsqueezed.matmul diagHVar).matmul aTransposed)
  let kernel ← (if obsIs1d then do
      let oLoc ← Tensor.zip (· + ·) b (← Tensor.zip (· * ·) a.squeeze1 x)
      Dist.mkNormal oLoc (cov.corner.map Real.sqrt)
    else do
      let oLoc ← Tensor.zip (· + ·) b (← aUnsqueezed.matmul x.unsqueeze1).squeeze1
      Dist.mkMvn oLoc cov : Except PyErr Dist)
  kernel.logProb y

end Verif.Torch
