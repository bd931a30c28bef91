import Verif.Model.Resampling
import Mathlib.Analysis.Calculus.Deriv.Basic

/-!
# `pyfilter/filters/particle/proposals/utils.py`: derivatives by `functorch`

The latent process and the observations are scalars and the model has one parameter, which its densities read from the model
object. Gradients are modelled; the Hessian (lines 66, 77) is mapped in the same way.
-/

namespace Verif.Functorch

open Verif

/-- A tensor of a given shape (PyTorch, not in /repo). Used for pyfilter/filters/particle/proposals/utils.py:68-80. -/
def Tensor : List ℕ → Type
  | [] => ℝ
  | n :: s => Fin n → Tensor s

/-- What a model holds as parameter: a plain tensor without dimensions, or a `PriorBoundParameter` with the batch shape of its
context (pyfilter/inference/context.py:160-163), which has at most one dimension.
Used for pyfilter/filters/particle/proposals/utils.py:13-18. -/
inductive Param where
  | plain (v : ℝ)
  | single (v : ℝ)
  | bound (n : ℕ) (v : Fin n → ℝ)

/-- A log-density evaluated at one particle: a number, or a vector if the parameter is one (broadcasting, PyTorch).
Used for pyfilter/filters/particle/proposals/utils.py:96. -/
inductive Value where
  | scalar (v : ℝ)
  | vector (n : ℕ) (v : Fin n → ℝ)

/-- `_infer_shapes` for one parameter, pyfilter/filters/particle/proposals/utils.py:16-18: the dimension that is mapped over. -/
def inferShape (p : Param) (i : ℕ) : Option ℕ :=
  match p with
  | .plain _ => none
  | _ => if i = 0 then some 0 else none

/-- `_model_likelihood`, pyfilter/filters/particle/proposals/utils.py:84-96: `logp` is the sum of both log-densities given the
parameter, at `old_x`, `y` and `x`. The argument `parameters` is not used; the densities read the parameter of `model`. -/
def modelLikelihood (logp : ℝ → ℝ → ℝ → ℝ → ℝ) (x y oldX : ℝ) (_parameters : Param) (model : Param) : Value :=
  match model with
  | .plain v => .scalar (logp v oldX y x)
  | .single v => .scalar (logp v oldX y x)
  | .bound n v => .vector n fun b => logp (v b) oldX y x

/-- The number in a value without dimensions (PyTorch, not in /repo). Used for pyfilter/filters/particle/proposals/utils.py:64. -/
def Value.item : Value → ℝ
  | .scalar v => v
  | .vector _ _ => 0

/-- `functorch.grad` (PyTorch, not in /repo): raises unless the function returns a tensor without dimensions.
Used for pyfilter/filters/particle/proposals/utils.py:64. -/
noncomputable def grad (f : ℝ → Value) (x : ℝ) : Except PyErr ℝ :=
  match f x with
  | .scalar _ => .ok (deriv (fun z => (f z).item) x)
  | .vector _ _ => .error .runtimeError

/-- The slice of a parameter that one call inside `vmap` sees (PyTorch, not in /repo): all of it without a dimension to map over;
mapping raises for tensors without dimensions and for other sizes.
Used for pyfilter/filters/particle/proposals/utils.py:76. -/
def slice (p : Param) (dim : Option ℕ) (n : ℕ) (i : Fin n) : Except PyErr Param :=
  match dim, p with
  | none, p => .ok p
  | some _, .bound m v => if h : m = n then .ok (.single (v (h ▸ i))) else .error .valueError
  | some _, _ => .error .valueError

/-- Collects the results of the calls inside `vmap` (PyTorch, not in /repo): an exception of any call is raised.
Used for pyfilter/filters/particle/proposals/utils.py:76. -/
noncomputable def collect {n : ℕ} {α : Type} (f : Fin n → Except PyErr α) : Except PyErr (Fin n → α) :=
  open Classical in
  if h : ∃ i e, f i = .error e then .error h.choose_spec.choose
  else .ok fun i => match hf : f i with
    | .ok a => a
    | .error e => absurd ⟨i, e, hf⟩ h

/-- `initialize` and the call in `find_mode`, pyfilter/filters/particle/proposals/utils.py:56-82 and 127: one `vmap` for every
dimension of the batch shape, the one of step `i` inside the one of step `i + 1`, so that the last dimension belongs to step 0.
`dims i` are the dimensions of lines 69-72, computed from the parameter of the model. -/
noncomputable def gradFun (logp : ℝ → ℝ → ℝ → ℝ → ℝ) (model : Param) (dims : ℕ → Option ℕ) :
    (shape : List ℕ) → Tensor shape → ℝ → Tensor shape → Param → Except PyErr (Tensor shape)
  | [], x, y, oldX, parameters => grad (fun z => modelLikelihood logp z y oldX parameters model) x
  | n :: shape, x, y, oldX, parameters => collect fun i : Fin n => do
      let p ← slice parameters (dims shape.length) n i
      gradFun logp model dims shape (x i) y (oldX i) p

/-- The gradient at all particles, pyfilter/filters/particle/proposals/utils.py:56-82 and 121-127. -/
noncomputable def gradient (logp : ℝ → ℝ → ℝ → ℝ → ℝ) (model : Param) (shape : List ℕ) (x : Tensor shape) (y : ℝ)
    (oldX : Tensor shape) : Except PyErr (Tensor shape) :=
  gradFun logp model (inferShape model) shape x y oldX model

end Verif.Functorch
