import Verif.Model.XFloat
import Verif.Model.Container

/-!
# The legacy mode finder: `ModeFinder.find_mode_legacy`, `pyfilter/filters/particle/proposals/utils.py:158-216`

Tensors have a first dimension of size `N` (particles, or 1 in `GaussianLinearized`), a second of size `B` (parallel filters)
and components of the state. A scalar state (`hidden.n_dim == 0`) has `d = 1` and no dimension for its component, so that the
last dimension of its tensors is that of the parallel filters. A filter without parallel filters has one dimension less; for a
scalar state its tensors are rows here (`N = 1`, the particles being numbered by `Fin B`).
-/

namespace Verif.ModeLegacy

open XF

variable {N B d : ℕ}

open Classical in
/-- Square root; NaN for negative numbers (PyTorch `.sqrt()`, not in /repo).
Used for pyfilter/filters/particle/proposals/utils.py:198. -/
noncomputable def xsqrt : XF → XF
  | .nan => .nan
  | .ninf => .nan
  | .pinf => .pinf
  | .fin r => if 0 ≤ r then .fin (Real.sqrt r) else .nan

/-- `.min(dim=-1).values`, NaN if an entry is NaN (PyTorch, not in /repo).
Used for pyfilter/filters/particle/proposals/utils.py:191. -/
noncomputable def vmin {n : ℕ} (x : Fin n → XF) : XF := -vmax fun i => -x i

/-- A tensor. Used for pyfilter/filters/particle/proposals/utils.py:174-177. -/
abbrev T (N B d : ℕ) := Fin N → Fin B → Fin d → XF

/-- What the finder is given: `self._model.n_dim > 0`, `self._model.hidden.n_dim == 0`, `self._use_hessian`, `self._alpha`,
`self._num_steps`, and first and second derivatives of the joint log-density of particle and observation in the particle
(autograd, not in /repo). The log-density of a particle depends on this particle only, so that line 188, the derivative of the
sum of all entries of the gradient, gives the column sums of the Hessian of each particle. Autograd raises if
the gradient does not depend on the particle at all; this is not modelled (normal predictive densities do depend on it).
Used for pyfilter/filters/particle/proposals/utils.py:34-56 and 183-193. -/
structure Finder (N B d : ℕ) where
  obsVector : Bool
  hiddenScalar : Bool
  useHessian : Bool
  alpha : ℝ
  numSteps : ℕ
  grad : Fin N → Fin B → (Fin d → XF) → Fin d → XF
  hess : Fin N → Fin B → (Fin d → XF) → Fin d → Fin d → XF

namespace Finder

variable (F : Finder N B d)

/-- `diag_hess`, pyfilter/filters/particle/proposals/utils.py:188. -/
noncomputable def diagHess (mean : T N B d) : T N B d := fun i b e => ∑ k, F.hess i b (mean i b) k e

/-- `v`, pyfilter/filters/particle/proposals/utils.py:190-193: the last dimension is that of the components of a vector state
and that of the parallel filters for a scalar state. -/
noncomputable def v (diag : T N B d) : T N B d := fun i b e =>
  if F.obsVector then
    if F.hiddenScalar then vmin fun b' => diag i b' e else vmin fun e' => diag i b e'
  else diag i b e

/-- `step`, pyfilter/filters/particle/proposals/utils.py:176 and 188-197. -/
noncomputable def step (mean : T N B d) : T N B d := fun i b e =>
  if F.useHessian then
    let diag := F.diagHess mean
    let dh := xmax (.fin 2 * F.v diag i b e) (.fin 0)
    .fin 1 / (-diag i b e + dh)
  else .fin F.alpha

/-- One turn of the loop, pyfilter/filters/particle/proposals/utils.py:179-204, on `(mean, std)`. -/
noncomputable def turn (s : T N B d × T N B d) : T N B d × T N B d :=
  let step := F.step s.1
  let gradient : T N B d := fun i b e => F.grad i b (s.1 i b) e
  let std := if F.useHessian then fun i b e => xsqrt (step i b e) else s.2
  (fun i b e => s.1 i b e + step i b e * gradient i b e, std)

open Classical in
/-- pyfilter/filters/particle/proposals/utils.py:207-210: entries in which mean or scale are not finite get back their
initial values. -/
noncomputable def fill (fillMean fillStd : T N B d) (s : T N B d × T N B d) : T N B d × T N B d :=
  let ok := fun i b e => (s.1 i b e).IsFinite ∧ (s.2 i b e).IsFinite
  (fun i b e => if ok i b e then s.1 i b e else fillMean i b e, fun i b e => if ok i b e then s.2 i b e else fillStd i b e)

open Classical in
/-- `find_mode_legacy`, pyfilter/filters/particle/proposals/utils.py:158-216: means and scales of the normal kernels. The
constructor of `Normal` (PyTorch, not in /repo) refuses means that are NaN and scales that are not positive. -/
noncomputable def find (mean std : T N B d) : Except PyErr (T N B d × T N B d) :=
  let s := fill mean std (F.turn^[F.numSteps] (mean, std))
  if ∀ i b e, s.1 i b e ≠ .nan ∧ XF.lt (.fin 0) (s.2 i b e) then .ok s else .error .valueError

end Finder

end Verif.ModeLegacy
