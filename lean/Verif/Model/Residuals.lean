import Verif.Model.Resampling
import Mathlib.Analysis.SpecialFunctions.Log.Basic

/-!
# The residuals of `Standardizer`: `pyfilter/inference/sequential/collectors.py:66-77`

What is done with the residuals is in `Verif.Model.Collectors`.
-/

namespace Verif.Residual

/-- A transform `t` with its inverse `t.inv` (PyTorch, not in /repo). Used for pyfilter/inference/sequential/collectors.py:74-75. -/
structure Transform (α : Type) where
  fwd : α → α
  inv : α → α

/-- The density of an observation, `ssm.observable.build_density(x)` (stochproc, not in /repo), as far as `Standardizer` looks at it: a
`TransformedDistribution` with its transforms, or a distribution of another class.
Used for pyfilter/inference/sequential/collectors.py:69-71. -/
inductive Density (α : Type) where
  | transformed (transforms : List (Transform α))
  | other

/-- `AffineTransform(loc, scale)` (PyTorch, not in /repo). Used for pyfilter/inference/sequential/collectors.py:74-75. -/
noncomputable def affine (loc scale : ℝ) : Transform ℝ := ⟨fun x => loc + scale * x, fun y => (y - loc) / scale⟩

/-- `ExpTransform()` (PyTorch, not in /repo). Used for pyfilter/inference/sequential/collectors.py:74-75. -/
noncomputable def expTransform : Transform ℝ := ⟨Real.exp, Real.log⟩

/-- `Standardizer._standardize`, pyfilter/inference/sequential/collectors.py:66-77, given the density of the observation at a state. -/
def standardizeObs {α : Type} (dist : Density α) (y : α) : Except PyErr α :=
  match dist with
  | .other => .error .notImplementedError
  | .transformed transforms => .ok (transforms.reverse.foldl (fun yStd t => t.inv yStd) y)

end Verif.Residual
