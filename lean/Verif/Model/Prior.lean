import Verif.Model.XFloat
import Mathlib.Algebra.BigOperators.Fin

/-!
# Evaluating priors: `pyfilter/inference/prior.py`, `parameter.py` and `context.py`

`eval_prior` and `eval_priors` in constrained and unconstrained coordinates, with the transforms of torch
that they use. One row of the batch of parameters is modelled. Supports with a bijection acting on every
component are modelled (real line, half-lines, intervals); simplices, Cholesky factors and other supports
whose bijection mixes components are not. torch clips the sigmoid away from 0 and 1 by the smallest floating
point number; numbers are exact here and the clipping is left out.
-/

namespace Verif.Priors

/-- `torch.nn.functional.softplus` (torch).
Used for pyfilter/inference/prior.py:62. -/
noncomputable def softplus (x : ℝ) : ℝ := Real.log (1 + Real.exp x)

/-- An elementary transform of torch: `ExpTransform`, `SigmoidTransform`, `AffineTransform(loc, scale)`.
Used for pyfilter/inference/prior.py:47-52. -/
inductive Tr where
  | exp
  | sigmoid
  | affine (loc scale : ℝ)

/-- `Transform.__call__` (torch). Used for pyfilter/inference/prior.py:109. -/
noncomputable def Tr.call : Tr → ℝ → ℝ
  | .exp, x => Real.exp x
  | .sigmoid, x => 1 / (1 + Real.exp (-x))
  | .affine loc scale, x => loc + scale * x

/-- `Transform._inverse` (torch). Used for pyfilter/inference/prior.py:85. -/
noncomputable def Tr.inverse : Tr → ℝ → ℝ
  | .exp, y => Real.log y
  | .sigmoid, y => Real.log y - Real.log (1 + -y)
  | .affine loc scale, y => (y - loc) / scale

/-- `Transform.log_abs_det_jacobian` at the argument of the transform (torch).
Used for pyfilter/inference/prior.py:62. -/
noncomputable def Tr.ladj : Tr → ℝ → ℝ
  | .exp, x => x
  | .sigmoid, x => -softplus (-x) - softplus x
  | .affine _ scale, _ => Real.log |scale|

/-- Supports of priors, componentwise (torch `constraints`).
Used for pyfilter/inference/prior.py:52. -/
inductive Support where
  | real
  | greaterThan (lo : ℝ)
  | lessThan (hi : ℝ)
  | interval (lo hi : ℝ)

/-- `support.check` (torch; up to the end points, which have probability zero).
Used for pyfilter/inference/parameter.py:81. -/
def Support.mem : Support → ℝ → Prop
  | .real, _ => True
  | .greaterThan lo, x => lo < x
  | .lessThan hi, x => x < hi
  | .interval lo hi, x => lo < x ∧ x < hi

/-- `biject_to(support)` (torch): the transforms that are composed, in the order of application.
Used for pyfilter/inference/prior.py:52. -/
def Support.bijection : Support → List Tr
  | .real => []
  | .greaterThan lo => [.exp, .affine lo 1]
  | .lessThan hi => [.exp, .affine hi (-1)]
  | .interval lo hi => [.sigmoid, .affine lo (hi - lo)]

/-- `ComposeTransform.__call__` (torch). Used for pyfilter/inference/prior.py:109. -/
noncomputable def callAll : List Tr → ℝ → ℝ
  | [], x => x
  | t :: ts, x => callAll ts (t.call x)

/-- The inverse of a `ComposeTransform` (torch): the inverses in reversed order.
Used for pyfilter/inference/prior.py:85. -/
noncomputable def inverseAll : List Tr → ℝ → ℝ
  | [], y => y
  | t :: ts, y => t.inverse (inverseAll ts y)

/-- `ComposeTransform.log_abs_det_jacobian` (torch): every part at the point it is applied to.
Used for pyfilter/inference/prior.py:62. -/
noncomputable def ladjAll : List Tr → ℝ → ℝ
  | [], _ => 0
  | t :: ts, x => t.ladj x + ladjAll ts (t.call x)

/-- A prior of `n` components: the support of every component and `log_prob` of an event.
Used for pyfilter/inference/prior.py:32. -/
structure Prior (n : ℕ) where
  support : Fin n → Support
  logProb : (Fin n → ℝ) → XF

namespace Prior

variable {n : ℕ}

/-- `get_constrained`, pyfilter/inference/prior.py:87-109. -/
noncomputable def getConstrained (p : Prior n) (u : Fin n → ℝ) : Fin n → ℝ :=
  fun j => callAll (p.support j).bijection (u j)

/-- `get_unconstrained`, pyfilter/inference/prior.py:64-85. -/
noncomputable def getUnconstrained (p : Prior n) (x : Fin n → ℝ) : Fin n → ℝ :=
  fun j => inverseAll (p.support j).bijection (x j)

/-- `unconstrained_prior().log_prob`, pyfilter/inference/prior.py:54-62. `TransformedDistribution.log_prob`
(torch) subtracts `log_abs_det_jacobian` of the transform, here the inverse of the bijection, from zero, maps
the value back and adds `log_prob` of the prior; `log_abs_det_jacobian` of an inverse is minus that of the
bijection. Components of the event are summed. -/
noncomputable def unconstrainedLogProb (p : Prior n) (u : Fin n → ℝ) : XF :=
  .fin (0 - -(∑ j, ladjAll (p.support j).bijection (u j))) + p.logProb (p.getConstrained u)

/-- `eval_prior`, pyfilter/inference/prior.py:111-123 and parameter.py:96-107: `x` are the constrained
values. -/
noncomputable def evalPrior (p : Prior n) (x : Fin n → ℝ) (constrained : Bool) : XF :=
  if constrained then p.logProb x else p.unconstrainedLogProb (p.getUnconstrained x)

end Prior

/-- The registered priors with their numbers of elements, in order of registration.
Used for pyfilter/inference/context.py:50-63. -/
structure Registry where
  m : ℕ
  numel : Fin m → ℕ
  prior : ∀ i, Prior (numel i)

namespace Registry

/-- The number of columns of stacked parameters, pyfilter/inference/context.py:232. -/
abbrev dim (c : Registry) : ℕ := ∑ i, c.numel i

/-- `index` when the loop reaches parameter `i`, pyfilter/inference/context.py:213-220. -/
def index (c : Registry) (i : Fin c.m) : ℕ := ∑ k : Fin i, c.numel (Fin.castLE i.2.le k)

theorem index_lt (c : Registry) (i : Fin c.m) (j : Fin (c.numel i)) : c.index i + j < c.dim := by
  have := (finSigmaFinEquiv (n := c.numel) ⟨i, j⟩).2
  rwa [finSigmaFinEquiv_apply] at this

/-- The columns of parameter `i` in a stacked row, pyfilter/inference/context.py:217. -/
def slice (c : Registry) (x : Fin c.dim → ℝ) (i : Fin c.m) : Fin (c.numel i) → ℝ :=
  fun j => x ⟨c.index i + j, c.index_lt i j⟩

/-- `unstack_parameters`, pyfilter/inference/context.py:222-236 with parameter.py:68-87: the constrained
values of the parameters afterwards. The check of the support is not modelled. -/
noncomputable def unstack (c : Registry) (x : Fin c.dim → ℝ) (constrained : Bool) (i : Fin c.m) :
    Fin (c.numel i) → ℝ :=
  if constrained then c.slice x i else (c.prior i).getConstrained (c.slice x i)

/-- `eval_priors`, pyfilter/inference/context.py:245-253. -/
noncomputable def evalPriors (c : Registry) (x : ∀ i, Fin (c.numel i) → ℝ) (constrained : Bool) : XF :=
  ∑ i, (c.prior i).evalPrior (x i) constrained

/-- `eval_priors(constrained=False)` after `unstack_parameters(u, constrained=False)`, as in
pyfilter/inference/batch/mcmc/utils.py:49 and 59: what MCMC uses as the logarithm of the prior density of a
row of unconstrained parameters. -/
noncomputable def logPrior (c : Registry) (u : Fin c.dim → ℝ) : XF :=
  c.evalPriors (c.unstack u false) false

end Registry

end Verif.Priors
