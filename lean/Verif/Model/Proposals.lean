import Verif.Model.Utils
import Mathlib.LinearAlgebra.Matrix.NonsingularInverse
import Mathlib.Analysis.SpecialFunctions.Log.Basic
import Mathlib.Analysis.Real.Pi.Bounds

/-!
# Proposals: `pyfilter/filters/particle/proposals`

One particle of one filter, real arithmetic (the nested proposal uses `XF`). Batches
of filters, with the shapes of all tensors, are in `Model/Tensor`.
-/

namespace Verif

open Matrix

variable {n m : ℕ}

/-- `Normal(loc, scale).log_prob(x)` (PyTorch, not in /repo).
Used for pyfilter/filters/particle/proposals/utils.py:265. -/
noncomputable def normalLogProb (loc scale x : ℝ) : ℝ :=
  -((x - loc) ^ 2) / (2 * scale ^ 2) - Real.log scale - Real.log (Real.sqrt (2 * Real.pi))

/-- `MultivariateNormal(loc, scale_tril=cholesky_ex(cov)[0]).log_prob(x)` (PyTorch, not in /repo), for a
positive definite `cov`. Used for pyfilter/filters/particle/proposals/utils.py:267. -/
noncomputable def mvnLogProb (loc : Fin n → ℝ) (cov : Matrix (Fin n) (Fin n) ℝ) (x : Fin n → ℝ) : ℝ :=
  -(1 / 2) * (n * Real.log (2 * Real.pi) + (x - loc) ⬝ᵥ (cov⁻¹ *ᵥ (x - loc))) - 1 / 2 * Real.log cov.det

/-- A state space model with an affine latent process and linear observations, the models accepted by
pyfilter/filters/particle/proposals/linear.py:32-36. `meanScale` is `hidden.mean_scale` (stochproc, not in
/repo), `a`, `b` and `s` are the parameters of `LinearStateSpaceModel`. -/
structure LinearModel (n m : ℕ) where
  meanScale : (Fin n → ℝ) → (Fin n → ℝ) × (Fin n → ℝ)
  a : Matrix (Fin m) (Fin n) ℝ
  b : Fin m → ℝ
  s : Fin m → ℝ

namespace LinearModel

variable (L : LinearModel n m)

/-- `hidden.build_density(x).log_prob(x')` for normal increments (stochproc, not in /repo).
Used for pyfilter/filters/particle/proposals/base.py:50. -/
noncomputable def transLogProb (x x' : Fin n → ℝ) : ℝ :=
  ∑ e, normalLogProb ((L.meanScale x).1 e) ((L.meanScale x).2 e) (x' e)

/-- `model.build_density(x').log_prob(y)` for normal observations (stochproc, not in /repo).
Used for pyfilter/filters/particle/proposals/base.py:48-50. -/
noncomputable def obsLogProb (x' : Fin n → ℝ) (y : Fin m → ℝ) : ℝ :=
  ∑ j, normalLogProb (L.b j + (L.a *ᵥ x') j) (L.s j) (y j)

end LinearModel

/-- `construct_diag_from_flat`, pyfilter/utils.py:23-46: the identity matrix times the vector as a column. A scalar event
is the case of dimension one (lines 41-42). Events with several dimensions are refused (line 37) and not modelled. -/
def constructDiag (x : Fin n → ℝ) : Matrix (Fin n) (Fin n) ℝ := of fun i j => (if i = j then 1 else 0) * x i

/-- Covariance of `find_optimal_density`, pyfilter/filters/particle/proposals/utils.py:245-254. A scalar latent
state or observation is the case of dimension one (lines 245-248 add the dimension). -/
noncomputable def optimalCov (hVarInv : Fin n → ℝ) (oVarInv : Fin m → ℝ) (c : Matrix (Fin m) (Fin n) ℝ) :
    Matrix (Fin n) (Fin n) ℝ :=
  let oInvCov := constructDiag oVarInv
  let t2 := cᵀ * oInvCov * c
  (constructDiag hVarInv + t2)⁻¹

/-- Mean of `find_optimal_density`, pyfilter/filters/particle/proposals/utils.py:255-262. -/
noncomputable def optimalMean (y : Fin m → ℝ) (loc hVarInv : Fin n → ℝ) (oVarInv : Fin m → ℝ)
    (c : Matrix (Fin m) (Fin n) ℝ) : Fin n → ℝ :=
  let t1 := fun e => hVarInv e * loc e
  let t2 := constructDiag oVarInv *ᵥ y
  let t3 := cᵀ *ᵥ t2
  optimalCov hVarInv oVarInv c *ᵥ (t1 + t3)

/-- Log-density of the kernel returned by `find_optimal_density`,
pyfilter/filters/particle/proposals/utils.py:264-267: univariate for a scalar latent state. -/
noncomputable def optimalLogProb (hiddenIs1d : Bool) (y : Fin m → ℝ) (loc hVarInv : Fin n → ℝ)
    (oVarInv : Fin m → ℝ) (c : Matrix (Fin m) (Fin n) ℝ) (x : Fin n → ℝ) : ℝ :=
  let mean := optimalMean y loc hVarInv oVarInv c
  let cov := optimalCov hVarInv oVarInv c
  if hiddenIs1d then ∑ e, normalLogProb (mean e) (Real.sqrt (cov e e)) (x e)
  else mvnLogProb mean cov x

namespace LinearModel

variable (L : LinearModel n m)

/-- Log-density of the kernel of `LinearGaussianObservations.sample_and_weight`,
pyfilter/filters/particle/proposals/linear.py:38-52, for an ancestor `x`. -/
noncomputable def kernelLogProb (hiddenIs1d : Bool) (y : Fin m → ℝ) (x x' : Fin n → ℝ) : ℝ :=
  let mean := (L.meanScale x).1
  let scale := (L.meanScale x).2
  let hVarInv := fun e => (scale e ^ 2)⁻¹
  let oVarInv := fun j => (L.s j ^ 2)⁻¹
  optimalLogProb hiddenIs1d (y - L.b) mean hVarInv oVarInv L.a x'

/-- Importance log-weight of `LinearGaussianObservations.sample_and_weight` for the sampled value `x'`,
pyfilter/filters/particle/proposals/linear.py:55 and proposals/base.py:45-50. -/
noncomputable def linearWeight (hiddenIs1d : Bool) (y : Fin m → ℝ) (x x' : Fin n → ℝ) : ℝ :=
  L.obsLogProb x' y + L.transLogProb x x' - L.kernelLogProb hiddenIs1d y x x'

/-- What `pre_weight` returns for one particle: a number, or (wrongly) one number per component.
Used for pyfilter/filters/particle/proposals/linear.py:79-86. -/
inductive PreWeight (n : ℕ) where
  | single (r : ℝ)
  | perComponent (r : Fin n → ℝ)

/-- Covariance in `LinearGaussianObservations.pre_weight`,
pyfilter/filters/particle/proposals/linear.py:58-77. -/
noncomputable def preWeightCov (x : Fin n → ℝ) : Matrix (Fin m) (Fin m) ℝ :=
  let hVar := fun e => (L.meanScale x).2 e ^ 2
  let oVar := fun j => L.s j ^ 2
  constructDiag oVar + L.a * constructDiag hVar * L.aᵀ

/-- `LinearGaussianObservations.pre_weight`, pyfilter/filters/particle/proposals/linear.py:57-86. For a
scalar observation line 80 multiplies the coefficients with the components of the state without summing;
`a.squeeze(-1)` removes the dimension if there is one component only, `Normal` then broadcasts. Shapes are not checked here; see
`Torch.linearPreWeight` for the cases in which they do not fit. -/
noncomputable def preWeight (obsIs1d : Bool) (y : Fin m → ℝ) (x : Fin n → ℝ) : PreWeight n :=
  let cov := L.preWeightCov x
  if obsIs1d then
    if h : 0 < m then
      let comp : Fin n → ℝ := fun e =>
        normalLogProb (L.b ⟨0, h⟩ + L.a ⟨0, h⟩ e * x e) (Real.sqrt (cov ⟨0, h⟩ ⟨0, h⟩)) (y ⟨0, h⟩)
      if h : n = 1 then .single (comp ⟨0, by omega⟩) else .perComponent comp
    else .single 0
  else .single (mvnLogProb (L.b + L.a *ᵥ x) cov y)

end LinearModel

/-- One step of `ModeFinder.find_mode` without second order information,
pyfilter/filters/particle/proposals/utils.py:119 and 148: the gradient of line 127 is not used. -/
def firstOrderStep (alpha : ℝ) (_grad : (Fin n → ℝ) → Fin n → ℝ) (x : Fin n → ℝ) : Fin n → ℝ :=
  let step := fun _ => alpha
  fun e => x e + step e

/-- Centre of the kernel of `ModeFinder.find_mode` without second order information,
pyfilter/filters/particle/proposals/utils.py:117-148. -/
def firstOrderCentre (alpha : ℝ) (grad : (Fin n → ℝ) → Fin n → ℝ) (numSteps : ℕ) (x : Fin n → ℝ) :
    Fin n → ℝ := (firstOrderStep alpha grad)^[numSteps] x

/-- One step of `ModeFinder.find_mode_legacy` without second order information,
pyfilter/filters/particle/proposals/utils.py:185 and 202-203. -/
def legacyStep (alpha : ℝ) (grad : (Fin n → ℝ) → Fin n → ℝ) (x : Fin n → ℝ) : Fin n → ℝ :=
  fun e => x e + alpha * grad x e

/-- Centre of the kernel of `ModeFinder.find_mode_legacy` without second order information,
pyfilter/filters/particle/proposals/utils.py:174-209. Real numbers are finite, so the replacement of
lines 207-210 does not apply. -/
def legacyCentre (alpha : ℝ) (grad : (Fin n → ℝ) → Fin n → ℝ) (numSteps : ℕ) (x : Fin n → ℝ) :
    Fin n → ℝ := (legacyStep alpha grad)^[numSteps] x

/-- Centre and standard deviation in `ModeFinder.find_mode` for a scalar state.
Used for pyfilter/filters/particle/proposals/utils.py:148-151. -/
structure ScalarKernel where
  x : ℝ
  std : ℝ

/-- One step of `ModeFinder.find_mode` with second order information for a scalar state,
pyfilter/filters/particle/proposals/utils.py:129-137 and 148. `grad` and `hess` are the first and second
derivative of the joint log-density (functorch, not in /repo). The inverse of zero is not modelled
faithfully (PyTorch: infinity); the theorems assume non-zero curvature. -/
noncomputable def newtonStep (grad hess : ℝ → ℝ) (k : ScalarKernel) : ScalarKernel :=
  let h := hess k.x
  let dh := max (2 * h) 0
  let cov := -(h - dh)⁻¹
  let step := cov * grad k.x
  ⟨k.x + step, Real.sqrt cov⟩

/-- `ModeFinder.find_mode` with second order information for a scalar state,
pyfilter/filters/particle/proposals/utils.py:117-151. -/
noncomputable def newtonMode (grad hess : ℝ → ℝ) (numSteps : ℕ) (k : ScalarKernel) : ScalarKernel :=
  (newtonStep grad hess)^[numSteps] k

/-- The shifted Hessian of `ModeFinder.find_mode` for a vector state,
pyfilter/filters/particle/proposals/utils.py:139-142; `lamdaMin` is the smallest eigenvalue. -/
noncomputable def shiftedHessian (hess : Matrix (Fin n) (Fin n) ℝ) (lamdaMin : ℝ) : Matrix (Fin n) (Fin n) ℝ :=
  hess - max (2 * lamdaMin) 0 • 1

/-- The covariance of `ModeFinder.find_mode` for a vector state with invertible shifted Hessian,
pyfilter/filters/particle/proposals/utils.py:143 (`pinv` is then the inverse). -/
noncomputable def vectorCov (hess : Matrix (Fin n) (Fin n) ℝ) (lamdaMin : ℝ) : Matrix (Fin n) (Fin n) ℝ :=
  -(shiftedHessian hess lamdaMin)⁻¹

/-- Selection probabilities of `NestedProposal.sample_and_weight` for one particle with `M` inner samples,
pyfilter/filters/particle/proposals/nested.py:34-38, from the observation log-densities of the inner samples.
`Categorical` divides by the sum of its argument, which is one here (see C45). -/
noncomputable def nestedProbs (lo : ℝ) {M : ℕ} (logProb : Fin M → XF) : Fin M → XF :=
  let lp := fun j => nanToNum lo (logProb j)
  let probs := XF.softmax lp
  fun j => match probs j with
    | .nan => XF.fin (1 / (M : ℝ))
    | p => p

/-- Importance log-weight of `NestedProposal.sample_and_weight`,
pyfilter/filters/particle/proposals/nested.py:34 and 47. -/
noncomputable def nestedWeight (lo : ℝ) {M : ℕ} (logProb : Fin M → XF) : XF :=
  let lp := fun j => nanToNum lo (logProb j)
  XF.log ((∑ j, XF.exp (lp j)) / XF.fin (M : ℝ))

end Verif
