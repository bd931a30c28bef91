import Verif.Model.Qmc
import Verif.Model.Prior
import Verif.Model.KernelProposal
import Mathlib.Data.Real.Sign

/-!
# Sampling by inversion of quasi-random numbers

`QuasiInferenceContext.initialize_parameters` for priors of one component, and `QuasiMultivariateNormal`.
-/

namespace Verif.Qmc

open Verif.Priors

/-- A prior of one component with its inverse distribution function `icdf` (torch).
Used for pyfilter/inference/parameter.py:125-131. -/
structure Scalar where
  support : Support
  icdf : ℝ → ℝ

/-- `Transform.sign` (torch). Used for pyfilter/inference/parameter.py:130. -/
noncomputable def trSign : Tr → ℝ
  | .exp => 1
  | .sigmoid => 1
  | .affine _ scale => Real.sign scale

/-- The sign of a composed transform (torch), which is also the sign of its inverse.
Used for pyfilter/inference/parameter.py:130. -/
noncomputable def signAll (ts : List Tr) : ℝ := (ts.map trSign).prod

/-- `TransformedDistribution._monotonize_cdf` (torch). Used for pyfilter/inference/parameter.py:130. -/
noncomputable def monotonize (sign p : ℝ) : ℝ := sign * (p - 0.5) + 0.5

/-- `unconstrained_prior().icdf(p)`, pyfilter/inference/parameter.py:129-130 with prior.py:54-62:
`TransformedDistribution.icdf` (torch) with the inverse of the bijection. -/
noncomputable def Scalar.unconstrainedIcdf (s : Scalar) (p : ℝ) : ℝ :=
  inverseAll s.support.bijection (s.icdf (monotonize (signAll s.support.bijection) p))

/-- `inverse_sample_`, pyfilter/inference/parameter.py:116-131: the value of the parameter afterwards. -/
noncomputable def Scalar.inverseSample (s : Scalar) (p : ℝ) (constrained : Bool) : ℝ :=
  if constrained then s.icdf p else callAll s.support.bijection (s.unconstrainedIcdf p)

/-- `QuasiInferenceContext.initialize_parameters`, pyfilter/inference/context.py:394-405, for `m` priors of one
component: the rows of parameters afterwards and the engine. Columns are taken in order of registration
(context.py:212-220). `points` and `fresh` as in `Engine.sample`. -/
noncomputable def initialise {m : ℕ} (eps : ℝ) (randomize : Bool) (priors : Fin m → Scalar)
    (points : List (Fin m → ℝ)) (fresh : Fin m → ℝ) : Engine m × List (Fin m → ℝ) :=
  let engine : Engine m := { randomize := randomize }
  let drawn := engine.sample eps points fresh
  (drawn.1, drawn.2.map fun probs i => (priors i).inverseSample (probs i) false)

/-- `QuasiMultivariateNormal.sample`, pyfilter/inference/utils.py:29-39, of a distribution without batch shape: the
engine and the rows. `icdf` is that of the standard normal distribution (torch). -/
noncomputable def quasiNormal {d : ℕ} (eps : ℝ) (icdf : ℝ → ℝ) (e : Engine d) (k : GaussKernel d)
    (points : List (Fin d → ℝ)) (fresh : Fin d → ℝ) : Engine d × List (Fin d → ℝ) :=
  let drawn := e.sample eps points fresh
  (drawn.1, drawn.2.map fun probs => k.sample fun j => icdf (probs j))

end Verif.Qmc
