import Mathlib.LinearAlgebra.Matrix.NonsingularInverse
import Mathlib.Analysis.SpecialFunctions.Log.Basic
import Mathlib.Analysis.Real.Pi.Bounds

/-!
# Gaussian densities
-/

namespace Verif.Spec

open Matrix

/-- Log-density of the normal distribution with mean `μ` and variance `v`. -/
noncomputable def logNormal (μ v x : ℝ) : ℝ := -(x - μ) ^ 2 / (2 * v) - Real.log (2 * Real.pi * v) / 2

/-- Log-density of the normal distribution with mean `μ` and covariance `S`. -/
noncomputable def logNormalVec {n : ℕ} (μ : Fin n → ℝ) (S : Matrix (Fin n) (Fin n) ℝ) (x : Fin n → ℝ) : ℝ :=
  -((x - μ) ⬝ᵥ (S⁻¹ *ᵥ (x - μ))) / 2 - (Real.log S.det + n * Real.log (2 * Real.pi)) / 2

/-- Log-density of the observation `y = b + A x' + s·v`, where `x' = μ + σ·u` with independent standard normal
`u` and `v`. -/
noncomputable def logPredictive {n m : ℕ} (μ σ : Fin n → ℝ) (A : Matrix (Fin m) (Fin n) ℝ) (b s y : Fin m → ℝ) : ℝ :=
  logNormalVec (b + A *ᵥ μ) (diagonal (fun j => s j ^ 2) + A * diagonal (fun e => σ e ^ 2) * Aᵀ) y

end Verif.Spec
