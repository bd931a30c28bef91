import Verif.Spec.TensorMove

/-!
# Moments of weighted particles
-/

namespace Verif.Torch

/-- Mean of component `i` of particles `x` with weights `v`. -/
noncomputable def meanOf {N d : ℕ} (v : Fin N → ℝ) (x : Fin N → Fin d → ℝ) (i : Fin d) : ℝ := ∑ n, v n * x n i

/-- Covariance of components `i` and `j` of particles `x` with weights `v`. -/
noncomputable def covOf {N d : ℕ} (v : Fin N → ℝ) (x : Fin N → Fin d → ℝ) (i j : Fin d) : ℝ :=
  ∑ n, v n * ((x n i - meanOf v x i) * (x n j - meanOf v x j))

/-- Shape of a covariance: a number, with a dimension of its own, for scalars, a matrix for vectors. -/
def covShape : List ℕ → List ℕ
  | [] => [1]
  | p :: _ => [p, p]

/-- Index of a covariance. -/
def covIx (ev : List ℕ) (i j : ℕ) : List ℕ := (covShape ev).zipWith (fun _ k => k) [j, i]

end Verif.Torch
