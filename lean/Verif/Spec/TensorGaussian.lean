import Verif.Spec.LinearBatch
import Verif.Spec.Symmetric
import Mathlib.Analysis.SpecialFunctions.Pow.Real

/-!
# The weights of a filter in a tensor, and the factor of a covariance
-/

namespace Verif.Torch

open Matrix

/-- The weights of `N` particles in `B` filters. -/
def Weights {N B : ℕ} (t : Tensor) (w : Fin N → Fin B → ℝ) : Prop :=
  t.shape = [B, N] ∧ ∀ n b, t.val [b.val, n.val] = w n b

/-- The weights of `N` particles of a single filter. -/
def Weights1 {N : ℕ} (t : Tensor) (w : Fin N → ℝ) : Prop := t.shape = [N] ∧ ∀ n : Fin N, t.val [n.val] = w n

/-- A factor of a covariance: the standard deviation of a scalar, the lower triangular factor of a vector. -/
noncomputable def covFactor (chol : ∀ n, Matrix (Fin n) (Fin n) ℝ → Matrix (Fin n) (Fin n) ℝ) :
    (ev : List ℕ) → Matrix (Fin (dim ev)) (Fin (dim ev)) ℝ → Matrix (Fin (dim ev)) (Fin (dim ev)) ℝ
  | [], c => of fun i j => Real.sqrt (c i j)
  | p :: _, c => chol p c

end Verif.Torch
