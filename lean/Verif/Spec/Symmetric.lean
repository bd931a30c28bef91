import Mathlib.LinearAlgebra.Matrix.PosDef
import Mathlib.Analysis.SpecialFunctions.Exp

/-!
# Weighted moments of a cloud of parameter vectors, and the Cholesky factorisation
-/

namespace Verif.Spec

open Matrix

/-- Mean of the points `x` with probabilities `p`. -/
def fitMean {P d : ℕ} (p : Fin P → ℝ) (x : Fin P → Fin d → ℝ) (e : Fin d) : ℝ := ∑ i, p i * x i e

/-- Covariance of the points `x` with probabilities `p`. -/
def fitCov {P d : ℕ} (p : Fin P → ℝ) (x : Fin P → Fin d → ℝ) : Matrix (Fin d) (Fin d) ℝ :=
  of fun e f => ∑ i, p i * ((x i e - fitMean p x e) * (x i f - fitMean p x f))

/-- What is asked of `cholesky_ex`: for a positive definite matrix the lower triangular factor with positive diagonal; for
any other symmetric matrix the flag. -/
structure IsCholEx {d : ℕ} (cholEx : Matrix (Fin d) (Fin d) ℝ → Matrix (Fin d) (Fin d) ℝ × Bool) : Prop where
  ok : ∀ S, S.PosDef → (cholEx S).2 = false ∧ (cholEx S).1 * (cholEx S).1ᵀ = S ∧ (∀ e, 0 < (cholEx S).1 e e) ∧
    ∀ e f, e < f → (cholEx S).1 e f = 0
  failed : ∀ S, S.IsHermitian → ¬ S.PosDef → (cholEx S).2 = true

end Verif.Spec
