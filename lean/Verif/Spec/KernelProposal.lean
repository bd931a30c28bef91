import Verif.Model.KernelProposal
import Verif.Spec.Likelihood
import Mathlib.LinearAlgebra.Matrix.PosDef

/-!
# What is asked of kernels and of the Cholesky factorisation
-/

namespace Verif.Spec

open Verif MeasureTheory Matrix

variable {d : ℕ}

/-- A normal kernel depends measurably on a parameter (the value of the particle from which it starts, or all values). -/
structure KernelMeasurable {X : Type} [MeasurableSpace X] (k : X → GaussKernel d) : Prop where
  loc : ∀ e, Measurable fun x => (k x).loc e
  tril : ∀ e f, Measurable fun x => (k x).tril e f

/-- What is asked of `cholesky_ex`: a square root of positive definite matrices, depending measurably on them. -/
structure IsCholesky (chol : Matrix (Fin d) (Fin d) ℝ → Matrix (Fin d) (Fin d) ℝ) : Prop where
  factor : ∀ S : Matrix (Fin d) (Fin d) ℝ, S.PosDef → chol S * (chol S)ᵀ = S
  measurable : ∀ e f, Measurable fun S : Fin d → Fin d → ℝ => chol (Matrix.of S) e f

end Verif.Spec
