import Verif.Spec.KernelProposal
import Verif.Spec.Symmetric
import Verif.Spec.Gauss
import Mathlib.MeasureTheory.Constructions.Pi
import Mathlib.MeasureTheory.Measure.Lebesgue.Basic
import Mathlib.MeasureTheory.Measure.WithDensity

/-!
# Normal laws, and the Cholesky factorisation as a measurable function
-/

namespace Verif.Spec

open Matrix MeasureTheory

variable {d : ℕ}

/-- The normal law with mean `m` and positive definite covariance `S`. -/
noncomputable def normalLaw (m : Fin d → ℝ) (S : Matrix (Fin d) (Fin d) ℝ) : Measure (Fin d → ℝ) :=
  volume.withDensity fun x => ENNReal.ofReal (Real.exp (logNormalVec m S x))

/-- The factor of `cholesky_ex` depends measurably on the entries of the matrix. -/
structure CholExMeasurable (cholEx : Matrix (Fin d) (Fin d) ℝ → Matrix (Fin d) (Fin d) ℝ × Bool) : Prop where
  factor : ∀ e f, Measurable fun S : Fin d → Fin d → ℝ => (cholEx (of S)).1 e f

end Verif.Spec
