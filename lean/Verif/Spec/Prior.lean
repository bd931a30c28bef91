import Verif.Model.Prior
import Verif.Spec.Pmmh
import Mathlib.MeasureTheory.Constructions.Pi
import Mathlib.MeasureTheory.Measure.Lebesgue.Basic

/-!
# Specification: the joint prior of the parameters
-/

namespace Verif.Spec

open Verif.Priors
open scoped ENNReal

/-- The values that a support consists of. -/
def points : Support → Set ℝ
  | .real => Set.univ
  | .greaterThan lo => Set.Ioi lo
  | .lessThan hi => Set.Iio hi
  | .interval lo hi => Set.Ioo lo hi

/-- The parameters are independent under the prior: the joint density is the product, on the product of the
supports. -/
noncomputable def jointPrior (c : Registry) (x : ∀ i, Fin (c.numel i) → ℝ) : ℝ≥0∞ :=
  ∏ i, ENNReal.ofReal (expMass ((c.prior i).logProb (x i)))

/-- The values that the parameters can have. -/
def space (c : Registry) : Set (∀ i, Fin (c.numel i) → ℝ) :=
  {x | ∀ i j, x i j ∈ points ((c.prior i).support j)}

/-- Supports are not empty. -/
def ValidSupports (c : Registry) : Prop := ∀ i j, (points ((c.prior i).support j)).Nonempty

/-- Log-densities are finite or `-inf`. -/
def ProperLogProb (c : Registry) : Prop :=
  ∀ i x, (c.prior i).logProb x ≠ .nan ∧ (c.prior i).logProb x ≠ .pinf

end Verif.Spec
