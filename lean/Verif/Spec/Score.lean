import Verif.Spec.Consistency
import Mathlib.MeasureTheory.Measure.WithDensity
import Mathlib.Analysis.Calculus.Deriv.Basic
import Mathlib.Analysis.SpecialFunctions.Exp

/-!
# State space models that depend on a parameter
-/

namespace Verif.Spec

open MeasureTheory ProbabilityTheory
open scoped ENNReal

variable {X Y : Type} [MeasurableSpace X]

/-- State space models that depend on a real parameter `θ` (the others are held fixed): initial distribution `μ θ`, transition
kernels `K θ` and observation densities have the log-densities `li`, `lf` and `lg` with respect to fixed measures, and within `ε`
of `θ₀` these have derivatives `dli`, `dlf`, `dlg` in `θ` that are at most `S` in absolute value. -/
structure SmoothModel (lam₀ lam : Measure X) (μ : ℝ → Measure X) (K : ℝ → ℕ → Kernel X X) (li : ℝ → X → ℝ)
    (lf : ℝ → ℕ → X → X → ℝ) (lg : ℝ → Y → ℕ → X → ℝ) (dli : ℝ → X → ℝ) (dlf : ℝ → ℕ → X → X → ℝ) (dlg : ℝ → Y → ℕ → X → ℝ)
    (θ₀ ε S : ℝ) : Prop where
  init : ∀ θ, μ θ = lam₀.withDensity fun x => ENNReal.ofReal (Real.exp (li θ x))
  trans : ∀ θ t x, K θ t x = lam.withDensity fun x' => ENNReal.ofReal (Real.exp (lf θ t x x'))
  measurable_init : ∀ θ, Measurable (li θ)
  measurable_trans : ∀ θ t, Measurable fun z : X × X => lf θ t z.1 z.2
  measurable_obs : ∀ θ y t, Measurable (lg θ y t)
  deriv_init : ∀ θ, |θ - θ₀| < ε → ∀ x, HasDerivAt (fun θ => li θ x) (dli θ x) θ ∧ |dli θ x| ≤ S
  deriv_trans : ∀ θ, |θ - θ₀| < ε → ∀ t x x', HasDerivAt (fun θ => lf θ t x x') (dlf θ t x x') θ ∧ |dlf θ t x x'| ≤ S
  deriv_obs : ∀ θ, |θ - θ₀| < ε → ∀ y t x, HasDerivAt (fun θ => lg θ y t x) (dlg θ y t x) θ ∧ |dlg θ y t x| ≤ S

end Verif.Spec
