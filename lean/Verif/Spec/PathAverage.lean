import Verif.Spec.Consistency

/-!
# Averages over whole paths of the latent process given the observations (smoothing)
-/

namespace Verif.Spec

open MeasureTheory ProbabilityTheory
open scoped ENNReal

variable {X Y : Type}

/-- Likelihood of the observations in the time steps after `t` times `Φ` of the whole path, on average, given the path `p`
up to time `t`. -/
noncomputable def pathAvg [MeasurableSpace X] (K : ℕ → Kernel X X) (g : Y → ℕ → X → ℝ≥0∞) (Φ : (ℕ → X) → ℝ≥0∞) :
    List (Option Y) → ℕ → (ℕ → X) → ℝ≥0∞
  | [], _, p => Φ p
  | none :: os, t, p => ∫⁻ x, pathAvg K g Φ os (t + 1) (Function.update p (t + 1) x) ∂(K t (p t))
  | some y :: os, t, p =>
    ∫⁻ x, g y (t + 1) x * pathAvg K g Φ os (t + 1) (Function.update p (t + 1) x) ∂(K t (p t))

/-- The average of `Φ` over the states at times `0, …, T` given the observations in the time steps `1, …, T` (Bayes). -/
noncomputable def smoothingAvg [MeasurableSpace X] (K : ℕ → Kernel X X) (g : Y → ℕ → X → ℝ≥0∞) (μ : Measure X)
    (os : List (Option Y)) (Φ : (Fin (os.length + 1) → X) → ℝ≥0∞) : ℝ≥0∞ :=
  (∫⁻ x, pathAvg K g (fun p => Φ fun n => p n) os 0 (fun _ => x) ∂μ) / ∫⁻ x, lik K g os 0 x ∂μ

end Verif.Spec
