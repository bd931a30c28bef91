import Verif.Spec.Consistency
import Mathlib.Data.Fin.Tuple.Basic

/-!
# Averages over the future of the latent process
-/

namespace Verif.Spec

open MeasureTheory ProbabilityTheory
open scoped ENNReal

variable {X Y : Type}

/-- The average of `Φ` of the states at times `t + 1, …, t + n`, given the state `x` at time `t`. -/
noncomputable def futureAvg [MeasurableSpace X] (K : ℕ → Kernel X X) : (n : ℕ) → ((Fin n → X) → ℝ≥0∞) → ℕ → X → ℝ≥0∞
  | 0, Φ, _, _ => Φ fun k => k.elim0
  | n + 1, Φ, t, x => ∫⁻ x', futureAvg K n (fun q => Φ (Fin.cons x' q)) (t + 1) x' ∂(K t x)

/-- The average of `Φ` of the `n` states after the last time step, given the observations up to then (Bayes). -/
noncomputable def predictAvg [MeasurableSpace X] (K : ℕ → Kernel X X) (g : Y → ℕ → X → ℝ≥0∞) (μ : Measure X)
    (os : List (Option Y)) (n : ℕ) (Φ : (Fin n → X) → ℝ≥0∞) : ℝ≥0∞ :=
  (∫⁻ x, likAvg K g (fun x => futureAvg K n Φ os.length x) os 0 x ∂μ) / ∫⁻ x, lik K g os 0 x ∂μ

end Verif.Spec
