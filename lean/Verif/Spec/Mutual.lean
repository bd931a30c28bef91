import Verif.Spec.Consistency
import Mathlib.MeasureTheory.Constructions.Pi

/-!
# Draws for all particles of one filter that are independent of each other
-/

namespace Verif.Spec

open MeasureTheory ProbabilityTheory
open scoped ENNReal

variable {Y Ω : Type} [MeasurableSpace Ω] {N B d : ℕ} {V : Type} [MeasurableSpace V]

/-- A resampler that, given normalised weights, draws all ancestors of one filter independently: those of filter `j` are
`k 0, k 1, …` with the product of the probabilities of `k 0`, `k 1`, …. -/
structure MutualResampler (P : Measure Ω) {N : ℕ}
    (r : {b : ℕ} → (Fin N → Fin b → XF) → Bool → Ω → (Fin N → Fin b → Fin N) × Ω) : Prop where
  measurable : ∀ b : ℕ, Measurable fun q : (Fin N → Fin b → ℝ) × Ω =>
    r (fun i j => XF.fin (q.1 i j)) true q.2
  draws : ∀ (b : ℕ) (p : Fin N → Fin b → ℝ), (∀ j, IsProb fun i => p i j) →
    ∃ ν, Draws P (r (fun i j => XF.fin (p i j)) true) ν ∧
      ∀ j (k : Fin N → Fin N), ν {a | ∀ i, a i j = k i} = ∏ i, ENNReal.ofReal (p (k i) j)

/-- The sampler of the latent process draws the new values of all particles of one filter independently from the transition
kernel. -/
structure MutualTransitions (P : Measure Ω)
    (propagate : TS N B d V → Ω → (Fin N → Fin B → Fin d → V) × Ω)
    (K : Fin B → ℕ → Kernel (Fin d → V) (Fin d → V)) : Prop where
  measurable : ∀ t, Measurable fun q : (Fin N → Fin B → Fin d → V) × Ω => propagate ⟨q.1, t⟩ q.2
  markov : ∀ b t, IsMarkovKernel (K b t)
  draws : ∀ x, ∃ ν, Draws P (propagate x) ν ∧
    ∀ b, ν.map (fun v i => v i b) = Measure.pi fun i => K b x.time (x.value i b)

/-- The initial sampler draws all particles of one filter independently from the initial distribution. -/
def MutualInitial (P : Measure Ω) (init : Ω → (Fin N → Fin B → Fin d → V) × Ω)
    (μ : Fin B → Measure (Fin d → V)) : Prop :=
  (∀ b, IsProbabilityMeasure (μ b)) ∧ ∃ ν, Draws P init ν ∧ ∀ b, ν.map (fun v i => v i b) = Measure.pi fun _ => μ b

/-- Contract of `torch.multinomial(p, k, replacement=True)` as in `DrawsMultinomial`, where moreover all draws for one row are
independent. -/
structure MutualMultinomial {N : ℕ} (P : Measure Ω) (mult : TorchMultinomial N Ω) : Prop where
  measurable : ∀ b k : ℕ, Measurable fun q : (Fin b → Fin N → ℝ) × Ω => mult k (fun j i => XF.fin (q.1 j i)) q.2
  draws : ∀ (b k : ℕ) (p : Fin b → Fin N → ℝ), (∀ j, (∀ i, 0 ≤ p j i) ∧ 0 < ∑ i, p j i) →
    ∃ ν, Draws P (mult k fun j i => XF.fin (p j i)) ν ∧
      ∀ j (κ : Fin k → Fin N), ν {a | ∀ l : Fin k, a j l = κ l} = ∏ l, ENNReal.ofReal (p j (κ l) / ∑ i, p j i)

/-- Draws from categorical distributions as in `DrawsCategorical`, where moreover the entries of different particles of one
filter are independent. -/
structure IndependentCategorical (P : Measure Ω)
    (categorical : (Fin N → Fin B → Fin N → XF) → Ω → (Fin N → Fin B → Fin N) × Ω) : Prop where
  measurable : Measurable fun q : (Fin N → Fin B → Fin N → ℝ) × Ω => categorical (fun i b k => XF.fin (q.1 i b k)) q.2
  draws : ∀ l : Fin N → Fin B → Fin N → ℝ, ∃ ν, Draws P (categorical fun i b k => XF.fin (l i b k)) ν ∧
    (∀ i b k, ν {a | a i b = k} = ENNReal.ofReal (Real.exp (l i b k) / ∑ j, Real.exp (l i b j))) ∧
    ∀ i i' b, i ≠ i' → ∀ k k', ν {a | a i b = k ∧ a i' b = k'}
      = ENNReal.ofReal (Real.exp (l i b k) / ∑ j, Real.exp (l i b j)) *
        ENNReal.ofReal (Real.exp (l i' b k') / ∑ j, Real.exp (l i' b j))

end Verif.Spec
