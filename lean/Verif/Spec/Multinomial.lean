import Verif.Spec.Likelihood
import Verif.Model.Multinomial

/-!
# What is assumed of `torch.multinomial`
-/

namespace Verif.Spec

open MeasureTheory
open scoped ENNReal

variable {N : ℕ} {Ω : Type} [MeasurableSpace Ω]

/-- Contract of `torch.multinomial(p, k, replacement=True)` for rows of finite, non-negative numbers that are not
all zero: each of the `k` draws for row `j` is `i` with probability `p j i / ∑ p j`. How the draws depend on each
other does not matter. -/
structure DrawsMultinomial (P : Measure Ω) (mult : TorchMultinomial N Ω) : Prop where
  measurable : ∀ b k : ℕ, Measurable fun q : (Fin b → Fin N → ℝ) × Ω => mult k (fun j i => XF.fin (q.1 j i)) q.2
  draws : ∀ (b k : ℕ) (p : Fin b → Fin N → ℝ), (∀ j, (∀ i, 0 ≤ p j i) ∧ 0 < ∑ i, p j i) →
    ∃ ν, Draws P (mult k fun j i => XF.fin (p j i)) ν ∧
      ∀ j l, l < k → ∀ i, ν {a | a j l = i} = ENNReal.ofReal (p j i / ∑ i, p j i)

end Verif.Spec
