import Verif.Model.XFloat

/-!
# Specification of normalised weights

Independent of the model of `normalize`.
-/

namespace Verif.Spec

open Verif

/-- Probability vector. -/
def IsProb {n : ℕ} (p : Fin n → ℝ) : Prop := (∀ i, 0 ≤ p i) ∧ ∑ i, p i = 1

/-- A log-weight that still counts: finite or `-inf` (NaN and `+inf` mark an unusable particle). -/
def Usable : XF → Prop
  | .fin _ => True
  | .ninf => True
  | _ => False

/-- Relative mass of a particle: zero for unusable ones, `exp` of the log-weight otherwise, `-inf`
standing for the lowest finite number `lo`. -/
noncomputable def mass (lo : ℝ) : XF → ℝ
  | .fin r => Real.exp r
  | .ninf => Real.exp lo
  | _ => 0

/-- Probability of particle `i` in parallel filter `b`. -/
noncomputable def colProb {N B : ℕ} (lo : ℝ) (w : Fin N → Fin B → XF) (b : Fin B) (i : Fin N) : ℝ :=
  mass lo (w i b) / ∑ j, mass lo (w j b)

/-- Effective sample size of a probability vector. -/
noncomputable def essOf {N : ℕ} (p : Fin N → ℝ) : ℝ := 1 / ∑ i, p i * p i

/-- Exponential of a log-weight, `-inf` having exponential zero. -/
noncomputable def expOf : XF → ℝ
  | .fin r => Real.exp r
  | _ => 0

end Verif.Spec
