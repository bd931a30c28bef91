import Mathlib.Data.Real.Basic

/-!
# The error a bandwidth is chosen for
-/

namespace Verif.Spec

/-- Asymptotic mean integrated squared error, up to the factor `(4 * pi) ^ (-n / 2)`, of a Gaussian kernel density
estimate with bandwidth `h` from `ess` draws of the standard normal distribution in `n` dimensions: squared bias plus
variance (Silverman 1986, sections 4.3.1 and 4.3.2). -/
noncomputable def amise (n : ℕ) (ess h : ℝ) : ℝ := h ^ 4 * (n * (n + 2)) / 16 + 1 / (ess * h ^ n)

end Verif.Spec
