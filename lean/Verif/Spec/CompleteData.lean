import Verif.Model.GradientScore
import Mathlib.Analysis.Calculus.FDeriv.Basic
import Mathlib.Analysis.Calculus.FDeriv.Pi

/-!
# Complete-data log-likelihood and derivatives in other coordinates
-/

namespace Verif.Spec

open Verif Verif.GradientScore

/-- Log-density of a path `x 0, …, x T` of the latent process together with the observations: the initial state at
time zero, every transition from one time to the next, every observation at the state of its time. -/
noncomputable def completeLog {X Y : Type} (D : Densities X Y) {T : ℕ} (x : ℕ → X) (y : Fin T → Y) : XF :=
  D.init (x 0) + ∑ n : Fin T, (D.hidden n (x n) (x (n + 1)) + D.obs (n + 1) (x (n + 1)) (y n))

/-- The arithmetic mean. -/
noncomputable def average {N : ℕ} (v : Fin N → XF) : XF := (∑ i, v i) / XF.fin N

/-- `g` is the gradient of a function of all parameters at `x`: its derivative in a direction `v` is the sum of the
products of the components of `g` and `v`. -/
def GradientAt {m : ℕ} {numel : Fin m → ℕ} (S : (∀ i, Fin (numel i) → ℝ) → ℝ) (g x : ∀ i, Fin (numel i) → ℝ) : Prop :=
  ∃ L : (∀ i, Fin (numel i) → ℝ) →L[ℝ] ℝ, HasFDerivAt S L x ∧ ∀ v, L v = ∑ i, ∑ j, g i j * v i j

/-- `h` is the gradient of a function of a row of numbers at `u`. -/
def RowGradientAt {n : ℕ} (U : (Fin n → ℝ) → ℝ) (h u : Fin n → ℝ) : Prop :=
  ∃ L : (Fin n → ℝ) →L[ℝ] ℝ, HasFDerivAt U L u ∧ ∀ v, L v = ∑ k, h k * v k

end Verif.Spec
