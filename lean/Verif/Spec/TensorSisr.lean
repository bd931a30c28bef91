import Verif.Spec.TensorSmoothing

/-!
# Normalised weights, effective sample size and column-wise resampling
-/

namespace Verif.Torch

/-- The normalised weights of one filter. -/
noncomputable def softmaxOf {N : ℕ} (W : Fin N → ℝ) (n : Fin N) : ℝ := Real.exp (W n) / ∑ k, Real.exp (W k)

/-- The effective sample size of one filter. -/
noncomputable def essOf {N : ℕ} (W : Fin N → ℝ) : ℝ := (∑ n, softmaxOf W n ^ 2)⁻¹

/-- A resampling scheme that treats the columns of its argument one by one; `A k` is what it does with column `k` (for systematic
resampling, the columns differ in the uniform number). -/
def ColumnG (N : ℕ) (res : Tensor → Except PyErr Index) (A : ℕ → (Fin N → ℝ) → Fin N → Fin N) : Prop :=
  ∀ (m : ℕ) (t : Tensor), t.shape = [m, N] → ∃ idx, res t = .ok idx ∧ idx.shape = [m, N] ∧
    ∀ k < m, ∀ n : Fin N, idx.val [k, n.val] = (A k (fun j => t.val [k, j.val]) n).val

end Verif.Torch
