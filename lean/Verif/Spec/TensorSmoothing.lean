import Verif.Model.TensorSmoothing
import Verif.Spec.LinearBatch

/-!
# Smoothed paths in tensors

The batch shape `bs` has at most one dimension (the parallel filters); `InShape bs b` says that `b` is an index of it.
-/

namespace Verif.Torch

/-- A value for every particle, index of the batch and component. -/
def PartG {N : ℕ} (t : Tensor) (ev bs : List ℕ) (F : Fin N → List ℕ → Fin (dim ev) → ℝ) : Prop :=
  t.shape = ev ++ (bs ++ [N]) ∧ ∀ (n : Fin N) b, InShape bs b → ∀ j, t.val (compIx ev j.val ++ (b ++ [n.val])) = F n b j

/-- A number for every particle and index of the batch. -/
def WeightG {N : ℕ} (t : Tensor) (bs : List ℕ) (W : Fin N → List ℕ → ℝ) : Prop :=
  t.shape = bs ++ [N] ∧ ∀ (n : Fin N) b, InShape bs b → t.val (b ++ [n.val]) = W n b

/-- A particle for every particle and index of the batch. -/
def IndexG {N : ℕ} (t : Index) (bs : List ℕ) (A : Fin N → List ℕ → Fin N) : Prop :=
  t.shape = bs ++ [N] ∧ ∀ (n : Fin N) b, InShape bs b → t.val (b ++ [n.val]) = (A n b).val

/-- Log-density of the states that follow the particles, `P j b x` for state `x` after particle `j` of filter `b`. At values of
shape `(N, 1, B, …)` it gives every path `n` a number for every particle `j`, at index `[n, j, b]`. -/
def PairG (N : ℕ) (ev bs : List ℕ) (f : Tensor → Except PyErr Tensor) (P : Fin N → List ℕ → (Fin (dim ev) → ℝ) → ℝ) : Prop :=
  ∀ (z : Tensor) (V : Fin N → List ℕ → Fin (dim ev) → ℝ), z.shape = ev ++ (bs ++ [1, N]) →
    (∀ (n : Fin N) b, InShape bs b → ∀ j, z.val (compIx ev j.val ++ (b ++ [0, n.val])) = V n b j) →
    ∃ t, f z = .ok t ∧ t.shape = bs ++ [N, N] ∧
      ∀ (j n : Fin N) b, InShape bs b → t.val (b ++ [j.val, n.val]) = P j b (V n b)

/-- `T + 1` values for every path: `path t n b` is the value of path `n` of filter `b` at time `t`. -/
def PathG {N : ℕ} (z : Tensor) (ev bs : List ℕ) (T : ℕ) (path : ℕ → Fin N → List ℕ → Fin (dim ev) → ℝ) : Prop :=
  z.shape = ev ++ (bs ++ [N, T + 1]) ∧
    ∀ t ≤ T, ∀ (n : Fin N) b, InShape bs b → ∀ j, z.val (compIx ev j.val ++ (b ++ [n.val, t])) = path t n b j

end Verif.Torch
