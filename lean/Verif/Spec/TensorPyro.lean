import Verif.Model.TensorPyro
import Verif.Spec.TensorSmoothing

/-!
# Log-densities of paths in tensors
-/

namespace Verif.Torch

/-- Numbers for every time, path and index of the batch. -/
def TimesG {N : ℕ} (t : Tensor) (bs : List ℕ) (T : ℕ) (F : ℕ → Fin N → List ℕ → ℝ) : Prop :=
  t.shape = bs ++ [N, T] ∧ ∀ s < T, ∀ (n : Fin N) b, InShape bs b → t.val (b ++ [n.val, s]) = F s n b

/-- The log-density `H t n b` of the value that path `n` of filter `b` has after time `t`. -/
def HiddenG (N : ℕ) (ev bs : List ℕ) (T : ℕ) (f : Tensor → Except PyErr Tensor)
    (H : ℕ → Fin N → List ℕ → (Fin (dim ev) → ℝ) → ℝ) : Prop :=
  ∀ (z : Tensor) (V : ℕ → Fin N → List ℕ → Fin (dim ev) → ℝ), z.shape = ev ++ (bs ++ [N, T]) →
    (∀ t < T, ∀ (n : Fin N) b, InShape bs b → ∀ j, z.val (compIx ev j.val ++ (b ++ [n.val, t])) = V t n b j) →
    ∃ t, f z = .ok t ∧ TimesG t bs T fun s n b => H s n b (V s n b)

/-- The log-density of the first value. -/
def InitG (N : ℕ) (ev bs : List ℕ) (f : Tensor → Except PyErr Tensor) (I : List ℕ → (Fin (dim ev) → ℝ) → ℝ) : Prop :=
  ∀ (z : Tensor) (V : Fin N → List ℕ → Fin (dim ev) → ℝ), PartG z ev bs V → ∃ t, f z = .ok t ∧ WeightG t bs fun n b => I b (V n b)

/-- The log-density `O t n b` of the observation given the value of path `n` of filter `b` at the time of observation `t`. Its
argument has dimensions of size one for path and filter. -/
def ObsG (N : ℕ) (oev bs : List ℕ) (T : ℕ) (f : Tensor → Except PyErr Tensor)
    (O : ℕ → Fin N → List ℕ → (Fin (dim oev) → ℝ) → ℝ) : Prop :=
  ∀ (z : Tensor) (V : ℕ → Fin (dim oev) → ℝ), z.shape = oev ++ (bs.map (fun _ => 1) ++ [1, T]) →
    (∀ t < T, ∀ j, z.val (compIx oev j.val ++ (bs.map (fun _ => 0) ++ [0, t])) = V t j) →
    ∃ t, f z = .ok t ∧ TimesG t bs T fun s n b => O s n b (V s)

/-- A series of observations; scalars may be stored as vectors with one component. -/
def SeriesG (y : Tensor) (oev : List ℕ) (T : ℕ) (fy : ℕ → Fin (dim oev) → ℝ) : Prop :=
  (y.shape = oev ++ [T] ∧ ∀ t < T, ∀ j, y.val (compIx oev j.val ++ [t]) = fy t j) ∨
  (oev = [] ∧ y.shape = [1, T] ∧ ∀ t < T, ∀ j, y.val [0, t] = fy t j)

end Verif.Torch
