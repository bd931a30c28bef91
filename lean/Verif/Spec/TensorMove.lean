import Verif.Spec.TensorSisr

/-!
# Proposals and resampling schemes that work filter by filter
-/

namespace Verif.Torch

/-- A proposal that works filter by filter: particle `n` of filter `b` gets value `S n b` and log-weight `V n b`, which may depend on
all particles and normalised weights of the same filter. -/
def PropG (N : ℕ) (ev bs : List ℕ) (f : Tensor → Tensor → Except PyErr (Tensor × Tensor))
    (S : Fin N → List ℕ → (Fin N → Fin (dim ev) → ℝ) → (Fin N → ℝ) → Fin (dim ev) → ℝ)
    (V : Fin N → List ℕ → (Fin N → Fin (dim ev) → ℝ) → (Fin N → ℝ) → ℝ) : Prop :=
  ∀ (z v : Tensor) (G : Fin N → List ℕ → Fin (dim ev) → ℝ) (U : Fin N → List ℕ → ℝ), PartG z ev bs G → WeightG v bs U →
    ∃ z' w', f z v = .ok (z', w') ∧ PartG z' ev bs (fun n b => S n b (fun k => G k b) fun k => U k b) ∧
      WeightG w' bs fun n b => V n b (fun k => G k b) fun k => U k b

/-- A pre-weight that works filter by filter. -/
def PreG (N : ℕ) (ev bs : List ℕ) (f : Tensor → Except PyErr Tensor) (P : Fin N → List ℕ → (Fin N → Fin (dim ev) → ℝ) → ℝ) : Prop :=
  ∀ (z : Tensor) (G : Fin N → List ℕ → Fin (dim ev) → ℝ), PartG z ev bs G →
    ∃ t, f z = .ok t ∧ WeightG t bs fun n b => P n b fun k => G k b

/-- A resampling scheme that works filter by filter. -/
def SchemeG (N : ℕ) (bs : List ℕ) (f : Tensor → Except PyErr Index) (A : List ℕ → (Fin N → ℝ) → Fin N → Fin N) : Prop :=
  ∀ (t : Tensor) (W : Fin N → List ℕ → ℝ), WeightG t bs W → ∃ idx, f t = .ok idx ∧ IndexG idx bs fun n b => A b (fun k => W k b) n

end Verif.Torch
