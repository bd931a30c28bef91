import Verif.Spec.TensorGaussian

/-!
# Densities of a model on tensors
-/

namespace Verif.Torch

/-- A function of states in tensors that gives for every particle of every filter the number `g` of its state. -/
def PerParticle (N B : ℕ) (ev : List ℕ) (f : Tensor → Except PyErr Tensor) (g : Fin N → Fin B → (Fin (dim ev) → ℝ) → ℝ) : Prop :=
  ∀ (x : Tensor) (v : Fin N → Fin B → Fin (dim ev) → ℝ), Particles x ev v →
    ∃ t, f x = .ok t ∧ Weights t fun n b => g n b (v n b)

/-- The same for a single filter. -/
def PerParticle1 (N : ℕ) (ev : List ℕ) (f : Tensor → Except PyErr Tensor) (g : Fin N → (Fin (dim ev) → ℝ) → ℝ) : Prop :=
  ∀ (x : Tensor) (v : Fin N → Fin (dim ev) → ℝ), Particles1 x ev v → ∃ t, f x = .ok t ∧ Weights1 t fun n => g n (v n)

end Verif.Torch
