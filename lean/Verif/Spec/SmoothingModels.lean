import Verif.Model.Smoothing
import Verif.Spec.TensorSmoothing

/-!
# Tensors that hold what the smoothing of `Model/Smoothing` reads and returns
-/

namespace Verif.Torch

variable {N B : ℕ} {Ω : Type}

/-- The tensors of a recorded state hold the particles, (finite) log-weights and ancestors of `B` filters of `N` particles. -/
structure HoldsS (ev : List ℕ) (c : SmoothState) (s : PCorr N B (dim ev) ℝ) : Prop where
  x : c.x.shape = ev ++ [B, N] ∧ ∀ (n : Fin N) (b : Fin B) j, c.x.val (compIx ev j.val ++ [b.val, n.val]) = s.x.value n b j
  w : c.w.shape = [B, N] ∧ ∀ (n : Fin N) (b : Fin B), s.w n b = .fin (c.w.val [b.val, n.val])
  prev : c.prev.shape = [B, N] ∧ ∀ (n : Fin N) (b : Fin B), c.prev.val [b.val, n.val] = (s.prev n b).val

/-- The log-density of the states that follow a recorded state is on tensors that of `K`. -/
def SameNext (ev : List ℕ) (K : Backward N B (dim ev) ℝ Ω) (c : SmoothState) (s : PCorr N B (dim ev) ℝ) : Prop :=
  ∃ P : Fin N → List ℕ → (Fin (dim ev) → ℝ) → ℝ, PairG N ev [B] c.logProb P ∧ ∀ j b v, K.logDensity s.x j b v = .fin (P j [b.val] v)

/-- `Categorical` of `K` draws from a row of finite logits by `pick` (generator state, index of filter and path, row), and leaves the
generator in state `next ω` whatever the logits are. -/
structure DrawsBy (ev : List ℕ) (K : Backward N B (dim ev) ℝ Ω) (pick : Ω → List ℕ → List ℝ → ℕ) (next : Ω → Ω) : Prop where
  state : ∀ (L : Fin N → Fin B → Fin N → ℝ) ω, (K.categorical (fun n b j => .fin (L n b j)) ω).2 = next ω
  value : ∀ (L : Fin N → Fin B → Fin N → ℝ) ω n b,
    ((K.categorical (fun n b j => .fin (L n b j)) ω).1 n b).val = pick ω [b.val, n.val] (List.ofFn (L n b))
  bound : ∀ ω i row, row ≠ [] → pick ω i row < row.length

/-- A tensor holds the values of all paths at all times. -/
def HoldsPaths (ev : List ℕ) (z : Tensor) (vals : List (Fin N → Fin B → Fin (dim ev) → ℝ)) : Prop :=
  z.shape = ev ++ [B, N, vals.length] ∧
    ∀ t v, vals[t]? = some v → ∀ (n : Fin N) (b : Fin B) j, z.val (compIx ev j.val ++ [b.val, n.val, t]) = v n b j

end Verif.Torch
