import Verif.Model.Tensor

/-!
# Values of parameters and particles in tensors
-/

namespace Verif.Torch

/-- Number of components of a scalar or a vector. -/
abbrev dim (ev : List ℕ) : ℕ := ev.headD 1

/-- Index of a component of a scalar or a vector. -/
def compIx (ev : List ℕ) (j : ℕ) : List ℕ := ev.map fun _ => j

/-- A parameter with value `f b` for filter `b`, stored once for all filters or once for every filter. -/
def Stored {B : ℕ} (t : Tensor) (ev : List ℕ) (f : Fin B → Fin (dim ev) → ℝ) : Prop :=
  (t.shape = ev ∧ ∀ b j, t.val (compIx ev j.val) = f b j) ∨
  (t.shape = ev ++ [B] ∧ ∀ b j, t.val (compIx ev j.val ++ [b.val]) = f b j)

/-- A matrix of coefficients with value `f b` for filter `b`, stored once for all filters or once for every filter. -/
def StoredMatrix {B : ℕ} (t : Tensor) (hidden obs : List ℕ) (f : Fin B → Matrix (Fin (dim obs)) (Fin (dim hidden)) ℝ) : Prop :=
  (t.shape = hidden ++ obs ∧ ∀ b i j, t.val (compIx hidden j.val ++ compIx obs i.val) = f b i j) ∨
  (t.shape = hidden ++ (obs ++ [B]) ∧ ∀ b i j, t.val (compIx hidden j.val ++ (compIx obs i.val ++ [b.val])) = f b i j)

/-- Values of `N` particles in `B` filters. -/
def Particles {N B : ℕ} (t : Tensor) (ev : List ℕ) (f : Fin N → Fin B → Fin (dim ev) → ℝ) : Prop :=
  t.shape = ev ++ [B, N] ∧ ∀ n b j, t.val (compIx ev j.val ++ [b.val, n.val]) = f n b j

/-- An observation; a scalar may be stored as a vector with one component. -/
def Observation (t : Tensor) (ev : List ℕ) (f : Fin (dim ev) → ℝ) : Prop :=
  (t.shape = ev ∧ ∀ j, t.val (compIx ev j.val) = f j) ∨ (ev = [] ∧ t.shape = [1] ∧ ∀ j, t.val [0] = f j)

/-- A parameter of a single filter. -/
def Fixed (t : Tensor) (ev : List ℕ) (f : Fin (dim ev) → ℝ) : Prop := t.shape = ev ∧ ∀ j, t.val (compIx ev j.val) = f j

/-- Coefficients of a single filter. -/
def FixedMatrix (t : Tensor) (hidden obs : List ℕ) (f : Matrix (Fin (dim obs)) (Fin (dim hidden)) ℝ) : Prop :=
  t.shape = hidden ++ obs ∧ ∀ i j, t.val (compIx hidden j.val ++ compIx obs i.val) = f i j

/-- Values of `N` particles of a single filter. -/
def Particles1 {N : ℕ} (t : Tensor) (ev : List ℕ) (f : Fin N → Fin (dim ev) → ℝ) : Prop :=
  t.shape = ev ++ [N] ∧ ∀ n j, t.val (compIx ev j.val ++ [n.val]) = f n j

end Verif.Torch
