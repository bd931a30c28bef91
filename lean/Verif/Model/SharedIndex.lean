import Mathlib.Data.List.FinRange
import Mathlib.Logic.Function.Basic

/-!
# Index tensors with shared columns: `pyfilter/filters/particle/base.py:96-99`, `sisr.py:23-32`, `apf.py:31-46`, `state.py:155-165`

`torch.expand` returns a tensor whose columns (one per parallel filter) are one and the same storage. Here an index tensor is the
address of every column, and storage gives the contents of an address.
-/

namespace Verif

/-- Storage of columns of `N` indices (PyTorch, not in /repo); addresses from `next` on are free.
Used for pyfilter/filters/particle/base.py:96-99. -/
structure IndexStore (N : ℕ) where
  cell : ℕ → Fin N → ℕ
  next : ℕ

/-- An index tensor of `B` filters: the address of each column (PyTorch strides, not in /repo).
Used for pyfilter/filters/particle/base.py:96-99. -/
abbrev IndexCols (B : ℕ) := Fin B → ℕ

namespace IndexStore

variable {B N : ℕ}

/-- The contents of an index tensor. Used for pyfilter/filters/particle/state.py:165. -/
def read (s : IndexStore N) (t : IndexCols B) (b : Fin B) : Fin N → ℕ := s.cell (t b)

/-- `torch.arange(N).unsqueeze(-1).expand(particles)`, pyfilter/filters/particle/base.py:96-99: one column for all filters. -/
def initial (s : IndexStore N) (B : ℕ) : IndexStore N × IndexCols B :=
  (⟨Function.update s.cell s.next fun n => n.val, s.next + 1⟩, fun _ => s.next)

/-- A new tensor with columns of its own (PyTorch, not in /repo). Used for pyfilter/filters/particle/sisr.py:32, apf.py:31 and
state.py:155. -/
def fresh (s : IndexStore N) (v : Fin B → Fin N → ℕ) : IndexStore N × IndexCols B :=
  (⟨fun a => if h : s.next ≤ a ∧ a < s.next + B then v ⟨a - s.next, by omega⟩ else s.cell a, s.next + B⟩, fun b => s.next + b.val)

/-- The indices that `SISR.predict` hands on, pyfilter/filters/particle/sisr.py:23-32: those of the state if no filter is below the
threshold (`low`), else a new tensor with the columns of these filters replaced. -/
def sisr (s : IndexStore N) (t : IndexCols B) (low : Fin B → Bool) (chosen : Fin B → Fin N → ℕ) : IndexStore N × IndexCols B :=
  if !(List.finRange B).any low then (s, t) else s.fresh fun b => if low b then chosen b else s.read t b

/-- `self["_prev_inds"][:, indices]`, pyfilter/filters/particle/state.py:155. -/
def select (s : IndexStore N) (t : IndexCols B) (indices : Fin B → Fin B) : IndexStore N × IndexCols B :=
  s.fresh fun b => s.read t (indices b)

/-- `self["_prev_inds"][:, mask] = other.previous_indices[:, mask]`, pyfilter/filters/particle/state.py:165, where `other` is the
contents of the other tensor: the masked columns are written in place, one after the other (PyTorch warns when columns are shared;
for a single entry, `N = 1` and one masked filter, it refuses). -/
def exchange (s : IndexStore N) (t : IndexCols B) (other : Fin B → Fin N → ℕ) (mask : Fin B → Bool) : IndexStore N :=
  { s with cell := (List.finRange B).foldl (fun c b => if mask b then Function.update c (t b) (other b) else c) s.cell }

end IndexStore

/-- What happens to the index tensor of the latest state: `SISR` moves (pyfilter/filters/particle/sisr.py:23-32), `APF` moves
(apf.py:31 and 46), `GPF` moves (gpf.py:26-34), resampling of the filters (state.py:155) and earlier exchanges (state.py:165). -/
inductive IndexOp (B N : ℕ) where
  | sisr (low : Fin B → Bool) (chosen : Fin B → Fin N → ℕ)
  | apf (chosen : Fin B → Fin N → ℕ)
  | gpf
  | select (indices : Fin B → Fin B)
  | exchange (other : Fin B → Fin N → ℕ) (mask : Fin B → Bool)

namespace IndexOp

variable {B N : ℕ}

/-- One operation, pyfilter/filters/particle/sisr.py:23-32, apf.py:31-46, gpf.py:26-34 and state.py:155-165. -/
def apply (p : IndexStore N × IndexCols B) : IndexOp B N → IndexStore N × IndexCols B
  | .sisr low chosen => p.1.sisr p.2 low chosen
  | .apf chosen => p.1.fresh chosen
  | .gpf => p
  | .select indices => p.1.select p.2 indices
  | .exchange other mask => (p.1.exchange p.2 other mask, p.2)

/-- The index tensor after `ParticleFilter.initialize` (pyfilter/filters/particle/base.py:96-103) and some operations. -/
def run (B N : ℕ) (ops : List (IndexOp B N)) : IndexStore N × IndexCols B :=
  ops.foldl apply ((⟨fun _ _ => 0, 0⟩ : IndexStore N).initial B)

end IndexOp

end Verif
