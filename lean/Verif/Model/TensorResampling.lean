import Verif.Model.TensorSisr

/-!
# Systematic and multinomial resampling on tensors: `pyfilter/resampling.py:8-65`

As in `Verif.Model.Tensor`, shapes and indices begin with the last dimension. Weights are finite numbers; infinite and NaN ones, and
the keyword `u`, are in `Verif.Model.Resampling`.
-/

namespace Verif.Torch

/-- `x.moveaxis(0, 1)` (PyTorch, not in /repo). Used for pyfilter/resampling.py:16. -/
def Tensor.moveaxis01 (x : Tensor) : Except PyErr Tensor :=
  match x.shape with
  | [b, a] => .ok ⟨[a, b], fun i => x.val [i.tail.headD 0, i.headD 0]⟩
  | _ => .error .indexError

/-- `x.moveaxis(0, 1)` for integers (PyTorch, not in /repo). Used for pyfilter/resampling.py:19. -/
def Index.moveaxis01 (x : Index) : Except PyErr Index :=
  match x.shape with
  | [b, a] => .ok ⟨[a, b], fun i => x.val [i.tail.headD 0, i.headD 0]⟩
  | _ => .error .indexError

/-- `w.cumsum(-1)` (PyTorch, not in /repo). Used for pyfilter/resampling.py:47. -/
noncomputable def Tensor.cumsum (x : Tensor) : Tensor :=
  ⟨x.shape, fun i => ∑ m ∈ Finset.range (i.headD 0 + 1), x.val (m :: i.tail)⟩

/-- `x[..., -1] = c` (PyTorch, not in /repo). Used for pyfilter/resampling.py:49. -/
def Tensor.setLast (x : Tensor) (c : ℝ) : Except PyErr Tensor :=
  if x.shape.headD 0 = 0 then .error .indexError
  else .ok ⟨x.shape, fun i => if i.headD 0 + 1 = x.shape.headD 0 then c else x.val i⟩

open Classical in
/-- `torch.searchsorted(c, v)` (PyTorch, not in /repo): for every entry of `v` the first position in the row of `c` with an entry that
is not less, the length of the row if there is none (rows are in ascending order, as cumulated weights are). Used for pyfilter/resampling.py:50. -/
noncomputable def searchsortedT (c v : Tensor) : Except PyErr Index :=
  if c.shape.tail = v.shape.tail then
    .ok ⟨v.shape, fun i => ((List.range (c.shape.headD 0)).map fun j => c.val (j :: i.tail)).findIdx fun x => decide (v.val i ≤ x)⟩
  else .error .runtimeError

/-- `systematic` without its wrapper, pyfilter/resampling.py:25-52: `u k` is the uniform number of row `k` (line 41). -/
noncomputable def systematicRows (u : ℕ → ℝ) (w : Tensor) : Except PyErr Index := do
  let is1d := w.shape.length = 1
  let w := if is1d then w.unsqueeze0 else w
  let n := w.shape.headD 0
  let probs ← Tensor.zip (· + ·) ⟨[n, 1], fun i => i.headD 0⟩ ⟨[1, w.shape.getLastD 0], fun i => u (i.tail.headD 0)⟩
  let probs := probs.map (· / n)
  let cumsum ← w.cumsum.setLast 1
  let res ← searchsortedT cumsum probs
  return if is1d then (if res.shape.getLastD 0 = 1 then ⟨res.shape.dropLast, fun i => res.val (i ++ [0])⟩ else res) else res

/-- `systematic`, pyfilter/resampling.py:8-52, with its wrapper (lines 9-19). -/
noncomputable def systematicT (u : ℕ → ℝ) (normalized : Bool) (w : Tensor) : Except PyErr Index := do
  let w ← (if normalized then pure w else normalizeT w : Except PyErr Tensor)
  if w.shape.length = 1 then systematicRows u w
  else (← systematicRows u (← w.moveaxis01)).moveaxis01

/-- `multinomial` without its wrapper, pyfilter/resampling.py:55-65. `draw n k p l` is draw number `l` of row `k` with the `n` weights `p` in
`torch.multinomial` (PyTorch, not in /repo), which refuses weights that are negative or sum to zero (not modelled here). -/
def multinomialRows (draw : (n : ℕ) → ℕ → (Fin n → ℝ) → ℕ → ℕ) (w : Tensor) : Index :=
  ⟨w.shape, fun i => draw (w.shape.headD 0) (i.tail.headD 0) (fun m => w.val (m.val :: i.tail)) (i.headD 0)⟩

/-- `multinomial`, pyfilter/resampling.py:55-65, with its wrapper (lines 9-19). -/
noncomputable def multinomialT (draw : (n : ℕ) → ℕ → (Fin n → ℝ) → ℕ → ℕ) (normalized : Bool) (w : Tensor) : Except PyErr Index := do
  let w ← (if normalized then pure w else normalizeT w : Except PyErr Tensor)
  if w.shape.length = 1 then return multinomialRows draw w
  else (multinomialRows draw (← w.moveaxis01)).moveaxis01

end Verif.Torch
