import Verif.Model.Utils
import Mathlib.Algebra.Order.Floor.Ring

/-!
# `pyfilter/resampling.py`
-/

namespace Verif

/-- Exceptions raised by the modelled Python code (names of the Python exception classes).
Used for pyfilter/resampling.py:14,44,81. -/
inductive PyErr where
  | typeError
  | attributeError
  | notImplementedError
  | runtimeError
  | valueError
  | indexError
  | assertionError
  | keyError
  | exception (what : String)
  deriving DecidableEq, Repr

open Classical in
/-- `torch.searchsorted(c, v)` for one row: the first position with `c >= v`, the length if there is
none (PyTorch, not in /repo; used at pyfilter/resampling.py:50). -/
noncomputable def searchsorted {n : ℕ} (c : Fin n → XF) (v : ℝ) : ℕ :=
  (List.ofFn c).findIdx fun x => decide (x = XF.pinf ∨ ∃ r, x = XF.fin r ∧ v ≤ r)

/-- `w.cumsum(-1)` with the last entry overwritten by one, pyfilter/resampling.py:47-49. -/
noncomputable def cumsum1 {n : ℕ} (w : Fin n → XF) : Fin n → XF :=
  fun i => if (i : ℕ) + 1 = n then XF.fin 1 else ∑ j ∈ Finset.univ.filter (· ≤ i), w j

/-- `(index_range + u) / n`, pyfilter/resampling.py:43-46, for one row. -/
noncomputable def positions {n : ℕ} (u : Fin n → ℝ) : Fin n → ℝ :=
  fun j => ((j : ℝ) + u j) / (n : ℝ)

/-- One row of the body of `systematic`, pyfilter/resampling.py:43-52. `u` is broadcast along the row
by the caller. -/
noncomputable def systematicRow {n : ℕ} (w : Fin n → XF) (u : Fin n → ℝ) : Fin n → ℕ :=
  fun j => searchsorted (cumsum1 w) (positions u j)

/-- Value a caller can pass for the keyword `u` (or that ends up there): a tensor that broadcasts to
the shape of the weights, a Python float, or a string.
Used for pyfilter/resampling.py:14,41. -/
inductive UVal (b n : ℕ) where
  | tensor (u : Fin b → Fin n → ℝ)
  | float (u : ℝ)
  | str (s : String)

/-- Body of `systematic` on rows, pyfilter/resampling.py:24-52. `draw` is the fresh uniform of line 41,
one per row. `u.dtype` (line 44) fails for anything but a tensor. -/
noncomputable def systematicBody {b n : ℕ} (w : Fin b → Fin n → XF) (u : Option (UVal b n))
    (draw : Fin b → ℝ) : Except PyErr (Fin b → Fin n → ℕ) :=
  match u with
  | none => .ok fun r => systematicRow (w r) fun _ => draw r
  | some (.tensor t) => .ok fun r => systematicRow (w r) (t r)
  | some (.float _) => .error .attributeError
  | some (.str _) => .error .attributeError

/-- Keyword arguments other than `normalized` in a call of a resampler.
Used for pyfilter/resampling.py:9. -/
abbrev Kwargs (b n : ℕ) := List (String × UVal b n)

/-- Binding of `f(new_w, **kwargs)` for `systematic`, pyfilter/resampling.py:17: only `u` is a known
name. -/
def bindKeyword {b n : ℕ} : Kwargs b n → Except PyErr (Option (UVal b n))
  | [] => .ok none
  | [(k, v)] => if k = "u" then .ok (some v) else .error .typeError
  | _ => .error .typeError

/-- Binding of `f(w, *kwargs)` for `systematic`, pyfilter/resampling.py:14: unpacking a dictionary with
one star passes its *keys* as positional arguments, the first one lands in `normalized`, the second
in `u`. -/
def bindStarred {b n : ℕ} : Kwargs b n → Except PyErr (Option (UVal b n))
  | [] => .ok none
  | [_] => .ok none
  | [_, (k, _)] => .ok (some (.str k))
  | _ => .error .typeError

/-- `systematic(w, normalized, **kwargs)` on a two-dimensional tensor with one column per parallel
filter, through `_wrapper`, pyfilter/resampling.py:8-21. The in-place cleaning of the argument by
`normalize` is modelled in `normalize2` and dropped here. -/
noncomputable def systematic2 (lo : ℝ) {n b : ℕ} (w : Fin n → Fin b → XF) (normalized : Bool)
    (kwargs : Kwargs b n) (draw : Fin b → ℝ) : Except PyErr (Fin n → Fin b → ℕ) := do
  let w := if normalized then w else (normalize2 lo w).2
  let newW : Fin b → Fin n → XF := fun c i => w i c
  let u ← bindKeyword kwargs
  let result ← systematicBody newW u draw
  return fun i c => result c i

/-- `systematic(w, normalized, **kwargs)` on a one-dimensional tensor, through `_wrapper`,
pyfilter/resampling.py:8-14 and 35-52 (unsqueezed to one row, squeezed at the end). -/
noncomputable def systematic1 (lo : ℝ) {n : ℕ} (w : Fin n → XF) (normalized : Bool)
    (kwargs : Kwargs 1 n) (draw : Fin 1 → ℝ) : Except PyErr (Fin n → ℕ) := do
  let w := if normalized then w else (normalize1 lo w).2
  let u ← bindStarred kwargs
  let result ← systematicBody (fun _ => w) u draw
  return result 0

/-- `residual` on one-dimensional normalised weights, pyfilter/resampling.py:83-105. `draw` is the
outcome of `torch.multinomial(res, n - aslong)` of line 103. With `numelems = 0` the division of line
90 makes the probabilities non-finite and `torch.multinomial` raises. -/
noncomputable def residual1 {n : ℕ} (w : Fin n → ℝ) (draw : List (Fin n)) :
    Except PyErr (List (Fin n)) :=
  let mw : Fin n → ℝ := fun i => n * w i
  let floored : Fin n → ℤ := fun i => ⌊mw i⌋
  let numelems := ∑ i, floored i
  let modded := (List.finRange n).flatMap fun i => List.replicate (floored i).toNat i
  if numelems = n then .ok modded
  else if numelems = 0 then .error .runtimeError
  else .ok (modded ++ draw)

/-- The probabilities that `residual` hands to `torch.multinomial`, pyfilter/resampling.py:83-90. -/
noncomputable def residualProbs {n : ℕ} (w : Fin n → ℝ) : Fin n → ℝ :=
  fun i => (n * w i - ⌊(n : ℝ) * w i⌋) / ((∑ j, ⌊(n : ℝ) * w j⌋ : ℤ) : ℝ)

/-- The number of draws that `residual` asks of `torch.multinomial`, pyfilter/resampling.py:103. -/
noncomputable def residualDraws {n : ℕ} (w : Fin n → ℝ) : ℕ :=
  n - (∑ j, ⌊(n : ℝ) * w j⌋).toNat

/-- `residual` on two-dimensional weights, pyfilter/resampling.py:80-81. -/
def residual2 {n b : ℕ} (_w : Fin n → Fin b → ℝ) : Except PyErr (Fin n → Fin b → ℕ) :=
  .error .notImplementedError

end Verif
