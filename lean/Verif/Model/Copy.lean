import Verif.Model.FilterResult

/-!
# Copies of filter results

`FilterResult.copy` and `FilterAlgorithmState.copy` are `copy.deepcopy` of the standard library: everything reachable is
copied, and what is reachable in two ways is copied once, because copies are remembered in a memo.
-/

namespace Verif

variable {B : ℕ} {V : Type}

/-- Storage together with the memo of `copy.deepcopy`: which tensors and objects have been copied, and to what.
Used for pyfilter/filters/result.py:164. -/
structure Copying (B : ℕ) (V : Type) where
  heap : Heap B V
  cells : ℕ → Option ℕ
  objs : ℕ → Option ℕ

namespace Copying

/-- Copy of a tensor (`Tensor.__deepcopy__` of PyTorch, not in /repo). Used for pyfilter/filters/result.py:164. -/
def cell (s : Copying B V) (c : ℕ) : Copying B V × ℕ :=
  match s.cells c with
  | some n => (s, n)
  | none => ({ s with heap := s.heap.alloc (s.heap.cell c), cells := Function.update s.cells c (some s.heap.nc) },
      s.heap.nc)

/-- Copy of a correction: its entries in the order of pyfilter/filters/particle/state.py:89-95.
Used for pyfilter/filters/result.py:164. -/
def obj (s : Copying B V) (o : ℕ) : Copying B V × ℕ :=
  match s.objs o with
  | some n => (s, n)
  | none =>
    let c := s.heap.obj o
    let (s, x) := s.cell c.x
    let (s, w) := s.cell c.w
    let (s, ll) := s.cell c.ll
    let (s, prev) := s.cell c.prev
    let (s, mean) := s.cell c.mean
    let (s, var) := s.cell c.var
    ({ s with heap := s.heap.allocObj ⟨x, w, ll, prev, mean, var, c.time, c.shape⟩,
              objs := Function.update s.objs o (some s.heap.no) }, s.heap.no)

/-- Copies of the entries of a sequence, one after the other. Used for pyfilter/filters/result.py:164. -/
def list (f : Copying B V → ℕ → Copying B V × ℕ) (s : Copying B V) : List ℕ → Copying B V × List ℕ
  | [] => (s, [])
  | c :: cs =>
    let (s, n) := f s c
    let (s, ns) := list f s cs
    (s, n :: ns)

end Copying

/-- `FilterResult.copy`, pyfilter/filters/result.py:159-164: the attributes in the order of pyfilter/state.py:19 and
pyfilter/filters/result.py:32-40. The memo is empty at the start. -/
def Res.copy (h : Heap B V) (r : Res) : Heap B V × Res :=
  let s : Copying B V := ⟨h, fun _ => none, fun _ => none⟩
  let (s, means) := s.list Copying.cell r.means.items
  let (s, vars) := s.list Copying.cell r.vars.items
  let (s, ll) := s.cell r.ll
  let (s, states) := s.list Copying.obj r.states.items
  (s.heap, ⟨ll, ⟨r.means.maxlen, means⟩, ⟨r.vars.maxlen, vars⟩, ⟨r.states.maxlen, states⟩⟩)

end Verif
