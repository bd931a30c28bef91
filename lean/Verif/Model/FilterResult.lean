import Verif.Model.Container
import Mathlib.Algebra.BigOperators.Group.Finset.Basic
import Mathlib.Logic.Function.Basic

/-!
# `pyfilter/filters/result.py` and `pyfilter/filters/particle/state.py` with storage sharing

Tensors of parallel filters live in cells of a heap, so that two Python names can denote the same
storage. A cell holds one value of `V` for every one of the `B` parallel filters (the particle and event
dimensions are inside `V`): indexing along the batch dimension is composition with an index function.
-/

namespace Verif

/-- A correction object, pyfilter/filters/particle/state.py:89-95 (`self["_x"]` .. `self["_var"]`), by the
storage of its tensors. `shape` is the shape of the particles, `time` the time index of `_x`. -/
structure Corr where
  x : ℕ
  w : ℕ
  ll : ℕ
  prev : ℕ
  mean : ℕ
  var : ℕ
  time : ℤ
  shape : List ℕ

/-- Storage. `cell` and `obj` are total; everything below `nc` (`no`) is allocated.
Used for pyfilter/filters/particle/state.py:88-95. -/
structure Heap (B : ℕ) (V : Type) where
  cell : ℕ → Fin B → V
  obj : ℕ → Corr
  nc : ℕ
  no : ℕ

namespace Heap

variable {B : ℕ} {V : Type}

/-- A new tensor (torch allocates, not in /repo).
Used for pyfilter/filters/particle/state.py:95,151-158. -/
def alloc (h : Heap B V) (v : Fin B → V) : Heap B V :=
  { h with cell := Function.update h.cell h.nc v, nc := h.nc + 1 }

/-- Write a whole tensor in place (`copy_`, `add_`; torch).
Used for pyfilter/filters/result.py:107,130. -/
def write (h : Heap B V) (r : ℕ) (v : Fin B → V) : Heap B V :=
  { h with cell := Function.update h.cell r v }

/-- Replace the fields of a correction object (Python `dict` assignment).
Used for pyfilter/filters/particle/state.py:89-95. -/
def setObj (h : Heap B V) (o : ℕ) (c : Corr) : Heap B V :=
  { h with obj := Function.update h.obj o c }

/-- A new correction object. Used for pyfilter/filters/particle/state.py:77-95. -/
def allocObj (h : Heap B V) (c : Corr) : Heap B V :=
  { h with obj := Function.update h.obj h.no c, no := h.no + 1 }

/-- `a[indices] = v` (torch index assignment): the entries are written one after the other.
Used for pyfilter/filters/particle/state.py:154. -/
def scatterSet (a : Fin B → V) (idx : Fin B → Fin B) (v : Fin B → V) : Fin B → V :=
  (List.finRange B).foldl (fun a j => Function.update a (idx j) (v j)) a

/-- `a[mask] = b[mask]` on storage `r` and `r'` (torch).
Used for pyfilter/filters/particle/state.py:162-168. -/
def maskSet (h : Heap B V) (mask : Fin B → Bool) (r r' : ℕ) : Heap B V :=
  h.write r fun i => if mask i then h.cell r' i else h.cell r i

end Heap

/-- Where a tensor handed to the constructor of a correction comes from: a new one or an existing one.
Used for pyfilter/filters/particle/state.py:77-95. -/
inductive Src (B : ℕ) (V : Type) where
  | fresh (v : Fin B → V)
  | old (r : ℕ)

/-- The contents of a correction about to be built. In pyfilter/filters/particle/sisr.py:50-56,
apf.py:25-46, gpf.py:31-34, state.py:38-42 and base.py:87-103 the particles, the log-likelihood and (by
state.py:95) the moments are always new tensors, weights and indices may be those of an earlier state. -/
structure Fields (B : ℕ) (V : Type) where
  x : Fin B → V
  w : Src B V
  ll : Fin B → V
  prev : Src B V
  mean : Fin B → V
  var : Fin B → V
  time : ℤ
  shape : List ℕ

namespace Heap

variable {B : ℕ} {V : Type}

/-- Resolve a source to storage. Used for pyfilter/filters/particle/state.py:88-95. -/
def place (h : Heap B V) : Src B V → Heap B V × ℕ
  | .fresh v => (h.alloc v, h.nc)
  | .old r => (h, r)

/-- `ParticleFilterCorrection.__init__`, pyfilter/filters/particle/state.py:77-95. Returns the new
object. -/
def construct (h : Heap B V) (f : Fields B V) : Heap B V × ℕ :=
  let (h, w) := h.place f.w
  let (h, p) := h.place f.prev
  let x := h.nc
  let h := ((((h.alloc f.x).alloc f.ll).alloc f.mean).alloc f.var)
  (h.allocObj ⟨x, w, x + 1, p, x + 2, x + 3, f.time, f.shape⟩, h.no)

/-- `ParticleFilterCorrection.resample`, pyfilter/filters/particle/state.py:150-158. -/
def resampleCorr (h : Heap B V) (o : ℕ) (idx : Fin B → Fin B) : Heap B V :=
  let c := h.obj o
  let n := h.nc
  let h := (h.alloc (h.cell c.x ∘ idx))
  let h := (h.alloc (h.cell c.w ∘ idx))
  let h := h.write c.ll (scatterSet (h.cell c.ll) idx (h.cell c.ll ∘ idx))
  let h := (h.alloc (h.cell c.prev ∘ idx))
  let h := (h.alloc (h.cell c.mean ∘ idx))
  let h := (h.alloc (h.cell c.var ∘ idx))
  h.setObj o { c with x := n, w := n + 1, prev := n + 2, mean := n + 3, var := n + 4 }

/-- `ParticleFilterCorrection.exchange`, pyfilter/filters/particle/state.py:160-168, object `o` with
object `o'`. Index tensors own the storage of every slot (the `expand`ed ones of base.py:99 do not, see
`Verif.Model.SharedIndex`). -/
def exchangeCorr (h : Heap B V) (mask : Fin B → Bool) (o o' : ℕ) : Heap B V :=
  let h := h.maskSet mask (h.obj o).x (h.obj o').x
  let h := h.maskSet mask (h.obj o).w (h.obj o').w
  let h := h.maskSet mask (h.obj o).ll (h.obj o').ll
  let h := h.maskSet mask (h.obj o).prev (h.obj o').prev
  let h := h.maskSet mask (h.obj o).mean (h.obj o').mean
  h.maskSet mask (h.obj o).var (h.obj o').var

end Heap

/-- `FilterResult`, pyfilter/filters/result.py:32-40. The two histories are the entries `filter_means` and
`filter_variances` of its container, whose behaviour as named histories is `Verif.Container`. -/
structure Res where
  ll : ℕ
  means : Deq ℕ
  vars : Deq ℕ
  states : Deq ℕ

namespace Res

variable {B : ℕ} {V : Type}

/-- `append`, pyfilter/filters/result.py:119-133. -/
def append [Add V] (h : Heap B V) (r : Res) (o : ℕ) : Heap B V × Res :=
  let r := { r with means := r.means.append (h.obj o).mean }
  let r := { r with vars := r.vars.append (h.obj o).var }
  let h := h.write r.ll (h.cell r.ll + h.cell (h.obj o).ll)
  (h, { r with states := r.states.append o })

/-- `FilterResult.__init__`, pyfilter/filters/result.py:32-40, with the maximal lengths computed by
`make_dequeue`. -/
def new [Add V] (h : Heap B V) (o : ℕ) (recordStates recordMoments : Option ℕ) : Heap B V × Res :=
  append h ⟨(h.obj o).ll, ⟨recordMoments, []⟩, ⟨recordMoments, []⟩, ⟨recordStates, []⟩⟩ o

/-- `tens.copy_(tens[indices])` for the tensors of one history, pyfilter/filters/result.py:111-112. -/
def gatherAll (h : Heap B V) (idx : Fin B → Fin B) (rs : List ℕ) : Heap B V :=
  rs.foldl (fun h r => h.write r (h.cell r ∘ idx)) h

/-- `resample`, pyfilter/filters/result.py:97-117. -/
def resample (h : Heap B V) (r : Res) (idx : Fin B → Fin B) (entireHistory : Bool) : Heap B V :=
  let h := h.write r.ll (h.cell r.ll ∘ idx)
  let h := if entireHistory then gatherAll h idx (r.means.items ++ r.vars.items) else h
  r.states.items.foldl (fun h o => h.resampleCorr o idx) h

/-- `exchange`, pyfilter/filters/result.py:76-95. -/
def exchange (h : Heap B V) (r other : Res) (mask : Fin B → Bool) : Heap B V :=
  let h := h.maskSet mask r.ll other.ll
  let h := (r.means.items.zip other.means.items).foldl (fun h p => h.maskSet mask p.1 p.2) h
  let h := (r.vars.items.zip other.vars.items).foldl (fun h p => h.maskSet mask p.1 p.2) h
  (r.states.items.zip other.states.items).foldl (fun h p => h.exchangeCorr mask p.1 p.2) h

/-- A saved result: the stacked histories (new tensors, one cell per slice) with their windows, and
references to the live log-likelihood and to the live tensors of the latest state.
Used for pyfilter/filters/result.py:135-145. -/
structure Saved where
  means : Option ℕ × List ℕ
  vars : Option ℕ × List ℕ
  ll : ℕ
  state : Corr

/-- `torch.stack` of a history: every entry is copied (pyfilter/container.py:77). -/
def stackCopy (h : Heap B V) (rs : List ℕ) : Heap B V × List ℕ :=
  match rs with
  | [] => (h, [])
  | r :: rs =>
    let n := h.nc
    let (h, ns) := stackCopy (h.alloc (h.cell r)) rs
    (h, n :: ns)

/-- `state_dict`, pyfilter/filters/result.py:135-145 with particle/state.py:176-185. Raises (IndexError) if
no state is recorded. -/
def stateDict (h : Heap B V) (r : Res) : Except PyErr (Heap B V × Saved) :=
  match r.states.items.getLast? with
  | none => .error .indexError
  | some o =>
    let (h, ms) := stackCopy h r.means.items
    let (h, vs) := stackCopy h r.vars.items
    .ok (h, ⟨(r.means.maxlen, ms), (r.vars.maxlen, vs), r.ll, h.obj o⟩)

/-- `ParticleFilterCorrection.load_state_dict`, pyfilter/filters/particle/state.py:187-208. -/
def loadCorr (h : Heap B V) (o : ℕ) (c : Corr) : Except PyErr (Heap B V) :=
  if (h.obj o).shape = c.shape then
    .ok (h.setObj o ⟨c.x, c.w, c.ll, c.prev, c.mean, c.var,
      (h.obj o).time + (-(h.obj o).time + c.time), (h.obj o).shape⟩)
  else .error .assertionError

/-- `load_state_dict`, pyfilter/filters/result.py:147-154. The histories are rebuilt from the saved
windows; the assertions come after the histories and the log-likelihood have been replaced. -/
def loadStateDict (h : Heap B V) (r : Res) (s : Saved) : Heap B V × Res × Option PyErr :=
  let r := { r with means := (⟨s.means.1, []⟩ : Deq ℕ).extend s.means.2,
                    vars := (⟨s.vars.1, []⟩ : Deq ℕ).extend s.vars.2 }
  let r := { r with ll := s.ll }
  match r.states.items with
  | [o] =>
    match loadCorr h o s.state with
    | .ok h => (h, r, none)
    | .error e => (h, r, some e)
  | _ => (h, r, some .assertionError)

end Res
end Verif
