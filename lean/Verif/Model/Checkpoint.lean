import Verif.Model.FilterResult

/-!
# States of the sequential algorithms and of PMMH, saved and loaded

`pyfilter/inference/state.py`, `pyfilter/inference/sequential/state.py` and
`pyfilter/inference/batch/mcmc/state.py`, over the storage of `Verif.Heap`. The log-weights of the `B` parameter
particles are one cell of the heap. `T` is the type of the recorded tensors (effective sample sizes and
observations); these are never written in place, so they are kept by value.
-/

namespace Verif

/-- The name `"ess"`, pyfilter/inference/sequential/state.py:24. -/
def essName : List Char := ['e', 's', 's']

/-- The name `"parsed_data"`, pyfilter/inference/sequential/state.py:88. -/
def dataName : List Char := ['p', 'a', 'r', 's', 'e', 'd', '_', 'd', 'a', 't', 'a']

/-- `SequentialAlgorithmState` and `SMC2State`, pyfilter/inference/sequential/state.py:13-25 and 78-88. -/
structure SeqObj (T : Type) where
  w : ℕ
  res : Res
  tuples : Container T
  iter : ℕ

namespace SeqObj

variable {B : ℕ} {V T : Type}

/-- `SequentialAlgorithmState.__init__`, pyfilter/inference/sequential/state.py:13-25. `ess` is `get_ess`,
pyfilter/utils.py:8-20: it cleans its argument in place (`normalize`) and returns a new scalar. -/
def new (ess : (Fin B → V) → (Fin B → V) × T) (h : Heap B V) (w : ℕ) (r : Res) :
    Except PyErr (Heap B V × SeqObj T) := do
  let e := ess (h.cell w)
  let c ← ({} : Container T).makeDeque essName [e.2] .none
  return (h.write w e.1, ⟨w, r, c, 0⟩)

/-- `SMC2State.__init__`, pyfilter/inference/sequential/state.py:78-88. -/
def newSmc2 (ess : (Fin B → V) → (Fin B → V) × T) (h : Heap B V) (w : ℕ) (r : Res) :
    Except PyErr (Heap B V × SeqObj T) := do
  let hs ← new ess h w r
  let c ← hs.2.tuples.makeDeque dataName [] .none
  return (hs.1, { hs.2 with tuples := c })

/-- `initialize`, pyfilter/inference/sequential/base.py:51-62, and for SMC2 also smc2.py:48-51: new weights
`zero` and the result of the initialized filter. The first state object of SMC2 is only read for its weights. -/
def init (ess : (Fin B → V) → (Fin B → V) × T) (smc2 : Bool) (h : Heap B V) (zero : Fin B → V)
    (r : Res) : Except PyErr (Heap B V × SeqObj T) := do
  let hs ← new ess (h.alloc zero) h.nc r
  if smc2 then newSmc2 ess hs.1 hs.2.w hs.2.res else return hs

/-- `append`, pyfilter/inference/sequential/state.py:35-44, for the correction object `o`. -/
def append [Add V] (ess : (Fin B → V) → (Fin B → V) × T) (h : Heap B V) (s : SeqObj T) (o : ℕ) :
    Except PyErr (Heap B V × SeqObj T) := do
  let h := h.write s.w (h.cell s.w + h.cell (h.obj o).ll)
  let e := ess (h.cell s.w)
  let h := h.write s.w e.1
  let c ← s.tuples.appendTo essName e.2
  return (h, { s with tuples := c })

/-- `append_data`, pyfilter/inference/sequential/state.py:94-95. -/
def appendData (s : SeqObj T) (y : T) : Except PyErr (SeqObj T) := do
  let c ← s.tuples.appendTo dataName y
  return { s with tuples := c }

/-- `bump_iteration`, pyfilter/inference/sequential/state.py:46-51. -/
def bump (s : SeqObj T) : SeqObj T := { s with iter := s.iter + 1 }

/-- The first line of `SMC2._step`, pyfilter/inference/sequential/smc2.py:54; the other algorithms do not
record observations (`none`). -/
def record (s : SeqObj T) : Option T → Except PyErr (SeqObj T)
  | some y => s.appendData y
  | none => .ok s

/-- The part of `_step` that every algorithm performs, pyfilter/inference/sequential/smc2.py:53-57 and
ness.py:56-57: SMC2 records the observation (`some y`), the filter builds a correction (`f`) and appends it to
its result, then the state is updated. -/
def observe [Add V] (ess : (Fin B → V) → (Fin B → V) × T) (h : Heap B V) (s : SeqObj T) (f : Fields B V)
    (y : Option T) : Except PyErr (Heap B V × SeqObj T) := do
  let s ← s.record y
  let ho := h.construct f
  let hr := s.res.append ho.1 ho.2
  append ess hr.1 { s with res := hr.2 } ho.2

/-- The parts of the rejuvenations that touch the state, pyfilter/inference/sequential/kernels/mh.py:58 and
107, online.py:27-51: the filter result is resampled and the weights are set to `zero` in place. (What
happens to the parameters, and the exchange with proposed results, is elsewhere.) -/
def rejuvenate (h : Heap B V) (s : SeqObj T) (idx : Fin B → Fin B) (history : Bool) (zero : Fin B → V) :
    Heap B V :=
  (s.res.resample h idx history).write s.w zero

/-- The new state of `_increase_states`, pyfilter/inference/sequential/kernels/mh.py:132-140: new weights and
a new filter result, the histories and the counter of the old state. -/
def increase (ess : (Fin B → V) → (Fin B → V) × T) (h : Heap B V) (s : SeqObj T) (r : Res)
    (weight : Fin B → V) : Except PyErr (Heap B V × SeqObj T) := do
  let hs ← newSmc2 ess (h.alloc weight) h.nc r
  return (hs.1, { hs.2 with tuples := s.tuples, iter := s.iter })

/-- A saved state, pyfilter/state.py:32-37, pyfilter/inference/state.py:39-43 and
pyfilter/inference/sequential/state.py:59-64. `w` is the live tensor, the histories are stacked (copied). -/
structure Saved (T : Type) where
  tuples : Container.SavedDict T
  filter : Res.Saved
  w : ℕ
  iter : ℕ

/-- `state_dict`, pyfilter/state.py:32-37, pyfilter/inference/state.py:39-43 and
pyfilter/inference/sequential/state.py:59-64. -/
def stateDict (shape : T → List ℕ) (h : Heap B V) (s : SeqObj T) :
    Except PyErr (Heap B V × Saved T) := do
  let t ← s.tuples.stateDict shape
  let f ← s.res.stateDict h
  return (f.1, ⟨t, f.2, s.w, s.iter⟩)

/-- `load_state_dict`, pyfilter/state.py:39-47, pyfilter/inference/state.py:45-47 and
pyfilter/inference/sequential/state.py:66-69. Returns the storage, the state, the passed dictionary as it is
left (loading the histories pops their entries) and the exception if one was raised. -/
def loadStateDict (h : Heap B V) (s : SeqObj T) (sd : Saved T) :
    Heap B V × SeqObj T × Saved T × Option PyErr :=
  let t := s.tuples.loadStateDict sd.tuples
  let s := { s with tuples := t.1 }
  let sd := { sd with tuples := t.2.1 }
  match t.2.2 with
  | some e => (h, s, sd, some e)
  | none =>
    let f := s.res.loadStateDict h sd.filter
    let s := { s with res := f.2.1 }
    match f.2.2 with
    | some e => (f.1, s, sd, some e)
    | none => (f.1, { s with w := sd.w, iter := sd.iter }, sd, none)

end SeqObj

/-- `PMMHResult`, pyfilter/inference/batch/mcmc/state.py:14-26: every parameter with its samples in the order of
the chain (`P` is one sample of all chains). -/
structure PmmhObj (P T : Type) where
  res : Res
  tuples : Container T
  samples : List (List Char × List P)

namespace PmmhObj

variable {B : ℕ} {V T P : Type}

/-- `__init__`, pyfilter/inference/batch/mcmc/state.py:14-26. -/
def new (initial : List (List Char × P)) (r : Res) : PmmhObj P T :=
  ⟨r, {}, initial.map fun p => (p.1, [p.2])⟩

/-- `update_chain`, pyfilter/inference/batch/mcmc/state.py:28-38. -/
def updateChain : PmmhObj P T → List (List Char × P) → Except PyErr (PmmhObj P T)
  | s, [] => .ok s
  | s, (n, p) :: rest =>
    match dictGet s.samples n with
    | none => .error .keyError
    | some xs => updateChain { s with samples := dictSet s.samples n (xs ++ [p]) } rest

/-- A saved result: `PMMHResult` inherits `state_dict` from `FilterAlgorithmState`, pyfilter/state.py:32-37 and
pyfilter/inference/state.py:39-43. -/
structure Saved (T : Type) where
  tuples : Container.SavedDict T
  filter : Res.Saved

/-- `state_dict`, pyfilter/state.py:32-37 and pyfilter/inference/state.py:39-43. -/
def stateDict (shape : T → List ℕ) (h : Heap B V) (s : PmmhObj P T) :
    Except PyErr (Heap B V × Saved T) := do
  let t ← s.tuples.stateDict shape
  let f ← s.res.stateDict h
  return (f.1, ⟨t, f.2⟩)

/-- `load_state_dict`, pyfilter/state.py:39-47 and pyfilter/inference/state.py:45-47. -/
def loadStateDict (h : Heap B V) (s : PmmhObj P T) (sd : Saved T) :
    Heap B V × PmmhObj P T × Option PyErr :=
  let t := s.tuples.loadStateDict sd.tuples
  let s := { s with tuples := t.1 }
  match t.2.2 with
  | some e => (h, s, some e)
  | none =>
    let f := s.res.loadStateDict h sd.filter
    (f.1, { s with res := f.2.1 }, f.2.2)

end PmmhObj
end Verif
