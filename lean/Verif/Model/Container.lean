import Verif.Model.Resampling
import Mathlib.Data.Nat.Digits.Defs

/-!
# `pyfilter/container.py` and `pyfilter/state.py`

Strings are lists of characters. `T` is the type of the recorded tensors; only their shape matters
(`torch.stack` refuses entries of different shapes).
-/

namespace Verif

/-- A Python `collections.deque` (standard library, not in /repo).
Used for pyfilter/container.py:18. -/
structure Deq (α : Type) where
  maxlen : Option ℕ
  items : List α

/-- Keep the last `maxlen` entries. Behaviour of `collections.deque` with `maxlen`.
Used for pyfilter/container.py:18. -/
def Deq.cut {α : Type} (maxlen : Option ℕ) (xs : List α) : List α :=
  match maxlen with
  | none => xs
  | some m => xs.drop (xs.length - m)

/-- `deque.append` (standard library): drops from the left when full.
Used for pyfilter/filters/result.py:127-131. -/
def Deq.append {α : Type} (d : Deq α) (x : α) : Deq α :=
  { d with items := Deq.cut d.maxlen (d.items ++ [x]) }

/-- `deque.extend` (standard library). Used for pyfilter/container.py:63-64. -/
def Deq.extend {α : Type} (d : Deq α) (xs : List α) : Deq α := xs.foldl Deq.append d

/-- The argument `maxlen` of `make_dequeue`: absent, a `bool` or an `int`.
Used for pyfilter/container.py:10-18. -/
inductive Window where
  | none
  | bool (b : Bool)
  | int (k : ℤ)

/-- `make_dequeue`, pyfilter/container.py:10-18. A negative length makes `deque` raise. -/
def makeDequeue (α : Type) : Window → Except PyErr (Deq α)
  | .none => .ok ⟨none, []⟩
  | .bool false => .ok ⟨some 1, []⟩
  | .bool true => .ok ⟨none, []⟩
  | .int k => if 0 ≤ k then .ok ⟨some k.toNat, []⟩ else .error .valueError

/-! ### Ordered dictionaries (Python `OrderedDict`, standard library) -/

/-- Lookup. Used for pyfilter/container.py:82-85. -/
def dictGet {α : Type} (d : List (List Char × α)) (k : List Char) : Option α :=
  match d with
  | [] => none
  | (k', v) :: d => if k' = k then some v else dictGet d k

/-- Assignment: replaces in place or appends at the end.
Used for pyfilter/container.py:51,61. -/
def dictSet {α : Type} (d : List (List Char × α)) (k : List Char) (v : α) : List (List Char × α) :=
  match d with
  | [] => [(k, v)]
  | (k', v') :: d => if k' = k then (k, v) :: d else (k', v') :: dictSet d k v

/-- Deletion. Used for pyfilter/container.py:93-96. -/
def dictDel {α : Type} (d : List (List Char × α)) (k : List Char) : List (List Char × α) :=
  match d with
  | [] => []
  | (k', v') :: d => if k' = k then d else (k', v') :: dictDel d k

/-- `TensorContainer`, pyfilter/container.py:36-37. -/
structure Container (T : Type) where
  tuples : List (List Char × List T) := []
  deques : List (List Char × Deq T) := []

namespace Container

variable {T : Type}

/-- `make_tuple`, pyfilter/container.py:43-51 (`values` as the list of slices along dimension 0). -/
def makeTuple (c : Container T) (name : List Char) (values : List T) : Container T :=
  { c with tuples := dictSet c.tuples name values }

/-- `make_deque`, pyfilter/container.py:53-64. -/
def makeDeque (c : Container T) (name : List Char) (values : List T) (maxlen : Window) :
    Except PyErr (Container T) := do
  let d ← makeDequeue T maxlen
  return { c with deques := dictSet c.deques name (d.extend values) }

/-- `__getitem__`, pyfilter/container.py:81-87, returning the entries in order. -/
def getitem (c : Container T) (key : List Char) : Except PyErr (List T) :=
  match dictGet c.tuples key with
  | some v => .ok v
  | none =>
    match dictGet c.deques key with
    | some d => .ok d.items
    | none => .error (.exception "Could not find")

/-- `container[name].append(x)` on a growing history, as used at pyfilter/filters/result.py:127-128. A
tuple has no `append`. -/
def appendTo (c : Container T) (key : List Char) (x : T) : Except PyErr (Container T) :=
  match dictGet c.tuples key with
  | some _ => .error .attributeError
  | none =>
    match dictGet c.deques key with
    | some d => .ok { c with deques := dictSet c.deques key (d.append x) }
    | none => .error (.exception "Could not find")

/-- `__setitem__`, pyfilter/container.py:89-90. -/
def setitem (_c : Container T) (_key : List Char) (_v : List T) : Except PyErr (Container T) :=
  .error (.exception "Not allowed!")

/-- `__delitem__`, pyfilter/container.py:92-96. -/
def delitem (c : Container T) (key : List Char) : Except PyErr (Container T) :=
  if (dictGet c.tuples key).isSome then .ok { c with tuples := dictDel c.tuples key }
  else if (dictGet c.deques key).isSome then .ok { c with deques := dictDel c.deques key }
  else .error .keyError

/-- `__len__`, pyfilter/container.py:98-99. -/
def len (c : Container T) : ℕ := c.tuples.length + c.deques.length

/-- `__iter__` and `keys`, pyfilter/container.py:101-102 and 110-111. -/
def iter (c : Container T) : List (List Char) := c.tuples.map Prod.fst ++ c.deques.map Prod.fst

/-- `__contains__`, pyfilter/container.py:104-105. -/
def contains (c : Container T) (key : List Char) : Bool :=
  (dictGet c.tuples key).isSome || (dictGet c.deques key).isSome

/-- `torch.stack(entries)`, as called in `get_as_tensor`, pyfilter/container.py:66-79: refuses entries of
different shapes; the result is represented by the list of its slices, the empty tensor by `[]`. -/
def stack (shape : T → List ℕ) (xs : List T) : Except PyErr (List T) :=
  match xs with
  | [] => .ok []
  | x :: xs => if xs.all (fun y => shape y = shape x) then .ok (x :: xs) else .error .runtimeError

/-- `get_as_tensor`, pyfilter/container.py:66-79. -/
def getAsTensor (shape : T → List ℕ) (c : Container T) (key : List Char) : Except PyErr (List T) := do
  stack shape (← c.getitem key)

end Container

/-! ### String handling of `state_dict`/`load_state_dict` -/

/-- Decimal digit. Used for pyfilter/container.py:121. -/
def digitChar (d : ℕ) : Char := Char.ofNat (48 + d)

/-- `str(n)` for a natural number (Python, not in /repo).
Used for pyfilter/container.py:121. -/
def natStr (n : ℕ) : List Char :=
  if n = 0 then ['0'] else (Nat.digits 10 n).reverse.map digitChar

/-- `f"{maxlen}"`, pyfilter/container.py:121. -/
def maxlenStr : Option ℕ → List Char
  | none => ['N', 'o', 'n', 'e']
  | some n => natStr n

/-- `int(s)` for a string of decimal digits; other strings raise (signs, blanks and underscores that
Python also accepts do not occur in keys produced by the code).
Used for pyfilter/container.py:139. -/
def parseInt (s : List Char) : Except PyErr ℕ :=
  if s ≠ [] ∧ s.all Char.isDigit then .ok (s.foldl (fun a c => 10 * a + (c.toNat - 48)) 0)
  else .error .valueError

/-- `s.replace(pat, "")`: non-overlapping occurrences from the left (Python `str.replace`). `skip` counts
the characters still to be dropped from the current occurrence.
Used for pyfilter/container.py:133. -/
def removeAux (pat : List Char) : ℕ → List Char → List Char
  | _, [] => []
  | 0, c :: s => if pat.isPrefixOf (c :: s) then removeAux pat (pat.length - 1) s
      else c :: removeAux pat 0 s
  | k + 1, _ :: s => removeAux pat k s

/-- `s.replace(pat, "")`. Used for pyfilter/container.py:133. -/
def remove (pat s : List Char) : List Char := removeAux pat 0 s

/-- `s.split(sep, 1)`: cut at the first occurrence (Python `str.split`).
Used for pyfilter/container.py:133. -/
def splitOnce (sep : List Char) : List Char → Option (List Char × List Char)
  | [] => none
  | c :: s =>
    if sep.isPrefixOf (c :: s) then some ([], (c :: s).drop sep.length)
    else (splitOnce sep s).map fun (a, b) => (c :: a, b)

/-- `pat in s` (Python substring test). Used for pyfilter/container.py:129. -/
def isInfix (pat : List Char) : List Char → Bool
  | [] => pat.isEmpty
  | c :: s => pat.isPrefixOf (c :: s) || isInfix pat s

/-- `_PREFIX.format(type_="tuple") + _SEP + key`, pyfilter/container.py:26-27 and 117. -/
def tupleKey (name : List Char) : List Char := ['t', 'e', 'n', 's', 'o', 'r', '_', 't', 'u', 'p', 'l', 'e'] ++ ['_', '_'] ++ name

/-- `_PREFIX.format(type_=f"deque_{maxlen}") + _SEP + key`, pyfilter/container.py:121. -/
def dequeKey (maxlen : Option ℕ) (name : List Char) : List Char :=
  ['t', 'e', 'n', 's', 'o', 'r', '_', 'd', 'e', 'q', 'u', 'e', '_'] ++ maxlenStr maxlen ++ ['_', '_'] ++ name

namespace Container

variable {T : Type}

/-- A saved container: keys and stacked tensors.
Used for pyfilter/container.py:113-123. -/
abbrev SavedDict (T : Type) := List (List Char × List T)

/-- First loop of `state_dict`, pyfilter/container.py:116-117. -/
def saveTuples (shape : T → List ℕ) (c : Container T) :
    List (List Char × List T) → SavedDict T → Except PyErr (SavedDict T)
  | [], sd => .ok sd
  | (key, _) :: rest, sd => do
    let v ← c.getAsTensor shape key
    saveTuples shape c rest (dictSet sd (tupleKey key) v)

/-- Second loop of `state_dict`, pyfilter/container.py:119-121. -/
def saveDeques (shape : T → List ℕ) (c : Container T) :
    List (List Char × Deq T) → SavedDict T → Except PyErr (SavedDict T)
  | [], sd => .ok sd
  | (key, value) :: rest, sd => do
    let v ← c.getAsTensor shape key
    saveDeques shape c rest (dictSet sd (dequeKey value.maxlen key) v)

/-- `state_dict`, pyfilter/container.py:113-123. -/
def stateDict (shape : T → List ℕ) (c : Container T) : Except PyErr (SavedDict T) := do
  let sd ← saveTuples shape c c.tuples []
  saveDeques shape c c.deques sd

/-- The key filter of `load_state_dict`, pyfilter/container.py:129. -/
def isOurKey (k : List Char) : Bool :=
  isInfix ['t', 'e', 'n', 's', 'o', 'r', '_', 't', 'u', 'p', 'l', 'e'] k || isInfix ['t', 'e', 'n', 's', 'o', 'r', '_', 'd', 'e', 'q', 'u', 'e'] k

/-- Body of the loading loop for one key and value, pyfilter/container.py:133-139. -/
def loadKey (c : Container T) (k : List Char) (v : List T) : Except PyErr (Container T) :=
  match splitOnce ['_', '_'] (remove ['t', 'e', 'n', 's', 'o', 'r', '_'] k) with
  | none => .error .valueError
  | some (type, name) =>
    if type = ['t', 'u', 'p', 'l', 'e'] then .ok (c.makeTuple name v)
    else if (['d', 'e', 'q', 'u', 'e'] : List Char).isPrefixOf type then
      match splitOnce ['_'] type with
      | none => .error .valueError
      | some (_, m) =>
        if (splitOnce ['_'] m).isSome then .error .valueError
        else if m = ['N', 'o', 'n', 'e'] then c.makeDeque name v .none
        else do c.makeDeque name v (.int ((← parseInt m : ℕ) : ℤ))
    else .ok c

/-- The loop of `load_state_dict`, pyfilter/container.py:131-139: each key is first popped from the
passed dictionary. Returns the container, the passed dictionary as it is left, and the exception if
one was raised. -/
def loadKeys : List (List Char) → Container T → SavedDict T → Container T × SavedDict T × Option PyErr
  | [], c, sd => (c, sd, none)
  | k :: ks, c, sd =>
    match dictGet sd k with
    | none => (c, sd, some .keyError)
    | some v =>
      match loadKey c k v with
      | .ok c' => loadKeys ks c' (dictDel sd k)
      | .error e => (c, dictDel sd k, some e)

/-- `load_state_dict`, pyfilter/container.py:125-139. -/
def loadStateDict (c : Container T) (sd : SavedDict T) : Container T × SavedDict T × Option PyErr :=
  loadKeys ((sd.map Prod.fst).filter isOurKey) c sd

end Container

end Verif
