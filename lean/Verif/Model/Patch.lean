import Mathlib.Data.List.Basic

/-!
# `patch` and `PriorMixin.to` of `pyfilter/inference/prior.py`
-/

namespace Verif.Patch

/-- The classes of a running program: the `__dict__` of every class, and the list `applied_patches` of
pyfilter/inference/prior.py:195. Classes are named by `K`, `M` are the values of attributes. -/
structure World (K M : Type) where
  dict : K → List (String × M)
  applied : List K

variable {K M : Type} [DecidableEq K]

/-- `getattr(cls, name, None)` (Python): the first class in the method resolution order that has the name.
Metaclasses are not modelled. Used for pyfilter/inference/prior.py:211 and 214. -/
def World.lookup (w : World K M) (mro : K → List K) (cls : K) (name : String) : Option M :=
  (mro cls).findSome? fun c => (w.dict c).lookup name

/-- `setattr(cls, name, value)` (Python) for a name that the class itself does not have.
Used for pyfilter/inference/prior.py:216. -/
def World.setattr (w : World K M) (cls : K) (name : String) (value : M) : World K M :=
  { w with dict := fun c => if c = cls then w.dict c ++ [(name, value)] else w.dict c }

/-- One iteration of the loop of `patch`, pyfilter/inference/prior.py:210-216. `get_raw_method`
(prior.py:221-222) is the identity. -/
def patchOne (mro : K → List K) (sub cls : K) (w : World K M) (name : String) : World K M :=
  if name.toList.head? = some '_' ∨ (w.lookup mro cls name).isSome then w
  else match w.lookup mro sub name with
    | some method => w.setattr cls name method
    | none => w

/-- `patch`, pyfilter/inference/prior.py:199-218. -/
def patch (mro : K → List K) (sub cls : K) (w : World K M) : World K M :=
  if sub ∈ w.applied then w
  else
    let w := ((w.dict sub).map Prod.fst).foldl (patchOne mro sub cls) w
    { w with applied := w.applied ++ [sub] }

/-- Exceptions of constructors (Python and torch). Used for pyfilter/inference/prior.py:181. -/
inductive Exn where
  | type
  | value
  deriving DecidableEq

/-- A tensor: its device and its values. Used for pyfilter/inference/prior.py:179. -/
structure Tensor (D V : Type) where
  device : D
  value : V

/-- What matters of a class of distributions (torch): the keys of `arg_constraints`, the keyword arguments of the
constructor, those without default, those of which exactly one must be given (none: no such rule), and how
attributes are computed from the arguments that were given (the others lazily, on the same device).
Used for pyfilter/inference/prior.py:172-181. -/
structure Family (V : Type) where
  argConstraints : List String
  accepted : List String
  required : List String
  oneOf : List String
  compute : List (String × V) → String → Option V

/-- A distribution: its family and the arguments it was constructed with.
Used for pyfilter/inference/prior.py:161-185. -/
structure Dist (D V : Type) where
  family : Family V
  device : D
  args : List (String × V)

/-- The constructor (torch): Python refuses unknown and missing arguments; the families with several
parametrisations want exactly one of them. All tensors are on one device.
Used for pyfilter/inference/prior.py:181. -/
def construct {D V : Type} (f : Family V) (device : D) (args : List (String × V)) : Except Exn (Dist D V) :=
  if ¬ (∀ a ∈ args, a.1 ∈ f.accepted) then .error .type
  else if ¬ (∀ r ∈ f.required, r ∈ args.map Prod.fst) then .error .type
  else if f.oneOf ≠ [] ∧ (args.filter fun a => a.1 ∈ f.oneOf).length ≠ 1 then .error .value
  else .ok ⟨f, device, args⟩

/-- `getattr(self, name)` (torch). Used for pyfilter/inference/prior.py:175. -/
def Dist.attr {D V : Type} (d : Dist D V) (name : String) : Option (Tensor D V) :=
  (d.family.compute d.args name).map fun v => ⟨d.device, v⟩

/-- `PriorMixin.to`, pyfilter/inference/prior.py:161-185. `_get_checked_instance` (torch) only allocates the object
here, as the class is that of `self`. `validate_args` is not modelled. -/
def Dist.to {D V : Type} (d : Dist D V) (device : D) : Except Exn (Dist D V) :=
  let params := d.family.argConstraints.filterMap fun name => (d.attr name).map fun t => (name, t.value)
  construct d.family device params

end Verif.Patch
