import Mathlib.Data.Real.Basic

/-!
# Construction of the sequential algorithms

The arguments of constructors and of `make_first`/`make_second` are passed on by position, by name and in
dictionaries. Python's binding of arguments is modelled by `bind`; every function below binds its arguments
according to its signature and then calls others as the code does. What constructors do besides storing arguments
(C72, C48) is not modelled.
-/

namespace Verif.Construct

/-- A Python value: `None`, a number, or another object, which has no arithmetic and is true.
Used for pyfilter/inference/sequential/nessmc2.py:16-45. -/
inductive Val where
  | none
  | num (r : ℝ)
  | obj (name : String)

open Classical in
/-- Truth value (Python). Used for pyfilter/inference/sequential/kernels/mh.py:43. -/
noncomputable def Val.truthy : Val → Bool
  | .none => false
  | .num r => decide (r ≠ 0)
  | .obj _ => true

/-- `a or b` (Python). Used for pyfilter/inference/sequential/kernels/mh.py:43. -/
noncomputable def Val.or (a b : Val) : Val := if a.truthy then a else b

/-- A dictionary or the keyword arguments of a call, in order.
Used for pyfilter/inference/sequential/nessmc2.py:21-22. -/
abbrev Dict := List (String × Val)

/-- Names in a dictionary. Used for pyfilter/inference/sequential/nessmc2.py:21-22. -/
def keys (d : Dict) : List String := d.map Prod.fst

/-- `d.pop(key, default)` (Python): the value and the remaining dictionary.
Used for pyfilter/inference/sequential/nessmc2.py:38,42,44. -/
def pop (d : Dict) (key : String) (default : Val) : Val × Dict :=
  ((d.lookup key).getD default, d.filter fun p => p.1 ≠ key)

/-- `TypeError`: arguments do not fit a signature, or no multiplication.
Used for pyfilter/inference/sequential/base.py:130-131, ness.py:81. -/
inductive Err where
  | typeError
deriving DecidableEq

/-- A signature: parameters with their defaults, and whether there is a `**kwargs`.
Used for pyfilter/inference/sequential/smc2fw.py:14. -/
structure Sig where
  params : List (String × Option Val)
  varkw : Bool

/-- Binding of positional and keyword arguments (Python): the values by name, and `kwargs`. A name given twice, too
many positional arguments, unknown names without `**kwargs`, and missing arguments raise.
Used for pyfilter/inference/sequential/base.py:130-131. -/
def Sig.bind (s : Sig) (pos : List Val) (kw : Dict) : Except Err (Dict × Dict) :=
  let names := s.params.map Prod.fst
  let given := names.zip pos
  if names.length < pos.length then .error .typeError
  else if ¬ (keys kw).Nodup then .error .typeError
  else if (keys kw).any fun k => k ∈ keys given then .error .typeError
  else if !s.varkw && (keys kw).any fun k => k ∉ names then .error .typeError
  else if s.params.any fun p => p.2.isNone && !(p.1 ∈ keys given) && !(p.1 ∈ keys kw) then .error .typeError
  else .ok (given ++ kw.filter (fun p => p.1 ∈ names) ++ s.params.map (fun p => (p.1, p.2.getD .none)),
    kw.filter fun p => p.1 ∉ names)

/-- Value of a parameter after binding; every parameter of the signature has one.
Used for pyfilter/inference/sequential/base.py:130-131. -/
def arg (args : Dict) (name : String) : Val := (args.lookup name).getD .none

/-- `ParticleMetropolisHastings` with its fields, pyfilter/inference/sequential/kernels/mh.py:39-50, and the
`_resampler` of its base class. -/
structure Mh where
  numSteps : Val
  proposal : Val
  distThresh : Val
  accThresh : Val
  maxIncreases : Val
  resampler : Val

/-- `BaseKernel.__init__`, pyfilter/inference/sequential/kernels/base.py:15-23. -/
def baseKernel (pos : List Val) (kw : Dict) : Except Err Val := do
  let a ← Sig.bind ⟨[("self", none), ("resampling", some (.obj "systematic"))], false⟩ (.obj "self" :: pos) kw
  return arg a.1 "resampling"

/-- `ParticleMetropolisHastings.__init__`, kernels/mh.py:20-50. -/
noncomputable def mh (pos : List Val) (kw : Dict) : Except Err Mh := do
  let a ← Sig.bind ⟨[("self", none), ("num_steps", some (.num 1)), ("proposal", some .none),
    ("distance_threshold", some .none), ("acceptance_threshold", some (.num 0.2)), ("max_increases", some (.num 5))],
    true⟩ (.obj "self" :: pos) kw
  let r ← baseKernel [] a.2
  return ⟨arg a.1 "num_steps", (arg a.1 "proposal").or (.obj "SymmetricMH"), arg a.1 "distance_threshold",
    arg a.1 "acceptance_threshold", arg a.1 "max_increases", r⟩

/-- `SMC2` with its fields, pyfilter/inference/sequential/smc2.py:40-43; `threshold` is what is given to
`ConstantThreshold` unless it is a `Thresholder`. -/
structure Smc2 where
  filter : Val
  particles : Val
  context : Val
  threshold : Val
  kernel : Mh

/-- `SMC2.__init__`, smc2.py:18-46. -/
noncomputable def smc2 (pos : List Val) (kw : Dict) : Except Err Smc2 := do
  let a ← Sig.bind ⟨[("self", none), ("filter_", none), ("particles", none), ("threshold", some (.num 0.2)),
    ("kernel", some .none), ("max_increases", some (.num 5)), ("context", some .none)], true⟩ (.obj "self" :: pos) kw
  let k ← mh [] (("proposal", arg a.1 "kernel") :: ("max_increases", arg a.1 "max_increases") :: a.2)
  return ⟨arg a.1 "filter_", arg a.1 "particles", arg a.1 "context", arg a.1 "threshold", k⟩

/-- `NESS` with its fields, pyfilter/inference/sequential/ness.py:33-37 and 81: `threshold` is the product. The
resampler of its kernel is always the default. -/
structure Ness where
  filter : Val
  particles : Val
  context : Val
  kernel : Val
  discrete : Val
  threshold : Val

/-- `BaseOnlineAlgorithm.__init__`, ness.py:20-40; the threshold is filled in later. -/
noncomputable def online (pos : List Val) (kw : Dict) : Except Err Ness := do
  let a ← Sig.bind ⟨[("self", none), ("filter_", none), ("particles", none), ("kernel", some .none),
    ("discrete", some (.num 0)), ("context", some .none)], false⟩ (.obj "self" :: pos) kw
  return ⟨arg a.1 "filter_", arg a.1 "particles", arg a.1 "context",
    (arg a.1 "kernel").or (.obj "NonShrinkingKernel"), arg a.1 "discrete", .none⟩

/-- `a * b` (Python) of numbers; for other values it raises.
Used for pyfilter/inference/sequential/ness.py:81. -/
def times : Val → Val → Except Err Val
  | .num a, .num b => .ok (.num (a * b))
  | _, _ => .error .typeError

/-- `NESS.__init__`, ness.py:70-81. -/
noncomputable def ness (pos : List Val) (kw : Dict) : Except Err Ness := do
  let a ← Sig.bind ⟨[("self", none), ("filter_", none), ("particles", none), ("threshold", some (.num 0.9))], true⟩
    (.obj "self" :: pos) kw
  let b ← online [arg a.1 "filter_", arg a.1 "particles"] a.2
  let t ← times (arg a.1 "threshold") (arg a.1 "particles")
  return { b with threshold := t }

/-- `FixedWidthNESS.__init__`, ness.py:93-105; its block length is stored in place of the threshold. -/
noncomputable def fixedNess (pos : List Val) (kw : Dict) : Except Err Ness := do
  let a ← Sig.bind ⟨[("self", none), ("filter_", none), ("particles", none), ("block_len", some (.num 125))], true⟩
    (.obj "self" :: pos) kw
  let b ← online [arg a.1 "filter_", arg a.1 "particles"] a.2
  return { b with threshold := arg a.1 "block_len" }

/-- `NESSMC2.make_first`, pyfilter/inference/sequential/nessmc2.py:37-39. -/
noncomputable def makeFirst (pos : List Val) (kw : Dict) : Except Err Smc2 := do
  let a ← Sig.bind ⟨[("self", none), ("filter_", none), ("context", none), ("particles", none)], true⟩
    (.obj "self" :: pos) kw
  let t := pop a.2 "threshold" (.num 0.5)
  smc2 [arg a.1 "filter_", arg a.1 "particles"] (("threshold", t.1) :: ("context", arg a.1 "context") :: t.2)

/-- `NESSMC2.make_second`, nessmc2.py:41-45. -/
noncomputable def makeSecond (pos : List Val) (kw : Dict) : Except Err Ness := do
  let a ← Sig.bind ⟨[("self", none), ("filter_", none), ("context", none), ("particles", none)], true⟩
    (.obj "self" :: pos) kw
  let k := pop a.2 "kernel" (.obj "ShrinkingKernel")
  let t := pop k.2 "threshold" (.num 0.95)
  ness [arg a.1 "filter_", arg a.1 "particles"]
    (("kernel", k.1) :: ("threshold", t.1) :: ("context", arg a.1 "context") :: t.2)

/-- `SMC2FW.make_second`, pyfilter/inference/sequential/smc2fw.py:14-15. -/
noncomputable def makeSecondFw (pos : List Val) (kw : Dict) : Except Err Ness := do
  let a ← Sig.bind ⟨[("self", none), ("filter_", none), ("particles", none)], true⟩ (.obj "self" :: pos) kw
  fixedNess [arg a.1 "filter_", arg a.1 "particles"] a.2

/-- A `CombinedSequentialParticleAlgorithm` with its fields, pyfilter/inference/sequential/base.py:130-134. -/
structure Combined where
  first : Smc2
  second : Ness
  switch : Val

/-- `CombinedSequentialParticleAlgorithm.__init__`, base.py:113-134, as called by `NESSMC2.__init__`,
nessmc2.py:35, that is with `context` equal to `None`. `second` is the method `make_second` of the class. A dictionary
that is `None` is empty (`first_kw or dict()`). The algorithms then take the context from the stack
(pyfilter/inference/base.py:28), which is not modelled. -/
noncomputable def combined (second : List Val → Dict → Except Err Ness) (filter particles switch : Val)
    (firstKw secondKw : Dict) : Except Err Combined := do
  let a ← makeFirst [filter, .none, particles] firstKw
  let b ← second [filter, .none, particles] secondKw
  return ⟨a, b, switch⟩

/-- `NESSMC2(filter_, particles, switch, smc2_kw, ness_kw)`, nessmc2.py:16-35; the default of `switch` is 500. -/
noncomputable def nessmc2 (filter particles : Val) (switch : Option Val) (smc2Kw nessKw : Dict) : Except Err Combined :=
  combined makeSecond filter particles (switch.getD (.num 500)) smc2Kw nessKw

/-- `SMC2FW(filter_, particles, switch, smc2_kw, ness_kw)`, smc2fw.py:5-15. -/
noncomputable def smc2fw (filter particles : Val) (switch : Option Val) (smc2Kw nessKw : Dict) : Except Err Combined :=
  combined makeSecondFw filter particles (switch.getD (.num 500)) smc2Kw nessKw

end Verif.Construct
