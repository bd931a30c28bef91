import Verif.Model.Container
import Mathlib.Algebra.BigOperators.Group.List.Basic
import Mathlib.Data.Rat.Defs
import Mathlib.Logic.Function.Basic

/-!
# `pyfilter/inference/context.py`, `parameter.py` and `prior.py`

Tensors are a shape and their entries in row major order. Parameters are Python objects (`obj`) that
point to the storage (`cell`) of their data, so that two parameters can share storage. Every operation
returns the state it leaves behind also when it raises.
-/

namespace Verif.Ctx

/-- Exceptions: those of pyfilter/inference/context.py:16-29, `ValueError` of parameter.py:84, assertion
errors, and those raised by Python dictionaries, lists and torch. -/
inductive Err where
  | batchShapeAlreadySet
  | batchShapeNotSet
  | notSamePrior
  | parameterDoesNotExist
  | assertion
  | outOfBounds
  | noBijection
  | key
  | index
  | attribute
  | runtime
deriving DecidableEq

/-! ### Distributions -/

/-- An entry of a distribution argument (floating point value).
Used for pyfilter/inference/prior.py:22-27. -/
inductive Num where
  | nan
  | ninf
  | pinf
  | fin (q : ℚ)
deriving DecidableEq

/-- Comparison of floating point values: NaN differs from everything.
Used for pyfilter/inference/prior.py:26. -/
def Num.eq : Num → Num → Bool
  | .nan, _ => false
  | _, .nan => false
  | x, y => decide (x = y)

/-- A distribution object by its class and arguments; arguments are vectors (a scalar is a vector of
length one). `independent` is what `to_event` returns and `transformed` a `TransformedDistribution`;
torch declares no arguments (`arg_constraints = {}`) for either.
Used for pyfilter/inference/prior.py:10-29. -/
inductive Dist where
  | simple (cls : List Char) (args : List (List Char × List Num))
  | independent (base : Dist) (n : ℕ)
  | transformed (base : Dist) (by_ : List Char)
deriving DecidableEq

/-- `__class__` (torch). Used for pyfilter/inference/prior.py:19. -/
def Dist.cls : Dist → List Char
  | .simple c _ => c
  | .independent _ _ => ['I', 'n', 'd', 'e', 'p', 'e', 'n', 'd', 'e', 'n', 't']
  | .transformed _ _ => ['T', 'r', 'a', 'n', 's', 'f', 'o', 'r', 'm', 'e', 'd']

/-- The arguments named by `arg_constraints`, with their values (torch).
Used for pyfilter/inference/prior.py:22. -/
def Dist.args : Dist → List (List Char × List Num)
  | .simple _ a => a
  | .independent _ _ => []
  | .transformed _ _ => []

/-- Broadcasting of two vectors (torch).
Used for pyfilter/inference/prior.py:26. -/
def broadcast (x y : List Num) : Except Err (List (Num × Num)) :=
  if x.length = y.length then .ok (x.zip y)
  else match x, y with
    | [a], y => .ok (y.map fun b => (a, b))
    | x, [b] => .ok (x.map fun a => (a, b))
    | _, _ => .error .runtime

/-- The loop of `verify_same_prior`, pyfilter/inference/prior.py:22-29, over the arguments of `x`. -/
def sameArgs (y : Dist) : List (List Char × List Num) → Except Err Bool
  | [] => .ok true
  | (k, xv) :: rest =>
    match dictGet y.args k with
    | none => .error .attribute
    | some yv =>
      match broadcast xv yv with
      | .error e => .error e
      | .ok ps => if ps.any fun p => !(p.1.eq p.2) then .ok false else sameArgs y rest

/-- `verify_same_prior`, pyfilter/inference/prior.py:10-29, and `equivalent_to`, prior.py:141-152, for a
distribution `y`. -/
def verifySamePrior (x y : Dist) : Except Err Bool :=
  if x.cls ≠ y.cls then .ok false else sameArgs y x.args

/-- A prior: a distribution with what the library uses of it, prior.py:47-139. `toC` and `toU` are the
bijection between unconstrained and constrained space (prior.py:47-109) on one flattened event,
`uEventShape` is the event shape of `unconstrained_prior` (prior.py:54-62; `none` if `biject_to` knows no
bijection for the support and raises), `support` is `support.check` on one event and `icdf` the inverse
distribution function of the unconstrained prior. -/
structure Prior (α : Type) where
  dist : Dist
  batchShape : List ℕ
  eventShape : List ℕ
  uEventShape : Option (List ℕ)
  support : List α → Bool
  toC : List α → List α
  toU : List α → List α
  icdf : List α → List α

/-! ### Storage -/

/-- A tensor. Used for pyfilter/inference/parameter.py:19-23. -/
structure Tens (α : Type) where
  shape : List ℕ
  data : List α

/-- Storage: `obj p` is the storage of the data of parameter object `p`. Numbers below `nc` (`no`) are in
use. Used for pyfilter/inference/context.py:50-63. -/
structure World (α : Type) where
  cell : ℕ → Tens α
  obj : ℕ → ℕ
  nc : ℕ
  no : ℕ

namespace World

variable {α : Type}

/-- The current value of a parameter object.
Used for pyfilter/inference/parameter.py:19. -/
def tensor (w : World α) (pid : ℕ) : Tens α := w.cell (w.obj pid)

/-- In-place write to the storage of a parameter (`copy_`, `masked_scatter_`; torch).
Used for pyfilter/inference/parameter.py:87. -/
def write (w : World α) (pid : ℕ) (data : List α) : World α :=
  { w with cell := Function.update w.cell (w.obj pid) { (w.tensor pid) with data := data } }

/-- A new parameter object with new storage, `PriorBoundParameter(v)`, context.py:163. -/
def newParam (w : World α) (t : Tens α) : World α :=
  { cell := Function.update w.cell w.nc t, obj := Function.update w.obj w.no w.nc, nc := w.nc + 1,
    no := w.no + 1 }

/-- New storage. Used for pyfilter/inference/context.py:163. -/
def alloc (w : World α) (t : Tens α) : World α :=
  { w with cell := Function.update w.cell w.nc t, nc := w.nc + 1 }

/-- `p.data = t`, context.py:321: the parameter now shares the storage. -/
def setData (w : World α) (pid addr : ℕ) : World α := { w with obj := Function.update w.obj pid addr }

end World

/-! ### Contexts -/

/-- `InferenceContext`, pyfilter/inference/context.py:50-63: `_prior_dict`, `_parameter_dict`,
`_shape_dict`, `_unconstrained_shape_dict`, `batch_shape`, `_verify_prior`. -/
structure Context (α : Type) where
  priors : List (List Char × Prior α) := []
  params : List (List Char × ℕ) := []
  shapes : List (List Char × List ℕ) := []
  ushapes : List (List Char × List ℕ) := []
  batch : Option (List ℕ) := none
  verify : Bool := true

namespace Context

variable {α : Type}

/-- `set_batch_shape`, pyfilter/inference/context.py:112-127. -/
def setBatchShape (c : Context α) (b : List ℕ) : Context α × Except Err Unit :=
  match c.batch with
  | none => ({ c with batch := some b }, .ok ())
  | some b' => if b' ≠ b then (c, .error .batchShapeAlreadySet) else (c, .ok ())

/-- `get_parameter`, pyfilter/inference/context.py:172-183. -/
def getParameter (c : Context α) (name : List Char) : Except Err ℕ :=
  match dictGet c.params name with
  | some p => .ok p
  | none => .error .parameterDoesNotExist

/-- `named_parameter`, pyfilter/inference/context.py:136-170. `draw` supplies the entries of
`prior.sample(self.batch_shape)`. -/
def named (w : World α) (c : Context α) (name : List Char) (p : Prior α) (draw : ℕ → α) :
    World α × Context α × Except Err ℕ :=
  match c.batch with
  | none => (w, c, .error .batchShapeNotSet)
  | some b =>
    match dictGet c.priors name with
    | some q =>
      if !c.verify then (w, c, c.getParameter name)
      else match verifySamePrior q.dist p.dist with
        | .error e => (w, c, .error e)
        | .ok true => (w, c, c.getParameter name)
        | .ok false => (w, c, .error .notSamePrior)
    | none =>
      let c := { c with priors := dictSet c.priors name p }
      if p.batchShape ≠ [] then (w, c, .error .assertion)
      else
        let shape := b ++ p.eventShape
        let v : Tens α := ⟨shape, (List.range shape.prod).map draw⟩
        let pid := w.no
        let w := w.newParam v
        let c := { c with params := dictSet c.params name pid }
        let c := { c with shapes := dictSet c.shapes name p.eventShape }
        match p.uEventShape with
        | none => (w, c, .error .noBijection)
        | some u => (w, { c with ushapes := dictSet c.ushapes name u }, .ok pid)

/-- Split a list in `n` rows of length `k`.
Used for pyfilter/inference/context.py:207. -/
def chunk (n k : ℕ) (l : List α) : List (List α) :=
  match n with
  | 0 => []
  | n + 1 => l.take k :: chunk n k (l.drop k)

/-- `t.view(-1, k)` (torch): refused if the number of entries is no multiple of `k`.
Used for pyfilter/inference/context.py:207. -/
def view2 (k : ℕ) (data : List α) : Except Err (List (List α)) :=
  if k = 0 ∨ data.length % k ≠ 0 then .error .runtime else .ok (chunk (data.length / k) k data)

/-- `torch.cat(res, dim=-1)` of matrices (torch): refuses the empty tuple and different numbers of
rows. Used for pyfilter/inference/context.py:210. -/
def catRows : List (List (List α)) → Except Err (List (List α))
  | [] => .error .runtime
  | [m] => .ok m
  | m :: m' :: ms =>
    match catRows (m' :: ms) with
    | .error e => .error e
    | .ok r => if m.length = r.length then .ok (List.zipWith (· ++ ·) m r) else .error .runtime

/-- The dictionary `shape_dict` chosen at context.py:203 and 231. -/
def shapeDict (c : Context α) (constrained : Bool) : List (List Char × List ℕ) :=
  if constrained then c.shapes else c.ushapes

/-- The entries of `p` or of `p.get_unconstrained()` (parameter.py:89-94, prior.py:64-85) for the prior
of the parameter: the bijection acts on every event. -/
def entries (p : Prior α) (t : Tens α) (constrained : Bool) : List α :=
  if constrained then t.data
  else ((chunk (t.data.length / p.eventShape.prod) p.eventShape.prod t.data).map p.toU).flatten

/-- The loop of `stack_parameters`, context.py:205-208. -/
def stackParts (w : World α) (c : Context α) (constrained : Bool) :
    List (List Char × ℕ) → Except Err (List (List (List α)))
  | [] => .ok []
  | (n, pid) :: rest =>
    match dictGet (c.shapeDict constrained) n, dictGet c.priors n with
    | some sh, some p =>
      match view2 sh.prod (entries p (w.tensor pid) constrained), stackParts w c constrained rest with
      | .ok m, .ok ms => .ok (m :: ms)
      | .error e, _ => .error e
      | .ok _, .error e => .error e
    | _, _ => .error .key

/-- `stack_parameters`, pyfilter/inference/context.py:193-210: the rows of the result. -/
def stack (w : World α) (c : Context α) (constrained : Bool) : Except Err (List (List α)) :=
  match stackParts w c constrained c.params with
  | .error e => .error e
  | .ok ms => catRows ms

/-- A matrix: the size of the last dimension and the rows.
Used for pyfilter/inference/context.py:193-210. -/
structure Mat (α : Type) where
  width : ℕ
  rows : List (List α)

/-- `update_values_`, pyfilter/inference/parameter.py:68-87, for the parameter `name`; `x` as rows.
`get_constrained` and `support.check` act on every row. `view` refuses another number of entries. -/
def updateValues (w : World α) (c : Context α) (name : List Char) (pid : ℕ) (x : List (List α))
    (constrained : Bool) : World α × Except Err Unit :=
  match dictGet c.priors name with
  | none => (w, .error .attribute)
  | some p =>
    let value := if constrained then x else x.map p.toC
    if constrained && !(value.all p.support) then (w, .error .outOfBounds)
    else if value.flatten.length = (w.tensor pid).data.length then (w.write pid value.flatten, .ok ())
    else (w, .error .runtime)

/-- `_apply_to_params`, pyfilter/inference/context.py:212-220: `f` gets the name, the parameter and the
columns from `index` on. -/
def applyToParams (f : World α → List Char → ℕ → List (List α) → World α × Except Err Unit)
    (dict : List (List Char × List ℕ)) (x : List (List α)) :
    World α → ℕ → List (List Char × ℕ) → World α × Except Err Unit
  | w, _, [] => (w, .ok ())
  | w, index, (n, pid) :: rest =>
    match dictGet dict n with
    | none => (w, .error .key)
    | some sh =>
      match f w n pid (x.map fun r => (r.drop index).take sh.prod) with
      | (w, .error e) => (w, .error e)
      | (w, .ok _) => applyToParams f dict x w (index + sh.prod) rest

/-- `unstack_parameters`, pyfilter/inference/context.py:222-236. -/
def unstack (w : World α) (c : Context α) (x : Mat α) (constrained : Bool) : World α × Except Err Unit :=
  let dict := c.shapeDict constrained
  let totLen := (dict.map fun s => s.2.prod).sum
  if totLen ≠ x.width then (w, .error .assertion)
  else applyToParams (fun w n pid v => updateValues w c n pid v constrained) dict x.rows w 0 c.params

/-- Selection of rows by a boolean vector (torch indexing).
Used for pyfilter/inference/context.py:271. -/
def maskRows (mask : List Bool) (rows : List (List α)) : List (List α) :=
  match mask, rows with
  | true :: m, r :: rs => r :: maskRows m rs
  | false :: m, _ :: rs => maskRows m rs
  | _, _ => []

/-- `masked_scatter_` on the entries in row major order (torch): selected entries take the elements of
the source in order; a source that is too short is refused.
Used for pyfilter/inference/context.py:271. -/
def mscatter : List Bool → List α → List α → Except Err (List α)
  | [], xs, _ => .ok xs
  | _ :: _, [], _ => .ok []
  | true :: _, _ :: _, [] => .error .runtime
  | true :: m, _ :: xs, s :: ss =>
    match mscatter m xs ss with
    | .ok r => .ok (s :: r)
    | .error e => .error e
  | false :: m, x :: xs, ss =>
    match mscatter m xs ss with
    | .ok r => .ok (x :: r)
    | .error e => .error e

/-- The loop of `exchange`, pyfilter/inference/context.py:264-271, for a one-dimensional batch. The mask
is repeated over the entries of an event (269); torch could also broadcast a mask with one entry, which is
refused here. -/
def exchangeGo (other : Context α) (mask : List Bool) :
    World α → List (List Char × ℕ) → World α × Except Err Unit
  | w, [] => (w, .ok ())
  | w, (n, pid) :: rest =>
    match other.getParameter n with
    | .error e => (w, .error e)
    | .ok q =>
      let t := w.tensor pid
      let s := w.tensor q
      if t.shape.head? ≠ some mask.length ∨ s.shape.head? ≠ some mask.length then (w, .error .runtime)
      else
        let e := t.shape.tail.prod
        let source := maskRows mask (chunk mask.length s.shape.tail.prod s.data)
        match mscatter (mask.flatMap fun b => List.replicate e b) t.data source.flatten with
        | .error err => (w, .error err)
        | .ok d => exchangeGo other mask (w.write pid d) rest

/-- `exchange`, pyfilter/inference/context.py:255-271. -/
def exchange (w : World α) (c other : Context α) (mask : List Bool) : World α × Except Err Unit :=
  exchangeGo other mask w c.params

/-- `p[indices]` along the first dimension (torch indexing).
Used for pyfilter/inference/context.py:282. -/
def gather (rows : List (List α)) (idx : List ℕ) : Except Err (List (List α)) :=
  match idx with
  | [] => .ok []
  | i :: is =>
    match rows[i]?, gather rows is with
    | some r, .ok rs => .ok (r :: rs)
    | none, _ => .error .index
    | _, .error e => .error e

/-- The loop of `resample`, pyfilter/inference/context.py:281-282, for non-negative indices. An index
vector of another length than the batch is refused (torch could broadcast a single row). -/
def resampleGo (idx : List ℕ) : World α → List (List Char × ℕ) → World α × Except Err Unit
  | w, [] => (w, .ok ())
  | w, (_, pid) :: rest =>
    let t := w.tensor pid
    let rows := chunk (t.shape.headD 1) t.shape.tail.prod t.data
    match gather rows idx with
    | .error e => (w, .error e)
    | .ok rs =>
      if idx.length ≠ t.shape.headD 1 then (w, .error .runtime)
      else resampleGo idx (w.write pid rs.flatten) rest

/-- `resample`, pyfilter/inference/context.py:273-282. -/
def resample (w : World α) (c : Context α) (idx : List ℕ) : World α × Except Err Unit :=
  resampleGo idx w c.params

/-- `state_dict`, pyfilter/inference/context.py:291-302: `v.data` shares the storage of the parameter. -/
structure Saved where
  params : List (List Char × ℕ)
  priors : List (List Char × List (List Char × List Num))

/-- `state_dict`, pyfilter/inference/context.py:291-302. -/
def stateDict (w : World α) (c : Context α) : Saved :=
  ⟨c.params.map fun e => (e.1, w.obj e.2), c.priors.map fun e => (e.1, e.2.dist.args)⟩

/-- The assertions on the arguments of one prior, context.py:316-318. -/
def checkArgs (saved : List (List Char × List Num)) : List (List Char × List Num) → Except Err Unit
  | [] => .ok ()
  | (k, v) :: rest =>
    match dictGet saved k with
    | none => .error .key
    | some v' =>
      match broadcast v v' with
      | .error e => .error e
      | .ok ps => if ps.all fun p => p.1.eq p.2 then checkArgs saved rest else .error .assertion

/-- The loop of `load_state_dict`, context.py:315-321. -/
def loadGo (c : Context α) (s : Saved) : World α → List (List Char × Prior α) → World α × Except Err Unit
  | w, [] => (w, .ok ())
  | w, (k, v) :: rest =>
    let args : Except Err Unit := match dictGet s.priors k, v.dist.args with
      | _, [] => .ok ()
      | none, _ :: _ => .error .key
      | some a, b => checkArgs a b
    match args with
    | .error e => (w, .error e)
    | .ok _ =>
      match c.getParameter k with
      | .error e => (w, .error e)
      | .ok pid =>
        match dictGet s.params k with
        | none => (w, .error .key)
        | some addr => loadGo c s (w.setData pid addr) rest

/-- `load_state_dict`, pyfilter/inference/context.py:304-321. -/
def load (w : World α) (c : Context α) (s : Saved) : World α × Except Err Unit :=
  if (∀ e ∈ c.params, e.1 ∈ s.params.map Prod.fst) ∧ (∀ e ∈ s.params, e.1 ∈ c.params.map Prod.fst) then
    loadGo c s w c.priors
  else (w, .error .assertion)

/-- Writing a saved state to disk and reading it again (`torch.save`, `torch.load`; not in /repo): every
tensor gets new storage. Used for pyfilter/inference/context.py:291-302. -/
def reread (w : World α) : List (List Char × ℕ) → World α × List (List Char × ℕ)
  | [] => (w, [])
  | (k, a) :: rest =>
    let r := reread (w.alloc (w.cell a)) rest
    (r.1, (k, w.nc) :: r.2)

/-- The first loop of `apply_fun`, context.py:331-338: batch shape, name, prior and new tensor. The
function gets a clone. Negative lengths in the slice of line 336 are those of Python. -/
def applyTemp (w : World α) (c : Context α) (f : Tens α → Tens α) :
    List (List Char × Prior α) → Except Err (List (List ℕ × List Char × Prior α × Tens α))
  | [] => .ok []
  | (k, v) :: rest =>
    match c.getParameter k, dictGet c.shapes k with
    | .ok pid, some sh =>
      let t := f (w.tensor pid)
      let len := t.shape.length
      let b := if sh.length ≤ len then t.shape.take (len - sh.length) else t.shape.take (len - (sh.length - len))
      match applyTemp w c f rest with
      | .ok r => .ok ((b, k, v, t) :: r)
      | .error e => .error e
    | .error e, _ => .error e
    | .ok _, none => .error .key

/-- Whether a tensor of the first shape can be expanded to the second one, dimension by dimension (torch).
Used for pyfilter/inference/context.py:349. -/
def broadcastable : List ℕ → List ℕ → Bool
  | [], [] => true
  | s :: ss, t :: ts => (s == t || s == 1) && broadcastable ss ts
  | _, _ => false

/-- The entries of a tensor of the first shape after expansion to the second one (torch): along a dimension of
length one they are repeated. Used for pyfilter/inference/context.py:349. -/
def broadcastData : List ℕ → List ℕ → List α → List α
  | s :: ss, t :: ts, d =>
    let r := (List.range s).flatMap fun i => broadcastData ss ts ((d.drop (i * ss.prod)).take ss.prod)
    if s = t then r else (List.replicate t r).flatten
  | _, _, d => d

/-- `p.copy_(t)` for a parameter of shape `shape` (torch): missing leading dimensions have length one, and the
source is expanded. Used for pyfilter/inference/context.py:349. -/
def copyInto (t : Tens α) (shape : List ℕ) : Option (List α) :=
  let src := List.replicate (shape.length - t.shape.length) 1 ++ t.shape
  if broadcastable src shape then some (broadcastData src shape t.data) else none

/-- The second loop of `apply_fun`, context.py:346-349. -/
def applyFill (draw : List Char → ℕ → α) :
    World α → Context α → List (List ℕ × List Char × Prior α × Tens α) → World α × Except Err (Context α)
  | w, c, [] => (w, .ok c)
  | w, c, (_, k, v, t) :: rest =>
    match named w c k v (draw k) with
    | (w, _, .error e) => (w, .error e)
    | (w, c, .ok pid) =>
      match copyInto t (w.tensor pid).shape with
      | some d => applyFill draw (w.write pid d) c rest
      | none => (w, .error .runtime)

/-- `apply_fun`, pyfilter/inference/context.py:323-351. The priors are copied by value. -/
def applyFun (w : World α) (c : Context α) (f : Tens α → Tens α) (draw : List Char → ℕ → α) :
    World α × Except Err (Context α) :=
  match applyTemp w c f c.priors with
  | .error e => (w, .error e)
  | .ok [] => (w, .error .index)
  | .ok (t :: ts) =>
    if (t :: ts).all (fun t' => t.1 = t'.1) then
      applyFill draw w (setBatchShape {} t.1).1 (t :: ts)
    else (w, .error .assertion)

/-- `copy`, pyfilter/inference/context.py:353-358. -/
def copy (w : World α) (c : Context α) (draw : List Char → ℕ → α) : World α × Except Err (Context α) :=
  applyFun w c (fun t => t) draw

/-- `inverse_sample_` with `constrained=False`, parameter.py:116-131, after the `view` of
context.py:404, which uses the event shape of the constrained prior. -/
def inverseSample (w : World α) (c : Context α) (name : List Char) (pid : ℕ) (x : List (List α)) :
    World α × Except Err Unit :=
  match dictGet c.priors name, c.batch with
  | some p, some b =>
    if x.flatten.length ≠ (b ++ p.eventShape).prod then (w, .error .runtime)
    else
      let value := (x.map fun r => p.toC (p.icdf r)).flatten
      if value.length = (w.tensor pid).data.length then (w.write pid value, .ok ()) else (w, .error .runtime)
  | _, _ => (w, .error .attribute)

/-- `QuasiInferenceContext.initialize_parameters`, pyfilter/inference/context.py:394-405; `probs` are the
points of the engine, one row for every member of the batch. -/
def quasiInit (w : World α) (c : Context α) (probs : List (List α)) : World α × Except Err Unit :=
  match stack w c false with
  | .error e => (w, .error e)
  | .ok _ => applyToParams (fun w n pid v => inverseSample w c n pid v) c.ushapes probs w 0 c.params

end Context

/-! ### The stack of active contexts -/

/-- `InferenceContext._contexts`, context.py:42-48 and 73-75: a thread has no attribute `stack` before it
has created a context. Contexts are numbered. -/
abbrev Threads := ℕ → Option (List ℕ)

/-- What a thread does with contexts. Used for pyfilter/inference/context.py:77-96. -/
inductive StackOp where
  | new
  | enter (c : ℕ)
  | exit (c : ℕ)
deriving DecidableEq

/-- Effect of one operation on the stack of its own thread: `__new__` (context.py:44-48), `__enter__`
(77-79), `__exit__` (81-82; `list.remove` removes the first occurrence and raises without one). -/
def stackStep (s : Option (List ℕ)) : StackOp → Option (List ℕ) × Except Err Unit
  | .new => match s with
    | none => (some [], .ok ())
    | some s => (some s, .ok ())
  | .enter c => match s with
    | none => (none, .error .attribute)
    | some s => (some (s ++ [c]), .ok ())
  | .exit c => match s with
    | none => (none, .error .attribute)
    | some s => if c ∈ s then (some (s.erase c), .ok ()) else (some s, .error .runtime)

/-- One operation of one thread. Used for pyfilter/inference/context.py:41-48,77-85. -/
def threadStep (t : Threads) (op : ℕ × StackOp) : Threads :=
  Function.update t op.1 (stackStep (t op.1) op.2).1

/-- `get_context`, pyfilter/inference/context.py:87-96. -/
def getContext (s : Option (List ℕ)) : Except Err ℕ :=
  match s with
  | none => .error .attribute
  | some s => match s.getLast? with
    | some c => .ok c
    | none => .error .runtime

/-- Code made of with-blocks: `block c b` is `with c: b`.
Used for pyfilter/inference/context.py:77-85. -/
inductive Code where
  | skip
  | fail
  | seq (a b : Code)
  | block (c : ℕ) (b : Code)
  | attempt (a : Code)
deriving DecidableEq

/-- Running code on the stack of a thread; the second component tells whether it raised. A block enters,
runs its body and exits also if the body raised (context.py:77-85). `attempt` swallows an exception. -/
def Code.run : Code → List ℕ → List ℕ × Bool
  | .skip, s => (s, false)
  | .fail, s => (s, true)
  | .seq a b, s =>
    match a.run s with
    | (s, true) => (s, true)
    | (s, false) => b.run s
  | .block c b, s =>
    let r := b.run (s ++ [c])
    (r.1.erase c, r.2)
  | .attempt a, s => ((a.run s).1, false)

/-- Code made of blocks `with context.no_prior_verification(): ...`; `look` observes the flag.
Used for pyfilter/inference/context.py:360-373. -/
inductive VCode where
  | look
  | fail
  | seq (a b : VCode)
  | suspend (b : VCode)
  | attempt (a : VCode)
deriving DecidableEq

/-- Running it on the flag `_verify_prior`: new flag, whether it raised, flags observed.
`no_prior_verification`, pyfilter/inference/context.py:360-373. -/
def VCode.run : VCode → Bool → Bool × Bool × List Bool
  | .look, v => (v, false, [v])
  | .fail, v => (v, true, [])
  | .seq a b, v =>
    match a.run v with
    | (v, true, o) => (v, true, o)
    | (v, false, o) => let r := b.run v; (r.1, r.2.1, o ++ r.2.2)
  | .suspend b, _ => let r := b.run false; (true, r.2.1, r.2.2)
  | .attempt a, v => let r := a.run v; (r.1, false, r.2.2)

end Verif.Ctx
