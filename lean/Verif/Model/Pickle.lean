import Verif.Model.Context

/-!
# Pickling and deep-copying parameters and contexts

`pyfilter/inference/parameter.py` tells `pickle` how to rebuild a parameter (`__reduce_ex__`), because a
parameter refers to its context and the context to its parameters. The objects live in a graph: the
storage of `Ctx.World` together with the attributes `_name`, `_context` and `requires_grad` of the
parameter objects and the contexts themselves. Writing and reading a pickle are modelled as one walk that
builds the new objects next to the old ones. Tensors of different parameters are taken to have separate
storage, and priors are values.
-/

namespace Verif.Ctx

/-- Parameter objects and contexts with their references. `name`, `owner` and `grad` are `_name`,
`_context` (pyfilter/inference/parameter.py:25-26) and `requires_grad` of a parameter object; contexts
below `nx` exist. -/
structure Graph (α : Type) where
  w : World α
  name : ℕ → Option (List Char)
  owner : ℕ → Option ℕ
  grad : ℕ → Bool
  ctx : ℕ → Context α
  nx : ℕ

namespace Graph

variable {α : Type}

/-- `PriorBoundParameter(data, requires_grad)`, pyfilter/inference/parameter.py:10 and context.py:163:
the class attributes `_context` and `_name` are `None`, parameter.py:25-26. Returns the new object. -/
def newPar (g : Graph α) (t : Tens α) (grad : Bool) : Graph α × ℕ :=
  ({ g with
      w := g.w.newParam t
      name := Function.update g.name g.w.no none
      owner := Function.update g.owner g.w.no none
      grad := Function.update g.grad g.w.no grad },
    g.w.no)

/-- `set_name`, pyfilter/inference/parameter.py:28-36. -/
def setName (g : Graph α) (p : ℕ) (k : Option (List Char)) : Graph α :=
  { g with name := Function.update g.name p k }

/-- `set_context`, pyfilter/inference/parameter.py:40-48. -/
def setContext (g : Graph α) (p : ℕ) (c : Option ℕ) : Graph α :=
  { g with owner := Function.update g.owner p c }

/-- `prior`, pyfilter/inference/parameter.py:50-56, with `get_prior`, context.py:129-134: an
`AttributeError` if there is no context, `None` if the context has no prior of that name. -/
def prior (g : Graph α) (p : ℕ) : Except Err (Option (Prior α)) :=
  match g.owner p with
  | none => .error .attribute
  | some c => .ok ((g.name p).bind (dictGet (g.ctx c).priors))

/-- Evaluate the prior of a parameter at its values, `eval_prior(constrained=True)`,
pyfilter/inference/parameter.py:95-104: `AttributeError` without a context or without a prior. `f` stands
for `log_prob`. -/
def evalPrior {β : Type} (f : Prior α → Tens α → β) (g : Graph α) (p : ℕ) : Except Err β :=
  match g.prior p with
  | .error e => .error e
  | .ok none => .error .attribute
  | .ok (some d) => .ok (f d (g.w.tensor p))

/-- `InferenceContext()`, pyfilter/inference/context.py:50-63. Returns the new context. -/
def newCtx (g : Graph α) : Graph α × ℕ :=
  ({ g with ctx := Function.update g.ctx g.nx {}, nx := g.nx + 1 }, g.nx)

/-- `set_batch_shape` of context `c`, pyfilter/inference/context.py:112-127. -/
def setBatch (g : Graph α) (c : ℕ) (b : List ℕ) : Graph α × Except Err Unit :=
  let r := (g.ctx c).setBatchShape b
  ({ g with ctx := Function.update g.ctx c r.1 }, r.2)

/-- `named_parameter` of context `c`, pyfilter/inference/context.py:136-170, with the references set in
context.py:163-165: the created object (if one is created) gets its context and its name. -/
def register (g : Graph α) (c : ℕ) (k : List Char) (p : Prior α) (draw : ℕ → α) :
    Graph α × Except Err ℕ :=
  let r := (g.ctx c).named g.w k p draw
  let g' : Graph α :=
    { g with
      w := r.1
      ctx := Function.update g.ctx c r.2.1
      grad := if r.1.no = g.w.no then g.grad else Function.update g.grad g.w.no false }
  let g'' := if r.1.no = g.w.no then g' else (g'.setContext g.w.no (some c)).setName g.w.no (some k)
  (g'', r.2.2)

/-- `_rebuild_parameter`, pyfilter/inference/parameter.py:9-16. -/
def rebuild (g : Graph α) (t : Tens α) (grad : Bool) (k : Option (List Char)) (c : Option ℕ) :
    Graph α × ℕ :=
  let r := g.newPar t grad
  ((r.1.setName r.2 k).setContext r.2 c, r.2)

/-- What has been written or copied so far: the memo of `pickle` and of `copy.deepcopy` (Python), old
object to new object. Used for pyfilter/inference/parameter.py:110-111. -/
structure Memo where
  par : ℕ → Option ℕ
  ctx : ℕ → Option ℕ

/-- The empty memo. Used for pyfilter/inference/parameter.py:110-111. -/
def Memo.empty : Memo := ⟨fun _ => none, fun _ => none⟩

mutual

/-- Pickling a parameter with `__reduce_ex__`, pyfilter/inference/parameter.py:110-111. The arguments
(among them the context) are written first, then the call of `_rebuild_parameter`. If writing the
arguments has already written the parameter (it is in the dictionary of its context), `pickle` drops the
second object and takes the one in the memo. The first argument bounds the depth of the recursion
(`RecursionError`). -/
def pickleParameter : ℕ → Graph α → Memo → ℕ → Except Err (Graph α × Memo × ℕ)
  | 0, _, _, _ => .error .runtime
  | f + 1, g, m, p =>
    match m.par p with
    | some q => .ok (g, m, q)
    | none =>
      match pickleOwner f g m (g.owner p) with
      | .error e => .error e
      | .ok (g1, m1, c) =>
        let r := g1.rebuild (g.w.tensor p) (g.grad p) (g.name p) c
        match m1.par p with
        | some q => .ok (r.1, m1, q)
        | none => .ok (r.1, { m1 with par := Function.update m1.par p (some r.2) }, r.2)

/-- Pickling the attribute `_context`, pyfilter/inference/parameter.py:111, which can be `None`. -/
def pickleOwner : ℕ → Graph α → Memo → Option ℕ → Except Err (Graph α × Memo × Option ℕ)
  | _, g, m, none => .ok (g, m, none)
  | 0, _, _, some _ => .error .runtime
  | f + 1, g, m, some c =>
    match pickleContext f g m c with
    | .error e => .error e
    | .ok (g1, m1, d) => .ok (g1, m1, some d)

/-- Pickling a context. `InferenceContext` has no method for it, so Python creates an empty object
(`__new__`, pyfilter/inference/context.py:44-48), enters it in the memo, writes the attributes
(context.py:55-63) and assigns them at the end. -/
def pickleContext : ℕ → Graph α → Memo → ℕ → Except Err (Graph α × Memo × ℕ)
  | 0, _, _, _ => .error .runtime
  | f + 1, g, m, c =>
    match m.ctx c with
    | some d => .ok (g, m, d)
    | none =>
      let r := g.newCtx
      match pickleDict f r.1 { m with ctx := Function.update m.ctx c (some r.2) } (g.ctx c).params with
      | .error e => .error e
      | .ok (g1, m1, ps) =>
        .ok ({ g1 with ctx := Function.update g1.ctx r.2 { g.ctx c with params := ps } }, m1, r.2)

/-- Pickling `_parameter_dict`, pyfilter/inference/context.py:56, item after item. -/
def pickleDict : ℕ → Graph α → Memo → List (List Char × ℕ) →
    Except Err (Graph α × Memo × List (List Char × ℕ))
  | _, g, m, [] => .ok (g, m, [])
  | 0, _, _, _ :: _ => .error .runtime
  | f + 1, g, m, (k, p) :: rest =>
    match pickleParameter f g m p with
    | .error e => .error e
    | .ok (g1, m1, q) =>
      match pickleDict (f + 1) g1 m1 rest with
      | .error e => .error e
      | .ok (g2, m2, qs) => .ok (g2, m2, (k, q) :: qs)

end

/-- `copy.deepcopy` of a parameter. pyfilter/inference/parameter.py:19-133 inherits `__deepcopy__` of
`torch.nn.Parameter`, which `copy.deepcopy` prefers to `__reduce_ex__` (parameter.py:110-111): a new
object of the same class with a copy of the data and `requires_grad`. -/
def deepParameter (g : Graph α) (m : Memo) (p : ℕ) : Graph α × Memo × ℕ :=
  match m.par p with
  | some q => (g, m, q)
  | none =>
    let r := g.newPar (g.w.tensor p) (g.grad p)
    (r.1, { m with par := Function.update m.par p (some r.2) }, r.2)

/-- `copy.deepcopy` of `_parameter_dict`, pyfilter/inference/context.py:56. -/
def deepDict (g : Graph α) (m : Memo) : List (List Char × ℕ) → Graph α × Memo × List (List Char × ℕ)
  | [] => (g, m, [])
  | (k, p) :: rest =>
    let r := g.deepParameter m p
    let s := deepDict r.1 r.2.1 rest
    (s.1, s.2.1, (k, r.2.2) :: s.2.2)

/-- `copy.deepcopy` of a context, pyfilter/inference/context.py:33-63 (no method of its own: an empty
object whose attributes are copies). -/
def deepContext (g : Graph α) (m : Memo) (c : ℕ) : Graph α × Memo × ℕ :=
  match m.ctx c with
  | some d => (g, m, d)
  | none =>
    let r := g.newCtx
    let s := r.1.deepDict { m with ctx := Function.update m.ctx c (some r.2) } (g.ctx c).params
    ({ s.1 with ctx := Function.update s.1.ctx r.2 { g.ctx c with params := s.2.2 } }, s.2.1, r.2)

end Graph

end Verif.Ctx
