import Verif.Model.Context

/-!
# Specification of parameter contexts

What a context holds after a number of successful registrations, and what a user can do with it.
-/

namespace Verif.Spec

open Verif.Ctx

/-- A registered parameter. -/
structure Entry (α : Type) where
  name : List Char
  prior : Prior α
  u : List ℕ
  pid : ℕ

/-- The number of columns of a parameter. -/
def Entry.cols {α : Type} (e : Entry α) (constrained : Bool) : ℕ :=
  if constrained then e.prior.eventShape.prod else e.u.prod

/-- A context with batch shape `b` and exactly the registered parameters `es`, each with its own
storage. -/
structure Holds {α : Type} (w : World α) (c : Context α) (b : List ℕ) (es : List (Entry α)) : Prop where
  batch : c.batch = some b
  priors : c.priors = es.map fun e => (e.name, e.prior)
  params : c.params = es.map fun e => (e.name, e.pid)
  shapes : c.shapes = es.map fun e => (e.name, e.prior.eventShape)
  ushapes : c.ushapes = es.map fun e => (e.name, e.u)
  names : (es.map Entry.name).Nodup
  bijection : ∀ e ∈ es, e.prior.uEventShape = some e.u
  unbatched : ∀ e ∈ es, e.prior.batchShape = []
  shape : ∀ e ∈ es, (w.tensor e.pid).shape = b ++ e.prior.eventShape
  size : ∀ e ∈ es, (w.tensor e.pid).data.length = (b ++ e.prior.eventShape).prod
  pid_lt : ∀ e ∈ es, e.pid < w.no
  cell_lt : ∀ e ∈ es, w.obj e.pid < w.nc
  storage : (es.map fun e => w.obj e.pid).Nodup

/-- The position of an entry in a tensor stored row by row. -/
def flatIndex : List ℕ → List ℕ → ℕ
  | _ :: ss, i :: is => i * ss.prod + flatIndex ss is
  | _, _ => 0

/-- The entry of a tensor that an expanded tensor repeats: index zero along dimensions of length one. -/
def sourceIndex (src idx : List ℕ) : List ℕ :=
  List.zipWith (fun s i => if s = 1 then 0 else i) src idx

/-- `d` are the entries of a tensor of shape `src` and entries `t`, expanded to the shape `shape`. -/
def Expands {α : Type} (src : List ℕ) (t : List α) (shape : List ℕ) (d : List α) : Prop :=
  d.length = shape.prod ∧ ∀ idx, List.Forall₂ (· < ·) idx shape →
    d[flatIndex shape idx]? = t[flatIndex src (sourceIndex src idx)]?

/-- Requests to one context. -/
inductive CtxOp (α : Type) where
  | setBatchShape (b : List ℕ)
  | named (name : List Char) (p : Prior α) (draw : ℕ → α)
  | verify (on : Bool)
  | unstack (x : Context.Mat α) (constrained : Bool)
  | exchange (other : Context α) (mask : List Bool)
  | resample (idx : List ℕ)
  | quasiInit (probs : List (List α))

/-- What a request leaves behind, whether it succeeds or not. -/
def CtxOp.step {α : Type} (s : World α × Context α) : CtxOp α → World α × Context α
  | .setBatchShape b => (s.1, (s.2.setBatchShape b).1)
  | .named n p d => ((s.2.named s.1 n p d).1, (s.2.named s.1 n p d).2.1)
  | .verify on => (s.1, { s.2 with verify := on })
  | .unstack x k => ((s.2.unstack s.1 x k).1, s.2)
  | .exchange o m => ((s.2.exchange s.1 o m).1, s.2)
  | .resample i => ((s.2.resample s.1 i).1, s.2)
  | .quasiInit p => ((s.2.quasiInit s.1 p).1, s.2)

/-- What a sequence of requests leaves behind. -/
def CtxOp.run {α : Type} (s : World α × Context α) (ops : List (CtxOp α)) : World α × Context α :=
  ops.foldl CtxOp.step s

end Verif.Spec
