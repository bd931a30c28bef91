import Verif.Model.Particle
import Verif.Model.Resampling

/-!
# Pre-weights: `pyfilter/filters/particle/proposals/pre_weight_funcs.py` and `proposals/base.py`
-/

namespace Verif.PreWeight

variable {N B d : ℕ} {V Y : Type}

/-- A state space model as pre-weights see it (stochproc, not in /repo; used at
pyfilter/filters/particle/proposals/base.py:82-85): `mean` is the location in `mean_scale` of the hidden process, `none` if the
process is not an `AffineProcess`; `linear` says whether the model is a `LinearStateSpaceModel`; `logProb` is
`build_density(x).log_prob(y)`. -/
structure Model (N B d : ℕ) (V Y : Type) where
  mean : Option (TS N B d V → Fin N → Fin B → Fin d → V)
  linear : Bool
  logProb : Y → TS N B d V → Fin N → Fin B → XF

/-- The functions that a proposal may hold, pyfilter/filters/particle/proposals/pre_weight_funcs.py:9-33: one of the user, or one of
those of the module. -/
inductive Func (N B d : ℕ) (V Y : Type) where
  | custom (f : Model N B d V Y → TS N B d V → TS N B d V)
  | affine
  | missing

/-- `_affine_process`, pyfilter/filters/particle/proposals/pre_weight_funcs.py:9-11. Other processes have no `mean_scale`. -/
def affineProcess (m : Model N B d V Y) (x : TS N B d V) : Except PyErr (TS N B d V) :=
  match m.mean with
  | none => .error .attributeError
  | some g => .ok ⟨g x, x.time + 1⟩

/-- `_missing`, pyfilter/filters/particle/proposals/pre_weight_funcs.py:14-15. -/
def missing (_m : Model N B d V Y) (_x : TS N B d V) : Except PyErr (TS N B d V) :=
  .error (.exception "You didn't pass a custom function, and couldn't find a suitable pre-defined one!")

/-- Calling a function of pyfilter/filters/particle/proposals/pre_weight_funcs.py:9-15, or the one of the user. -/
def Func.call : Func N B d V Y → Model N B d V Y → TS N B d V → Except PyErr (TS N B d V)
  | .custom f => fun m x => .ok (f m x)
  | .affine => affineProcess
  | .missing => PreWeight.missing

/-- `get_pre_weight_func`, pyfilter/filters/particle/proposals/pre_weight_funcs.py:18-33. -/
def getPreWeightFunc (func : Option (Func N B d V Y)) (m : Model N B d V Y) : Func N B d V Y :=
  match func with
  | some f => f
  | none => if m.mean.isSome then .affine else .missing

/-- The attributes of a proposal, pyfilter/filters/particle/proposals/base.py:28-30. -/
structure Obj (N B d : ℕ) (V Y : Type) where
  kind : ProposalKind
  model : Option (Model N B d V Y)
  func : Option (Func N B d V Y)

/-- The constructors, pyfilter/filters/particle/proposals/base.py:17-30, nested.py:15-25 and linearized.py:20-41: `Linearized` and
`GaussianLinearized` take no function. Other options are in `Verif.ProposalConfig`. -/
def construct (kind : ProposalKind) (f : Option (Model N B d V Y → TS N B d V → TS N B d V)) : Except PyErr (Obj N B d V Y) :=
  match kind, f with
  | .linearized, some _ => .error .typeError
  | .gaussianLinearized, some _ => .error .typeError
  | kind, f => .ok ⟨kind, none, f.map .custom⟩

/-- `Proposal.set_model`, pyfilter/filters/particle/proposals/base.py:32-43. -/
def setModelBase (p : Obj N B d V Y) (m : Model N B d V Y) : Obj N B d V Y :=
  let p := { p with model := some m }
  { p with func := some (getPreWeightFunc p.func m) }

/-- `set_model`, pyfilter/filters/particle/proposals/base.py:32-43, linear.py:32-36 and linearized.py:43-50: the proposal afterwards
and the exception, if there is one. -/
def setModel (p : Obj N B d V Y) (m : Model N B d V Y) : Obj N B d V Y × Except PyErr Unit :=
  match p.kind with
  | .linear | .gaussianLinear =>
    if m.mean.isNone ∨ m.linear = false then (p, .error .valueError) else (setModelBase p m, .ok ())
  | .linearized | .gaussianLinearized =>
    if m.mean.isNone then (p, .error .valueError) else (setModelBase p m, .ok ())
  | _ => (setModelBase p m, .ok ())

/-- `Proposal.pre_weight`, pyfilter/filters/particle/proposals/base.py:69-85. A proposal without model holds `None`, which has no
`hidden`. (`LinearGaussianObservations` overrides the method; see `Verif.Model.Proposals`.) -/
def preWeight (p : Obj N B d V Y) (y : Y) (x : TS N B d V) : Except PyErr (Fin N → Fin B → XF) :=
  match p.model, p.func with
  | some m, some f => do
    let new ← f.call m x
    .ok (m.logProb y new)
  | none, _ => .error .attributeError
  | some _, none => .error .typeError

end Verif.PreWeight
