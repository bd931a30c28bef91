import Verif.Model.XFloat
import Verif.Model.Utils

/-!
# `pyfilter/inference/plot.py`

Which values are drawn into which axes with which title. The kernel density estimate and the drawing itself
(statsmodels, matplotlib) are not modelled.
-/

namespace Verif.Plot

/-- A parameter of the context: its name, the number of its elements and its values for every parameter particle,
in constrained (`true`) and unconstrained (`false`) coordinates.
Used for pyfilter/inference/plot.py:70-76. -/
structure Param (B : Type) where
  name : String
  numel : Bool → ℕ
  value : Bool → B → ℕ → ℝ

/-- The argument `constrained`, plot.py:40: one boolean or a dictionary. -/
inductive Setting where
  | all (b : Bool)
  | dict (d : List (String × Bool))

/-- Exceptions: of `subplots`, of `Axes.ravel`, of indexing, of the division in line 61.
Used for pyfilter/inference/plot.py:61-79. -/
inductive Err where
  | value
  | attribute
  | index
  | zeroDivision
  deriving DecidableEq

/-- What `plt.subplots` returns (matplotlib): a single `Axes` for one row and one column, else an array of
`n` axes. Used for pyfilter/inference/plot.py:62. -/
inductive Axes where
  | single
  | array (n : ℕ)

/-- `plt.subplots(rows, cols)` (matplotlib): at least one row and column.
Used for pyfilter/inference/plot.py:62. -/
def subplots (rows cols : ℕ) : Except Err Axes :=
  if rows = 0 ∨ cols = 0 then .error .value
  else if rows = 1 ∧ cols = 1 then .ok .single
  else .ok (.array (rows * cols))

/-- `ax.ravel()`, plot.py:64: the number of axes; an `Axes` has no such method. -/
def Axes.ravel : Axes → Except Err ℕ
  | .single => .error .attribute
  | .array n => .ok n

/-- `constrained` after pyfilter/inference/plot.py:53-58. -/
def resolve {B : Type} (params : List (Param B)) (s : Setting) : List (String × Bool) :=
  let d := match s with
    | .all b => params.map fun p => (p.name, b)
    | .dict d => d
  params.foldl (fun d p => if d.lookup p.name = none then d ++ [(p.name, true)] else d) d

/-- `constrained[name]`; all names are in the dictionary after line 58. Used for plot.py:61 and 71. -/
def entry (d : List (String × Bool)) (name : String) : Bool := (d.lookup name).getD true

/-- One call of `_do_plot`, plot.py:13-31: the axis, the title, and the values and weights of the density
estimate. -/
structure Drawn (B : Type) where
  axis : ℕ
  title : String
  values : B → ℝ
  weights : B → XF

/-- `f"{name}_{i:d}" if numel > 1 else name`, plot.py:81. -/
def title (name : String) (numel i : ℕ) : String := if 1 < numel then name ++ "_" ++ toString i else name

/-- The loop over the components of one parameter, plot.py:78-83: `n` remain of `numel`, `fig` is `fig_index`,
`axes` is the number of axes. -/
def components {B : Type} (axes : ℕ) (w : B → XF) (name : String) (numel : ℕ) (v : B → ℕ → ℝ) :
    ℕ → ℕ → List (Drawn B) → Except Err (ℕ × List (Drawn B))
  | 0, fig, done => .ok (fig, done)
  | n + 1, fig, done =>
    if fig < axes then
      let i := numel - (n + 1)
      components axes w name numel v n (fig + 1) (done ++ [⟨fig, title name numel i, fun b => v b i, w⟩])
    else .error .index

/-- The loop over the parameters, plot.py:70-83. -/
def parameters {B : Type} (axes : ℕ) (w : B → XF) (d : List (String × Bool)) :
    List (Param B) → ℕ → List (Drawn B) → Except Err (List (Drawn B))
  | [], _, done => .ok done
  | p :: ps, fig, done => do
    let c := entry d p.name
    let r ← components axes w p.name (p.numel c) (p.value c) (p.numel c) fig done
    parameters axes w d ps r.1 r.2

/-- `math.ceil(total / num_cols)`, plot.py:61. -/
def rowsFor (total cols : ℕ) : ℕ := (total + (cols - 1)) / cols

/-- `mimic_arviz_posterior`, plot.py:35-87. `weights` are `state.normalized_weights()`. Returns what has been
drawn, and the axes that were switched off. -/
def mimic {B : Type} (params : List (Param B)) (weights : B → XF) (cols : ℕ) (ax : Option Axes) (s : Setting) :
    Except Err (List (Drawn B) × List ℕ) := do
  let d := resolve params s
  let ax ← match ax with
    | some ax => .ok ax
    | none =>
      if cols = 0 then .error .zeroDivision
      else subplots (rowsFor (params.map fun p => p.numel (entry d p.name)).sum cols) cols
  let n ← ax.ravel
  let drawn ← parameters n weights d params 0 []
  return (drawn, (List.range n).filter fun a => a ∉ drawn.map Drawn.axis)

end Verif.Plot
