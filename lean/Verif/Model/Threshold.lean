import Mathlib.Analysis.SpecialFunctions.Log.Basic
import Mathlib.Data.List.Sort

/-!
# `pyfilter/inference/sequential/threshold.py`
-/

namespace Verif.Threshold

/-- The three kinds of `Thresholder`, pyfilter/inference/sequential/threshold.py:36-96, with the fields
that their constructors store. `interval` holds the sorted list of line 96 and the ending threshold. -/
inductive Thresholder where
  | constant (threshold : ℝ)
  | decaying (min start alpha : ℝ)
  | interval (thresholds : List (ℤ × ℝ)) (ending : ℝ)

/-- `DecayingThreshold.__init__`, threshold.py:53-64. A half-life of zero raises `ZeroDivisionError`
(`none`). -/
noncomputable def Thresholder.mkDecaying (min start : ℝ) (halfLife : ℤ) : Option Thresholder :=
  if halfLife = 0 then none else some (.decaying min start (Real.log 2 / halfLife))

/-- `IntervalThreshold.__init__`, threshold.py:78-96. A dictionary is a list of pairs with different
keys; `sorted(..., key=lambda u: u[0])` is stable. -/
noncomputable def Thresholder.mkInterval (d : List (ℤ × ℝ)) (ending : ℝ) : Thresholder :=
  .interval (d.insertionSort fun a b => a.1 ≤ b.1) ending

/-- `_mutate_thresh`, threshold.py:44-45, 66-67 and 75-76. -/
noncomputable def Thresholder.mutate (t : Thresholder) (iteration : ℤ) : ℝ :=
  match t with
  | .constant t => t
  | .decaying _ start alpha => Real.exp (-alpha * iteration) * start
  | .interval l ending =>
    match l.find? fun u => iteration ≤ u.1 with
    | some u => u.2
    | none => ending

/-- `_min`, threshold.py:19, 42, 63 and 95. -/
def Thresholder.min : Thresholder → ℝ
  | .constant t => t
  | .decaying min _ _ => min
  | .interval _ ending => ending

/-- `get_threshold`, threshold.py:25-33. -/
noncomputable def Thresholder.get (t : Thresholder) (iteration : ℤ) : ℝ :=
  max (t.mutate iteration) t.min

end Verif.Threshold
