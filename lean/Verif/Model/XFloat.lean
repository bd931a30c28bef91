import Mathlib.Analysis.SpecialFunctions.Log.Basic
import Mathlib.Algebra.BigOperators.Fin

/-!
# Numbers of the model

`XF` is the idealised floating point number: the IEEE special values are kept, finite numbers are
exact reals (no rounding, overflow or underflow, one zero). This models the element type of
`torch.Tensor`; it does not correspond to a file of the repository.
-/

namespace Verif

/-- Idealised floating-point number (element of a `torch.Tensor`; PyTorch, not in /repo).
Used for pyfilter/utils.py:57-62. -/
inductive XF where
  | nan
  | ninf
  | pinf
  | fin (r : ℝ)

namespace XF

/-- IEEE addition (PyTorch `+`, not in /repo).
Used for pyfilter/filters/particle/sisr.py:52. -/
def add : XF → XF → XF
  | nan, _ => nan
  | _, nan => nan
  | fin a, fin b => fin (a + b)
  | pinf, ninf => nan
  | ninf, pinf => nan
  | pinf, pinf => pinf
  | pinf, fin _ => pinf
  | fin _, pinf => pinf
  | ninf, ninf => ninf
  | ninf, fin _ => ninf
  | fin _, ninf => ninf

/-- IEEE negation (PyTorch unary `-`, not in /repo).
Used for pyfilter/utils.py:57. -/
def neg : XF → XF
  | nan => nan
  | ninf => pinf
  | pinf => ninf
  | fin a => fin (-a)

/-- Notation, for pyfilter/filters/particle/base.py:95. -/
instance : Zero XF := ⟨fin 0⟩
/-- Notation, for pyfilter/filters/particle/sisr.py:52. -/
instance : Add XF := ⟨add⟩
/-- Notation, for pyfilter/utils.py:57. -/
instance : Neg XF := ⟨neg⟩

/-- IEEE subtraction (PyTorch `-`, not in /repo).
Used for pyfilter/utils.py:59. -/
def sub (a b : XF) : XF := a + -b

/-- Notation, for pyfilter/utils.py:59. -/
instance : Sub XF := ⟨sub⟩

open Classical in
/-- IEEE multiplication; `0 * inf` is NaN (PyTorch `*`, not in /repo).
Used for pyfilter/filters/particle/utils.py:22. -/
noncomputable def mul : XF → XF → XF
  | nan, _ => nan
  | _, nan => nan
  | fin a, fin b => fin (a * b)
  | fin a, pinf => if a = 0 then nan else if 0 < a then pinf else ninf
  | fin a, ninf => if a = 0 then nan else if 0 < a then ninf else pinf
  | pinf, fin b => if b = 0 then nan else if 0 < b then pinf else ninf
  | ninf, fin b => if b = 0 then nan else if 0 < b then ninf else pinf
  | pinf, pinf => pinf
  | pinf, ninf => ninf
  | ninf, pinf => ninf
  | ninf, ninf => pinf

/-- Notation, for pyfilter/filters/particle/utils.py:22. -/
noncomputable instance : Mul XF := ⟨mul⟩

open Classical in
/-- IEEE division with an unsigned zero (PyTorch `/`, not in /repo).
Used for pyfilter/utils.py:59. -/
noncomputable def div : XF → XF → XF
  | nan, _ => nan
  | _, nan => nan
  | fin a, fin b =>
      if b = 0 then (if a = 0 then nan else if 0 < a then pinf else ninf) else fin (a / b)
  | fin _, pinf => fin 0
  | fin _, ninf => fin 0
  | pinf, fin b => if 0 ≤ b then pinf else ninf
  | ninf, fin b => if 0 ≤ b then ninf else pinf
  | pinf, pinf => nan
  | pinf, ninf => nan
  | ninf, pinf => nan
  | ninf, ninf => nan

/-- Notation, for pyfilter/utils.py:59. -/
noncomputable instance : Div XF := ⟨div⟩

/-- `exp` with IEEE limits (PyTorch `.exp()`, not in /repo).
Used for pyfilter/filters/particle/utils.py:18. -/
noncomputable def exp : XF → XF
  | nan => nan
  | ninf => fin 0
  | pinf => pinf
  | fin r => fin (Real.exp r)

open Classical in
/-- `log` with IEEE limits (PyTorch `.log()`, not in /repo).
Used for pyfilter/filters/particle/utils.py:22. -/
noncomputable def log : XF → XF
  | nan => nan
  | ninf => nan
  | pinf => pinf
  | fin r => if 0 < r then fin (Real.log r) else if r = 0 then ninf else nan

/-- IEEE `<`; false as soon as an argument is NaN (PyTorch `<`, not in /repo).
Used for pyfilter/filters/particle/sisr.py:19. -/
def lt : XF → XF → Prop
  | nan, _ => False
  | _, nan => False
  | fin a, fin b => a < b
  | ninf, ninf => False
  | ninf, _ => True
  | _, ninf => False
  | pinf, _ => False
  | fin _, pinf => True

/-- `torch.isfinite` (PyTorch, not in /repo).
Used for pyfilter/inference/sequential/smc2.py:59. -/
def IsFinite : XF → Prop
  | fin _ => True
  | _ => False

open Classical in
/-- Two-argument maximum that propagates NaN (PyTorch `max`, not in /repo).
Used for pyfilter/utils.py:59. -/
noncomputable def xmax : XF → XF → XF
  | nan, _ => nan
  | _, nan => nan
  | ninf, b => b
  | a, ninf => a
  | pinf, _ => pinf
  | _, pinf => pinf
  | fin a, fin b => fin (max a b)

/-- Maximum of a non-empty vector (PyTorch `max(dim=0)[0]`, not in /repo). PyTorch refuses the empty
vector; here it gives `-inf`, and every theorem about it assumes a non-empty vector.
Used for pyfilter/utils.py:59. -/
noncomputable def vmax {n : ℕ} (x : Fin n → XF) : XF := (List.ofFn x).foldl xmax ninf

theorem add_def (a b : XF) : a + b = add a b := rfl
theorem zero_def : (0 : XF) = fin 0 := rfl
theorem sub_def (a b : XF) : a - b = a + -b := rfl
theorem neg_def (a : XF) : -a = neg a := rfl
theorem mul_def (a b : XF) : a * b = mul a b := rfl
theorem div_def (a b : XF) : a / b = div a b := rfl

/-- Notation, for pyfilter/utils.py:60. -/
instance : AddCommMonoid XF where
  add := add
  zero := fin 0
  add_assoc a b c := by
    show add (add a b) c = add a (add b c)
    cases a <;> cases b <;> cases c <;> simp [add, _root_.add_assoc]
  zero_add a := by
    show add (fin 0) a = a
    cases a <;> simp [add]
  add_zero a := by
    show add a (fin 0) = a
    cases a <;> simp [add]
  add_comm a b := by
    show add a b = add b a
    cases a <;> cases b <;> simp [add, _root_.add_comm]
  nsmul := nsmulRec

/-- `softmax(dim=0)`: `exp x_i / sum_j exp x_j` (PyTorch, not in /repo). PyTorch's internal
stabilising shift does not change the exact value and is not modelled.
Used for pyfilter/utils.py:59. -/
noncomputable def softmax {n : ℕ} (x : Fin n → XF) : Fin n → XF :=
  fun i => exp (x i) / ∑ j, exp (x j)

end XF
end Verif
