import Verif.Model.Filter

/-!
# What the steps of a filter may do to the clock, and what a filtering run should look like
-/

namespace Verif.Spec

open Verif

variable {S P Y Ω : Type}

/-- A filter whose prediction keeps the time index, whose pure prediction adds one time step and zero
log-likelihood, and whose correction adds one time step. `time` reads the time index of a correction,
`ZeroLl` says that its log-likelihood is zero. -/
structure Ticks (F : FilterOps S P Y Ω) (time : S → ℕ) (ZeroLl : S → Prop) : Prop where
  predict : ∀ c ω, F.time (F.predict c ω).1 = time c
  propagate : ∀ p ω, time (F.propagate p ω).1 = F.time p + 1
  zero : ∀ p ω, ZeroLl (F.propagate p ω).1
  correct : ∀ y p ω, time (F.correct y p ω).1 = F.time p + 1

/-- The state is the outcome of a pure prediction from time `t`. -/
def Propagated (F : FilterOps S P Y Ω) (t : ℕ) (c : S) : Prop :=
  ∃ p ω, F.time p = t ∧ c = (F.propagate p ω).1

/-- The state is the outcome of using observation `y` at time `t`: a correction, or a pure prediction when
the observation is missing. -/
def Observed (F : FilterOps S P Y Ω) (t : ℕ) (y : Y) (c : S) : Prop :=
  ∃ p ω, F.time p = t ∧ c = if F.allNan y then (F.propagate p ω).1 else (F.correct y p ω).1

/-- What should happen for observation number `n` (counting from 0) when every `k`-th latent step is
observed: `k - 1` pure predictions with zero log-likelihood (none before the first observation), at
times `(n-1)k + 2, …, nk`, then the state of the observation, at time `nk + 1`. -/
structure MoveOk (F : FilterOps S P Y Ω) (time : S → ℕ) (ZeroLl : S → Prop) (k n : ℕ) (y : Y)
    (e : List S × S) : Prop where
  count : e.1.length = if n = 0 then 0 else k - 1
  between : ∀ j c, e.1[j]? = some c → ZeroLl c ∧ time c = (n - 1) * k + 2 + j ∧
    Propagated F ((n - 1) * k + 1 + j) c
  time : time e.2 = n * k + 1
  observed : Observed F (n * k) y e.2

/-- The states that should be recorded. -/
def recorded (intermediary : Bool) (es : List (List S × S)) : List S :=
  es.flatMap fun e => (if intermediary then e.1 else []) ++ [e.2]

end Verif.Spec
