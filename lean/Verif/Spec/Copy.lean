import Mathlib.Data.Fin.Basic

/-!
# What can be read off a filter result
-/

namespace Verif.Spec

/-- The contents of one recorded state of `B` parallel filters. -/
structure StateView (B : ℕ) (V : Type) where
  x : Fin B → V
  w : Fin B → V
  ll : Fin B → V
  prev : Fin B → V
  mean : Fin B → V
  var : Fin B → V
  time : ℤ
  shape : List ℕ

/-- The contents of a result: total log-likelihood, histories and states, with their maximal lengths. -/
structure ResultView (B : ℕ) (V : Type) where
  ll : Fin B → V
  means : Option ℕ × List (Fin B → V)
  vars : Option ℕ × List (Fin B → V)
  states : Option ℕ × List (StateView B V)

end Verif.Spec
