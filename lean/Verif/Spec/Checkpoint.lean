import Verif.Spec.Container

/-!
# Specification of the state of a sequential algorithm

What a user reads from such a state, without storage.
-/

namespace Verif.Spec

/-- Log-weights, histories of effective sample sizes and observations, counter, and what the filter result
reports: log-likelihood, recorded moments and the length of their window. -/
structure SeqView (B : ℕ) (V T : Type) where
  w : Fin B → V
  ess : List T
  data : List T
  iter : ℕ
  ll : Fin B → V
  means : List (Fin B → V)
  vars : List (Fin B → V)
  meansWindow : Option ℕ
  varsWindow : Option ℕ

/-- What the filter reports about one observation: log-likelihood, mean and variance. -/
structure Report (B : ℕ) (V : Type) where
  ll : Fin B → V
  mean : Fin B → V
  var : Fin B → V

/-- One more observation `y` (recorded or not) with report `r`. `ess` cleans log-weights and computes their
effective sample size. -/
def SeqView.observe {B : ℕ} {V T : Type} [Add V] (ess : (Fin B → V) → (Fin B → V) × T) (v : SeqView B V T)
    (r : Report B V) (y : Option T) : SeqView B V T where
  w := (ess (v.w + r.ll)).1
  ess := v.ess ++ [(ess (v.w + r.ll)).2]
  data := v.data ++ y.toList
  iter := v.iter + 1
  ll := v.ll + r.ll
  means := lastN v.meansWindow (v.means ++ [r.mean])
  vars := lastN v.varsWindow (v.vars ++ [r.var])
  meansWindow := v.meansWindow
  varsWindow := v.varsWindow

end Verif.Spec
