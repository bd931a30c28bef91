import Verif.Model.Residuals

/-!
# Observations that are made of noise
-/

namespace Verif.Residual

/-- An observation that is made of noise: the transforms, one after the other. -/
def observe {α : Type} : List (Transform α) → α → α
  | [], ε => ε
  | t :: rest, ε => observe rest (t.fwd ε)

end Verif.Residual
