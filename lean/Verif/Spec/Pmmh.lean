import Verif.Model.XFloat

/-!
# Metropolis–Hastings
-/

namespace Verif.Spec

/-- The density that a log-density stands for: `-inf` is density zero. -/
noncomputable def expMass : XF → ℝ
  | .fin r => Real.exp r
  | _ => 0

/-- The probability with which a proposal with this log-ratio is to be accepted: `min 1 (ratio)`; zero when
the ratio is undefined. -/
noncomputable def accProb : XF → ℝ
  | .nan => 0
  | .ninf => 0
  | .pinf => 1
  | .fin a => min 1 (Real.exp a)

end Verif.Spec
