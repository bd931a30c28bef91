import Mathlib.Data.Real.Archimedean
import Mathlib.Algebra.Order.Floor.Ring

/-!
# `pyfilter/inference/qmc.py`
-/

namespace Verif.Qmc

/-- `EngineContainer`, pyfilter/inference/qmc.py:7-24. The Sobol engine itself (PyTorch) is not modelled:
the points it draws are arguments of `sample`. -/
structure Engine (d : ℕ) where
  randomize : Bool
  rotation : Option (Fin d → ℝ) := none

/-- Line 49 of qmc.py on one number; `eps` is `EPS2` of pyfilter/constants.py:9. -/
noncomputable def safe (eps p : ℝ) : ℝ := 0.5 + (1 - eps) * (p - 0.5)

/-- `EngineContainer.sample`, pyfilter/inference/qmc.py:25-52. `points` are the points drawn from the
Sobol engine (line 35), `fresh` is what `uniform_()` would return in line 44. The result is the list of
points in row-major order of `shape`; the reshaping of lines 37-38 and 51-52 does not change it.
`remainder(1.0)` (PyTorch) is the fractional part. -/
noncomputable def Engine.sample {d : ℕ} (eps : ℝ) (e : Engine d) (points : List (Fin d → ℝ))
    (fresh : Fin d → ℝ) : Engine d × List (Fin d → ℝ) :=
  if e.randomize then
    let rot := match e.rotation with
      | some r => r
      | none => fresh
    ({ e with rotation := some rot },
      points.map fun p j => safe eps (Int.fract (p j + rot j)))
  else (e, points.map fun p j => safe eps (p j))

/-- Successive calls of `sample`: all outputs in order.
Used for pyfilter/inference/qmc.py:25-52. -/
noncomputable def Engine.run {d : ℕ} (eps : ℝ) (e : Engine d) :
    List (List (Fin d → ℝ) × (Fin d → ℝ)) → Engine d × List (List (Fin d → ℝ))
  | [] => (e, [])
  | c :: cs =>
    let r := e.sample eps c.1 c.2
    let rest := Engine.run eps r.1 cs
    (rest.1, r.2 :: rest.2)

end Verif.Qmc
