import Verif.Model.GradientScore

/-!
# `pyfilter/filters/particle/base.py`: the factor for `pyro`, lines 176-229

As in `Verif.Model.GradientScore`, tensors are lists along the time dimension and each parallel filter is treated on its own. The
documentation says that several parallel filters are not supported; the code does not check it.
-/

namespace Verif.Pyro

open Verif Verif.GradientScore

/-- The number that is registered, pyfilter/filters/particle/base.py:188-210, for one parallel filter: `time` are the times of the
recorded states, `x` the smoothed values, `k` is `observe_every_step`. The time of `initial_sample` is 0. -/
noncomputable def factor {N : ℕ} {X Y : Type} (D : Densities X Y) (k : ℕ) (time : List ℕ) (x : List (Fin N → X)) (y : List Y) :
    Except PyErr XF := do
  let xtm1 := x.dropLast.zip (time.dropLast.map (0 + ·))
  let xt := (slice1 k x).zip ((slice1 k time).map (0 + ·))
  let hidden : List (Fin N → XF) := List.zipWith (fun s v i => D.hidden s.2 (s.1 i) (v i)) xtm1 (x.drop 1)
  let obs : List (Fin N → XF) ← broadcast (fun s y i => D.obs s.2 (s.1 i) y) xt y
  let x0 ← match x with
    | [] => .error .indexError
    | a :: _ => .ok a
  .ok (mean fun i => (hidden.map (· i)).sum + (obs.map (· i)).sum + D.init (x0 i))

/-- `_do_pyro_ffbs`, pyfilter/filters/particle/base.py:176-210: `ks` is the number of states that are recorded, `none` is
`record_states=True`; `states` and `ω` are what `batch_filter` leaves behind. -/
noncomputable def doFfbs {N B d : ℕ} {V Y Ω : Type} (M : ParticleModel N B d V Y Ω) (K : Backward N B d V Ω)
    (D : Fin B → Densities (Fin d → V) Y) (k : ℕ) (ks : Option ℕ) (states : List (PCorr N B d V)) (ys : List Y) (ω : Ω) :
    Except PyErr (Fin B → Except PyErr XF) :=
  if ks = none then do
    let (smoothed, _) ← smooth M K states ['f', 'f', 'b', 's'] ω
    let time := states.map fun s => s.x.time
    .ok fun b => factor (D b) k time (smoothed.map fun v i => v i b) ys
  else .error .assertionError

/-- `do_sample_pyro`, pyfilter/filters/particle/base.py:212-229. -/
noncomputable def doSample {N B d : ℕ} {V Y Ω : Type} (M : ParticleModel N B d V Y Ω) (K : Backward N B d V Ω)
    (D : Fin B → Densities (Fin d → V) Y) (k : ℕ) (ks : Option ℕ) (states : List (PCorr N B d V)) (ys : List Y)
    (method : List Char) (ω : Ω) : Except PyErr (Fin B → Except PyErr XF) :=
  if lowerChars method = ['f', 'f', 'b', 's'] then doFfbs M K D k ks states ys ω
  else .error .notImplementedError

end Verif.Pyro
