import Verif.Model.Sequential
import Mathlib.Data.Int.Notation

/-!
# `pyfilter/inference/logging.py` and the loops that use it

Loggers, and `fit` of the sequential algorithms and of PMMH with a logger.
-/

namespace Verif.Logging

/-- What can end a `fit`: an exception of the algorithm, one of the logging function, or the
`ZeroDivisionError` of pyfilter/inference/logging.py:54. -/
inductive Exn (E F : Type) where
  | algorithm (e : E)
  | function (f : F)
  | zeroDivision

/-- A logger: `DefaultLogger(func, log_every_iteration)`, logging.py:13-24, or `TQDMWrapper`, logging.py:70-76.
`func` takes a state; it may raise. -/
inductive Logger (A F : Type) where
  | default (func : Option (A → Option F)) (per : ℤ)
  | tqdm

/-- What a logger has done: the states that `func` was called with, and `n`, `total` and the number of calls of
`close` of the progress bar. Used for pyfilter/inference/logging.py:23-24 and 76. -/
structure Log (A : Type) where
  calls : List A
  bar : ℤ
  total : Option ℕ
  closed : ℕ

/-- A logger just constructed, logging.py:13-24 and 70-76. -/
def Log.new {A : Type} : Log A := ⟨[], 0, none, 0⟩

/-- `_per_iter`, logging.py:24 and 75. -/
def Logger.per {A F : Type} : Logger A F → ℤ
  | .default _ per => per
  | .tqdm => 1

/-- `self._func(state)`: logging.py:23 (`lambda *args: None` if there is no function) and 84-85. -/
def Logger.func {A F : Type} : Logger A F → Log A → A → Log A × Option F
  | .default none _, l, _ => (l, none)
  | .default (some f) _, l, a => ({ l with calls := l.calls ++ [a] }, f a)
  | .tqdm, l, _ => ({ l with bar := l.bar + Logger.tqdm (A := A) (F := F).per }, none)

/-- `initialize`, logging.py:34-43 and 78-82 (the description of the bar is left out). -/
def Logger.initialize {A F : Type} : Logger A F → Log A → ℕ → Log A
  | .default _ _, l, _ => l
  | .tqdm, l, n => { l with total := some n }

/-- `teardown`, logging.py:57-62 and 87-88. -/
def Logger.teardown {A F : Type} : Logger A F → Log A → Log A
  | .default _ _, l => l
  | .tqdm, l => { l with closed := l.closed + 1 }

/-- `do_log`, logging.py:45-55. -/
def Logger.doLog {A E F : Type} (g : Logger A F) (l : Log A) (iteration : ℤ) (a : A) :
    Log A × Option (Exn E F) :=
  if g.per = 0 then (l, some .zeroDivision)
  else if iteration % g.per = 0 then
    match g.func l a with
    | (l, some f) => (l, some (.function f))
    | (l, none) => (l, none)
  else (l, none)

/-- `__exit__`, logging.py:29-32: the exception is raised again after `teardown`. -/
def Logger.exit {A E F : Type} (g : Logger A F) (l : Log A) (exc : Option (Exn E F)) : Log A × Option (Exn E F) :=
  (g.teardown l, exc)

/-- A loop that advances a state and logs after every iteration. `step` is the body, `number i s` the
iteration number that is logged when the loop variable is `i` and the new state is `s`, `view` what of the
state is logged. Used for pyfilter/inference/sequential/base.py:98-100 and batch/mcmc/pmmh.py:90-102. -/
def loop {S X A E F : Type} (step : S → X → S × Option E) (number : ℕ → S → ℤ) (view : S → A) (g : Logger A F) :
    ℕ → S → Log A → List X → S × Log A × Option (Exn E F)
  | _, s, l, [] => (s, l, none)
  | i, s, l, x :: xs =>
    match step s x with
    | (s, some e) => (s, l, some (.algorithm e))
    | (s, none) =>
      match g.doLog l (number i s) (view s) with
      | (l, some e) => (s, l, some e)
      | (l, none) => loop step number view g (i + 1) s l xs

/-- `SequentialParticleAlgorithm.fit`, pyfilter/inference/sequential/base.py:93-102, from the initialised state
on (line 97), which is inside the block of the logger. The function of the logger is given the state object. -/
noncomputable def seqFit {P d : ℕ} [NeZero P] {Y Ω K V F : Type} (env : Mcmc.Env d Y Ω)
    (cbs : List (Seq.Callback P d Y Ω V)) (g : Logger (Seq.Tup Y V × Seq.Obj P d Y Ω) F)
    (l : Log (Seq.Tup Y V × Seq.Obj P d Y Ω)) (s : Seq.State P d Y Ω K V) (xs : List (Y × Seq.StepDraws P d Ω)) :
    Seq.State P d Y Ω K V × Log (Seq.Tup Y V × Seq.Obj P d Y Ω) × Option (Exn Seq.Err F) :=
  let l := g.initialize l xs.length
  let r := loop (fun s x => ((Seq.step env cbs s x.1 x.2).state, (Seq.step env cbs s x.1 x.2).err))
    (fun _ s => s.obj.iter) (fun s => (s.tup, s.obj)) g 0 s l xs
  (r.1, g.exit r.2.1 r.2.2)

/-- `PMMH.fit`, pyfilter/inference/batch/mcmc/pmmh.py:76-104, from the initialised chains on; `run_pmmh` has no
exceptions here. -/
noncomputable def pmmhFit {P d : ℕ} {Y Ω K Name V F : Type} (env : Mcmc.Env d Y Ω) (prop : Mcmc.Proposal P d Y Ω K)
    (get : Name → Mcmc.Row d → V) (ys : List Y) (g : Logger (Mcmc.Fit P d Y Ω K Name V) F)
    (l : Log (Mcmc.Fit P d Y Ω K Name V)) (f : Mcmc.Fit P d Y Ω K Name V) (rs : List (Mcmc.Draws P d Ω)) :
    Mcmc.Fit P d Y Ω K Name V × Log (Mcmc.Fit P d Y Ω K Name V) × Option (Exn Empty F) :=
  let l := g.initialize l rs.length
  let r := loop (fun f r => (Mcmc.fitStep env prop get ys f r, none)) (fun i _ => i) id g 0 f l rs
  (r.1, g.exit r.2.1 r.2.2)

end Verif.Logging
