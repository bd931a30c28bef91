import Verif.Model.Pmmh
import Verif.Model.Utils
import Verif.Model.Threshold
import Verif.Model.Jitter
import Mathlib.Data.Real.Archimedean

/-!
# `pyfilter/inference/sequential`

The sequential algorithms `NESS`, `FixedWidthNESS`, `SMC2` and `CombinedSequentialParticleAlgorithm`. There are
`P` parameter particles with `d` unconstrained coordinates. Random outcomes are arguments. Mutable Python
objects are records that are passed through; the state object that a step is given and the one it returns can
be different objects that share their `tensor_tuples`.
-/

namespace Verif.Seq

open Mcmc

/-- What an algorithm shares with its context and filter: the parameters of the context (unconstrained
rows, pyfilter/inference/context.py:193-215), the parameters from which the filter's model was built
(pyfilter/filters/base.py:75-83), and the number of state particles (pyfilter/filters/particle/base.py:72-81). -/
structure Sys (P d : ℕ) where
  params : Fin P → Row d
  built : Fin P → Row d
  particles : ℕ

/-- `tensor_tuples` of a state, pyfilter/inference/sequential/state.py:24 and 88, and what collectors add,
pyfilter/inference/sequential/collectors.py:37-43. The deques have no maximal length. -/
structure Tup (Y V : Type) where
  ess : List XF
  data : List Y
  extra : List (String × List V)

/-- A `SequentialAlgorithmState`, state.py:13-25: log-weights, filter result per slot, `current_iteration`.
`id` is the identity of the Python object. -/
structure Obj (P d : ℕ) (Y Ω : Type) where
  id : ℕ
  w : Fin P → XF
  res : Fin P → Slot d Y Ω
  iter : ℕ

/-- Exceptions: `TooManyIncreases` (kernels/mh.py:123-124), `ZeroDivisionError` (ness.py:109 with block length
0), and those of the jittering. -/
inductive Err where
  | tooManyIncreases
  | zeroDivision
  | jitter (e : Jitter.Err)

/-- What happened to the particles in a step (not in the code; used to speak about runs).
The branches are those of pyfilter/inference/sequential/smc2.py:62-65, ness.py:53-54 and kernels/mh.py:90-91. -/
inductive Event where
  | kept
  | updated
  | increased
  deriving DecidableEq

/-- Random outcomes of one step: of the filter, the parameter resampler, the jittering, `bernoulli_`, the
PMMH steps and the run of the filter after an increase.
Used for pyfilter/inference/sequential/kernels/mh.py:54,75,132, online.py:30-42. -/
structure StepDraws (P d : ℕ) (Ω : Type) where
  noise : Fin P → Ω
  inds : Fin P → Fin P
  jitter : Fin P → Fin d → ℝ
  coins : Fin P → Bool
  subDrawn : Fin P → Row d
  pmmh : ℕ → Draws P d Ω
  rerun : Fin P → ℕ → Ω

/-- `SMC2`, pyfilter/inference/sequential/smc2.py:18-46, and its `ParticleMetropolisHastings`,
kernels/mh.py:20-50. -/
structure SmcCfg (P d : ℕ) (Y Ω K : Type) where
  threshold : Threshold.Thresholder
  prop : Proposal P d Y Ω K
  numSteps : ℕ
  distThresh : Option ℝ
  accThresh : ℝ
  maxIncreases : ℕ

/-- `BaseOnlineAlgorithm`, ness.py:20-40: the kernel, its `_min_std` (jittering.py:100) and `discrete`. -/
structure OnlineCfg (d : ℕ) where
  kernel : Jitter.Kernel d
  minStd : ℝ
  discrete : Bool

/-- The algorithms with their mutable fields: `NESS` (ness.py:62-85; `threshold` is the product of line 81),
`FixedWidthNESS` (ness.py:88-109; `count` is `_num_iterations`), `SMC2` (`increases` is `_increases` of
mh.py:50), and combinations (base.py:105-171). -/
inductive Algo (P d : ℕ) (Y Ω K : Type) where
  | ness (threshold : ℝ) (cfg : OnlineCfg d)
  | fixed (blockLen : ℤ) (count : ℕ) (cfg : OnlineCfg d)
  | smc2 (cfg : SmcCfg P d Y Ω K) (increases : ℕ)
  | combined (switch : ℤ) (switched : Bool) (first second : Algo P d Y Ω K)

/-- Result of `_step`: the algorithm, system and shared tuples afterwards, the object that was passed
afterwards, and the outcome: an exception, the same object (`none`) or a new object.
Used for pyfilter/inference/sequential/base.py:73. -/
structure Out (P d : ℕ) (Y Ω K V : Type) where
  algo : Algo P d Y Ω K
  sys : Sys P d
  tup : Tup Y V
  obj : Obj P d Y Ω
  ret : Except Err (Option (Obj P d Y Ω))
  event : Event

/-- The value of a finite number. Not in /repo. It is used for normalised weights, which are finite here: the
weights have been cleaned when they were last appended to, so each is usable (C01).
Used for pyfilter/inference/sequential/kernels/jittering.py:152. -/
def val : XF → ℝ
  | .fin r => r
  | _ => 0

/-- Log-likelihoods of one `filter.filter` call, pyfilter/filters/base.py:188-210, in every slot. -/
def stepLogLik {P d : ℕ} {Y Ω : Type} (env : Env d Y Ω) (sys : Sys P d) (obj : Obj P d Y Ω) (y : Y)
    (noise : Fin P → Ω) (i : Fin P) : XF :=
  env.inc (obj.res i) ⟨sys.params i, sys.built i⟩ y (noise i)

/-- `filter.filter(y, state.filter_state.latest_state, result=state.filter_state)` followed by
`state.append(filter_state)`, smc2.py:56-57, ness.py:56-57 and state.py:35-44: `w +=` in place, then
`get_ess` on the same tensor, which cleans it in place (pyfilter/utils.py:57). -/
noncomputable def filterAppend {P d : ℕ} {Y Ω V : Type} (env : Env d Y Ω) (sys : Sys P d) (tup : Tup Y V)
    (obj : Obj P d Y Ω) (y : Y) (noise : Fin P → Ω) : Tup Y V × Obj P d Y Ω :=
  let w := fun i => obj.w i + stepLogLik env sys obj y noise i
  let e := getEss1 env.lo w false
  ({ tup with ess := tup.ess ++ [e.2] },
    { obj with
      w := e.1
      res := fun i => .step (obj.res i) ⟨sys.params i, sys.built i⟩ y (noise i) })

/-- `(~isfinite(state.w)).any()`, ness.py:85, 109 and smc2.py:59. -/
def anyNonFinite {P : ℕ} (w : Fin P → XF) : Prop := ∃ i, ¬ (w i).IsFinite

/-- `ess[-1]`, ness.py:85 and smc2.py:60-62; an ESS deque is never empty. -/
def lastEss {Y V : Type} (tup : Tup Y V) : XF := tup.ess.getLast?.getD (.fin 0)

/-- Truth value of a tensor with one element (PyTorch): NaN is true.
Used for pyfilter/inference/sequential/ness.py:85. -/
def truthy : XF → Prop
  | .fin r => r ≠ 0
  | _ => True

open Classical in
/-- `do_update_particles` of `NESS`, ness.py:83-85. -/
noncomputable def nessDecides {P d : ℕ} {Y Ω V : Type} (threshold : ℝ) (tup : Tup Y V) (obj : Obj P d Y Ω) :
    Bool :=
  decide (((∃ e ∈ tup.ess, truthy e) ∧ XF.lt (lastEss tup) (.fin threshold)) ∨ anyNonFinite obj.w)

/-- `OnlineKernel.update`, kernels/online.py:26-53 (`Jitter.Online.update`), on the state. `normalized_weights`
(line 27) cleans the weights in place. An exception of the jittering leaves the context unchanged. -/
noncomputable def onlineUpdate {P d : ℕ} [NeZero P] {Y Ω : Type} (env : Env d Y Ω) (cfg : OnlineCfg d)
    (sys : Sys P d) (obj : Obj P d Y Ω) (r : StepDraws P d Ω) :
    Sys P d × Obj P d Y Ω × Option Err :=
  let n := normalize1 env.lo obj.w
  let cleaned := { obj with w := n.1 }
  match Jitter.Online.update env.eps cfg.minStd cfg.kernel cfg.discrete
      ⟨sys.params, obj.res, sys.built, fun i => val (obj.w i)⟩ (fun i => val (n.2 i)) r.inds r.jitter r.coins with
  | .error e => (sys, cleaned, some (.jitter e))
  | .ok s => ({ sys with params := s.params, built := s.built },
      { obj with w := fun _ => 0, res := s.res }, none)

/-- `BaseOnlineAlgorithm._step`, ness.py:52-59, after the decision. -/
noncomputable def onlineStep {P d : ℕ} [NeZero P] {Y Ω K V : Type} (env : Env d Y Ω) (cfg : OnlineCfg d)
    (algo : Algo P d Y Ω K) (update : Bool) (sys : Sys P d) (tup : Tup Y V) (obj : Obj P d Y Ω) (y : Y)
    (r : StepDraws P d Ω) : Out P d Y Ω K V :=
  if update then
    match onlineUpdate env cfg sys obj r with
    | (sys, obj, some e) => ⟨algo, sys, tup, obj, .error e, .kept⟩
    | (sys, obj, none) =>
      let a := filterAppend env sys tup obj y r.noise
      ⟨algo, sys, a.1, a.2, .ok none, .updated⟩
  else
    let a := filterAppend env sys tup obj y r.noise
    ⟨algo, sys, a.1, a.2, .ok none, .kept⟩

/-- `to_accept.float().mean()`, kernels/mh.py:88. -/
noncomputable def fraction {P : ℕ} (acc : Fin P → Bool) : ℝ := (∑ i, if acc i then (1 : ℝ) else 0) / P

/-- `(new_params - old_params).norm(dim=0, p=INFTY).mean()`, mh.py:97: the mean over the coordinates of
the largest absolute change over the particles. -/
noncomputable def distance {P d : ℕ} (new old : Fin P → Row d) : ℝ :=
  (∑ j, ⨆ i, |new i j - old i j|) / d

/-- The loop of `ParticleMetropolisHastings.update`, mh.py:71-102: `n` steps remain, `i` have been done, `rate` is
`acceptance_rate`, `prev` is `previous_distance`. Returns the chain and whether `_increase_states` is called. -/
noncomputable def pmmhLoop {P d : ℕ} {Y Ω K : Type} (env : Env d Y Ω) (cfg : SmcCfg P d Y Ω K) (ys : List Y)
    (old : Fin P → Row d) (draws : ℕ → Draws P d Ω) :
    ℕ → ℕ → Chain P d Y Ω K → ℝ → ℝ → Chain P d Y Ω K × Bool
  | 0, _, c, _, _ => (c, false)
  | n + 1, i, c, rate, prev =>
    let out := runPmmh env cfg.prop false (fun _ => 0) c ys (draws i)
    let rate := (fraction out.2 + i * rate) / (i + 1)
    open Classical in
    if rate < cfg.accThresh then (out.1, true)
    else
      match cfg.distThresh with
      | none => pmmhLoop env cfg ys old draws n (i + 1) out.1 rate prev
      | some t =>
        let dist := distance out.1.params old
        if |dist - prev| ≤ t * prev then (out.1, false)
        else pmmhLoop env cfg ys old draws n (i + 1) out.1 rate dist

/-- `_increase_states`, mh.py:110-140. `int(2.0 * n)` is `2 * n`. The constructor of the new state calls
`get_ess` on the weights (state.py:24), which cleans them in place; its `tensor_tuples` are then replaced by
those of the old state. The resampling threshold of the filter (particle/base.py:81) is not modelled. -/
noncomputable def increaseStates {P d : ℕ} {Y Ω : Type} (env : Env d Y Ω) (increases max : ℕ) (data : List Y)
    (sys : Sys P d) (obj : Obj P d Y Ω) (rerun : Fin P → ℕ → Ω) :
    ℕ × Sys P d × Except Err (Option (Obj P d Y Ω)) :=
  let increases := increases + 1
  if max < increases then (increases, sys, .error .tooManyIncreases)
  else
    let sys' : Sys P d := { sys with built := sys.params, particles := 2 * sys.particles }
    let newRes : Fin P → Slot d Y Ω := fun i =>
      batchFilter sys'.particles ⟨sys'.params i, sys'.built i⟩ data (rerun i)
    let weight := fun i => env.loglik (newRes i) - env.loglik (obj.res i)
    (increases, sys',
      .ok (some { id := obj.id + 1, w := (getEss1 env.lo weight false).1, res := newRes, iter := obj.iter }))

/-- `ParticleMetropolisHastings.update`, mh.py:52-108. The weights are cleaned in place by
`normalized_weights` (line 54). The proposal filter is a copy of the filter with the same number of particles
(mh.py:67), its resampling threshold is not modelled (C32). -/
noncomputable def smcUpdate {P d : ℕ} {Y Ω K : Type} (env : Env d Y Ω) (cfg : SmcCfg P d Y Ω K)
    (increases : ℕ) (data : List Y) (sys : Sys P d) (obj : Obj P d Y Ω) (r : StepDraws P d Ω) :
    ℕ × Sys P d × Obj P d Y Ω × Except Err (Option (Obj P d Y Ω)) × Event :=
  let cleaned := (normalize1 env.lo obj.w).1
  let dist := cfg.prop.build sys.params obj.res cleaned
  let params : Fin P → Row d := fun i => sys.params (r.inds i)
  let res : Fin P → Slot d Y Ω := fun i => obj.res (r.inds i)
  let chain : Chain P d Y Ω K :=
    ⟨params, res, dist, r.subDrawn, r.subDrawn, sys.particles⟩
  let out := pmmhLoop env cfg data params r.pmmh cfg.numSteps 0 chain 0 0
  let sys : Sys P d := { sys with params := out.1.params }
  let obj : Obj P d Y Ω := { obj with w := cleaned, res := out.1.res }
  if out.2 then
    let inc := increaseStates env increases cfg.maxIncreases data sys obj r.rerun
    (inc.1, inc.2.1, obj, inc.2.2, .increased)
  else
    (increases, { sys with built := sys.params }, { obj with w := fun _ => 0 }, .ok none, .updated)

open Classical in
/-- The condition of `SMC2._step`, smc2.py:59-62, on the state after the observation was appended. -/
noncomputable def smcDecides {P d : ℕ} {Y Ω V : Type} (threshold : Threshold.Thresholder) (tup : Tup Y V)
    (obj : Obj P d Y Ω) : Bool :=
  decide (XF.lt (lastEss tup) (.fin (threshold.get ((tup.ess.length : ℤ) - 1) * P)) ∨ anyNonFinite obj.w)

/-- `SMC2._step`, smc2.py:53-65. -/
noncomputable def smcStep {P d : ℕ} {Y Ω K V : Type} (env : Env d Y Ω) (cfg : SmcCfg P d Y Ω K)
    (increases : ℕ) (sys : Sys P d) (tup : Tup Y V) (obj : Obj P d Y Ω) (y : Y) (r : StepDraws P d Ω) :
    Out P d Y Ω K V :=
  let tup := { tup with data := tup.data ++ [y] }
  let a := filterAppend env sys tup obj y r.noise
  if smcDecides cfg.threshold a.1 a.2 then
    let u := smcUpdate env cfg increases a.1.data sys a.2 r
    ⟨.smc2 cfg u.1, u.2.1, a.1, u.2.2.1, u.2.2.2.1, u.2.2.2.2⟩
  else ⟨.smc2 cfg increases, sys, a.1, a.2, .ok none, .kept⟩

open Classical in
/-- `_step` of every algorithm: ness.py:52-59 with 83-85 and 107-109, smc2.py:53-65, base.py:163-171
(`do_on_switch` returns the state, nessmc2.py:47-48). -/
noncomputable def Algo.step_ {P d : ℕ} [NeZero P] {Y Ω K V : Type} (env : Env d Y Ω) :
    Algo P d Y Ω K → Sys P d → Tup Y V → Obj P d Y Ω → Y → StepDraws P d Ω → Out P d Y Ω K V
  | .ness t cfg, sys, tup, obj, y, r =>
    onlineStep env cfg (.ness t cfg) (nessDecides t tup obj) sys tup obj y r
  | .fixed bl count cfg, sys, tup, obj, y, r =>
    let algo := Algo.fixed bl (count + 1) cfg
    if bl = 0 then ⟨algo, sys, tup, obj, .error .zeroDivision, .kept⟩
    else
      onlineStep env cfg algo (decide ((count + 1 : ℤ) % bl = 0 ∨ anyNonFinite obj.w)) sys tup obj y r
  | .smc2 cfg increases, sys, tup, obj, y, r => smcStep env cfg increases sys tup obj y r
  | .combined switch switched first second, sys, tup, obj, y, r =>
    if !switched && decide ((obj.iter : ℤ) ≤ switch) then
      let out := first.step_ env sys tup obj y r
      { out with algo := .combined switch false out.algo second }
    else
      let out := second.step_ env sys tup obj y r
      { out with algo := .combined switch true first out.algo }

/-! ### Callbacks -/

/-- A callback, base.py:11: it is given the algorithm (here: the system), the observation and a state, whose
weights and tensor tuples it may change. `name` is its identity. -/
structure Callback (P d : ℕ) (Y Ω V : Type) where
  name : ℕ
  act : Sys P d → Y → Tup Y V → Obj P d Y Ω → Tup Y V × Obj P d Y Ω

/-- `register_callback`, base.py:38-49; `none` is `None`. -/
def register {P d : ℕ} {Y Ω V : Type} (cbs : List (Callback P d Y Ω V)) :
    Option (Callback P d Y Ω V) → List (Callback P d Y Ω V)
  | none => cbs
  | some cb => if cb.name ∈ cbs.map Callback.name then cbs else cbs ++ [cb]

/-- `tensor_tuples[name].append(value)` after `make_deque` for a new name, collectors.py:38-43. -/
def appendExtra {V : Type} (name : String) (v : V) : List (String × List V) → List (String × List V)
  | [] => [(name, [v])]
  | (n, vs) :: rest => if n = name then (n, vs ++ [v]) :: rest else (n, vs) :: appendExtra name v rest

/-- `Collector`, collectors.py:14-43: `f` computes the value and may change the weights of the state
(`normalized_weights` cleans them in place). -/
def collector {P d : ℕ} {Y Ω V : Type} (name : ℕ) (key : String)
    (f : Sys P d → Y → Obj P d Y Ω → V × (Fin P → XF)) : Callback P d Y Ω V where
  name := name
  act sys y tup obj :=
    ({ tup with extra := appendExtra key (f sys y obj).1 tup.extra }, { obj with w := (f sys y obj).2 })

/-- A running algorithm: what `fit` holds between two observations.
Used for pyfilter/inference/sequential/base.py:97-100. -/
structure State (P d : ℕ) (Y Ω K V : Type) where
  algo : Algo P d Y Ω K
  sys : Sys P d
  tup : Tup Y V
  obj : Obj P d Y Ω

/-- One call of a callback: which one, with which observation, on which state object.
Used for pyfilter/inference/sequential/base.py:75-76. -/
structure Call (P d : ℕ) (Y Ω : Type) where
  name : ℕ
  y : Y
  seen : Obj P d Y Ω

/-- The loop over the callbacks, base.py:75-76. Returns the calls, the tuples and the object. -/
def runCallbacks {P d : ℕ} {Y Ω V : Type} (sys : Sys P d) (y : Y) :
    List (Callback P d Y Ω V) → Tup Y V → Obj P d Y Ω → List (Call P d Y Ω) × Tup Y V × Obj P d Y Ω
  | [], tup, obj => ([], tup, obj)
  | cb :: cbs, tup, obj =>
    let a := cb.act sys y tup obj
    let rest := runCallbacks sys y cbs a.1 a.2
    (⟨cb.name, y, obj⟩ :: rest.1, rest.2)

/-- What one call of `step` did: the state afterwards, the calls, the event, and the exception.
Used for pyfilter/inference/sequential/base.py:64-80. -/
structure Stepped (P d : ℕ) (Y Ω K V : Type) where
  state : State P d Y Ω K V
  calls : List (Call P d Y Ω)
  event : Event
  err : Option Err

/-- `SequentialParticleAlgorithm.step`, base.py:64-80: `_step`, then the callbacks on the state that was passed
in, then `bump_iteration` of the returned state. -/
noncomputable def step {P d : ℕ} [NeZero P] {Y Ω K V : Type} (env : Env d Y Ω) (cbs : List (Callback P d Y Ω V))
    (s : State P d Y Ω K V) (y : Y) (r : StepDraws P d Ω) : Stepped P d Y Ω K V :=
  let out := s.algo.step_ env s.sys s.tup s.obj y r
  match out.ret with
  | .error e => ⟨⟨out.algo, out.sys, out.tup, out.obj⟩, [], out.event, some e⟩
  | .ok fresh =>
    let c := runCallbacks out.sys y cbs out.tup out.obj
    let result := fresh.getD c.2.2
    ⟨⟨out.algo, out.sys, c.2.1, { result with iter := result.iter + 1 }⟩, c.1, out.event, none⟩

/-- `initialize`, base.py:51-62 and smc2.py:48-51: the model is built from the parameters `drawn`, then
`initialize_parameters` replaces them by `quasi` (only `QuasiInferenceContext`, pyfilter/inference/context.py:
394-405; otherwise it does nothing) without building the model again. -/
noncomputable def init {P d : ℕ} {Y Ω K V : Type} (env : Env d Y Ω) (algo : Algo P d Y Ω K) (particles : ℕ)
    (drawn : Fin P → Row d) (quasi : Option (Fin P → Row d)) (noise : Fin P → Ω) : State P d Y Ω K V :=
  let params := quasi.getD drawn
  let w : Fin P → XF := fun _ => 0
  let e := getEss1 env.lo w false
  { algo := algo
    sys := ⟨params, drawn, particles⟩
    tup := ⟨[e.2], [], []⟩
    obj := ⟨0, e.1, fun i => .start particles ⟨params i, drawn i⟩ (noise i), 0⟩ }

/-- The loop of `fit`, base.py:93-102: stops at the first exception. Returns the state, the calls, the events
and the exception. -/
noncomputable def run {P d : ℕ} [NeZero P] {Y Ω K V : Type} (env : Env d Y Ω) (cbs : List (Callback P d Y Ω V)) :
    State P d Y Ω K V → List (Y × StepDraws P d Ω) →
      State P d Y Ω K V × List (Call P d Y Ω) × List Event × Option Err
  | s, [] => (s, [], [], none)
  | s, (y, r) :: rest =>
    let a := step env cbs s y r
    match a.err with
    | some e => (a.state, a.calls, [a.event], some e)
    | none =>
      let b := run env cbs a.state rest
      (b.1, a.calls ++ b.2.1, a.event :: b.2.2.1, b.2.2.2)

end Verif.Seq
