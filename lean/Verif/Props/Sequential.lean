import Verif.Lemmas.Sequential
import Verif.Spec.Sequential
import Verif.Props.Weights

/-!
# Sequential algorithms: C59, C60, C62–C65
-/

namespace Verif.Props

open Mcmc Seq

variable {P d : ℕ} {Y Ω K V : Type}

/-! ### C59 -/

/-- A collector does not touch the ESS history, the data, the iteration counter or the filter results. (Its
name must not be "ess" or "parsed_data".) -/
theorem collector_benign (name : ℕ) (key : String) (f : Sys P d → Y → Obj P d Y Ω → V × (Fin P → XF)) :
    Benign (collector name key f) :=
  ⟨fun _ _ _ _ => rfl, fun _ _ _ _ => rfl, fun _ _ _ _ => rfl, fun _ _ _ _ => rfl, fun _ _ _ _ => rfl⟩

theorem step_iter [NeZero P] (env : Env d Y Ω) (cbs : List (Callback P d Y Ω V)) (hb : ∀ cb ∈ cbs, Benign cb)
    (s : State P d Y Ω K V) (y : Y) (r : StepDraws P d Ω) (h : (step env cbs s y r).err = none) :
    (step env cbs s y r).state.obj.iter = s.obj.iter + 1 ∧
      (∃ e, (step env cbs s y r).state.tup.ess = s.tup.ess ++ [e]) := by
  cases hret : (s.algo.step_ env s.sys s.tup s.obj y r).ret with
  | error e =>
    rw [step_of_error env cbs s y r e hret] at h
    exact nomatch h
  | ok f =>
    have hk := step_kept env s.algo s.sys s.tup s.obj y r f hret
    rw [step_of_ok env cbs s y r f hret]
    simp only
    have hc := runCallbacks_benign cbs hb (s.algo.step_ env s.sys s.tup s.obj y r).sys y
      (s.algo.step_ env s.sys s.tup s.obj y r).tup (s.algo.step_ env s.sys s.tup s.obj y r).obj
    refine ⟨?_, ?_⟩
    · cases f with
      | none => simp only [Option.getD_none, hc.2.2.1, hk.iter]
      | some o => simp only [Option.getD_some, (hk.freshIter o rfl).1]
    · obtain ⟨e, he⟩ := hk.ess
      exact ⟨e, by rw [hc.1, he]⟩

/-- After `n` observations with any sequential algorithm the iteration counter is `n` and there are `n + 1` ESS
values, whatever updates, rejuvenations and increases happened. -/
theorem C59_counters [NeZero P] (env : Env d Y Ω) (cbs : List (Callback P d Y Ω V)) (hb : ∀ cb ∈ cbs, Benign cb)
    (algo : Algo P d Y Ω K) (particles : ℕ) (drawn : Fin P → Row d) (quasi : Option (Fin P → Row d))
    (noise : Fin P → Ω) (xs : List (Y × StepDraws P d Ω))
    (h : (run env cbs (init env algo particles drawn quasi noise) xs).2.2.2 = none) :
    (run env cbs (init env algo particles drawn quasi noise) xs).1.obj.iter = xs.length ∧
      (run env cbs (init env algo particles drawn quasi noise) xs).1.tup.ess.length = xs.length + 1 := by
  refine run_induction env cbs (fun xs s => s.obj.iter = xs.length ∧ s.tup.ess.length = xs.length + 1) _ ⟨rfl, rfl⟩ ?_
    xs h
  intro xs s y r hq he
  obtain ⟨h1, e, h2⟩ := step_iter env cbs hb s y r he
  rw [h1, h2, List.length_append, List.length_append, hq.1, hq.2]
  exact ⟨rfl, rfl⟩

theorem smc_run_algo [NeZero P] (env : Env d Y Ω) (cbs : List (Callback P d Y Ω V)) (cfg : SmcCfg P d Y Ω K)
    (s : State P d Y Ω K V) (k : ℕ) (hs : s.algo = .smc2 cfg k) (y : Y) (r : StepDraws P d Ω) :
    ∃ k', (step env cbs s y r).state.algo = .smc2 cfg k' := by
  have ha : ∃ k', (s.algo.step_ env s.sys s.tup s.obj y r).algo = .smc2 cfg k' := by
    rw [hs, Algo.step_]
    exact smcStep_algo ..
  cases hret : (s.algo.step_ env s.sys s.tup s.obj y r).ret with
  | error e => rw [step_of_error env cbs s y r e hret]; exact ha
  | ok f => rw [step_of_ok env cbs s y r f hret]; exact ha

/-- SMC2 has stored exactly the observations, in order. -/
theorem C59_data [NeZero P] (env : Env d Y Ω) (cbs : List (Callback P d Y Ω V)) (hb : ∀ cb ∈ cbs, Benign cb)
    (cfg : SmcCfg P d Y Ω K) (particles : ℕ) (drawn : Fin P → Row d) (quasi : Option (Fin P → Row d))
    (noise : Fin P → Ω) (xs : List (Y × StepDraws P d Ω))
    (h : (run env cbs (init env (.smc2 cfg 0) particles drawn quasi noise) xs).2.2.2 = none) :
    (run env cbs (init env (.smc2 cfg 0) particles drawn quasi noise) xs).1.tup.data = xs.map Prod.fst := by
  refine (run_induction env cbs (fun xs s => (∃ k, s.algo = .smc2 cfg k) ∧ s.tup.data = xs.map Prod.fst) _
    ⟨⟨0, rfl⟩, rfl⟩ ?_ xs h).2
  intro xs s y r ⟨⟨k, hk⟩, hd⟩ he
  refine ⟨smc_run_algo env cbs cfg s k hk y r, ?_⟩
  cases hret : (s.algo.step_ env s.sys s.tup s.obj y r).ret with
  | error e =>
    rw [step_of_error env cbs s y r e hret] at he
    exact nomatch he
  | ok f =>
    rw [step_of_ok env cbs s y r f hret]
    simp only
    have hc := runCallbacks_benign cbs hb (s.algo.step_ env s.sys s.tup s.obj y r).sys y
      (s.algo.step_ env s.sys s.tup s.obj y r).tup (s.algo.step_ env s.sys s.tup s.obj y r).obj
    rw [hc.2.1, hk, Algo.step_, smcStep_data, hd, List.map_append, List.map_cons, List.map_nil]

/-! ### C60 -/

/-- What is claimed: SMC2 rejuvenates after an observation iff the ESS is below the current threshold
(observation number `n`) times the number of particles, or an accumulated weight is not finite. -/
def C60_claim : Prop :=
  ∀ (P d : ℕ) (Y Ω K V : Type) (env : Env d Y Ω) (cfg : SmcCfg P d Y Ω K) (k : ℕ) (sys : Sys P d)
    (tup : Tup Y V) (obj : Obj P d Y Ω) (y : Y) (r : StepDraws P d Ω), 0 < P →
    tup.ess.length = tup.data.length + 1 →
    ((smcStep env cfg k sys tup obj y r).event ≠ .kept ↔
      XF.lt (getEss1 env.lo (fun i => obj.w i + stepLogLik env sys obj y r.noise i) false).2
          (.fin (cfg.threshold.get ((tup.data.length : ℤ) + 1) * P)) ∨
        ∃ i, ¬ (obj.w i + stepLogLik env sys obj y r.noise i).IsFinite)

theorem smcUpdate_event (env : Env d Y Ω) (cfg : SmcCfg P d Y Ω K) (k : ℕ) (data : List Y) (sys : Sys P d)
    (obj : Obj P d Y Ω) (r : StepDraws P d Ω) : (smcUpdate env cfg k data sys obj r).2.2.2.2 ≠ .kept := by
  unfold smcUpdate
  simp only
  split_ifs
  · simp
  · simp

theorem smcStep_event (env : Env d Y Ω) (cfg : SmcCfg P d Y Ω K) (k : ℕ) (sys : Sys P d) (tup : Tup Y V)
    (obj : Obj P d Y Ω) (y : Y) (r : StepDraws P d Ω) :
    (smcStep env cfg k sys tup obj y r).event ≠ .kept ↔
      XF.lt (getEss1 env.lo (fun i => obj.w i + stepLogLik env sys obj y r.noise i) false).2
          (.fin (cfg.threshold.get (tup.ess.length : ℤ) * P)) ∨
        ∃ i, ¬ (nanToNum env.lo (obj.w i + stepLogLik env sys obj y r.noise i)).IsFinite := by
  have hd : smcDecides cfg.threshold (filterAppend env sys { tup with data := tup.data ++ [y] } obj y r.noise).1
      (filterAppend env sys { tup with data := tup.data ++ [y] } obj y r.noise).2 = true ↔
      XF.lt (getEss1 env.lo (fun i => obj.w i + stepLogLik env sys obj y r.noise i) false).2
          (.fin (cfg.threshold.get (tup.ess.length : ℤ) * P)) ∨
        ∃ i, ¬ (nanToNum env.lo (obj.w i + stepLogLik env sys obj y r.noise i)).IsFinite := by
    unfold smcDecides
    simp only [decide_eq_true_eq]
    have e1 : lastEss (filterAppend env sys { tup with data := tup.data ++ [y] } obj y r.noise).1 =
        (getEss1 env.lo (fun i => obj.w i + stepLogLik env sys obj y r.noise i) false).2 := by
      unfold lastEss
      rw [filterAppend_ess]
      simp
    have e2 : (((filterAppend env sys { tup with data := tup.data ++ [y] } obj y r.noise).1.ess.length : ℤ) - 1) =
        tup.ess.length := by
      rw [filterAppend_ess, List.length_append, List.length_singleton]
      push_cast
      ring
    rw [e1, e2]
    exact Iff.rfl
  rw [← hd]
  unfold smcStep
  simp only
  split_ifs with h
  · exact ⟨fun _ => h, fun _ => smcUpdate_event env cfg k _ sys _ r⟩
  · exact ⟨fun h' => (h' rfl).elim, fun h' => (h h').elim⟩

/-- True when no accumulated weight is `-inf`. -/
theorem C60_trigger_partial (env : Env d Y Ω) (cfg : SmcCfg P d Y Ω K) (k : ℕ) (sys : Sys P d) (tup : Tup Y V)
    (obj : Obj P d Y Ω) (y : Y) (r : StepDraws P d Ω) (hlen : tup.ess.length = tup.data.length + 1)
    (hw : ∀ i, obj.w i + stepLogLik env sys obj y r.noise i ≠ .ninf) :
    (smcStep env cfg k sys tup obj y r).event ≠ .kept ↔
      XF.lt (getEss1 env.lo (fun i => obj.w i + stepLogLik env sys obj y r.noise i) false).2
          (.fin (cfg.threshold.get ((tup.data.length : ℤ) + 1) * P)) ∨
        ∃ i, ¬ (obj.w i + stepLogLik env sys obj y r.noise i).IsFinite := by
  rw [smcStep_event, hlen]
  have e : ∀ i, (nanToNum env.lo (obj.w i + stepLogLik env sys obj y r.noise i)).IsFinite ↔
      (obj.w i + stepLogLik env sys obj y r.noise i).IsFinite := by
    intro i
    have := hw i
    generalize obj.w i + stepLogLik env sys obj y r.noise i = x at *
    cases x with
    | nan => exact Iff.rfl
    | pinf => exact Iff.rfl
    | ninf => exact (this rfl).elim
    | fin a => exact Iff.rfl
  simp only [e]
  push_cast
  exact Iff.rfl

/-- Particles of likelihood zero alone never cause a rejuvenation: the in-place cleaning of the weights by
`get_ess` makes `-inf` finite before the weights are looked at. -/
theorem C60_ninf_unseen (env : Env d Y Ω) (cfg : SmcCfg P d Y Ω K) (k : ℕ) (sys : Sys P d) (tup : Tup Y V)
    (obj : Obj P d Y Ω) (y : Y) (r : StepDraws P d Ω) (hP : 0 < P)
    (hw : ∀ i, obj.w i + stepLogLik env sys obj y r.noise i = .ninf ∨
      (obj.w i + stepLogLik env sys obj y r.noise i).IsFinite)
    (ht : cfg.threshold.get (tup.ess.length : ℤ) * P ≤ 1) :
    (smcStep env cfg k sys tup obj y r).event = .kept := by
  by_contra hne
  rcases (smcStep_event env cfg k sys tup obj y r).1 hne with h | ⟨i, hi⟩
  · have hu : ∃ i, Spec.Usable (obj.w i + stepLogLik env sys obj y r.noise i) := by
      refine ⟨⟨0, hP⟩, ?_⟩
      rcases hw ⟨0, hP⟩ with h' | h'
      · rw [h']; trivial
      · generalize obj.w ⟨0, hP⟩ + stepLogLik env sys obj y r.noise ⟨0, hP⟩ = x at *
        cases x <;> first | trivial | exact h'.elim
    obtain ⟨e, p, he, -, h1, -⟩ := C04_ess_bounds env.lo
      (fun i => obj.w i + stepLogLik env sys obj y r.noise i) hu
    rw [he] at h
    exact absurd (show e < _ from h) (not_lt.2 (ht.trans h1))
  · apply hi
    rcases hw i with h' | h'
    · rw [h']; trivial
    · generalize obj.w i + stepLogLik env sys obj y r.noise i = x at *
      cases x <;> first | trivial | exact h'.elim

/-- Two parameter particles, the first of which has likelihood zero. -/
noncomputable def zeroEnv : Env 1 ℕ Unit where
  inc _ m _ _ := open Classical in if m.live 0 = 0 then .ninf else .fin 0
  logPrior _ := .fin 0
  lo := -1000
  eps := 1 / 1000

/-- `SMC2` with the default threshold 0.2 and a trivial proposal. -/
noncomputable def demoSmc : SmcCfg 2 1 ℕ Unit Unit where
  threshold := .constant (1 / 5)
  prop := ⟨fun _ _ _ => (), fun _ _ _ => .fin 0, fun _ _ _ => ()⟩
  numSteps := 1
  distThresh := none
  accThresh := 1 / 5
  maxIncreases := 5

/-- Draws of a step in which nothing random matters. -/
def demoStepDraws : StepDraws 2 1 Unit where
  noise _ := ()
  inds := id
  jitter _ _ := 0
  coins _ := false
  subDrawn _ _ := 0
  pmmh _ := ⟨fun _ _ => 0, fun _ _ => (), fun _ => 0⟩
  rerun _ _ := ()

/-- The initial state with parameters 0 and 1. -/
noncomputable def demoInit (algo : Algo 2 1 ℕ Unit Unit) : State 2 1 ℕ Unit Unit Unit :=
  init zeroEnv algo 10 (fun i _ => (i : ℕ)) none fun _ => ()

theorem demo_acc (algo : Algo 2 1 ℕ Unit Unit) (i : Fin 2) :
    (demoInit algo).obj.w i + stepLogLik zeroEnv (demoInit algo).sys (demoInit algo).obj 7 (fun _ => ()) i =
      if i = 0 then .ninf else .fin 0 := by
  have e1 : (demoInit algo).obj.w i = .fin 0 := rfl
  have e2 : stepLogLik zeroEnv (demoInit algo).sys (demoInit algo).obj 7 (fun _ => ()) i =
      open Classical in if ((i : ℕ) : ℝ) = 0 then .ninf else .fin 0 := rfl
  rw [e1, e2]
  fin_cases i
  · simp [XF.add_def, XF.add]
  · simp [XF.add_def, XF.add]

/-- After the first observation the weights are `-inf` and 0, and SMC2 does not rejuvenate. -/
theorem C60_negation : ¬ C60_claim := by
  intro h
  have h := (h 2 1 ℕ Unit Unit Unit zeroEnv demoSmc 0 (demoInit (.smc2 demoSmc 0)).sys
    (demoInit (.smc2 demoSmc 0)).tup (demoInit (.smc2 demoSmc 0)).obj 7 demoStepDraws two_pos rfl).2
    (Or.inr ⟨0, by rw [show demoStepDraws.noise = fun _ => () from rfl, demo_acc]; exact fun h => h⟩)
  apply h
  apply C60_ninf_unseen
  · exact two_pos
  · intro i
    rw [show demoStepDraws.noise = fun _ => () from rfl, demo_acc]
    split_ifs
    · exact Or.inl rfl
    · exact Or.inr trivial
  · simp only [demoSmc, Threshold.Thresholder.get, Threshold.Thresholder.mutate, Threshold.Thresholder.min]
    norm_num

/-! ### C62 -/

/-- What is visible of a run: system, tuples, state object, calls, events, exception. -/
def observed (r : State P d Y Ω K V × List (Call P d Y Ω) × List Event × Option Err) :
    (Sys P d × Tup Y V × Obj P d Y Ω) × List (Call P d Y Ω) × List Event × Option Err :=
  ((r.1.sys, r.1.tup, r.1.obj), r.2)

/-- Running the algorithm of `s` on the first `k` observations and `b` on the others. -/
noncomputable def splitRun [NeZero P] (env : Env d Y Ω) (cbs : List (Callback P d Y Ω V)) (s : State P d Y Ω K V)
    (b : Algo P d Y Ω K) (k : ℕ) (xs : List (Y × StepDraws P d Ω)) :
    (Sys P d × Tup Y V × Obj P d Y Ω) × List (Call P d Y Ω) × List Event × Option Err :=
  let r₁ := run env cbs s (xs.take k)
  match r₁.2.2.2 with
  | some _ => observed r₁
  | none =>
    let r₂ := observed (run env cbs { r₁.1 with algo := b } (xs.drop k))
    (r₂.1, r₁.2.1 ++ r₂.2.1, r₁.2.2.1 ++ r₂.2.2.1, r₂.2.2.2)

/-- What is claimed: the first `switch` observations are processed by the first algorithm and all later ones by
the second. -/
def C62_claim : Prop :=
  ∀ (P d : ℕ) (_ : NeZero P) (Y Ω K V : Type) (env : Env d Y Ω) (a b : Algo P d Y Ω K) (switch : ℕ)
    (s : State P d Y Ω K V) (xs : List (Y × StepDraws P d Ω)), s.algo = a → s.obj.iter = 0 →
    observed (run env [] { s with algo := .combined switch false a b } xs) = splitRun env [] s b switch xs

theorem step_second [NeZero P] (env : Env d Y Ω) (cbs : List (Callback P d Y Ω V)) (s : State P d Y Ω K V)
    (a : Algo P d Y Ω K) (sw : ℤ) (switched : Bool) (hs : switched = true ∨ sw < s.obj.iter) (y : Y)
    (r : StepDraws P d Ω) :
    step env cbs { s with algo := .combined sw switched a s.algo } y r =
      { step env cbs s y r with
        state := { (step env cbs s y r).state with
          algo := .combined sw true a (step env cbs s y r).state.algo } } := by
  have hcond : (!switched && decide ((s.obj.iter : ℤ) ≤ sw)) = false := by
    rcases hs with rfl | hs
    · rfl
    · simp [hs]
  have e : (Algo.combined sw switched a s.algo).step_ env s.sys s.tup s.obj y r =
      { s.algo.step_ env s.sys s.tup s.obj y r with
        algo := .combined sw true a (s.algo.step_ env s.sys s.tup s.obj y r).algo } := by
    rw [Algo.step_, hcond]
    rfl
  unfold step
  simp only [e]
  cases (s.algo.step_ env s.sys s.tup s.obj y r).ret with
  | error e => rfl
  | ok f => rfl

theorem step_first [NeZero P] (env : Env d Y Ω) (cbs : List (Callback P d Y Ω V)) (s : State P d Y Ω K V)
    (b : Algo P d Y Ω K) (sw : ℤ) (hs : (s.obj.iter : ℤ) ≤ sw) (y : Y) (r : StepDraws P d Ω) :
    step env cbs { s with algo := .combined sw false s.algo b } y r =
      { step env cbs s y r with
        state := { (step env cbs s y r).state with
          algo := .combined sw false (step env cbs s y r).state.algo b } } := by
  have hcond : (!false && decide ((s.obj.iter : ℤ) ≤ sw)) = true := by simp [hs]
  have e : (Algo.combined sw false s.algo b).step_ env s.sys s.tup s.obj y r =
      { s.algo.step_ env s.sys s.tup s.obj y r with
        algo := .combined sw false (s.algo.step_ env s.sys s.tup s.obj y r).algo b } := by
    rw [Algo.step_, hcond]
    rfl
  unfold step
  simp only [e]
  cases (s.algo.step_ env s.sys s.tup s.obj y r).ret with
  | error e => rfl
  | ok f => rfl

theorem run_second [NeZero P] (env : Env d Y Ω) (cbs : List (Callback P d Y Ω V)) (a : Algo P d Y Ω K) (sw : ℤ)
    (xs : List (Y × StepDraws P d Ω)) (s : State P d Y Ω K V) (switched : Bool)
    (hs : switched = true ∨ sw < s.obj.iter) :
    observed (run env cbs { s with algo := .combined sw switched a s.algo } xs) = observed (run env cbs s xs) := by
  induction xs generalizing s switched with
  | nil => rfl
  | cons x xs ih =>
    obtain ⟨y, r⟩ := x
    simp only [run, step_second env cbs s a sw switched hs]
    cases (step env cbs s y r).err with
    | some e => rfl
    | none =>
      have := ih (step env cbs s y r).state true (Or.inl rfl)
      simp only [observed, Prod.mk.injEq] at this ⊢
      obtain ⟨⟨h1, h2, h3⟩, h4⟩ := this
      simp only [h1, h2, h3, h4, true_and]

/-- The first algorithm processes `switch + 1` observations (none if that is not positive), the second all later
ones. -/
theorem C62_split_partial [NeZero P] (env : Env d Y Ω) (cbs : List (Callback P d Y Ω V))
    (hb : ∀ cb ∈ cbs, Benign cb) (b : Algo P d Y Ω K) (sw : ℤ) (xs : List (Y × StepDraws P d Ω))
    (s : State P d Y Ω K V) :
    observed (run env cbs { s with algo := .combined sw false s.algo b } xs) =
      splitRun env cbs s b (sw + 1 - s.obj.iter).toNat xs := by
  induction xs generalizing s with
  | nil =>
    simp only [splitRun, List.take_nil, List.drop_nil, run, observed, List.append_nil]
  | cons x xs ih =>
    obtain ⟨y, r⟩ := x
    by_cases hs : (s.obj.iter : ℤ) ≤ sw
    · have hk : (sw + 1 - s.obj.iter).toNat = (sw + 1 - (s.obj.iter + 1 : ℕ)).toNat + 1 := by
        push_cast
        omega
      rw [hk]
      unfold splitRun
      simp only [List.take_succ_cons, List.drop_succ_cons, run, step_first env cbs s b sw hs]
      cases he : (step env cbs s y r).err with
      | some e => rfl
      | none =>
        have hi := step_iter env cbs hb s y r he
        have := ih (step env cbs s y r).state
        rw [hi.1] at this
        unfold splitRun at this
        simp only [observed, Prod.mk.injEq] at this ⊢
        cases hr : (run env cbs (step env cbs s y r).state (xs.take (sw + 1 - (s.obj.iter + 1 : ℕ)).toNat)).2.2.2 with
        | some e =>
          simp only [hr, Prod.mk.injEq] at this ⊢
          obtain ⟨⟨h1, h2, h3⟩, h4⟩ := this
          rw [h1, h2, h3, h4]
          exact ⟨⟨rfl, rfl, rfl⟩, rfl, rfl, hr⟩
        | none =>
          simp only [hr, Prod.mk.injEq] at this ⊢
          obtain ⟨⟨h1, h2, h3⟩, h4⟩ := this
          rw [h1, h2, h3, h4]
          simp only [List.append_assoc, List.cons_append, and_self]
    · have hk : (sw + 1 - s.obj.iter).toNat = 0 := by omega
      rw [hk]
      unfold splitRun
      simp only [List.take_zero, List.drop_zero, run, List.nil_append]
      exact run_second env cbs s.algo sw ((y, r) :: xs) { s with algo := b } false (Or.inr (not_le.1 hs))

theorem smc_step_data [NeZero P] (env : Env d Y Ω) (s : State P d Y Ω K V) (cfg : SmcCfg P d Y Ω K) (k : ℕ)
    (hs : s.algo = .smc2 cfg k) (y : Y) (r : StepDraws P d Ω) :
    (step env [] s y r).state.tup.data = s.tup.data ++ [y] := by
  have hd : (s.algo.step_ env s.sys s.tup s.obj y r).tup.data = s.tup.data ++ [y] := by
    rw [hs, Algo.step_, smcStep_data]
  cases hret : (s.algo.step_ env s.sys s.tup s.obj y r).ret with
  | error e => rw [step_of_error env [] s y r e hret]; exact hd
  | ok f => rw [step_of_ok env [] s y r f hret]; exact hd

theorem onlineStep_data [NeZero P] (env : Env d Y Ω) (cfg : OnlineCfg d) (algo : Algo P d Y Ω K) (b : Bool)
    (sys : Sys P d) (tup : Tup Y V) (obj : Obj P d Y Ω) (y : Y) (r : StepDraws P d Ω) :
    (onlineStep env cfg algo b sys tup obj y r).tup.data = tup.data := by
  unfold onlineStep
  cases b with
  | false => rfl
  | true =>
    simp only [if_true]
    rcases onlineUpdate env cfg sys obj r with ⟨sys', obj', e⟩
    cases e with
    | some e => rfl
    | none => rfl

theorem ness_step_data [NeZero P] (env : Env d Y Ω) (s : State P d Y Ω K V) (t : ℝ) (cfg : OnlineCfg d)
    (hs : s.algo = .ness t cfg) (y : Y) (r : StepDraws P d Ω) :
    (step env [] s y r).state.tup.data = s.tup.data := by
  have hd : (s.algo.step_ env s.sys s.tup s.obj y r).tup.data = s.tup.data := by
    rw [hs, Algo.step_, onlineStep_data]
  cases hret : (s.algo.step_ env s.sys s.tup s.obj y r).ret with
  | error e => rw [step_of_error env [] s y r e hret]; exact hd
  | ok f => rw [step_of_ok env [] s y r f hret]; exact hd

/-- After one observation, whatever happens. -/
theorem run_single_data [NeZero P] (env : Env d Y Ω) (s : State P d Y Ω K V) (y : Y) (r : StepDraws P d Ω) :
    (run env [] s [(y, r)]).1.tup.data = (step env [] s y r).state.tup.data := by
  simp only [run]
  cases (step env [] s y r).err with
  | some e => rfl
  | none => rfl

/-- With `switch = 0` the first algorithm, SMC2, processes (and stores) an observation. -/
theorem C62_negation : ¬ C62_claim := by
  intro h
  have h := h 2 1 inferInstance ℕ Unit Unit Unit zeroEnv (.smc2 demoSmc 0)
    (.ness 0 ⟨.constant (.tensor fun _ => 0), 0, false⟩) 0 (demoInit (.smc2 demoSmc 0)) [(7, demoStepDraws)] rfl rfl
  have hp := step_first zeroEnv [] (demoInit (.smc2 demoSmc 0))
    (.ness 0 ⟨.constant (.tensor fun _ => 0), 0, false⟩) ((0 : ℕ) : ℤ) (le_refl _) 7 demoStepDraws
  have hl : (observed (run zeroEnv [] { demoInit (.smc2 demoSmc 0) with
      algo := .combined ((0 : ℕ) : ℤ) false (.smc2 demoSmc 0) (.ness 0 ⟨.constant (.tensor fun _ => 0), 0, false⟩) }
      [(7, demoStepDraws)])).1.2.1.data = [7] := by
    show (run zeroEnv [] _ _).1.tup.data = _
    rw [run_single_data]
    refine (congrArg (fun t => t.state.tup.data) hp).trans ?_
    exact smc_step_data zeroEnv (demoInit (.smc2 demoSmc 0)) demoSmc 0 rfl 7 demoStepDraws
  rw [h] at hl
  have hr : (splitRun zeroEnv [] (demoInit (.smc2 demoSmc 0)) (.ness 0 ⟨.constant (.tensor fun _ => 0), 0, false⟩) 0
      [(7, demoStepDraws)]).1.2.1.data = [] := by
    show (run zeroEnv [] _ _).1.tup.data = _
    rw [List.drop_zero, run_single_data, ness_step_data zeroEnv _ 0 ⟨.constant (.tensor fun _ => 0), 0, false⟩ rfl]
    rfl
  rw [hr] at hl
  exact nomatch hl

/-- A case of the partial theorem: switch 1, three observations; SMC2 has stored two of them. -/
example : splitRun zeroEnv [] (demoInit (.smc2 demoSmc 0)) (.ness 0 ⟨.constant (.tensor fun _ => 0), 0, false⟩) 2
      [(7, demoStepDraws), (8, demoStepDraws), (9, demoStepDraws)] =
    observed (run zeroEnv [] { demoInit (.smc2 demoSmc 0) with
      algo := .combined 1 false (.smc2 demoSmc 0) (.ness 0 ⟨.constant (.tensor fun _ => 0), 0, false⟩) }
      [(7, demoStepDraws), (8, demoStepDraws), (9, demoStepDraws)]) :=
  (C62_split_partial zeroEnv [] (by simp) _ 1 _ (demoInit (.smc2 demoSmc 0))).symm

/-! ### C63 -/

/-- What is claimed: with finite weights, fixed-width NESS updates before an observation exactly when a positive
number of full blocks has been parsed. -/
def C63_claim : Prop :=
  ∀ (P d : ℕ) (_ : NeZero P) (Y Ω K V : Type) (env : Env d Y Ω) (bl : ℕ) (cfg : OnlineCfg d) (particles : ℕ)
    (drawn : Fin P → Row d) (noise : Fin P → Ω) (xs : List (Y × StepDraws P d Ω)) (y : Y) (r : StepDraws P d Ω),
    0 < bl →
    let a := run env ([] : List (Callback P d Y Ω V)) (init env (.fixed bl 0 cfg : Algo P d Y Ω K) particles drawn none noise) xs
    a.2.2.2 = none → (∀ i, (a.1.obj.w i).IsFinite) → (step env [] a.1 y r).err = none →
    ((step env [] a.1 y r).event = .updated ↔ 0 < xs.length ∧ bl ∣ xs.length)

theorem onlineStep_algo [NeZero P] (env : Env d Y Ω) (cfg : OnlineCfg d) (algo : Algo P d Y Ω K) (b : Bool)
    (sys : Sys P d) (tup : Tup Y V) (obj : Obj P d Y Ω) (y : Y) (r : StepDraws P d Ω) :
    (onlineStep env cfg algo b sys tup obj y r).algo = algo ∧
      ∀ f, (onlineStep env cfg algo b sys tup obj y r).ret = .ok f →
        ((onlineStep env cfg algo b sys tup obj y r).event = .updated ↔ b = true) := by
  unfold onlineStep
  cases b with
  | false => exact ⟨rfl, fun f _ => by simp⟩
  | true =>
    simp only [if_true]
    rcases onlineUpdate env cfg sys obj r with ⟨sys', obj', e⟩
    cases e with
    | some e => exact ⟨rfl, fun f h => nomatch h⟩
    | none => exact ⟨rfl, fun f _ => by simp⟩

theorem fixed_step [NeZero P] (env : Env d Y Ω) (cbs : List (Callback P d Y Ω V)) (s : State P d Y Ω K V)
    (bl : ℤ) (count : ℕ) (cfg : OnlineCfg d) (hbl : bl ≠ 0) (hs : s.algo = .fixed bl count cfg) (y : Y)
    (r : StepDraws P d Ω) :
    (step env cbs s y r).state.algo = .fixed bl (count + 1) cfg ∧
      ((step env cbs s y r).err = none →
        ((step env cbs s y r).event = .updated ↔ bl ∣ (count + 1 : ℤ) ∨ anyNonFinite s.obj.w)) := by
  classical
  have e : s.algo.step_ env s.sys s.tup s.obj y r = onlineStep env cfg (.fixed bl (count + 1) cfg)
      (decide ((count + 1 : ℤ) % bl = 0 ∨ anyNonFinite s.obj.w)) s.sys s.tup s.obj y r := by
    rw [hs, Algo.step_]
    simp only [hbl, if_false]
  have ho := onlineStep_algo env cfg (.fixed bl (count + 1) cfg : Algo P d Y Ω K)
      (decide ((count + 1 : ℤ) % bl = 0 ∨ anyNonFinite s.obj.w)) s.sys s.tup s.obj y r
  cases hret : (s.algo.step_ env s.sys s.tup s.obj y r).ret with
  | error er =>
    rw [step_of_error env cbs s y r er hret]
    exact ⟨by rw [e]; exact ho.1, fun h => nomatch h⟩
  | ok f =>
    rw [step_of_ok env cbs s y r f hret]
    simp only
    refine ⟨by rw [e]; exact ho.1, fun _ => ?_⟩
    rw [e] at hret ⊢
    rw [ho.2 f hret, decide_eq_true_eq, Int.dvd_iff_emod_eq_zero]

/-- With finite weights the update before observation number `n + 1` happens exactly when `block_len` divides
`n + 1`: once per block, but after one observation too few. -/
theorem C63_schedule_partial [NeZero P] (env : Env d Y Ω) (cbs : List (Callback P d Y Ω V)) (bl : ℤ) (hbl : bl ≠ 0)
    (cfg : OnlineCfg d) (particles : ℕ) (drawn : Fin P → Row d) (quasi : Option (Fin P → Row d)) (noise : Fin P → Ω)
    (xs : List (Y × StepDraws P d Ω)) (y : Y) (r : StepDraws P d Ω)
    (h : (run env cbs (init env (.fixed bl 0 cfg : Algo P d Y Ω K) particles drawn quasi noise) xs).2.2.2 = none) :
    let s := (run env cbs (init env (.fixed bl 0 cfg : Algo P d Y Ω K) particles drawn quasi noise) xs).1
    (∀ i, (s.obj.w i).IsFinite) → (step env cbs s y r).err = none →
      ((step env cbs s y r).event = .updated ↔ bl ∣ (xs.length + 1 : ℤ)) := by
  intro s hw he
  have hs : s.algo = .fixed bl xs.length cfg := by
    refine run_induction env cbs (fun xs s => s.algo = .fixed bl xs.length cfg) _ rfl ?_ xs h
    intro xs s y r hq _
    rw [(fixed_step env cbs s bl xs.length cfg hbl hq y r).1, List.length_append, List.length_singleton]
  rw [(fixed_step env cbs s bl xs.length cfg hbl hs y r).2 he]
  constructor
  · rintro (h | ⟨i, hi⟩)
    · exact h
    · exact (hi (hw i)).elim
  · exact Or.inl

/-- Among any `block_len` consecutive observations exactly one update falls due. -/
theorem C63_once_per_block_partial (bl : ℕ) (hbl : 0 < bl) (a : ℕ) :
    ∃! k, a ≤ k ∧ k < a + bl ∧ bl ∣ k + 1 := by
  refine ⟨a + (bl - 1 - a % bl), ⟨by omega, ?_, ?_⟩, ?_⟩
  · have := Nat.mod_lt a hbl
    omega
  · have hm := Nat.mod_lt a hbl
    have hdiv := Nat.div_add_mod a bl
    refine ⟨a / bl + 1, ?_⟩
    rw [Nat.mul_add, Nat.mul_one]
    omega
  · rintro k ⟨h1, h2, c, hc⟩
    have hm := Nat.mod_lt a hbl
    have hdiv := Nat.div_add_mod a bl
    have hlow : bl * (a / bl) < bl * c := by
      have : bl * (a / bl) ≤ a := by omega
      omega
    have hup : bl * c < bl * (a / bl + 2) := by
      rw [Nat.mul_add]
      omega
    have h3 : a / bl < c := Nat.lt_of_mul_lt_mul_left hlow
    have h4 : c < a / bl + 2 := Nat.lt_of_mul_lt_mul_left hup
    have hc' : c = a / bl + 1 := by omega
    subst hc'
    rw [Nat.mul_add, Nat.mul_one] at hc
    omega

/-- A block length of zero raises at the first observation. -/
theorem C63_zero_block [NeZero P] (env : Env d Y Ω) (cbs : List (Callback P d Y Ω V)) (s : State P d Y Ω K V)
    (count : ℕ) (cfg : OnlineCfg d) (hs : s.algo = .fixed 0 count cfg) (y : Y) (r : StepDraws P d Ω) :
    (step env cbs s y r).err = some .zeroDivision := by
  have e : (s.algo.step_ env s.sys s.tup s.obj y r).ret = .error .zeroDivision := by
    rw [hs, Algo.step_]
    simp
  rw [step_of_error env cbs s y r _ e]

/-- Likelihoods that are all one. -/
noncomputable def oneEnv : Env 1 ℕ Unit where
  inc _ _ _ _ := .fin 0
  logPrior _ := .fin 0
  lo := -1000
  eps := 1 / 1000

/-- An online algorithm that does not move the particles. -/
noncomputable def demoOnline : OnlineCfg 1 := ⟨.constant (.tensor fun _ => 0), 0, false⟩

theorem demo_online_ok (s : State 2 1 ℕ Unit Unit Unit) (bl : ℤ) (count : ℕ) (hbl : bl ≠ 0)
    (hs : s.algo = .fixed bl count demoOnline) (y : ℕ) : (step oneEnv [] s y demoStepDraws).err = none := by
  cases hret : (s.algo.step_ oneEnv s.sys s.tup s.obj y demoStepDraws).ret with
  | ok f => rw [step_of_ok oneEnv [] s y demoStepDraws f hret]
  | error e =>
    exfalso
    rw [hs, Algo.step_] at hret
    simp only [hbl, if_false] at hret
    unfold onlineStep at hret
    split_ifs at hret
    · have hu : (onlineUpdate oneEnv demoOnline s.sys s.obj demoStepDraws).2.2 = none := by
        simp [onlineUpdate, Jitter.Online.update, Jitter.Kernel.jitter, demoOnline, Jitter.Kernel.fit,
          Jitter.Scale.clamp]
      rcases h : onlineUpdate oneEnv demoOnline s.sys s.obj demoStepDraws with ⟨sys', obj', e'⟩
      rw [h] at hu hret
      simp only at hu hret
      subst hu
      exact nomatch hret

/-- With blocks of two observations the first update happens after one observation. -/
theorem C63_negation : ¬ C63_claim := by
  intro h
  have h := h 2 1 inferInstance ℕ Unit Unit Unit oneEnv 2 demoOnline 10 (fun _ _ => 0) (fun _ => ()) [(7, demoStepDraws)] 8
    demoStepDraws two_pos
  set s₀ : State 2 1 ℕ Unit Unit Unit :=
    init oneEnv (.fixed ((2 : ℕ) : ℤ) 0 demoOnline) 10 (fun _ _ => 0) none fun _ => () with hs₀
  have h1 : (step oneEnv [] s₀ 7 demoStepDraws).err = none := demo_online_ok s₀ 2 0 (by norm_num) rfl 7
  have hrun : run oneEnv [] s₀ [(7, demoStepDraws)] = ((step oneEnv [] s₀ 7 demoStepDraws).state, 
      (step oneEnv [] s₀ 7 demoStepDraws).calls ++ [], [(step oneEnv [] s₀ 7 demoStepDraws).event], none) := by
    simp only [run, h1]
  have hf := fixed_step oneEnv [] s₀ 2 0 demoOnline (by norm_num) rfl 7 demoStepDraws
  have h2 := demo_online_ok (step oneEnv [] s₀ 7 demoStepDraws).state 2 1 (by norm_num) hf.1 8
  have hw : ∀ i, ((step oneEnv [] s₀ 7 demoStepDraws).state.obj.w i).IsFinite := by
    intro i
    have hnot : ¬ ((0 + 1 : ℤ) % 2 = 0 ∨ anyNonFinite s₀.obj.w) := by
      rintro (h | ⟨j, hj⟩)
      · exact absurd h (by norm_num)
      · exact hj trivial
    have e : s₀.algo.step_ oneEnv s₀.sys s₀.tup s₀.obj 7 demoStepDraws = onlineStep oneEnv demoOnline
        (.fixed 2 1 demoOnline) false s₀.sys s₀.tup s₀.obj 7 demoStepDraws := by
      rw [show s₀.algo = .fixed 2 0 demoOnline from rfl, Algo.step_]
      simp only [show (2 : ℤ) ≠ 0 by norm_num, if_false]
      congr 1
      exact @decide_eq_false _ (_) hnot
    have hret : (s₀.algo.step_ oneEnv s₀.sys s₀.tup s₀.obj 7 demoStepDraws).ret = .ok none := by
      rw [e]
      rfl
    rw [step_of_ok oneEnv [] s₀ 7 demoStepDraws none hret]
    simp only [e]
    exact trivial
  have hsch := C63_schedule_partial (V := Unit) oneEnv [] 2 (by norm_num) demoOnline 10 (fun _ _ => 0) none (fun _ => ())
    [(7, demoStepDraws)] 8 demoStepDraws (K := Unit) (by
      show (run oneEnv [] s₀ _).2.2.2 = none
      rw [hrun])
  simp only at hsch
  rw [show init oneEnv (.fixed 2 0 demoOnline) 10 (fun _ _ => 0) none (fun _ => ()) = s₀ from rfl, hrun] at hsch
  simp only at h
  rw [hrun] at h
  have hup := (hsch hw h2).2 (by norm_num)
  have := ((h rfl hw h2).1 hup).2
  simp at this

/-! ### C64 -/

theorem smcUpdate_count (env : Env d Y Ω) (cfg : SmcCfg P d Y Ω K) (k : ℕ) (data : List Y) (sys : Sys P d)
    (obj : Obj P d Y Ω) (r : StepDraws P d Ω) :
    let u := smcUpdate env cfg k data sys obj r
    (u.2.2.2.2 ≠ .increased ∧ u.1 = k ∧ u.2.1.particles = sys.particles ∧ u.2.2.2.1 = .ok none) ∨
      (u.2.2.2.2 = .increased ∧ u.1 = k + 1 ∧ k < cfg.maxIncreases ∧ u.2.1.particles = 2 * sys.particles ∧
        ∃ o, u.2.2.2.1 = .ok (some o)) ∨
      (u.2.2.2.2 = .increased ∧ u.1 = k + 1 ∧ cfg.maxIncreases ≤ k ∧ u.2.1.particles = sys.particles ∧
        u.2.2.2.1 = .error .tooManyIncreases) := by
  intro u
  simp only [u]
  unfold smcUpdate
  simp only
  split_ifs
  · right
    unfold increaseStates
    simp only
    split_ifs with h
    · right
      exact ⟨by simp, rfl, by omega, rfl, rfl⟩
    · left
      exact ⟨by simp, rfl, by omega, rfl, _, rfl⟩
  · left
    exact ⟨by simp, rfl, rfl, rfl⟩

theorem smc_step_count [NeZero P] (env : Env d Y Ω) (cbs : List (Callback P d Y Ω V)) (cfg : SmcCfg P d Y Ω K)
    (s : State P d Y Ω K V) (k : ℕ) (hs : s.algo = .smc2 cfg k) (y : Y) (r : StepDraws P d Ω) :
    let a := step env cbs s y r
    (a.event ≠ .increased ∧ a.state.algo = .smc2 cfg k ∧ a.state.sys.particles = s.sys.particles ∧ a.err = none) ∨
      (a.event = .increased ∧ a.state.algo = .smc2 cfg (k + 1) ∧ k < cfg.maxIncreases ∧
        a.state.sys.particles = 2 * s.sys.particles ∧ a.err = none) ∨
      (a.event = .increased ∧ cfg.maxIncreases ≤ k ∧
        a.state.sys.particles = s.sys.particles ∧ a.err = some .tooManyIncreases) := by
  intro a
  have ho : let o := s.algo.step_ env s.sys s.tup s.obj y r
      (o.event ≠ .increased ∧ o.algo = .smc2 cfg k ∧ o.sys.particles = s.sys.particles ∧ o.ret = .ok none) ∨
      (o.event = .increased ∧ o.algo = .smc2 cfg (k + 1) ∧ k < cfg.maxIncreases ∧
        o.sys.particles = 2 * s.sys.particles ∧ ∃ f, o.ret = .ok (some f)) ∨
      (o.event = .increased ∧ cfg.maxIncreases ≤ k ∧
        o.sys.particles = s.sys.particles ∧ o.ret = .error .tooManyIncreases) := by
    intro o
    simp only [o]
    rw [hs, Algo.step_]
    unfold smcStep
    simp only
    split_ifs
    · rcases smcUpdate_count env cfg k
          (filterAppend env s.sys { s.tup with data := s.tup.data ++ [y] } s.obj y r.noise).1.data s.sys
          (filterAppend env s.sys { s.tup with data := s.tup.data ++ [y] } s.obj y r.noise).2 r with
        ⟨h1, h2, h3, h4⟩ | ⟨h1, h2, h3, h4, h5⟩ | ⟨h1, h2, h3, h4, h5⟩
      · exact Or.inl ⟨h1, by rw [h2], h3, h4⟩
      · exact Or.inr (Or.inl ⟨h1, by rw [h2], h3, h4, h5⟩)
      · exact Or.inr (Or.inr ⟨h1, h3, h4, h5⟩)
    · exact Or.inl ⟨by simp, rfl, rfl, rfl⟩
  simp only [a]
  rcases ho with ⟨h1, h2, h3, h4⟩ | ⟨h1, h2, h3, h4, f, h5⟩ | ⟨h1, h2, h3, h4⟩
  · rw [step_of_ok env cbs s y r _ h4]
    exact Or.inl ⟨h1, h2, h3, rfl⟩
  · rw [step_of_ok env cbs s y r _ h5]
    exact Or.inr (Or.inl ⟨h1, h2, h3, h4, rfl⟩)
  · rw [step_of_error env cbs s y r _ h4]
    exact Or.inr (Or.inr ⟨h1, h2, h3, rfl⟩)

/-- Doublings and their cap in a run of SMC2 that met `j` needs for an increase: without an exception the number
of state particles is `2 ^ j` times the initial one and `j ≤ max_increases`; otherwise the exception is
`TooManyIncreases`, raised by need number `max_increases + 1`, and the particles have been doubled exactly
`max_increases` times. -/
theorem C64_capped [NeZero P] (env : Env d Y Ω) (cbs : List (Callback P d Y Ω V)) (cfg : SmcCfg P d Y Ω K)
    (particles : ℕ) (drawn : Fin P → Row d) (quasi : Option (Fin P → Row d)) (noise : Fin P → Ω)
    (xs : List (Y × StepDraws P d Ω)) :
    let a := run env cbs (init env (.smc2 cfg 0) particles drawn quasi noise) xs
    let j := a.2.2.1.count .increased
    (a.2.2.2 = none ∧ j ≤ cfg.maxIncreases ∧ a.1.sys.particles = particles * 2 ^ j) ∨
      (a.2.2.2 = some .tooManyIncreases ∧ j = cfg.maxIncreases + 1 ∧
        a.1.sys.particles = particles * 2 ^ cfg.maxIncreases) := by
  intro a j
  have key : (a.2.2.2 = none ∧ j ≤ cfg.maxIncreases ∧ a.1.sys.particles = particles * 2 ^ j ∧
        a.1.algo = .smc2 cfg j) ∨
      (a.2.2.2 = some .tooManyIncreases ∧ j = cfg.maxIncreases + 1 ∧
        a.1.sys.particles = particles * 2 ^ cfg.maxIncreases) := by
    simp only [a, j]
    induction xs using List.reverseRecOn with
    | nil => exact Or.inl ⟨rfl, Nat.zero_le _, by simp [run, init], rfl⟩
    | append_singleton xs x ih =>
      obtain ⟨y, r⟩ := x
      rw [run_concat]
      generalize run env cbs (init env (.smc2 cfg 0) particles drawn quasi noise) xs = b at ih
      rcases ih with ⟨h1, h2, h3, h4⟩ | h
      · rw [h1]
        simp only [List.count_append]
        rcases smc_step_count env cbs cfg b.1 _ h4 y r with ⟨e1, e2, e3, e4⟩ | ⟨e1, e2, e3, e4, e5⟩ | ⟨e1, e2, e3, e4⟩
        · left
          rw [List.count_singleton, if_neg (by simpa using e1), Nat.add_zero]
          exact ⟨e4, h2, by rw [e3, h3], e2⟩
        · left
          rw [e1, List.count_singleton_self]
          refine ⟨e5, e3, ?_, e2⟩
          rw [e4, h3]
          ring
        · right
          have : b.2.2.1.count .increased = cfg.maxIncreases := le_antisymm h2 e2
          rw [e1, List.count_singleton_self]
          exact ⟨e4, by rw [this], by rw [e3, h3, this]⟩
      · right
        rw [h.1]
        exact h
  rcases key with ⟨h1, h2, h3, -⟩ | h
  · exact Or.inl ⟨h1, h2, h3⟩
  · exact Or.inr h

/-! ### C65 -/

/-- The chain after `k` PMMH steps. -/
noncomputable def chainAt (env : Env d Y Ω) (prop : Proposal P d Y Ω K) (ys : List Y) (draws : ℕ → Draws P d Ω)
    (c : Chain P d Y Ω K) : ℕ → Chain P d Y Ω K
  | 0 => c
  | k + 1 => (runPmmh env prop false (fun _ => 0) (chainAt env prop ys draws c k) ys (draws k)).1

/-- The fraction of accepted chains in each of the first `k` PMMH steps. -/
noncomputable def ratesUpTo (env : Env d Y Ω) (prop : Proposal P d Y Ω K) (ys : List Y) (draws : ℕ → Draws P d Ω)
    (c : Chain P d Y Ω K) (k : ℕ) : List ℝ :=
  (List.range k).map fun i =>
    ((Finset.univ.filter fun p =>
      (runPmmh env prop false (fun _ => 0) (chainAt env prop ys draws c i) ys (draws i)).2 p = true).card : ℝ) / P

/-- How far the parameters are from the initial ones after `k` steps. -/
noncomputable def movedBy (env : Env d Y Ω) (prop : Proposal P d Y Ω K) (ys : List Y) (draws : ℕ → Draws P d Ω)
    (c : Chain P d Y Ω K) (k : ℕ) : ℝ :=
  (∑ j, ⨆ i, |(chainAt env prop ys draws c k).params i j - c.params i j|) / d

theorem movedBy_zero (env : Env d Y Ω) (prop : Proposal P d Y Ω K) (ys : List Y) (draws : ℕ → Draws P d Ω)
    (c : Chain P d Y Ω K) : movedBy env prop ys draws c 0 = 0 := by
  simp [movedBy, chainAt]

theorem ratesUpTo_succ (env : Env d Y Ω) (prop : Proposal P d Y Ω K) (ys : List Y) (draws : ℕ → Draws P d Ω)
    (c : Chain P d Y Ω K) (k : ℕ) :
    (ratesUpTo env prop ys draws c (k + 1)).sum = (ratesUpTo env prop ys draws c k).sum +
      fraction (runPmmh env prop false (fun _ => 0) (chainAt env prop ys draws c k) ys (draws k)).2 := by
  unfold ratesUpTo
  rw [List.range_succ, List.map_append, List.sum_append, List.map_singleton, List.sum_singleton, fraction,
    Finset.sum_boole]

/-- What the loop does when it is entered with step number `i`. -/
theorem pmmhLoop_spec (env : Env d Y Ω) (cfg : SmcCfg P d Y Ω K) (ys : List Y) (draws : ℕ → Draws P d Ω)
    (c : Chain P d Y Ω K) (n i : ℕ) (rate : ℝ) (hr : i * rate = (ratesUpTo env cfg.prop ys draws c i).sum) (t : ℝ)
    (ht : cfg.distThresh ≠ none → t = movedBy env cfg.prop ys draws c i) :
    ∃ m, i ≤ m ∧ m ≤ i + n ∧
      (pmmhLoop env cfg ys c.params draws n i (chainAt env cfg.prop ys draws c i) rate t).1 =
        chainAt env cfg.prop ys draws c m ∧
      (∀ k, i < k → k < m → cfg.accThresh ≤ Spec.listMean (ratesUpTo env cfg.prop ys draws c k)) ∧
      ((pmmhLoop env cfg ys c.params draws n i (chainAt env cfg.prop ys draws c i) rate t).2 = true ↔
        i < m ∧ Spec.listMean (ratesUpTo env cfg.prop ys draws c m) < cfg.accThresh) ∧
      ((pmmhLoop env cfg ys c.params draws n i (chainAt env cfg.prop ys draws c i) rate t).2 = false → m < i + n →
        ∃ a, cfg.distThresh = some a ∧ |movedBy env cfg.prop ys draws c m - movedBy env cfg.prop ys draws c (m - 1)| ≤
          a * movedBy env cfg.prop ys draws c (m - 1)) := by
  induction n generalizing i rate t with
  | zero => exact ⟨i, le_refl _, le_refl _, rfl, by omega, by simp [pmmhLoop], by omega⟩
  | succ n ih =>
    have hmean : (fraction (runPmmh env cfg.prop false (fun _ => 0) (chainAt env cfg.prop ys draws c i) ys
        (draws i)).2 + i * rate) / (i + 1) = Spec.listMean (ratesUpTo env cfg.prop ys draws c (i + 1)) := by
      unfold Spec.listMean
      rw [ratesUpTo_succ, hr, add_comm]
      simp [ratesUpTo]
    have hsum : ((i + 1 : ℕ) : ℝ) * Spec.listMean (ratesUpTo env cfg.prop ys draws c (i + 1)) =
        (ratesUpTo env cfg.prop ys draws c (i + 1)).sum := by
      unfold Spec.listMean
      rw [show (ratesUpTo env cfg.prop ys draws c (i + 1)).length = i + 1 by simp [ratesUpTo]]
      field_simp
    rw [pmmhLoop]
    simp only [hmean]
    rw [show (runPmmh env cfg.prop false (fun _ => 0) (chainAt env cfg.prop ys draws c i) ys (draws i)).1 =
      chainAt env cfg.prop ys draws c (i + 1) from rfl]
    by_cases hlt : Spec.listMean (ratesUpTo env cfg.prop ys draws c (i + 1)) < cfg.accThresh
    · rw [if_pos hlt]
      exact ⟨i + 1, by omega, by omega, rfl, by omega, by simp [hlt], nofun⟩
    · rw [if_neg hlt]
      have hcont : ∀ t', (cfg.distThresh ≠ none → t' = movedBy env cfg.prop ys draws c (i + 1)) →
          ∃ m, i ≤ m ∧ m ≤ i + (n + 1) ∧
            (pmmhLoop env cfg ys c.params draws n (i + 1) (chainAt env cfg.prop ys draws c (i + 1))
              (Spec.listMean (ratesUpTo env cfg.prop ys draws c (i + 1))) t').1 = chainAt env cfg.prop ys draws c m ∧
            (∀ k, i < k → k < m → cfg.accThresh ≤ Spec.listMean (ratesUpTo env cfg.prop ys draws c k)) ∧
            ((pmmhLoop env cfg ys c.params draws n (i + 1) (chainAt env cfg.prop ys draws c (i + 1))
              (Spec.listMean (ratesUpTo env cfg.prop ys draws c (i + 1))) t').2 = true ↔
              i < m ∧ Spec.listMean (ratesUpTo env cfg.prop ys draws c m) < cfg.accThresh) ∧
            ((pmmhLoop env cfg ys c.params draws n (i + 1) (chainAt env cfg.prop ys draws c (i + 1))
              (Spec.listMean (ratesUpTo env cfg.prop ys draws c (i + 1))) t').2 = false → m < i + (n + 1) →
              ∃ a, cfg.distThresh = some a ∧
                |movedBy env cfg.prop ys draws c m - movedBy env cfg.prop ys draws c (m - 1)| ≤
                  a * movedBy env cfg.prop ys draws c (m - 1)) := by
        intro t' ht'
        obtain ⟨m, h1, h2, h3, h4, h5, h6⟩ := ih (i + 1) _ hsum t' ht'
        refine ⟨m, by omega, by omega, h3, ?_, ?_, ?_⟩
        · intro k hk1 hk2
          rcases Nat.lt_or_ge (i + 1) k with h | h
          · exact h4 k h hk2
          · rw [show k = i + 1 by omega]
            exact not_lt.1 hlt
        · rw [h5]
          constructor
          · rintro ⟨a, b⟩
            exact ⟨by omega, b⟩
          · rintro ⟨a, b⟩
            refine ⟨?_, b⟩
            rcases Nat.lt_or_ge (i + 1) m with h | h
            · exact h
            · exfalso
              rw [show m = i + 1 by omega] at b
              exact hlt b
        · intro hf hm
          exact h6 hf (by omega)
      cases hd : cfg.distThresh with
      | none =>
        simp only
        exact hd ▸ hcont t (fun h => (h hd).elim)
      | some a =>
        simp only
        have ht := ht (by simp [hd])
        rw [show distance (chainAt env cfg.prop ys draws c (i + 1)).params c.params =
          movedBy env cfg.prop ys draws c (i + 1) from rfl]
        by_cases hstop : |movedBy env cfg.prop ys draws c (i + 1) - t| ≤ a * t
        · rw [if_pos hstop]
          refine ⟨i + 1, by omega, by omega, rfl, by omega, by simp [not_lt.1 hlt], fun _ _ => ⟨a, rfl, ?_⟩⟩
          rw [Nat.add_sub_cancel, ← ht]
          exact hstop
        · rw [if_neg hstop]
          exact hd ▸ hcont _ (fun _ => rfl)

/-- The whole rejuvenation: for some number `m` of PMMH steps, at most the configured number, the chains are those
after `m` steps from the resampled state; a doubling of the particles is called for iff the mean acceptance
rate was below the threshold after some step; it is asked for as soon as that happens; and without adaptive
stopping it is the only reason to stop early. -/
theorem C65_rejuvenation (env : Env d Y Ω) (cfg : SmcCfg P d Y Ω K) (k : ℕ) (data : List Y) (sys : Sys P d)
    (obj : Obj P d Y Ω) (r : StepDraws P d Ω) (c : Chain P d Y Ω K)
    (hc : c = ⟨fun i => sys.params (r.inds i), fun i => obj.res (r.inds i),
      cfg.prop.build sys.params obj.res (normalize1 env.lo obj.w).1, r.subDrawn, r.subDrawn, sys.particles⟩) :
    ∃ m ≤ cfg.numSteps,
      (smcUpdate env cfg k data sys obj r).2.1.params = (chainAt env cfg.prop data r.pmmh c m).params ∧
      (smcUpdate env cfg k data sys obj r).2.2.1.res = (chainAt env cfg.prop data r.pmmh c m).res ∧
      ((smcUpdate env cfg k data sys obj r).2.2.2.2 = .increased ↔
        ∃ j, 0 < j ∧ j ≤ m ∧ Spec.listMean (ratesUpTo env cfg.prop data r.pmmh c j) < cfg.accThresh) ∧
      (∀ j, 0 < j → j < m → cfg.accThresh ≤ Spec.listMean (ratesUpTo env cfg.prop data r.pmmh c j)) ∧
      ((smcUpdate env cfg k data sys obj r).2.2.2.2 = .updated → m < cfg.numSteps →
        ∃ a, cfg.distThresh = some a ∧
          |movedBy env cfg.prop data r.pmmh c m - movedBy env cfg.prop data r.pmmh c (m - 1)| ≤
            a * movedBy env cfg.prop data r.pmmh c (m - 1)) := by
  obtain ⟨m, -, h2, h3, h4, h5, h6⟩ := pmmhLoop_spec env cfg data r.pmmh c cfg.numSteps 0 0
    (by simp [ratesUpTo]) 0 (fun _ => (movedBy_zero ..).symm)
  have hcp : c.params = fun i => sys.params (r.inds i) := by rw [hc]
  rw [show chainAt env cfg.prop data r.pmmh c 0 = c from rfl] at h3 h5 h6
  have hu : smcUpdate env cfg k data sys obj r =
      if (pmmhLoop env cfg data c.params r.pmmh cfg.numSteps 0 c 0 0).2 then
        let inc := increaseStates env k cfg.maxIncreases data
          { sys with params := (pmmhLoop env cfg data c.params r.pmmh cfg.numSteps 0 c 0 0).1.params }
          { obj with w := (normalize1 env.lo obj.w).1, res := (pmmhLoop env cfg data c.params r.pmmh cfg.numSteps 0 c 0 0).1.res } r.rerun
        (inc.1, inc.2.1, { obj with w := (normalize1 env.lo obj.w).1, res := (pmmhLoop env cfg data c.params r.pmmh cfg.numSteps 0 c 0 0).1.res }, inc.2.2, .increased)
      else (k, { sys with 
          params := (pmmhLoop env cfg data c.params r.pmmh cfg.numSteps 0 c 0 0).1.params
          built := (pmmhLoop env cfg data c.params r.pmmh cfg.numSteps 0 c 0 0).1.params }, 
        { obj with w := fun _ => 0, res := (pmmhLoop env cfg data c.params r.pmmh cfg.numSteps 0 c 0 0).1.res }, .ok none, .updated) := by
    subst hc
    rfl
  generalize pmmhLoop env cfg data c.params r.pmmh cfg.numSteps 0 c 0 0 = out at *
  have hinc : (∃ j, 0 < j ∧ j ≤ m ∧ Spec.listMean (ratesUpTo env cfg.prop data r.pmmh c j) < cfg.accThresh) ↔
      out.2 = true := by
    rw [h5]
    constructor
    · rintro ⟨j, hj0, hjm, hj⟩
      rcases Nat.lt_or_ge j m with h | h
      · exact absurd hj (not_lt.2 (h4 j hj0 h))
      · rw [show m = j by omega]
        exact ⟨hj0, hj⟩
    · rintro ⟨h, h'⟩
      exact ⟨m, h, le_refl _, h'⟩
  refine ⟨m, by omega, ?_⟩
  rw [hinc, hu]
  cases ho : out.2 with
  | true =>
    simp only [if_true]
    refine ⟨?_, by rw [h3], by simp, h4, nofun⟩
    rw [← h3]
    unfold increaseStates
    simp only
    split_ifs
    · rfl
    · rfl
  | false =>
    simp only [Bool.false_eq_true, if_false]
    refine ⟨by rw [h3], by rw [h3], by simp, h4, fun _ hm => h6 ho (by omega)⟩

/-! ### Cases -/

theorem run_events_length [NeZero P] (env : Env d Y Ω) (cbs : List (Callback P d Y Ω V)) (s : State P d Y Ω K V)
    (xs : List (Y × StepDraws P d Ω)) : (run env cbs s xs).2.2.1.length ≤ xs.length := by
  induction xs generalizing s with
  | nil => exact le_refl _
  | cons x xs ih =>
    obtain ⟨y, r⟩ := x
    rw [run]
    simp only
    cases (step env cbs s y r).err with
    | some e => simp
    | none => simpa using ih _

/-- SMC2 cannot fail within its first `max_increases` observations. -/
theorem C64_first_observations [NeZero P] (env : Env d Y Ω) (cbs : List (Callback P d Y Ω V)) (cfg : SmcCfg P d Y Ω K)
    (particles : ℕ) (drawn : Fin P → Row d) (quasi : Option (Fin P → Row d)) (noise : Fin P → Ω)
    (xs : List (Y × StepDraws P d Ω)) (h : xs.length ≤ cfg.maxIncreases) :
    (run env cbs (init env (.smc2 cfg 0) particles drawn quasi noise) xs).2.2.2 = none := by
  rcases C64_capped env cbs cfg particles drawn quasi noise xs with h' | h'
  · exact h'.1
  · have h1 := run_events_length env cbs (init env (.smc2 cfg 0) particles drawn quasi noise) xs
    have h2 := List.count_le_length (a := Event.increased)
      (l := (run env cbs (init env (.smc2 cfg 0) particles drawn quasi noise) xs).2.2.1)
    omega

/-- Likelihoods that are all NaN. -/
noncomputable def nanEnv : Env 1 ℕ Unit where
  inc _ _ _ _ := .nan
  logPrior _ := .fin 0
  lo := -1000
  eps := 1 / 1000

theorem add_nan (a : XF) : a + .nan = .nan := by cases a <;> rfl

theorem sub_nan (a : XF) : a - .nan = .nan := add_nan a

theorem nan_loop (cfg : SmcCfg 2 1 ℕ Unit Unit) (ha : 0 < cfg.accThresh) (ys : List ℕ) (old : Fin 2 → Row 1)
    (dr : ℕ → Draws 2 1 Unit) (n : ℕ) (hn : 0 < n) (c : Chain 2 1 ℕ Unit Unit)
    (hc : ∀ i, nanEnv.loglik (c.res i) = .nan) : (pmmhLoop nanEnv cfg ys old dr n 0 c 0 0).2 = true := by
  obtain ⟨m, rfl⟩ : ∃ m, n = m + 1 := ⟨n - 1, by omega⟩
  have hacc : (runPmmh nanEnv cfg.prop false (fun _ => 0) c ys (dr 0)).2 = fun _ => false := by
    funext i
    have : logAcc nanEnv cfg.prop c ys (dr 0) (fun _ => 0) i = .nan := by
      unfold logAcc
      simp only
      rw [hc i, sub_nan, add_nan]
    show accepted nanEnv cfg.prop c ys (dr 0) (fun _ => 0) i = false
    unfold accepted
    rw [this]
    simp only [decide_eq_false_iff_not]
    generalize XF.log (.fin ((dr 0).u i)) = x
    cases x <;> exact fun h => h
  rw [pmmhLoop]
  simp only [hacc]
  rw [if_pos]
  simp [fraction, ha]

/-- Then every step of SMC2 calls for an increase. -/
theorem nan_increases (cfg : SmcCfg 2 1 ℕ Unit Unit) (hn : 0 < cfg.numSteps) (ha : 0 < cfg.accThresh) (k : ℕ)
    (sys : Sys 2 1) (tup : Tup ℕ Unit) (obj : Obj 2 1 ℕ Unit) (y : ℕ) (r : StepDraws 2 1 Unit) :
    (smcStep nanEnv cfg k sys tup obj y r).event = .increased := by
  have hd : smcDecides cfg.threshold (filterAppend nanEnv sys { tup with data := tup.data ++ [y] } obj y r.noise).1
      (filterAppend nanEnv sys { tup with data := tup.data ++ [y] } obj y r.noise).2 = true := by
    unfold smcDecides
    simp only [decide_eq_true_eq]
    refine Or.inr ⟨0, ?_⟩
    have : (filterAppend nanEnv sys { tup with data := tup.data ++ [y] } obj y r.noise).2.w 0 = .ninf := by
      show nanToNum _ (obj.w 0 + .nan) = _
      rw [add_nan]
      rfl
    rw [this]
    exact fun h => h
  unfold smcStep
  simp only
  rw [if_pos hd]
  unfold smcUpdate
  simp only
  rw [if_pos (nan_loop cfg ha _ _ _ _ hn _ fun i => add_nan _)]

theorem nan_run (xs : List (ℕ × StepDraws 2 1 Unit)) (cfg : SmcCfg 2 1 ℕ Unit Unit) (hn : 0 < cfg.numSteps)
    (ha : 0 < cfg.accThresh) (k : ℕ) (s : State 2 1 ℕ Unit Unit Unit) (hs : s.algo = .smc2 cfg k)
    (h : (run nanEnv [] s xs).2.2.2 = none) : (run nanEnv [] s xs).2.2.1 = xs.map fun _ => .increased := by
  induction xs generalizing s k with
  | nil => rfl
  | cons x xs ih =>
    obtain ⟨y, r⟩ := x
    have he : (step nanEnv [] s y r).event = .increased := by
      have e : (s.algo.step_ nanEnv s.sys s.tup s.obj y r).event = .increased := by
        rw [hs, Algo.step_]
        exact nan_increases cfg hn ha k _ _ _ _ _
      cases hret : (s.algo.step_ nanEnv s.sys s.tup s.obj y r).ret with
      | error er => rw [step_of_error nanEnv [] s y r er hret]; exact e
      | ok f => rw [step_of_ok nanEnv [] s y r f hret]; exact e
    rw [run] at h ⊢
    simp only at h ⊢
    cases herr : (step nanEnv [] s y r).err with
    | some e =>
      rw [herr] at h
      exact nomatch h
    | none =>
      rw [herr] at h
      simp only at h ⊢
      obtain ⟨k', hk'⟩ := smc_run_algo nanEnv [] cfg s k hs y r
      rw [ih k' _ hk' h, he]
      rfl

/-- C59 and C64: three observations, each of which doubles the state particles. -/
example :
    let s₀ : State 2 1 ℕ Unit Unit Unit :=
      init nanEnv (.smc2 demoSmc 0) 10 (fun i _ => (i : ℕ)) none fun _ => ()
    let a := run nanEnv [] s₀ [(7, demoStepDraws), (8, demoStepDraws), (9, demoStepDraws)]
    a.1.obj.iter = 3 ∧ a.1.tup.ess.length = 4 ∧ a.1.tup.data = [7, 8, 9] ∧ a.1.sys.particles = 80 := by
  have h := C64_first_observations (V := Unit) nanEnv [] demoSmc 10 (fun i _ => (i : ℕ)) none (fun _ => ())
    [(7, demoStepDraws), (8, demoStepDraws), (9, demoStepDraws)] (by simp [demoSmc])
  intro s₀ a
  have hc := C59_counters nanEnv [] (by simp) (.smc2 demoSmc 0) 10 (fun i _ => (i : ℕ)) none (fun _ => ())
    [(7, demoStepDraws), (8, demoStepDraws), (9, demoStepDraws)] h
  refine ⟨hc.1, hc.2, C59_data nanEnv [] (by simp) demoSmc 10 _ none _ _ h, ?_⟩
  have hev := nan_run [(7, demoStepDraws), (8, demoStepDraws), (9, demoStepDraws)] demoSmc (by simp [demoSmc])
    (by simp [demoSmc]) 0 _ rfl h
  rcases C64_capped (V := Unit) nanEnv [] demoSmc 10 (fun i _ => (i : ℕ)) none (fun _ => ())
    [(7, demoStepDraws), (8, demoStepDraws), (9, demoStepDraws)] with h' | h'
  · rw [hev] at h'
    exact h'.2.2
  · rw [h] at h'
    exact nomatch h'.1

/-- C60: a NaN weight causes a rejuvenation. -/
example : (smcStep nanEnv demoSmc 0 (demoInit (.smc2 demoSmc 0)).sys (demoInit (.smc2 demoSmc 0)).tup
    (demoInit (.smc2 demoSmc 0)).obj 7 demoStepDraws).event ≠ .kept := by
  have hn : ∀ i, (demoInit (.smc2 demoSmc 0)).obj.w i + stepLogLik nanEnv (demoInit (.smc2 demoSmc 0)).sys
      (demoInit (.smc2 demoSmc 0)).obj 7 demoStepDraws.noise i = .nan := fun i => add_nan _
  refine (C60_trigger_partial nanEnv demoSmc 0 _ (demoInit (.smc2 demoSmc 0)).tup _ 7 demoStepDraws rfl ?_).2 ?_
  · intro i
    rw [hn i]
    exact nofun
  · refine Or.inr ⟨0, ?_⟩
    rw [hn 0]
    exact fun h => h

/-- C65: in that case the first PMMH step has mean acceptance rate 0 and is the last. -/
example : ∃ m ≤ 1, ∃ j, 0 < j ∧ j ≤ m ∧ ∃ c,
    Spec.listMean (ratesUpTo nanEnv demoSmc.prop [7] demoStepDraws.pmmh c j) < 1 / 5 := by
  have h := nan_increases demoSmc (by simp [demoSmc]) (by simp [demoSmc]) 0 (demoInit (.smc2 demoSmc 0)).sys
    (demoInit (.smc2 demoSmc 0)).tup (demoInit (.smc2 demoSmc 0)).obj 7 demoStepDraws
  have hu : (smcUpdate nanEnv demoSmc 0 [7] (demoInit (.smc2 demoSmc 0)).sys
      (filterAppend nanEnv (demoInit (.smc2 demoSmc 0)).sys
        { (demoInit (.smc2 demoSmc 0)).tup with data := [7] } (demoInit (.smc2 demoSmc 0)).obj 7 fun _ => ()).2
      demoStepDraws).2.2.2.2 = .increased := by
    unfold smcStep at h
    simp only at h
    split_ifs at h
    exact h
  obtain ⟨m, hm, -, -, h3, -⟩ := C65_rejuvenation nanEnv demoSmc 0 [7] (demoInit (.smc2 demoSmc 0)).sys
      (filterAppend nanEnv (demoInit (.smc2 demoSmc 0)).sys
        { (demoInit (.smc2 demoSmc 0)).tup with data := [7] } (demoInit (.smc2 demoSmc 0)).obj 7 fun _ => ()).2
      demoStepDraws _ rfl
  obtain ⟨j, h4, h5, h6⟩ := h3.1 hu
  exact ⟨m, hm, j, h4, h5, _, h6⟩

end Verif.Props
