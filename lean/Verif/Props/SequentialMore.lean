import Verif.Props.SequentialMoves

/-!
# Sequential algorithms: state particles of the results (C64), the trigger of NESS (C79)
-/

namespace Verif.Props

open Mcmc Seq

variable {P d : ℕ} {Y Ω K V : Type}

/-! ### C64 -/

theorem stateParticles_batchFilter (n : ℕ) (m : Mdl d) (ys : List Y) (noise : ℕ → Ω) :
    Spec.stateParticles (batchFilter n m ys noise) = n := by
  have key : ∀ (l : List (Y × ℕ)) (s : Slot d Y Ω),
      Spec.stateParticles (l.foldl (fun s y => .step s m y.1 (noise (y.2 + 1))) s) = Spec.stateParticles s := by
    intro l
    induction l with
    | nil => exact fun s => rfl
    | cons x l ih => exact fun s => ih _
  exact key _ _

theorem stateParticles_chainAt (env : Env d Y Ω) (prop : Proposal P d Y Ω K) (ys : List Y)
    (draws : ℕ → Draws P d Ω) (c : Chain P d Y Ω K) (n : ℕ) (hc : c.particles = n)
    (h : ∀ i, Spec.stateParticles (c.res i) = n) (k : ℕ) :
    (chainAt env prop ys draws c k).particles = n ∧
      ∀ i, Spec.stateParticles ((chainAt env prop ys draws c k).res i) = n := by
  induction k with
  | zero => exact ⟨hc, h⟩
  | succ k ih =>
    refine ⟨ih.1, fun i => ?_⟩
    have e : (chainAt env prop ys draws c (k + 1)).res i =
        if accepted env prop (chainAt env prop ys draws c k) ys (draws k) (fun _ => 0) i then
          candidates (chainAt env prop ys draws c k).particles ys (draws k) i
        else (chainAt env prop ys draws c k).res i := rfl
    rw [e]
    split_ifs
    · rw [candidates, stateParticles_batchFilter, ih.1]
    · exact ih.2 i

/-- The state object that counts after `_step`. -/
def resultOf (out : Out P d Y Ω K V) : Obj P d Y Ω :=
  match out.ret with
  | .ok (some o) => o
  | _ => out.obj

theorem stateParticles_smcUpdate (env : Env d Y Ω) (cfg : SmcCfg P d Y Ω K) (k : ℕ) (data : List Y) (sys : Sys P d)
    (obj : Obj P d Y Ω) (r : StepDraws P d Ω) (h : ∀ i, Spec.stateParticles (obj.res i) = sys.particles)
    (i : Fin P) :
    let u := smcUpdate env cfg k data sys obj r
    Spec.stateParticles ((match u.2.2.2.1 with | .ok (some o) => o | _ => u.2.2.1).res i) = u.2.1.particles := by
  intro u
  obtain ⟨m, -, -, hr, -⟩ := C65_rejuvenation env cfg k data sys obj r _ rfl
  have hran := (stateParticles_chainAt env cfg.prop data r.pmmh
    ⟨fun i => sys.params (r.inds i), fun i => obj.res (r.inds i),
      cfg.prop.build sys.params obj.res (normalize1 env.lo obj.w).1, r.subDrawn, r.subDrawn, sys.particles⟩
    sys.particles rfl (fun i => h (r.inds i)) m).2 i
  rw [← hr] at hran
  revert hran
  simp only [u]
  unfold smcUpdate
  simp only
  split_ifs
  · unfold increaseStates
    simp only
    split_ifs
    · exact fun h => h
    · intro _
      simp only
      exact stateParticles_batchFilter _ _ _ _
  · exact fun h => h

theorem stateParticles_onlineStep [NeZero P] (env : Env d Y Ω) (cfg : OnlineCfg d) (algo : Algo P d Y Ω K) (b : Bool)
    (sys : Sys P d) (tup : Tup Y V) (obj : Obj P d Y Ω) (y : Y) (r : StepDraws P d Ω)
    (h : ∀ i, Spec.stateParticles (obj.res i) = sys.particles) (i : Fin P) :
    Spec.stateParticles ((resultOf (onlineStep env cfg algo b sys tup obj y r)).res i)
      = (onlineStep env cfg algo b sys tup obj y r).sys.particles := by
  have hu : (∀ i, Spec.stateParticles ((onlineUpdate env cfg sys obj r).2.1.res i)
      = (onlineUpdate env cfg sys obj r).1.particles) := by
    intro i
    unfold onlineUpdate
    simp only
    split
    · exact h i
    · rename_i s hs
      unfold Jitter.Online.update at hs
      simp only at hs
      split at hs
      · exact nomatch hs
      · cases hs
        exact h (r.inds i)
  unfold onlineStep
  split_ifs
  · split
    · rename_i e he
      have := hu i
      rw [he] at this
      exact this
    · rename_i sys' obj' he
      have := hu i
      rw [he] at this
      exact this
  · exact h i

theorem stateParticles_step [NeZero P] (env : Env d Y Ω) (algo : Algo P d Y Ω K) (sys : Sys P d) (tup : Tup Y V)
    (obj : Obj P d Y Ω) (y : Y) (r : StepDraws P d Ω) (h : ∀ i, Spec.stateParticles (obj.res i) = sys.particles)
    (i : Fin P) :
    Spec.stateParticles ((resultOf (algo.step_ env sys tup obj y r)).res i)
      = (algo.step_ env sys tup obj y r).sys.particles := by
  induction algo with
  | ness t cfg => exact stateParticles_onlineStep env cfg _ _ sys tup obj y r h i
  | fixed bl c cfg =>
    unfold Algo.step_
    simp only
    split_ifs
    · exact h i
    · exact stateParticles_onlineStep env cfg _ _ sys tup obj y r h i
  | smc2 cfg k =>
    unfold Algo.step_ smcStep
    simp only
    split_ifs
    · exact stateParticles_smcUpdate env cfg k _ sys
        (filterAppend env sys { tup with data := tup.data ++ [y] } obj y r.noise).2 r (fun i => h i) i
    · exact h i
  | combined sw b first second ih1 ih2 =>
    unfold Algo.step_
    split_ifs
    · exact ih1
    · exact ih2

/-- C64, what the increases are for: after every run, also one that ended in an exception, every filter result
has been computed with the current number of state particles of the filter. -/
theorem C64_results [NeZero P] (env : Env d Y Ω) (cbs : List (Callback P d Y Ω V)) (hb : ∀ cb ∈ cbs, Benign cb)
    (algo : Algo P d Y Ω K) (particles : ℕ) (drawn : Fin P → Row d) (quasi : Option (Fin P → Row d))
    (noise : Fin P → Ω) (xs : List (Y × StepDraws P d Ω)) (i : Fin P) :
    let s := (run env cbs (init env algo particles drawn quasi noise) xs).1
    Spec.stateParticles (s.obj.res i) = s.sys.particles := by
  intro s
  revert i
  simp only [s]
  have h0 : ∀ i, Spec.stateParticles ((init env algo particles drawn quasi noise : State P d Y Ω K V).obj.res i)
      = (init env algo particles drawn quasi noise : State P d Y Ω K V).sys.particles := fun i => rfl
  generalize (init env algo particles drawn quasi noise : State P d Y Ω K V) = s₀ at h0
  clear s
  induction xs generalizing s₀ with
  | nil => exact h0
  | cons x xs ih =>
    obtain ⟨y, r⟩ := x
    have hstep : ∀ i, Spec.stateParticles ((step env cbs s₀ y r).state.obj.res i)
        = (step env cbs s₀ y r).state.sys.particles := by
      intro i
      have hs := stateParticles_step env s₀.algo s₀.sys s₀.tup s₀.obj y r h0 i
      unfold resultOf at hs
      cases hret : (s₀.algo.step_ env s₀.sys s₀.tup s₀.obj y r).ret with
      | error e =>
        rw [step_of_error env cbs s₀ y r e hret]
        rw [hret] at hs
        exact hs
      | ok f =>
        rw [step_of_ok env cbs s₀ y r f hret]
        rw [hret] at hs
        have hc := runCallbacks_benign cbs hb (s₀.algo.step_ env s₀.sys s₀.tup s₀.obj y r).sys y
          (s₀.algo.step_ env s₀.sys s₀.tup s₀.obj y r).tup (s₀.algo.step_ env s₀.sys s₀.tup s₀.obj y r).obj
        cases f with
        | none =>
          simp only [Option.getD_none]
          rw [hc.2.2.2.2]
          exact hs
        | some o => exact hs
    unfold run
    simp only
    split
    · exact hstep
    · exact ih _ hstep

/-- A case: after three increases the results have been computed with 80 particles. -/
example : let s := (run nanEnv ([] : List (Callback 2 1 ℕ Unit Unit)) (init nanEnv (.smc2 demoSmc 0) 10
      (fun i _ => (i : ℕ)) none fun _ => ()) [(7, demoStepDraws), (8, demoStepDraws), (9, demoStepDraws)]).1
    ∀ i, Spec.stateParticles (s.obj.res i) = s.sys.particles := fun i =>
  C64_results nanEnv [] (by simp) _ _ _ _ _ _ i

/-! ### C79 -/

/-- Callbacks that leave the weights alone. -/
def KeepsWeights (cb : Callback P d Y Ω V) : Prop := ∀ sys y t o, (cb.act sys y t o).2.w = o.w

theorem runCallbacks_weights (cbs : List (Callback P d Y Ω V)) (h : ∀ cb ∈ cbs, KeepsWeights cb) (sys : Sys P d)
    (y : Y) (tup : Tup Y V) (obj : Obj P d Y Ω) : (runCallbacks sys y cbs tup obj).2.2.w = obj.w := by
  induction cbs generalizing tup obj with
  | nil => rfl
  | cons cb cbs ih =>
    simp only [runCallbacks]
    rw [ih (fun c hc => h c (List.mem_cons_of_mem _ hc)), h cb (List.mem_cons_self ..)]

/-- The weights that a step of an online algorithm started from. -/
theorem onlineStep_recorded [NeZero P] (env : Env d Y Ω) (cfg : OnlineCfg d) (algo : Algo P d Y Ω K) (b : Bool)
    (sys : Sys P d) (tup : Tup Y V) (obj : Obj P d Y Ω) (y : Y) (r : StepDraws P d Ω) (f : Option (Obj P d Y Ω))
    (h : (onlineStep env cfg algo b sys tup obj y r).ret = .ok f) :
    let out := onlineStep env cfg algo b sys tup obj y r
    (out.event = .updated ↔ b = true) ∧ f = none ∧
    ∃ x : Fin P → XF, (∀ i, Spec.recentIncs env 1 (out.obj.res i) = [x i]) ∧
      out.tup.ess = tup.ess ++
        [(getEss1 env.lo (fun i => (if out.event = .updated then 0 else obj.w i) + x i) false).2] ∧
      ∀ i, out.obj.w i = nanToNum env.lo ((if out.event = .updated then 0 else obj.w i) + x i) := by
  revert h
  unfold onlineStep
  split_ifs with hb
  · split
    · intro h
      exact nomatch h
    · rename_i sys' obj' he
      intro h
      cases h
      have hw : obj'.w = fun _ => 0 := by
        unfold onlineUpdate at he
        simp only at he
        split at he
        · exact nomatch he
        · cases he
          rfl
      refine ⟨by simp [hb], rfl, fun i => stepLogLik env sys' obj' y r.noise i, fun i => rfl, ?_, fun i => ?_⟩
      · simp only [if_true]
        rw [filterAppend_ess, hw]
      · show nanToNum env.lo (obj'.w i + _) = _
        rw [hw]
        rfl
  · intro h
    cases h
    refine ⟨by simp [hb], rfl, fun i => stepLogLik env sys obj y r.noise i, fun i => rfl, rfl, fun i => rfl⟩

open Classical in
/-- The decision of NESS in terms of the weights that were last recorded. -/
theorem nessDecides_iff [NeZero P] (lo threshold : ℝ) (tup : Tup Y V) (obj : Obj P d Y Ω) (w : Fin P → XF)
    (ess : List XF) (he : tup.ess = ess ++ [(getEss1 lo w false).2]) (hw : ∀ i, obj.w i = nanToNum lo (w i)) :
    nessDecides threshold tup obj = true ↔
      (∃ i, ¬ Spec.Usable (w i)) ∨
        Spec.essOf (fun i => Spec.mass lo (w i) / ∑ j, Spec.mass lo (w j)) < threshold := by
  have hlast : lastEss tup = (getEss1 lo w false).2 := by
    simp [lastEss, he]
  have hfin : anyNonFinite obj.w ↔ ∃ i, ¬ Spec.Usable (w i) := by
    unfold anyNonFinite
    simp only [hw]
    refine exists_congr fun i => not_congr ?_
    cases w i <;> simp [nanToNum, XF.IsFinite, Spec.Usable]
  unfold nessDecides
  rw [decide_eq_true_iff, hfin, hlast]
  by_cases hall : ∃ i, ¬ Spec.Usable (w i)
  · simp [hall]
  · have hu : ∃ i, Spec.Usable (w i) := ⟨0, by
      by_contra hn
      exact hall ⟨0, hn⟩⟩
    obtain ⟨e, p, h1, h2, h3, -⟩ := C04_ess_bounds lo w hu
    have hess : e = Spec.essOf (fun i => Spec.mass lo (w i) / ∑ j, Spec.mass lo (w j)) := by
      have h5 : (getEss1 lo w false).2 = XF.fin 1 / ∑ i, (normalize1 lo w).2 i * (normalize1 lo w).2 i := rfl
      simp only [normalize1_usable lo w hu] at h5
      rw [getEss_value (isProb_mass lo w hu), h1] at h5
      exact XF.fin.inj h5
    rw [h1, ← hess]
    constructor
    · rintro (⟨-, h⟩ | h)
      · exact Or.inr h
      · exact Or.inl h
    · rintro (h | h)
      · exact absurd h hall
      · refine Or.inl ⟨⟨.fin e, ?_, ?_⟩, h⟩
        · rw [he, h1]; simp
        · show e ≠ 0
          linarith

/-- What is claimed of NESS: the parameters are moved before an observation iff the effective sample size of the
parameter weights is below the threshold or a weight is not finite; the weights are those accumulated up to and
including the observation before (`x` are its log-likelihoods). -/
def C79_claim : Prop :=
  ∀ (P d : ℕ) (_ : NeZero P) (Y Ω K V : Type) (env : Env d Y Ω) (cbs : List (Callback P d Y Ω V))
    (s : State P d Y Ω K V) (threshold : ℝ) (cfg : OnlineCfg d) (_ : s.algo = .ness threshold cfg)
    (_ : ∀ cb ∈ cbs, Benign cb) (y y' : Y) (r r' : StepDraws P d Ω) (x : Fin P → XF),
    (∀ i, Spec.recentIncs env 1 ((step env cbs s y r).state.obj.res i) = [x i]) →
    (step env cbs s y r).err = none → (step env cbs (step env cbs s y r).state y' r').err = none →
    let w := fun i => (if (step env cbs s y r).event = .updated then 0 else s.obj.w i) + x i
    ((step env cbs (step env cbs s y r).state y' r').event = .updated ↔
      (∃ i, ¬ (w i).IsFinite) ∨
        Spec.essOf (fun i => Spec.mass env.lo (w i) / ∑ j, Spec.mass env.lo (w j)) < threshold)

/-- NESS with callbacks that leave the weights alone: the parameters are moved iff the effective sample size is
below the threshold or a weight is NaN or `+inf`. -/
theorem C79_trigger_partial [NeZero P] (env : Env d Y Ω) (cbs : List (Callback P d Y Ω V)) (s : State P d Y Ω K V)
    (threshold : ℝ) (cfg : OnlineCfg d) (hs : s.algo = .ness threshold cfg) (hb : ∀ cb ∈ cbs, Benign cb)
    (hk : ∀ cb ∈ cbs, KeepsWeights cb) (y y' : Y) (r r' : StepDraws P d Ω) (x : Fin P → XF)
    (hx : ∀ i, Spec.recentIncs env 1 ((step env cbs s y r).state.obj.res i) = [x i])
    (h : (step env cbs s y r).err = none) (h' : (step env cbs (step env cbs s y r).state y' r').err = none) :
    let w := fun i => (if (step env cbs s y r).event = .updated then 0 else s.obj.w i) + x i
    ((step env cbs (step env cbs s y r).state y' r').event = .updated ↔
      (∃ i, ¬ Spec.Usable (w i)) ∨
        Spec.essOf (fun i => Spec.mass env.lo (w i) / ∑ j, Spec.mass env.lo (w j)) < threshold) := by
  intro w
  cases hret : (s.algo.step_ env s.sys s.tup s.obj y r).ret with
  | error e =>
    rw [step_of_error env cbs s y r e hret] at h
    exact nomatch h
  | ok f =>
    have hstep := step_of_ok env cbs s y r f hret
    have hret' : (onlineStep env cfg (.ness threshold cfg : Algo P d Y Ω K) (nessDecides threshold s.tup s.obj) s.sys s.tup
        s.obj y r).ret = .ok f := by
      rw [hs] at hret
      exact hret
    obtain ⟨-, hf, x', hx', hess, hw⟩ := onlineStep_recorded env cfg (.ness threshold cfg)
      (nessDecides threshold s.tup s.obj) s.sys s.tup s.obj y r f hret'
    have hout : s.algo.step_ env s.sys s.tup s.obj y r = onlineStep env cfg (.ness threshold cfg)
        (nessDecides threshold s.tup s.obj) s.sys s.tup s.obj y r := by
      rw [hs]
      rfl
    rw [hf] at hstep
    rw [hout] at hstep
    simp only at hstep
    have halg : (step env cbs s y r).state.algo = .ness threshold cfg := by
      rw [hstep]
      unfold onlineStep
      split_ifs
      · split <;> rfl
      · rfl
    have hc := runCallbacks_benign cbs hb
      (onlineStep env cfg (.ness threshold cfg : Algo P d Y Ω K) (nessDecides threshold s.tup s.obj) s.sys s.tup s.obj y r).sys y
      (onlineStep env cfg (.ness threshold cfg : Algo P d Y Ω K) (nessDecides threshold s.tup s.obj) s.sys s.tup s.obj y r).tup
      (onlineStep env cfg (.ness threshold cfg : Algo P d Y Ω K) (nessDecides threshold s.tup s.obj) s.sys s.tup s.obj y r).obj
    have hcw := runCallbacks_weights cbs hk
      (onlineStep env cfg (.ness threshold cfg : Algo P d Y Ω K) (nessDecides threshold s.tup s.obj) s.sys s.tup s.obj y r).sys y
      (onlineStep env cfg (.ness threshold cfg : Algo P d Y Ω K) (nessDecides threshold s.tup s.obj) s.sys s.tup s.obj y r).tup
      (onlineStep env cfg (.ness threshold cfg : Algo P d Y Ω K) (nessDecides threshold s.tup s.obj) s.sys s.tup s.obj y r).obj
    have hev : (step env cbs s y r).event = (onlineStep env cfg (.ness threshold cfg : Algo P d Y Ω K)
        (nessDecides threshold s.tup s.obj) s.sys s.tup s.obj y r).event := by rw [hstep]
    have hxx : x' = x := by
      funext i
      have h1 := hx i
      rw [hstep] at h1
      simp only [Option.getD_none] at h1
      rw [hc.2.2.2.2, hx' i] at h1
      simpa using h1
    have he1 : (step env cbs s y r).state.tup.ess = s.tup.ess ++ [(getEss1 env.lo w false).2] := by
      simp only [w]
      rw [hev, ← hxx, ← hess, hstep]
      exact hc.1
    have hw1 : ∀ i, (step env cbs s y r).state.obj.w i = nanToNum env.lo (w i) := by
      intro i
      simp only [w]
      rw [hev, ← hxx, ← hw i, hstep]
      simp only [Option.getD_none]
      rw [hcw]
    rw [← nessDecides_iff env.lo threshold (step env cbs s y r).state.tup (step env cbs s y r).state.obj w _ he1 hw1]
    cases hret2 : ((step env cbs s y r).state.algo.step_ env (step env cbs s y r).state.sys
        (step env cbs s y r).state.tup (step env cbs s y r).state.obj y' r').ret with
    | error e =>
      rw [step_of_error env cbs _ y' r' e hret2] at h'
      exact nomatch h'
    | ok f2 =>
      rw [step_of_ok env cbs _ y' r' f2 hret2]
      rw [halg] at hret2 ⊢
      exact (onlineStep_recorded env cfg (.ness threshold cfg) _ _ _ _ y' r' f2 hret2).1

/-- Before the first observation the weights are uniform: the parameters are moved iff the threshold exceeds the
number of parameter particles. -/
theorem C79_first [NeZero P] (env : Env d Y Ω) (cbs : List (Callback P d Y Ω V)) (threshold : ℝ) (cfg : OnlineCfg d)
    (particles : ℕ) (drawn : Fin P → Row d) (quasi : Option (Fin P → Row d)) (noise : Fin P → Ω) (y : Y)
    (r : StepDraws P d Ω)
    (h : (step env cbs (init env (.ness threshold cfg : Algo P d Y Ω K) particles drawn quasi noise) y r).err = none) :
    (step env cbs (init env (.ness threshold cfg : Algo P d Y Ω K) particles drawn quasi noise) y r).event = .updated ↔
      P < threshold := by
  set s : State P d Y Ω K V := init env (.ness threshold cfg) particles drawn quasi noise with hs
  have hdec := nessDecides_iff env.lo threshold s.tup s.obj (fun _ => 0) [] rfl fun _ => rfl
  have hess : Spec.essOf (fun i : Fin P => Spec.mass env.lo ((fun _ => 0) i) / ∑ j : Fin P, Spec.mass env.lo ((fun _ => 0) j))
      = P := by
    have hP : (P : ℝ) ≠ 0 := by exact_mod_cast NeZero.ne P
    have hm : Spec.mass env.lo 0 = 1 := Real.exp_zero
    simp only [hm, Spec.essOf, Finset.sum_const, Finset.card_univ, Fintype.card_fin, nsmul_eq_mul, mul_one]
    field_simp
  rw [hess] at hdec
  have hno : ¬ ∃ i : Fin P, ¬ Spec.Usable ((fun _ => 0 : Fin P → XF) i) := fun ⟨_, hi⟩ => hi trivial
  cases hret : (s.algo.step_ env s.sys s.tup s.obj y r).ret with
  | error e =>
    rw [step_of_error env cbs s y r e hret] at h
    exact nomatch h
  | ok f =>
    rw [step_of_ok env cbs s y r f hret]
    have := (onlineStep_recorded env cfg (.ness threshold cfg : Algo P d Y Ω K) (nessDecides threshold s.tup s.obj) s.sys
      s.tup s.obj y r f hret).1
    refine this.trans (hdec.trans ?_)
    simp [hno]

theorem demo_ness_ok (env : Env 1 ℕ Unit) (s : State 2 1 ℕ Unit Unit Unit) (t : ℝ)
    (hs : s.algo = .ness t demoOnline) (y : ℕ) : (step env [] s y demoStepDraws).err = none := by
  cases hret : (s.algo.step_ env s.sys s.tup s.obj y demoStepDraws).ret with
  | ok f => rw [step_of_ok env [] s y demoStepDraws f hret]
  | error e =>
    exfalso
    rw [hs, Algo.step_] at hret
    unfold onlineStep at hret
    split_ifs at hret
    · have hu : (onlineUpdate env demoOnline s.sys s.obj demoStepDraws).2.2 = none := by
        simp [onlineUpdate, Jitter.Online.update, Jitter.Kernel.jitter, demoOnline, Jitter.Kernel.fit,
          Jitter.Scale.clamp]
      rcases h : onlineUpdate env demoOnline s.sys s.obj demoStepDraws with ⟨sys', obj', e'⟩
      rw [h] at hu hret
      simp only at hu hret
      subst hu
      exact nomatch hret

theorem demo_ness_algo (env : Env 1 ℕ Unit) (s : State 2 1 ℕ Unit Unit Unit) (t : ℝ)
    (hs : s.algo = .ness t demoOnline) (y : ℕ) : (step env [] s y demoStepDraws).state.algo = .ness t demoOnline := by
  have hok := demo_ness_ok env s t hs y
  cases hret : (s.algo.step_ env s.sys s.tup s.obj y demoStepDraws).ret with
  | error e =>
    rw [step_of_error env [] s y demoStepDraws e hret] at hok
    exact nomatch hok
  | ok f =>
    rw [step_of_ok env [] s y demoStepDraws f hret, hs, Algo.step_]
    unfold onlineStep
    split_ifs
    · split <;> rfl
    · rfl

/-- The case of C60 with NESS and threshold 0: the first observation has likelihood zero under the first parameter. -/
theorem demo_ness_incs (i : Fin 2) :
    Spec.recentIncs zeroEnv 1 ((step zeroEnv [] (demoInit (.ness 0 demoOnline)) 7 demoStepDraws).state.obj.res i)
      = [if i = 0 then .ninf else .fin 0] := by
  have hev := (C79_first zeroEnv [] 0 demoOnline 10 (fun i _ => (i : ℕ)) none (fun _ => ()) 7 demoStepDraws
    (demo_ness_ok zeroEnv (demoInit (.ness 0 demoOnline)) 0 rfl 7))
  have hd : nessDecides 0 (demoInit (.ness 0 demoOnline)).tup (demoInit (.ness 0 demoOnline)).obj = false := by
    have := nessDecides_iff zeroEnv.lo 0 (demoInit (.ness 0 demoOnline)).tup (demoInit (.ness 0 demoOnline)).obj
      (fun _ => 0) [] rfl fun _ => rfl
    rw [← Bool.not_eq_true, this]
    rintro (⟨i, hi⟩ | h)
    · exact hi trivial
    · have hm : Spec.mass zeroEnv.lo 0 = 1 := Real.exp_zero
      simp only [hm, Spec.essOf, Finset.sum_const, Finset.card_univ, Fintype.card_fin, nsmul_eq_mul, mul_one] at h
      norm_num at h
  have e : (demoInit (.ness 0 demoOnline)).algo.step_ zeroEnv (demoInit (.ness 0 demoOnline)).sys
      (demoInit (.ness 0 demoOnline)).tup (demoInit (.ness 0 demoOnline)).obj 7 demoStepDraws =
      onlineStep zeroEnv demoOnline (.ness 0 demoOnline) false (demoInit (.ness 0 demoOnline)).sys
      (demoInit (.ness 0 demoOnline)).tup (demoInit (.ness 0 demoOnline)).obj 7 demoStepDraws := by
    rw [show (demoInit (.ness 0 demoOnline)).algo = .ness 0 demoOnline from rfl, Algo.step_, hd]
  rw [step_of_ok zeroEnv [] _ 7 demoStepDraws none (by rw [e]; rfl)]
  simp only [e]
  have e2 : stepLogLik zeroEnv (demoInit (.ness 0 demoOnline)).sys (demoInit (.ness 0 demoOnline)).obj 7 (fun _ => ()) i
      = open Classical in if ((i : ℕ) : ℝ) = 0 then .ninf else .fin 0 := rfl
  show [stepLogLik zeroEnv (demoInit (.ness 0 demoOnline)).sys (demoInit (.ness 0 demoOnline)).obj 7 (fun _ => ()) i] = _
  rw [e2]
  fin_cases i
  · simp
  · simp

/-- A weight of `-inf` does not make NESS move the parameters. -/
theorem C79_negation : ¬ C79_claim := by
  intro h
  have hs : (demoInit (.ness 0 demoOnline)).algo = .ness 0 demoOnline := rfl
  have hok := demo_ness_ok zeroEnv (demoInit (.ness 0 demoOnline)) 0 hs 7
  have hok2 := demo_ness_ok zeroEnv (step zeroEnv [] (demoInit (.ness 0 demoOnline)) 7 demoStepDraws).state 0
    (demo_ness_algo zeroEnv _ 0 hs 7) 8
  have h := h 2 1 inferInstance ℕ Unit Unit Unit zeroEnv [] (demoInit (.ness 0 demoOnline)) 0 demoOnline hs (by simp)
    7 8 demoStepDraws demoStepDraws _ demo_ness_incs hok hok2
  have ht := C79_trigger_partial zeroEnv [] (demoInit (.ness 0 demoOnline)) 0 demoOnline hs (by simp) (by simp)
    7 8 demoStepDraws demoStepDraws _ demo_ness_incs hok hok2
  have hev : (step zeroEnv [] (demoInit (.ness 0 demoOnline)) 7 demoStepDraws).event ≠ .updated := by
    rw [Ne, show demoInit (.ness 0 demoOnline) = init zeroEnv (.ness 0 demoOnline) 10 (fun i _ => (i : ℕ)) none
      (fun _ => ()) from rfl, C79_first zeroEnv [] 0 demoOnline 10 (fun i _ => (i : ℕ)) none (fun _ => ()) 7
      demoStepDraws hok]
    norm_num
  have hw : ∀ i : Fin 2, (if (step zeroEnv [] (demoInit (.ness 0 demoOnline)) 7 demoStepDraws).event = .updated then 0
      else (demoInit (.ness 0 demoOnline)).obj.w i) + (if i = 0 then XF.ninf else .fin 0)
      = if i = 0 then XF.ninf else .fin 0 := by
    intro i
    rw [if_neg hev, show (demoInit (.ness 0 demoOnline)).obj.w i = 0 from rfl, zero_add]
  simp only [hw] at h ht
  have hup := h.2 (Or.inl ⟨0, fun h => h⟩)
  rcases ht.1 hup with ⟨i, hi⟩ | hlt
  · apply hi
    split_ifs <;> trivial
  · have : (0 : ℝ) ≤ Spec.essOf (fun i : Fin 2 => Spec.mass zeroEnv.lo (if i = 0 then XF.ninf else .fin 0) /
        ∑ j : Fin 2, Spec.mass zeroEnv.lo (if j = 0 then XF.ninf else .fin 0)) :=
      div_nonneg zero_le_one (Finset.sum_nonneg fun _ _ => mul_self_nonneg _)
    linarith

/-- A case: weights that are NaN after the first observation. -/
example : (step nanEnv [] (init nanEnv (.ness 0 demoOnline) 10 (fun i _ => (i : ℕ)) none fun _ => ()) 7
    demoStepDraws : Stepped 2 1 ℕ Unit Unit Unit).err = none :=
  demo_ness_ok nanEnv _ 0 rfl 7

end Verif.Props
