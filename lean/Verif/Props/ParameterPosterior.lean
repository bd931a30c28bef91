import Verif.Model.ParameterPosterior
import Verif.Props.Collectors

/-!
# Property C132: `ParameterPosterior` records the posterior mean of the parameters
-/

namespace Verif.Props

open Verif Verif.Seq Verif.Mcmc Verif.Spec XF

variable {P d e : ℕ} {Y Ω K : Type}

/-- What is claimed: with the collector as callback, a step adds one entry, the mean of the parameters (constrained or not, as
requested) under the weights of the state that it returns. -/
def C132_claim : Prop :=
  ∀ (P d e : ℕ) (_ : NeZero P) (Y Ω K : Type) (env : Env d Y Ω) (stack : Bool → Sys P d → Fin P → Fin e → ℝ) (c : Bool)
    (s : State P d Y Ω K (Fin e → XF)) (y : Y) (r : StepDraws P d Ω),
    let a := step env [parameterPosterior 0 env.lo (fun c sys p j => fin (stack c sys p j)) c] s y r
    a.err = none → lookupExtra "parameter_means" a.state.tup.extra =
      some ((lookupExtra "parameter_means" s.tup.extra).getD [] ++
        [fun j => fin (weightedMean env.lo a.state.obj.w fun p => stack c a.state.sys p j)])

/-- The entry that a step adds, whatever happened: computed from the parameters that the step leaves, with the weights of the
state that it was given, after `_step` has changed it. -/
theorem C132_entry_partial [NeZero P] (env : Env d Y Ω) (stack : Bool → Sys P d → Fin P → Fin e → ℝ) (c : Bool)
    (s : State P d Y Ω K (Fin e → XF)) (y : Y) (r : StepDraws P d Ω)
    (h : (step env [parameterPosterior 0 env.lo (fun c sys p j => fin (stack c sys p j)) c] s y r).err = none) :
    lookupExtra "parameter_means"
        (step env [parameterPosterior 0 env.lo (fun c sys p j => fin (stack c sys p j)) c] s y r).state.tup.extra =
      some ((lookupExtra "parameter_means" s.tup.extra).getD [] ++
        [fun j => fin (weightedMean env.lo (s.algo.step_ env s.sys s.tup s.obj y r).obj.w
          fun p => stack c (s.algo.step_ env s.sys s.tup s.obj y r).sys p j)]) := by
  cases hret : (s.algo.step_ env s.sys s.tup s.obj y r).ret with
  | error er =>
    rw [step_of_error env _ s y r er hret] at h
    exact nomatch h
  | ok f =>
    obtain ⟨h1, h2⟩ := step_extra env s.algo s.sys s.tup s.obj y r
    have h2 := h2 (by rw [hret]; rfl)
    rw [step_of_ok env _ s y r f hret]
    show lookupExtra "parameter_means" (appendExtra "parameter_means" _
      (s.algo.step_ env s.sys s.tup s.obj y r).tup.extra) = _
    rw [lookup_append, h1]
    have : (fun j => ∑ p, (normalize1 env.lo (s.algo.step_ env s.sys s.tup s.obj y r).obj.w).2 p *
        fin (stack c (s.algo.step_ env s.sys s.tup s.obj y r).sys p j)) =
        fun j => fin (weightedMean env.lo (s.algo.step_ env s.sys s.tup s.obj y r).obj.w
          fun p => stack c (s.algo.step_ env s.sys s.tup s.obj y r).sys p j) :=
      funext fun j => collected env.lo _ ⟨0, h2 0⟩ _
    rw [← this]

/-- C132 for steps that do not increase the number of state particles. Missing: steps that do, for which it fails
(`C132_weighted_twice`). -/
theorem C132_mean_partial [NeZero P] (env : Env d Y Ω) (stack : Bool → Sys P d → Fin P → Fin e → ℝ) (c : Bool)
    (s : State P d Y Ω K (Fin e → XF)) (y : Y) (r : StepDraws P d Ω)
    (h : (step env [parameterPosterior 0 env.lo (fun c sys p j => fin (stack c sys p j)) c] s y r).err = none)
    (he : (step env [parameterPosterior 0 env.lo (fun c sys p j => fin (stack c sys p j)) c] s y r).event ≠ .increased) :
    lookupExtra "parameter_means"
        (step env [parameterPosterior 0 env.lo (fun c sys p j => fin (stack c sys p j)) c] s y r).state.tup.extra =
      some ((lookupExtra "parameter_means" s.tup.extra).getD [] ++
        [fun j => fin (weightedMean env.lo
          (step env [parameterPosterior 0 env.lo (fun c sys p j => fin (stack c sys p j)) c] s y r).state.obj.w
          fun p => stack c
            (step env [parameterPosterior 0 env.lo (fun c sys p j => fin (stack c sys p j)) c] s y r).state.sys p j)]) := by
  rw [C132_entry_partial env stack c s y r h]
  cases hret : (s.algo.step_ env s.sys s.tup s.obj y r).ret with
  | error er =>
    rw [step_of_error env _ s y r er hret] at h
    exact nomatch h
  | ok f =>
    have h2 := (step_extra env s.algo s.sys s.tup s.obj y r).2 (by rw [hret]; rfl)
    have hw := step_weighs env s.algo s.sys s.tup s.obj y r f hret
    rw [step_of_ok env _ s y r f hret] at he ⊢
    simp only at he ⊢
    have hf := hw.same he
    subst hf
    simp only [Option.getD_none]
    have hm : ∀ p, mass env.lo ((normalize1 env.lo (s.algo.step_ env s.sys s.tup s.obj y r).obj.w).1 p)
        = mass env.lo ((s.algo.step_ env s.sys s.tup s.obj y r).obj.w p) := fun p => mass_clean _ _ (h2 p)
    have e1 : ∀ m : Fin P → ℝ, weightedMean env.lo (s.algo.step_ env s.sys s.tup s.obj y r).obj.w m
        = weightedMean env.lo (normalize1 env.lo (s.algo.step_ env s.sys s.tup s.obj y r).obj.w).1 m := by
      intro m
      unfold weightedMean
      simp only [hm]
    simp only [e1]
    rfl

/-- In a run every observation adds one entry. -/
theorem C132_count [NeZero P] (env : Env d Y Ω) (stack : Bool → Sys P d → Fin P → Fin e → ℝ) (c : Bool)
    (s : State P d Y Ω K (Fin e → XF)) (xs : List (Y × StepDraws P d Ω))
    (h : (run env [parameterPosterior 0 env.lo (fun c sys p j => fin (stack c sys p j)) c] s xs).2.2.2 = none) :
    ((lookupExtra "parameter_means"
      (run env [parameterPosterior 0 env.lo (fun c sys p j => fin (stack c sys p j)) c] s xs).1.tup.extra).getD []).length
      = ((lookupExtra "parameter_means" s.tup.extra).getD []).length + xs.length := by
  induction xs generalizing s with
  | nil => rfl
  | cons x xs ih =>
    obtain ⟨y, r⟩ := x
    rw [run] at h ⊢
    simp only at h ⊢
    cases her : (step env [parameterPosterior 0 env.lo (fun c sys p j => fin (stack c sys p j)) c] s y r).err with
    | some er =>
      rw [her] at h
      exact nomatch h
    | none =>
      rw [her] at h
      simp only at h ⊢
      rw [ih _ h, C132_entry_partial env stack c s y r her]
      simp only [Option.getD_some, List.length_append, List.length_cons, List.length_nil]
      omega

theorem increase_params (env : Env d Y Ω) (k max : ℕ) (data : List Y) (sys : Sys P d) (obj : Obj P d Y Ω)
    (rerun : Fin P → ℕ → Ω) : (increaseStates env k max data sys obj rerun).2.1.params = sys.params := by
  unfold increaseStates
  dsimp only
  split_ifs <;> rfl

/-- When SMC2 increases the number of state particles, the entry combines the weights from before resampling with the parameters
from after it, so that particles are weighted twice. Here the only move is rejected by all particles, since the candidates are
outside of the support of the prior. -/
theorem C132_weighted_twice [NeZero P] (env : Env d Y Ω) (cfg : SmcCfg P d Y Ω K) (k : ℕ) (f : Bool → Row d → Fin e → ℝ) (c : Bool)
    (s : State P d Y Ω K (Fin e → XF)) (hs : s.algo = .smc2 cfg k) (y : Y) (r : StepDraws P d Ω)
    (h : (step env [parameterPosterior 0 env.lo (fun c sys p j => fin (f c (sys.params p) j)) c] s y r).err = none)
    (he : (step env [parameterPosterior 0 env.lo (fun c sys p j => fin (f c (sys.params p) j)) c] s y r).event = .increased)
    (hsteps : cfg.numSteps = 1) (hin : ∀ i, (env.logPrior (s.sys.params i)).IsFinite)
    (hout : ∀ i, env.logPrior ((r.pmmh 0).rvs i) = ninf) :
    lookupExtra "parameter_means"
        (step env [parameterPosterior 0 env.lo (fun c sys p j => fin (f c (sys.params p) j)) c] s y r).state.tup.extra =
      some ((lookupExtra "parameter_means" s.tup.extra).getD [] ++
        [fun j => fin (weightedMean env.lo
          (fun p => nanToNum env.lo (s.obj.w p + stepLogLik env s.sys s.obj y r.noise p))
          fun p => f c (s.sys.params (r.inds p)) j)]) ∧
    (step env [parameterPosterior 0 env.lo (fun c sys p j => fin (f c (sys.params p) j)) c] s y r).state.sys.params
      = fun p => s.sys.params (r.inds p) := by
  have hev : (s.algo.step_ env s.sys s.tup s.obj y r).event = .increased := by
    cases hret : (s.algo.step_ env s.sys s.tup s.obj y r).ret with
    | error er => rw [step_of_error env _ s y r er hret] at he; exact he
    | ok f => rw [step_of_ok env _ s y r f hret] at he; exact he
  have hobj : (s.algo.step_ env s.sys s.tup s.obj y r).obj.w =
        (fun p => nanToNum env.lo (nanToNum env.lo (s.obj.w p + stepLogLik env s.sys s.obj y r.noise p))) ∧
      (s.algo.step_ env s.sys s.tup s.obj y r).sys.params = fun p => s.sys.params (r.inds p) := by
    rw [hs, Algo.step_] at hev ⊢
    unfold smcStep at hev ⊢
    simp only at hev ⊢
    split_ifs at hev ⊢ with hd
    unfold smcUpdate at hev ⊢
    simp only at hev ⊢
    split_ifs at hev ⊢ with hp
    refine ⟨rfl, ?_⟩
    simp only [hsteps]
    rw [loop_once]
    rw [increase_params]
    funext p
    simp only [runPmmh]
    rw [outside_rejected env cfg.prop _ _ _ _ p (hin _) (hout p)]
    rfl
  refine ⟨?_, ?_⟩
  · rw [C132_entry_partial env (fun c sys p j => f c (sys.params p) j) c s y r h, hobj.1, hobj.2]
    have hm : ∀ x, mass env.lo (nanToNum env.lo (nanToNum env.lo x)) = mass env.lo (nanToNum env.lo x) :=
      fun x => mass_clean _ _ (usable_clean _ _)
    unfold weightedMean
    simp only [hm]
  · cases hret : (s.algo.step_ env s.sys s.tup s.obj y r).ret with
    | error er => rw [step_of_error env _ s y r er hret] at h; exact nomatch h
    | ok f => rw [step_of_ok env _ s y r f hret]; exact hobj.2

/-- A step of SMC2 that increases the number of state particles: the entry is 0.9, the mean over the returned state
is 0.5. -/
theorem C132_negation : ¬ C132_claim := by
  intro h
  obtain ⟨h1, h2, h3⟩ := twice_step (parameterPosterior 0 twiceEnv.lo (fun _ sys p j => fin (sys.params p j)) true)
  have ha := h 2 1 1 inferInstance ℕ Unit Unit twiceEnv (fun _ sys p j => sys.params p j) true twiceInit 7 twiceDraws h1
  obtain ⟨hb, hc⟩ := C132_weighted_twice twiceEnv twiceSmc 0 (fun _ θ j => θ j) true twiceInit rfl 7 twiceDraws h1 h2 rfl twice_inside
    (by simp [twiceEnv, twiceDraws])
  simp only at ha
  rw [hb] at ha
  have ha := congrFun (List.singleton_inj.1 (List.append_cancel_left (Option.some_inj.1 ha))) 0
  rw [hc] at ha
  rw [mean_twice 1 9 _ _ (by rw [twice_acc, twice_mass]; rfl) (by rw [twice_acc, twice_mass]; norm_num) Nat.cast_zero Nat.cast_one,
    mean_twice 1 1 _ _ (by rw [(h3 0).1]; exact Real.exp_zero) (by rw [(h3 1).1]; exact Real.exp_zero)
      Nat.cast_zero Nat.cast_one] at ha
  injection ha with ha
  norm_num at ha

/-! ## A case -/

/-- `FixedWidthNESS` with blocks of three observations and two parameter particles, before the first observation. -/
noncomputable def blockInit : State 2 1 ℕ Unit Unit (Fin 1 → XF) :=
  init twiceEnv (.fixed 3 0 ⟨.nonShrinking, 0, false⟩) 10 (fun i _ => (i : ℕ)) none fun _ => ()

theorem block_finite : anyNonFinite blockInit.obj.w = False := by
  refine eq_false ?_
  rintro ⟨i, h⟩
  have e1 : blockInit.obj.w i = .fin 0 := rfl
  rw [e1] at h
  exact h trivial

theorem block_step (cb : Callback 2 1 ℕ Unit (Fin 1 → XF)) : (step twiceEnv [cb] blockInit 7 twiceDraws).err = none ∧
    (blockInit.algo.step_ twiceEnv blockInit.sys blockInit.tup blockInit.obj 7 twiceDraws).sys = blockInit.sys ∧
    ∀ i, (blockInit.algo.step_ twiceEnv blockInit.sys blockInit.tup blockInit.obj 7 twiceDraws).obj.w i
      = fin (Real.log 9 * ((i : ℕ) : ℝ)) := by
  have hf := block_finite
  have hret : ∃ f, (blockInit.algo.step_ twiceEnv blockInit.sys blockInit.tup blockInit.obj 7 twiceDraws).ret = .ok f := by
    show ∃ f, ((Algo.fixed 3 0 ⟨.nonShrinking, 0, false⟩ : Algo 2 1 ℕ Unit Unit).step_ twiceEnv blockInit.sys blockInit.tup blockInit.obj
      7 twiceDraws).ret = .ok f
    rw [Algo.step_]
    simp only [hf]
    exact ⟨_, rfl⟩
  obtain ⟨f, hret⟩ := hret
  refine ⟨by rw [step_of_ok twiceEnv [cb] blockInit 7 twiceDraws f hret], ?_, fun i => ?_⟩
  · show ((Algo.fixed 3 0 ⟨.nonShrinking, 0, false⟩ : Algo 2 1 ℕ Unit Unit).step_ twiceEnv blockInit.sys blockInit.tup
      blockInit.obj 7 twiceDraws).sys = _
    rw [Algo.step_]
    simp only [hf]
    rfl
  · show ((Algo.fixed 3 0 ⟨.nonShrinking, 0, false⟩ : Algo 2 1 ℕ Unit Unit).step_ twiceEnv blockInit.sys blockInit.tup
      blockInit.obj 7 twiceDraws).obj.w i = _
    rw [Algo.step_]
    simp only [hf]
    exact twice_acc i

/-- A step that does not rejuvenate records one entry, the mean of the parameters 0 and 1 with weights 1 and 9. -/
example : lookupExtra "parameter_means" (step twiceEnv [parameterPosterior 0 twiceEnv.lo (fun _ sys p j => fin (sys.params p j)) true]
    blockInit 7 twiceDraws).state.tup.extra = some [fun _ => fin (9 / 10)] := by
  obtain ⟨h1, hs, hw⟩ := block_step (parameterPosterior 0 twiceEnv.lo (fun _ sys p j => fin (sys.params p j)) true)
  rw [C132_entry_partial twiceEnv (fun _ sys p j => sys.params p j) true blockInit 7 twiceDraws h1, hs]
  show some [fun j => fin (weightedMean _ _ _)] = _
  congr 2
  funext j
  rw [Subsingleton.elim j 0, mean_twice 1 9 _ _ (by rw [hw, twice_mass]; rfl) (by rw [hw, twice_mass]; norm_num) Nat.cast_zero Nat.cast_one]
  norm_num

end Verif.Props
