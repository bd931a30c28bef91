import Verif.Model.Collectors
import Verif.Props.SequentialMoves

/-!
# C97 and C98: collectors
-/

namespace Verif.Props

open Verif Verif.Seq Verif.Mcmc Verif.Spec XF

variable {P d e : ℕ} {Y Ω K V : Type}

/-! ### C97 -/

theorem lookup_append {V : Type} (name : String) (v : V) (l : List (String × List V)) :
    lookupExtra name (appendExtra name v l) = some ((lookupExtra name l).getD [] ++ [v]) := by
  induction l with
  | nil => simp [lookupExtra, appendExtra]
  | cons a l ih =>
    obtain ⟨n, vs⟩ := a
    rw [appendExtra]
    split_ifs with h
    · simp [lookupExtra, h]
    · simp only [lookupExtra, if_neg h]
      exact ih

/-- The mean of `m` under the weights of a state: every parameter particle counts with its share of the mass. -/
noncomputable def weightedMean (lo : ℝ) (w : Fin P → XF) (m : Fin P → ℝ) : ℝ :=
  ∑ p, mass lo (w p) / (∑ q, mass lo (w q)) * m p

/-- What is claimed: a step adds one entry, the mean over the filters and weights of the state that it returns. -/
def C97_claim : Prop :=
  ∀ (P d e : ℕ) (_ : NeZero P) (Y Ω K : Type) (env : Env d Y Ω) (mean : Slot d Y Ω → Fin e → ℝ)
    (s : State P d Y Ω K (Fin e → XF)) (y : Y) (r : StepDraws P d Ω),
    let a := step env [meanCollector 0 env.lo fun s j => fin (mean s j)] s y r
    a.err = none → lookupExtra "filter_means" a.state.tup.extra =
      some ((lookupExtra "filter_means" s.tup.extra).getD [] ++
        [fun j => fin (weightedMean env.lo a.state.obj.w fun p => mean (a.state.obj.res p) j)])

theorem sum_fin {n : ℕ} (f : Fin n → ℝ) : ∑ i, fin (f i) = fin (∑ i, f i) := by
  have h : ∀ s : Finset (Fin n), ∑ i ∈ s, fin (f i) = fin (∑ i ∈ s, f i) := by
    intro s
    classical
    induction s using Finset.induction_on with
    | empty => rfl
    | insert a s ha ih =>
      rw [Finset.sum_insert ha, Finset.sum_insert ha, ih]
      rfl
  exact h Finset.univ

/-- What the collector computes. -/
theorem collected [NeZero P] (lo : ℝ) (w : Fin P → XF) (hw : ∃ p, Usable (w p)) (m : Fin P → ℝ) :
    ∑ p, (normalize1 lo w).2 p * fin (m p) = fin (weightedMean lo w m) := by
  have h := normalize1_usable lo w hw
  simp only [h]
  exact sum_fin fun p => mass lo (w p) / (∑ q, mass lo (w q)) * m p

theorem usable_clean (lo : ℝ) (x : XF) : Usable (nanToNum lo x) := by
  cases x <;> exact trivial

theorem mass_clean (lo : ℝ) (x : XF) (h : Usable x) : mass lo (nanToNum lo x) = mass lo x := by
  cases x <;> first | rfl | exact False.elim h

/-- Steps neither add to nor remove from what collectors recorded, and leave weights that count. -/
theorem step_extra [NeZero P] (env : Env d Y Ω) (algo : Algo P d Y Ω K) (sys : Sys P d) (tup : Tup Y V)
    (obj : Obj P d Y Ω) (y : Y) (r : StepDraws P d Ω) :
    (algo.step_ env sys tup obj y r).tup.extra = tup.extra ∧
    ((algo.step_ env sys tup obj y r).ret.isOk = true →
      ∀ i, Usable ((algo.step_ env sys tup obj y r).obj.w i)) := by
  have online : ∀ (cfg : OnlineCfg d) (algo : Algo P d Y Ω K) (b : Bool),
      (onlineStep env cfg algo b sys tup obj y r).tup.extra = tup.extra ∧
      ((onlineStep env cfg algo b sys tup obj y r).ret.isOk = true →
        ∀ i, Usable ((onlineStep env cfg algo b sys tup obj y r).obj.w i)) := by
    intro cfg algo b
    unfold onlineStep
    cases b with
    | false => exact ⟨rfl, fun _ i => usable_clean _ _⟩
    | true =>
      simp only [if_true]
      rcases onlineUpdate env cfg sys obj r with ⟨sys', obj', er⟩
      cases er with
      | some er => exact ⟨rfl, nofun⟩
      | none => exact ⟨rfl, fun _ i => usable_clean _ _⟩
  induction algo with
  | ness t cfg =>
    rw [Algo.step_]
    exact online _ _ _
  | fixed bl count cfg =>
    rw [Algo.step_]
    split_ifs
    · exact ⟨rfl, nofun⟩
    · exact online _ _ _
  | smc2 cfg k =>
    rw [Algo.step_]
    unfold smcStep
    simp only
    split_ifs
    · refine ⟨rfl, fun _ i => ?_⟩
      unfold smcUpdate
      simp only
      split_ifs
      · exact usable_clean _ _
      · exact trivial
    · exact ⟨rfl, fun _ i => usable_clean _ _⟩
  | combined sw switched a b iha ihb =>
    rw [Algo.step_]
    split_ifs
    · exact iha
    · exact ihb

/-- The entry that a step adds, whatever happened: computed from the state that the step was given, after `_step`
has changed it. -/
theorem C97_entry_partial [NeZero P] (env : Env d Y Ω) (mean : Slot d Y Ω → Fin e → ℝ)
    (s : State P d Y Ω K (Fin e → XF)) (y : Y) (r : StepDraws P d Ω)
    (h : (step env [meanCollector 0 env.lo fun s j => fin (mean s j)] s y r).err = none) :
    lookupExtra "filter_means"
        (step env [meanCollector 0 env.lo fun s j => fin (mean s j)] s y r).state.tup.extra =
      some ((lookupExtra "filter_means" s.tup.extra).getD [] ++
        [fun j => fin (weightedMean env.lo (s.algo.step_ env s.sys s.tup s.obj y r).obj.w
          fun p => mean ((s.algo.step_ env s.sys s.tup s.obj y r).obj.res p) j)]) := by
  cases hret : (s.algo.step_ env s.sys s.tup s.obj y r).ret with
  | error er =>
    rw [step_of_error env _ s y r er hret] at h
    exact nomatch h
  | ok f =>
    obtain ⟨h1, h2⟩ := step_extra env s.algo s.sys s.tup s.obj y r
    have h2 := h2 (by rw [hret]; rfl)
    rw [step_of_ok env _ s y r f hret]
    show lookupExtra "filter_means" (appendExtra "filter_means" _
      (s.algo.step_ env s.sys s.tup s.obj y r).tup.extra) = _
    rw [lookup_append, h1]
    have : (fun j => ∑ p, (normalize1 env.lo (s.algo.step_ env s.sys s.tup s.obj y r).obj.w).2 p *
        fin (mean ((s.algo.step_ env s.sys s.tup s.obj y r).obj.res p) j)) =
        fun j => fin (weightedMean env.lo (s.algo.step_ env s.sys s.tup s.obj y r).obj.w
          fun p => mean ((s.algo.step_ env s.sys s.tup s.obj y r).obj.res p) j) :=
      funext fun j => collected env.lo _ ⟨0, h2 0⟩ _
    rw [← this]

/-- A step of any algorithm that does not increase the number of state particles adds the mean over the state that
it returns. -/
theorem C97_mean_partial [NeZero P] (env : Env d Y Ω) (mean : Slot d Y Ω → Fin e → ℝ)
    (s : State P d Y Ω K (Fin e → XF)) (y : Y) (r : StepDraws P d Ω)
    (h : (step env [meanCollector 0 env.lo fun s j => fin (mean s j)] s y r).err = none)
    (he : (step env [meanCollector 0 env.lo fun s j => fin (mean s j)] s y r).event ≠ .increased) :
    lookupExtra "filter_means"
        (step env [meanCollector 0 env.lo fun s j => fin (mean s j)] s y r).state.tup.extra =
      some ((lookupExtra "filter_means" s.tup.extra).getD [] ++
        [fun j => fin (weightedMean env.lo
          (step env [meanCollector 0 env.lo fun s j => fin (mean s j)] s y r).state.obj.w
          fun p => mean ((step env [meanCollector 0 env.lo fun s j => fin (mean s j)] s y r).state.obj.res p) j)]) := by
  rw [C97_entry_partial env mean s y r h]
  cases hret : (s.algo.step_ env s.sys s.tup s.obj y r).ret with
  | error er =>
    rw [step_of_error env _ s y r er hret] at h
    exact nomatch h
  | ok f =>
    have h2 := (step_extra env s.algo s.sys s.tup s.obj y r).2 (by rw [hret]; rfl)
    have hw := step_weighs env s.algo s.sys s.tup s.obj y r f hret
    rw [step_of_ok env _ s y r f hret] at he ⊢
    simp only at he ⊢
    have hf := hw.same he
    subst hf
    simp only [Option.getD_none]
    have hm : ∀ p, mass env.lo ((normalize1 env.lo (s.algo.step_ env s.sys s.tup s.obj y r).obj.w).1 p)
        = mass env.lo ((s.algo.step_ env s.sys s.tup s.obj y r).obj.w p) := fun p => mass_clean _ _ (h2 p)
    have e1 : ∀ m : Fin P → ℝ, weightedMean env.lo (s.algo.step_ env s.sys s.tup s.obj y r).obj.w m
        = weightedMean env.lo (normalize1 env.lo (s.algo.step_ env s.sys s.tup s.obj y r).obj.w).1 m := by
      intro m
      unfold weightedMean
      simp only [hm]
    simp only [e1]
    rfl

/-- In a run every observation adds one entry. -/
theorem C97_count [NeZero P] (env : Env d Y Ω) (mean : Slot d Y Ω → Fin e → ℝ)
    (s : State P d Y Ω K (Fin e → XF)) (xs : List (Y × StepDraws P d Ω))
    (h : (run env [meanCollector 0 env.lo fun s j => fin (mean s j)] s xs).2.2.2 = none) :
    ((lookupExtra "filter_means"
      (run env [meanCollector 0 env.lo fun s j => fin (mean s j)] s xs).1.tup.extra).getD []).length
      = ((lookupExtra "filter_means" s.tup.extra).getD []).length + xs.length := by
  induction xs generalizing s with
  | nil => rfl
  | cons x xs ih =>
    obtain ⟨y, r⟩ := x
    rw [run] at h ⊢
    simp only at h ⊢
    cases her : (step env [meanCollector 0 env.lo fun s j => fin (mean s j)] s y r).err with
    | some er =>
      rw [her] at h
      exact nomatch h
    | none =>
      rw [her] at h
      simp only at h ⊢
      rw [ih _ h, C97_entry_partial env mean s y r her]
      simp only [Option.getD_some, List.length_append, List.length_cons, List.length_nil]
      omega

theorem lt_below (a x : XF) (h : x = nan ∨ x = ninf) : ¬ XF.lt a x := by
  rcases h with h | h <;> subst h <;> cases a <;> exact id

theorem add_below (a x : XF) (h : x = nan ∨ x = ninf) : a + x = nan ∨ a + x = ninf := by
  rcases h with h | h <;> subst h <;> cases a <;> first | exact Or.inl rfl | exact Or.inr rfl

/-- Candidates outside of the support of the prior are rejected when the chain is inside. -/
theorem outside_rejected (env : Env d Y Ω) (prop : Proposal P d Y Ω K) (c : Chain P d Y Ω K) (ys : List Y)
    (r : Draws P d Ω) (rep : Fin P → XF) (i : Fin P) (hin : (env.logPrior (c.params i)).IsFinite)
    (hout : env.logPrior (r.rvs i) = ninf) : accepted env prop c ys r rep i = false := by
  unfold accepted
  rw [decide_eq_false_iff_not]
  apply lt_below
  unfold logAcc
  simp only [hout]
  rw [add_comm]
  apply add_below
  apply add_below
  right
  cases hx : env.logPrior (c.params i) with
  | fin a => rfl
  | nan => rw [hx] at hin; exact hin.elim
  | ninf => rw [hx] at hin; exact hin.elim
  | pinf => rw [hx] at hin; exact hin.elim

theorem loop_once (env : Env d Y Ω) (cfg : SmcCfg P d Y Ω K) (ys : List Y) (old : Fin P → Row d)
    (draws : ℕ → Draws P d Ω) (c : Chain P d Y Ω K) :
    (pmmhLoop env cfg ys old draws 1 0 c 0 0).1 = (runPmmh env cfg.prop false (fun _ => 0) c ys (draws 0)).1 := by
  rw [pmmhLoop]
  simp only
  split_ifs
  · rfl
  · split
    · rfl
    · split_ifs <;> rfl

/-- When SMC2 increases the number of state particles, the entry combines the weights from before resampling with
filter results from after it, so that particles are weighted twice. Here the only move is rejected by all
particles, since the candidates are outside of the support of the prior. -/
theorem C97_weighted_twice [NeZero P] (env : Env d Y Ω) (cfg : SmcCfg P d Y Ω K) (k : ℕ) (mean : Slot d Y Ω → Fin e → ℝ)
    (s : State P d Y Ω K (Fin e → XF)) (hs : s.algo = .smc2 cfg k) (y : Y) (r : StepDraws P d Ω)
    (h : (step env [meanCollector 0 env.lo fun s j => fin (mean s j)] s y r).err = none)
    (he : (step env [meanCollector 0 env.lo fun s j => fin (mean s j)] s y r).event = .increased)
    (hsteps : cfg.numSteps = 1) (hin : ∀ i, (env.logPrior (s.sys.params i)).IsFinite)
    (hout : ∀ i, env.logPrior ((r.pmmh 0).rvs i) = ninf) :
    lookupExtra "filter_means"
        (step env [meanCollector 0 env.lo fun s j => fin (mean s j)] s y r).state.tup.extra =
      some ((lookupExtra "filter_means" s.tup.extra).getD [] ++
        [fun j => fin (weightedMean env.lo
          (fun p => nanToNum env.lo (s.obj.w p + stepLogLik env s.sys s.obj y r.noise p))
          fun p => mean (.step (s.obj.res (r.inds p))
            ⟨s.sys.params (r.inds p), s.sys.built (r.inds p)⟩ y (r.noise (r.inds p))) j)]) := by
  rw [C97_entry_partial env mean s y r h]
  have hev : (s.algo.step_ env s.sys s.tup s.obj y r).event = .increased := by
    cases hret : (s.algo.step_ env s.sys s.tup s.obj y r).ret with
    | error er => rw [step_of_error env _ s y r er hret] at he; exact he
    | ok f => rw [step_of_ok env _ s y r f hret] at he; exact he
  have hobj : (s.algo.step_ env s.sys s.tup s.obj y r).obj.w =
        (fun p => nanToNum env.lo (nanToNum env.lo (s.obj.w p + stepLogLik env s.sys s.obj y r.noise p))) ∧
      (s.algo.step_ env s.sys s.tup s.obj y r).obj.res = fun p => .step (s.obj.res (r.inds p))
            ⟨s.sys.params (r.inds p), s.sys.built (r.inds p)⟩ y (r.noise (r.inds p)) := by
    rw [hs, Algo.step_] at hev ⊢
    unfold smcStep at hev ⊢
    simp only at hev ⊢
    split_ifs at hev ⊢ with hd
    unfold smcUpdate at hev ⊢
    simp only at hev ⊢
    split_ifs at hev ⊢ with hp
    refine ⟨rfl, ?_⟩
    simp only [hsteps]
    rw [loop_once]
    funext p
    simp only [runPmmh]
    rw [outside_rejected env cfg.prop _ _ _ _ p (hin _) (hout p)]
    rfl
  rw [hobj.1, hobj.2]
  have hm : ∀ x, mass env.lo (nanToNum env.lo (nanToNum env.lo x)) = mass env.lo (nanToNum env.lo x) :=
    fun x => mass_clean _ _ (usable_clean _ _)
  unfold weightedMean
  simp only [hm]

/-- A model in which an observation has likelihood 1 under parameter 0 and 9 under parameter 1; the parameter 7 is
outside of the support of the prior. -/
noncomputable def twiceEnv : Env 1 ℕ Unit where
  inc _ m _ _ := fin (Real.log 9 * m.live 0)
  logPrior θ := open Classical in if θ 0 = 7 then ninf else fin 0
  lo := -1000
  eps := 1 / 1000

/-- SMC2 that rejuvenates when the effective sample size is below 90 percent. -/
noncomputable def twiceSmc : SmcCfg 2 1 ℕ Unit Unit where
  threshold := .constant (9 / 10)
  prop := ⟨fun _ _ _ => (), fun _ _ _ => .fin 0, fun _ _ _ => ()⟩
  numSteps := 1
  distThresh := none
  accThresh := 1 / 5
  maxIncreases := 5

/-- Both candidates are 7. -/
noncomputable def twiceDraws : StepDraws 2 1 Unit where
  noise _ := ()
  inds := id
  jitter _ _ := 0
  coins _ := false
  subDrawn _ _ := 0
  pmmh _ := ⟨fun _ _ => 7, fun _ _ => (), fun _ => 1 / 2⟩
  rerun _ _ := ()

/-- The parameters are 0 and 1. -/
noncomputable def twiceInit : State 2 1 ℕ Unit Unit (Fin 1 → XF) :=
  init twiceEnv (.smc2 twiceSmc 0) 10 (fun i _ => (i : ℕ)) none fun _ => ()

/-- The mean of the latest state of a filter: here the parameter that it used. -/
def liveMean : Slot 1 ℕ Unit → Fin 1 → ℝ
  | .start _ m _, j => m.live j
  | .step _ m _ _, j => m.live j

theorem twice_acc (i : Fin 2) : nanToNum twiceEnv.lo
    (twiceInit.obj.w i + stepLogLik twiceEnv twiceInit.sys twiceInit.obj 7 twiceDraws.noise i) =
      fin (Real.log 9 * ((i : ℕ) : ℝ)) := by
  have e1 : twiceInit.obj.w i = .fin 0 := rfl
  rw [e1, ← zero_def, zero_add]
  rfl

theorem twice_mass (i : Fin 2) : mass twiceEnv.lo (fin (Real.log 9 * ((i : ℕ) : ℝ))) = 9 ^ (i : ℕ) := by
  show Real.exp _ = _
  rw [mul_comm, Real.exp_nat_mul, Real.exp_log (by norm_num)]

theorem twice_inside (i : Fin 2) : (twiceEnv.logPrior (twiceInit.sys.params i)).IsFinite := by
  have : ¬ twiceInit.sys.params i 0 = 7 := by
    show ¬ (((i : ℕ) : ℝ)) = 7
    fin_cases i <;> norm_num
  simp only [twiceEnv, this, if_false]
  trivial

theorem twice_ess : (getEss1 twiceEnv.lo
    (fun i => twiceInit.obj.w i + stepLogLik twiceEnv twiceInit.sys twiceInit.obj 7 twiceDraws.noise i) false).2 =
      fin (50 / 41) := by
  have h : (fun i => twiceInit.obj.w i + stepLogLik twiceEnv twiceInit.sys twiceInit.obj 7 twiceDraws.noise i) =
      fun i : Fin 2 => fin (Real.log 9 * ((i : ℕ) : ℝ)) := by
    funext i
    have e1 : twiceInit.obj.w i = .fin 0 := rfl
    rw [e1, ← zero_def, zero_add]
    rfl
  rw [h]
  show fin 1 / ∑ i, (normalize1 _ _).2 i * (normalize1 _ _).2 i = _
  have e : ∀ i, (normalize1 twiceEnv.lo fun i : Fin 2 => fin (Real.log 9 * ((i : ℕ) : ℝ))).2 i =
      fin ((9 : ℝ) ^ (i : ℕ) / 10) := by
    intro i
    rw [normalize1_usable twiceEnv.lo (fun i : Fin 2 => fin (Real.log 9 * ((i : ℕ) : ℝ))) ⟨0, trivial⟩]
    simp only [twice_mass, Fin.sum_univ_two]
    norm_num
  simp only [e]
  rw [Fin.sum_univ_two]
  show XF.div (fin 1) (fin (_ * _ + _ * _)) = _
  unfold XF.div
  norm_num

/-- A step of SMC2 that rejuvenates and rejects all candidates of its only move. -/
theorem rejected_increase [NeZero P] (env : Env d Y Ω) (cfg : SmcCfg P d Y Ω K) (k : ℕ) (sys : Sys P d) (tup : Tup Y V)
    (obj : Obj P d Y Ω) (y : Y) (r : StepDraws P d Ω)
    (hd : XF.lt (getEss1 env.lo (fun i => obj.w i + stepLogLik env sys obj y r.noise i) false).2
      (fin (cfg.threshold.get (tup.ess.length : ℤ) * P)))
    (hsteps : cfg.numSteps = 1) (hacc : 0 < cfg.accThresh) (hk : k < cfg.maxIncreases)
    (hin : ∀ i, (env.logPrior (sys.params i)).IsFinite) (hout : ∀ i, env.logPrior ((r.pmmh 0).rvs i) = ninf) :
    (smcStep env cfg k sys tup obj y r).event = .increased ∧
    ∃ f, (smcStep env cfg k sys tup obj y r).ret = .ok (some f) ∧
      (∀ i, f.res i = batchFilter (2 * sys.particles) ⟨sys.params (r.inds i), sys.params (r.inds i)⟩ (tup.data ++ [y])
        (r.rerun i)) ∧
      ∀ i, f.w i = nanToNum env.lo (env.loglik (f.res i) - env.loglik (.step (obj.res (r.inds i))
        ⟨sys.params (r.inds i), sys.built (r.inds i)⟩ y (r.noise (r.inds i)))) := by
  have hd : smcDecides cfg.threshold (filterAppend env sys { tup with data := tup.data ++ [y] } obj y r.noise).1
      (filterAppend env sys { tup with data := tup.data ++ [y] } obj y r.noise).2 = true := by
    unfold smcDecides
    simp only [decide_eq_true_eq]
    left
    unfold lastEss filterAppend
    simp only [List.getLast?_append, List.getLast?_singleton, Option.some_or, Option.getD_some, List.length_append,
      List.length_singleton]
    push_cast
    rw [add_sub_cancel_right]
    exact hd
  unfold smcStep
  simp only
  rw [if_pos hd]
  unfold smcUpdate
  simp only
  set c : Chain P d Y Ω K := ⟨fun i => sys.params (r.inds i),
    fun i => (filterAppend env sys { tup with data := tup.data ++ [y] } obj y r.noise).2.res (r.inds i), _, r.subDrawn,
    r.subDrawn, sys.particles⟩ with hc
  have hrej : ∀ ys, accepted env cfg.prop c ys (r.pmmh 0) (fun _ => 0) = fun _ => false := fun ys =>
    funext fun i => outside_rejected _ _ _ _ _ _ _ (hin _) (hout i)
  have hl : ∀ ys old, (pmmhLoop env cfg ys old r.pmmh cfg.numSteps 0 c 0 0).2 = true := by
    intro ys old
    rw [hsteps, pmmhLoop]
    simp only
    rw [if_pos]
    show (fraction (accepted env cfg.prop c ys (r.pmmh 0) fun _ => 0) + _) / _ < _
    rw [hrej]
    unfold fraction
    simpa using hacc
  have h1 : ∀ ys old, (pmmhLoop env cfg ys old r.pmmh cfg.numSteps 0 c 0 0).1.params = c.params ∧
      (pmmhLoop env cfg ys old r.pmmh cfg.numSteps 0 c 0 0).1.res = c.res := by
    intro ys old
    rw [hsteps, loop_once]
    simp only [runPmmh, hrej]
    exact ⟨rfl, rfl⟩
  simp only [hl, if_true, h1]
  unfold increaseStates
  simp only [show ¬ cfg.maxIncreases < k + 1 by omega, if_false, true_and]
  exact ⟨_, rfl, fun _ => rfl, fun _ => rfl⟩

/-- What the step does: the number of state particles is increased, and the returned state has the parameters 0 and
1 with equal weights. -/
theorem twice_step (cb : Callback 2 1 ℕ Unit (Fin 1 → XF)) :
    (step twiceEnv [cb] twiceInit 7 twiceDraws).err = none ∧
    (step twiceEnv [cb] twiceInit 7 twiceDraws).event = .increased ∧
    ∀ i, (step twiceEnv [cb] twiceInit 7 twiceDraws).state.obj.w i = fin 0 ∧
      liveMean ((step twiceEnv [cb] twiceInit 7 twiceDraws).state.obj.res i) 0 = ((i : ℕ) : ℝ) := by
  obtain ⟨he, f, hf, hres, hw⟩ := rejected_increase twiceEnv twiceSmc 0 twiceInit.sys twiceInit.tup twiceInit.obj 7
    twiceDraws (by
      rw [twice_ess]
      simp only [twiceSmc, Threshold.Thresholder.get, Threshold.Thresholder.mutate, Threshold.Thresholder.min]
      show (_ : ℝ) < _
      norm_num) rfl (by simp [twiceSmc]) (by simp [twiceSmc]) twice_inside (by simp [twiceEnv, twiceDraws])
  have hret : (twiceInit.algo.step_ twiceEnv twiceInit.sys twiceInit.tup twiceInit.obj 7 twiceDraws).ret =
      .ok (some f) := hf
  rw [step_of_ok twiceEnv [cb] twiceInit 7 twiceDraws _ hret]
  refine ⟨rfl, he, fun i => ⟨?_, ?_⟩⟩
  · show f.w i = _
    rw [hw, hres]
    show nanToNum _ ((0 + fin _) - (0 + fin _)) = _
    rw [zero_add]
    show fin (_ + -_) = _
    congr 1
    exact add_neg_cancel _
  · show liveMean (f.res i) 0 = _
    rw [hres]
    rfl

theorem mean_twice (a b : ℝ) (w : Fin 2 → XF) (m : Fin 2 → ℝ) (h0 : mass twiceEnv.lo (w 0) = a)
    (h1 : mass twiceEnv.lo (w 1) = b) (m0 : m 0 = 0) (m1 : m 1 = 1) :
    weightedMean twiceEnv.lo w m = b / (a + b) := by
  simp [weightedMean, Fin.sum_univ_two, h0, h1, m0, m1]

/-- A step of SMC2 that increases the number of state particles: the entry is 0.9, the mean over the returned state
is 0.5. -/
theorem C97_negation : ¬ C97_claim := by
  intro h
  obtain ⟨h1, h2, h3⟩ := twice_step (meanCollector 0 twiceEnv.lo fun s j => fin (liveMean s j))
  have ha := h 2 1 1 inferInstance ℕ Unit Unit twiceEnv liveMean twiceInit 7 twiceDraws h1
  have hb := C97_weighted_twice twiceEnv twiceSmc 0 liveMean twiceInit rfl 7 twiceDraws h1 h2 rfl twice_inside
    (by simp [twiceEnv, twiceDraws])
  simp only at ha
  rw [hb] at ha
  have ha := congrFun (List.singleton_inj.1 (List.append_cancel_left (Option.some_inj.1 ha))) 0
  rw [mean_twice 1 9 _ _ (by rw [twice_acc, twice_mass]; rfl) (by rw [twice_acc, twice_mass]; norm_num) Nat.cast_zero Nat.cast_one,
    mean_twice 1 1 _ _ (by rw [(h3 0).1]; exact Real.exp_zero) (by rw [(h3 1).1]; exact Real.exp_zero)
      (by rw [(h3 0).2]; norm_num) (by rw [(h3 1).2]; norm_num)] at ha
  injection ha with ha
  norm_num at ha

/-- The entries of the case above: SMC2 increased the number of state particles. -/
example : lookupExtra "filter_means" (step twiceEnv [meanCollector 0 twiceEnv.lo fun s j => fin (liveMean s j)]
    twiceInit 7 twiceDraws).state.tup.extra = some [fun _ => fin (9 / 10)] := by
  obtain ⟨h1, h2, h3⟩ := twice_step (meanCollector 0 twiceEnv.lo fun s j => fin (liveMean s j))
  rw [C97_weighted_twice twiceEnv twiceSmc 0 liveMean twiceInit rfl 7 twiceDraws h1 h2 rfl twice_inside
    (by simp [twiceEnv, twiceDraws])]
  refine congrArg some (congrArg (fun x => [x]) (funext fun j => ?_))
  obtain rfl : j = 0 := Subsingleton.elim _ _
  rw [mean_twice 1 9 _ _ (by rw [twice_acc, twice_mass]; rfl) (by rw [twice_acc, twice_mass]; norm_num) Nat.cast_zero
    Nat.cast_one]
  norm_num

/-- SMC2 as above with threshold 0.5 does not rejuvenate: the entry is the mean over the returned state. -/
noncomputable def calmSmc : SmcCfg 2 1 ℕ Unit Unit := { twiceSmc with threshold := .constant (1 / 2) }

theorem calm_step (cb : Callback 2 1 ℕ Unit (Fin 1 → XF)) :
    (step twiceEnv [cb] { twiceInit with algo := .smc2 calmSmc 0 } 7 twiceDraws).err = none ∧
    (step twiceEnv [cb] { twiceInit with algo := .smc2 calmSmc 0 } 7 twiceDraws).event = .kept := by
  have he : (smcStep twiceEnv calmSmc 0 twiceInit.sys twiceInit.tup twiceInit.obj 7 twiceDraws).event = .kept := by
    apply C60_ninf_unseen
    · exact two_pos
    · intro i
      right
      have := twice_acc i
      generalize twiceInit.obj.w i + stepLogLik twiceEnv twiceInit.sys twiceInit.obj 7 twiceDraws.noise i = x at *
      cases x with
      | fin a => trivial
      | nan => cases this
      | ninf =>
        exfalso
        have h0 : (-1000 : ℝ) = Real.log 9 * ((i : ℕ) : ℝ) := by injection this
        have : 0 ≤ Real.log 9 * ((i : ℕ) : ℝ) := by positivity
        linarith
      | pinf => cases this
    · simp only [calmSmc, Threshold.Thresholder.get, Threshold.Thresholder.mutate, Threshold.Thresholder.min]
      norm_num
  have hret : (smcStep twiceEnv calmSmc 0 twiceInit.sys twiceInit.tup twiceInit.obj 7 twiceDraws).ret = .ok none := by
    unfold smcStep at he ⊢
    simp only at he ⊢
    split_ifs at he ⊢ with hd
    · exact (smcUpdate_event _ _ _ _ _ _ _ he).elim
    · rfl
  have hret : ((.smc2 calmSmc 0 : Algo 2 1 ℕ Unit Unit).step_ twiceEnv twiceInit.sys twiceInit.tup twiceInit.obj 7
      twiceDraws).ret = .ok none := hret
  rw [step_of_ok twiceEnv [cb] { twiceInit with algo := .smc2 calmSmc 0 } 7 twiceDraws none hret]
  exact ⟨rfl, he⟩

/-- A case of the partial theorem. -/
example : ∃ a : ℝ, lookupExtra "filter_means" (step twiceEnv [meanCollector 0 twiceEnv.lo fun s j => fin (liveMean s j)]
    { twiceInit with algo := .smc2 calmSmc 0 } 7 twiceDraws).state.tup.extra = some [fun _ => fin a] := by
  obtain ⟨h1, h2⟩ := calm_step (meanCollector 0 twiceEnv.lo fun s j => fin (liveMean s j))
  have h := C97_mean_partial twiceEnv liveMean { twiceInit with algo := .smc2 calmSmc 0 } 7 twiceDraws h1
    (by rw [h2]; decide)
  exact ⟨_, h.trans (congrArg some (congrArg (fun x => [x]) (funext fun j => by
    rw [Subsingleton.elim j 0])))⟩

/-! ### C98 -/

/-- The standardised observation: the mean over the parameter particles of the means over the state particles of
their filters. -/
noncomputable def standardized {N P : ℕ} (W : Fin P → ℝ) (w res : Fin N → Fin P → ℝ) : ℝ :=
  ∑ p, W p * ∑ i, w i p * res i p

/-- What is claimed: that is what is recorded, for any number of state and parameter particles. -/
def C98_claim : Prop :=
  ∀ (N P : ℕ) (W : Fin P → ℝ) (w res : Fin N → Fin P → ℝ), (∑ p, W p = 1) → (∀ p, ∑ i, w i p = 1) →
    standardizeParticles (fun p => fin (W p)) (fun i p => fin (w i p)) (fun i p => fin (res i p)) =
      .ok (fin (standardized W w res))

theorem dot_fin {n : ℕ} (a b : Fin n → ℝ) : dot (fun i => fin (a i)) (fun i => fin (b i)) = .ok (fin (∑ i, a i * b i)) := by
  unfold dot
  rw [dif_pos rfl]
  exact congrArg Except.ok (sum_fin fun i => a i * b i)

/-- Filters without state particles: the mean of the residuals. -/
theorem C98_other_filters (W res : Fin P → ℝ) :
    standardize (fun p => fin (W p)) (fun p => fin (res p)) = .ok (fin (∑ p, W p * res p)) := dot_fin W res

/-- Particle filters: when the numbers of state and parameter particles differ, an exception is raised. -/
theorem C98_sizes {N P : ℕ} (h : P ≠ N) (W : Fin P → XF) (w res : Fin N → Fin P → XF) :
    standardizeParticles W w res = .error .mismatch := by
  unfold standardizeParticles dot
  rw [dif_neg h]

/-- When they are equal, the roles of the two are exchanged: state particle `i` gets the weight of parameter particle
`i`, and its weights are summed over the filters. -/
theorem C98_exchanged (W : Fin P → ℝ) (w res : Fin P → Fin P → ℝ) :
    standardizeParticles (fun p => fin (W p)) (fun i p => fin (w i p)) (fun i p => fin (res i p)) =
      .ok (fin (∑ i, W i * ∑ p, w i p * res i p)) := by
  unfold standardizeParticles
  have : (fun i => ∑ p, fin (w i p) * fin (res i p)) = fun i => fin (∑ p, w i p * res i p) :=
    funext fun i => sum_fin fun p => w i p * res i p
  rw [this]
  exact dot_fin W _

/-- The claim holds when there are as many state particles as parameter particles and the latter have equal weights,
for example right after a rejuvenation of SMC2. -/
theorem C98_uniform_partial [NeZero P] (w res : Fin P → Fin P → ℝ) :
    standardizeParticles (fun _ : Fin P => fin (1 / P)) (fun i p => fin (w i p)) (fun i p => fin (res i p)) =
      .ok (fin (standardized (fun _ => 1 / P) w res)) := by
  rw [C98_exchanged (fun _ => 1 / P)]
  unfold standardized
  rw [← Finset.mul_sum, ← Finset.mul_sum, Finset.sum_comm]

/-- With one state particle and two parameter particles an exception is raised. -/
theorem C98_negation : ¬ C98_claim := by
  intro h
  have := h 1 2 (fun _ => 1 / 2) (fun _ _ => 1) (fun _ _ => 0) (by norm_num) (by norm_num)
  rw [C98_sizes (by norm_num)] at this
  exact nomatch this

/-- Two state and two parameter particles; the second parameter particle has all the weight. The residuals are those of
the filter: 0 in the first filter and 1 in the second. The recorded number is 1/2. -/
example : standardizeParticles (fun p : Fin 2 => fin (if p = 0 then 0 else 1)) (fun _ _ : Fin 2 => fin (1 / 2))
      (fun _ p : Fin 2 => fin (if p = 0 then 0 else 1)) = .ok (fin (1 / 2)) ∧
    standardized (fun p : Fin 2 => if p = 0 then 0 else 1) (fun _ _ : Fin 2 => 1 / 2)
      (fun _ p => if p = 0 then 0 else 1) = 1 := by
  constructor
  · rw [C98_exchanged (fun p : Fin 2 => if p = 0 then 0 else 1) (fun _ _ => 1 / 2) (fun _ p => if p = 0 then 0 else 1)]
    norm_num [Fin.sum_univ_two]
  · norm_num [standardized, Fin.sum_univ_two]

/-- A case of the partial theorem: three of both. -/
example (w res : Fin 3 → Fin 3 → ℝ) :
    standardizeParticles (fun _ : Fin 3 => fin (1 / (3 : ℕ))) (fun i p => fin (w i p)) (fun i p => fin (res i p)) =
      .ok (fin (standardized (fun _ => 1 / (3 : ℕ)) w res)) := C98_uniform_partial w res

end Verif.Props
